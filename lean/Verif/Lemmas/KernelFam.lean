import Verif.Spec.KernelFam
import Verif.Lemmas.PrintKernel
import Verif.Lemmas.RealSem

/-!
# Lemmas: the covariances a kernel can take on are those of its expression
-/

namespace GPyABCD
open Kern Params Sops KE Print
open scoped Pointwise

/-! ## Which parameters are linked -/

mutual
/-- The linked parameters are those of the kernel's kind, the variance of a base kernel perhaps left out. -/
def Std (cfg : Cfg) : GK Unit → Prop
  | .base b p => b.isSigmoid = false ∧ p.noVar = (linked (basePars cfg b)).noVar
  | .comb _ ps => StdL cfg ps
  | .change c p l r => p = linked (changePars cfg c) ∧ Std cfg l ∧ Std cfg r
/-- Over a list. -/
def StdL (cfg : Cfg) : List (GK Unit) → Prop
  | [] => True
  | k :: ks => Std cfg k ∧ StdL cfg ks
end

theorem stdL_iff {cfg : Cfg} {l : List (GK Unit)} : StdL cfg l ↔ ∀ g ∈ l, Std cfg g := by
  induction l with
  | nil => simp [StdL]
  | cons k l ih => simp [StdL, ih]

theorem std_parts {cfg : Cfg} (op : Op) {g : GK Unit} (h : Std cfg g) : ∀ x ∈ partsOf op g, Std cfg x := by
  cases g with
  | comb o ps =>
    rw [partsOf]
    split
    · rw [Std, stdL_iff] at h; exact h
    · simpa using h
  | _ => simpa [partsOf] using h

theorem std_foldl {cfg : Cfg} (op : Op) (l : List (GK Unit)) : ∀ g, Std cfg g → (∀ x ∈ l, Std cfg x) → Std cfg (l.foldl (combine op) g) := by
  induction l with
  | nil => intro g h _; exact h
  | cons x l ih =>
    intro g h hl
    refine ih _ ?_ (fun y hy => hl y (List.mem_cons_of_mem _ hy))
    rw [combine, Std, stdL_iff]
    intro y hy
    rcases List.mem_append.1 hy with hy | hy
    · exact std_parts op h y hy
    · exact std_parts op (hl x (List.mem_cons_self ..)) y hy

theorem std_reduce {cfg : Cfg} {op : Op} {l : List (GK Unit)} {s : GK Unit} (h : ∀ g ∈ l, Std cfg g) (hs : reduceK op l = .ok s) : Std cfg s := by
  cases l with
  | nil => simp [reduceK] at hs
  | cons k l =>
    simp only [reduceK, Except.ok.injEq] at hs
    subst hs
    exact std_foldl op l k (h k (List.mem_cons_self ..)) (fun x hx => h x (List.mem_cons_of_mem _ hx))

theorem std_baseParts {cfg : Cfg} {op : Op} {es : List Base} (h : ∀ b ∈ es, b.isSigmoid = false) : ∀ g ∈ baseParts cfg op es, Std cfg g := by
  have h1 : ∀ b ∈ es, Std cfg (.base b (linked (basePars cfg b))) := fun b hb => by rw [Std]; exact ⟨h b hb, rfl⟩
  cases op with
  | sum =>
    intro g hg
    obtain ⟨b, hb, rfl⟩ := List.mem_map.1 hg
    exact h1 b hb
  | prod =>
    intro g hg
    cases es with
    | nil => simp [baseParts, unlinkTail] at hg
    | cons x es =>
      simp only [baseParts, List.map_cons, unlinkTail, List.mem_cons, List.mem_map] at hg
      rcases hg with rfl | ⟨y, ⟨b, hb, rfl⟩, rfl⟩
      · exact h1 x (List.mem_cons_self ..)
      · have := h b (List.mem_cons_of_mem _ hb)
        simp only [unlinkVar, Std]
        exact ⟨this, rfl⟩

mutual
theorem std_toKernel (cfg : Cfg) (k : KE) (hs : ∀ x ∈ bases k, x.isSigmoid = false) (s : GK Unit) (h : toKernel cfg k = .ok s) : Std cfg s := by
  cases k with
  | base b =>
    have hb := hs b (by simp [bases])
    have e : s = .base b (linked (basePars cfg b)) := by
      rw [toKernel] at h
      cases b <;> simp [baseKer, baseName] at h <;> exact h.symm
    subst e
    rw [Std]; exact ⟨hb, rfl⟩
  | comm op b cs =>
    have hb : ∀ x ∈ b.elements, x.isSigmoid = false := fun x hx => hs x (by simp [bases, hx])
    cases h2 : toKernelL cfg cs with
    | error e =>
      cases h1 : baseKers cfg (orderBase b.elements) <;> cases op <;> simp [toKernel, h1, h2, bind, Except.bind] at h
    | ok ks =>
      rw [toKernel_comm hb h2] at h
      refine std_reduce ?_ h
      intro g hg
      rcases List.mem_append.1 hg with hg | hg
      · exact std_baseParts (fun x hx => hb x (mem_orderBase.1 hx)) g hg
      · exact std_toKernelL cfg cs (fun x hx => hs x (by simp [bases, hx])) ks h2 g hg
  | change c l r =>
    cases h1 : toKernel cfg l with
    | error e => simp [toKernel, h1, bind, Except.bind] at h
    | ok a =>
      cases h2 : toKernel cfg r with
      | error e => simp [toKernel, h1, h2, bind, Except.bind] at h
      | ok b =>
        simp only [toKernel, h1, h2, bind, Except.bind, pure, Except.pure, Except.ok.injEq] at h
        subst h
        rw [Std]
        exact ⟨rfl, std_toKernel cfg l (fun x hx => hs x (by simp [bases, hx])) a h1, std_toKernel cfg r (fun x hx => hs x (by simp [bases, hx])) b h2⟩
theorem std_toKernelL (cfg : Cfg) (cs : List KE) (hs : ∀ x ∈ basesL cs, x.isSigmoid = false) (ks : List (GK Unit)) (h : toKernelL cfg cs = .ok ks) :
    ∀ g ∈ ks, Std cfg g := by
  cases cs with
  | nil => simp only [toKernelL, Except.ok.injEq] at h; subst h; simp
  | cons k cs =>
    cases h1 : toKernel cfg k with
    | error e => simp [toKernelL, h1, bind, Except.bind] at h
    | ok a =>
      cases h2 : toKernelL cfg cs with
      | error e => simp [toKernelL, h1, h2, bind, Except.bind] at h
      | ok r =>
        simp only [toKernelL, h1, h2, bind, Except.bind, pure, Except.pure, Except.ok.injEq] at h
        subst h
        intro g hg
        rcases List.mem_cons.1 hg with rfl | hg
        · exact std_toKernel cfg k (fun x hx => hs x (by simp [basesL, hx])) _ h1
        · exact std_toKernelL cfg cs (fun x hx => hs x (by simp [basesL, hx])) r h2 g hg
end

/-! ## Covariance functions of kernels with values -/

/-- Of a base kernel. -/
noncomputable def baseCov (cfg : Cfg) (b : Base) (p : PD ℝ) : Cov :=
  match b with
  | .WN => white (varOf p)
  | .C => bias (varOf p)
  | .LIN => if cfg.linOffset then linearOffset (varOf p) (p.offset.getD 0) else linear (varOf p)
  | .SE => rbf (varOf p) (p.lengthscale.getD 1)
  | .PER => per (varOf p) (p.period.getD 1) (p.lengthscale.getD 1)
  | b => basisK (varOf p) (sigPhi b p)

mutual
/-- Of a kernel. -/
noncomputable def gcov (cfg : Cfg) : GK ℝ → Cov
  | .base b p => baseCov cfg b p
  | .comb .sum parts => gcovSum cfg parts
  | .comb .prod parts => gcovProd cfg parts
  | .change c p l r => changeK (gcov cfg l) (gcov cfg r) (changePhi c p false) (changePhi c p true)
/-- Sum over parts. -/
noncomputable def gcovSum (cfg : Cfg) : List (GK ℝ) → Cov
  | [] => 0
  | k :: ks => gcov cfg k + gcovSum cfg ks
/-- Product over parts. -/
noncomputable def gcovProd (cfg : Cfg) : List (GK ℝ) → Cov
  | [] => 1
  | k :: ks => gcov cfg k * gcovProd cfg ks
end

mutual
theorem kerK_gcov (cfg : Cfg) {n : ℕ} {X : Fin n → ℝ} (hX : Function.Injective X) (i j : Fin n) : ∀ g : GK ℝ, kerK cfg X g i j = gcov cfg g (X i) (X j)
  | .base b p => by
    cases b <;> simp only [kerK, gcov, baseK, baseCov]
    case WN => simp [white, hX.eq_iff]
    case LIN => split <;> rfl
    all_goals rfl
  | .comb .sum parts => by rw [kerK, gcov]; exact kerSum_gcov cfg hX i j parts
  | .comb .prod parts => by rw [kerK, gcov]; exact kerProd_gcov cfg hX i j parts
  | .change c p l r => by
    simp only [kerK, gcov, Arr.add, Arr.mul, changeSig, matK, changeK, kerK_gcov cfg hX i j l, kerK_gcov cfg hX i j r]
theorem kerSum_gcov (cfg : Cfg) {n : ℕ} {X : Fin n → ℝ} (hX : Function.Injective X) (i j : Fin n) : ∀ l : List (GK ℝ), kerSum cfg X l i j = gcovSum cfg l (X i) (X j)
  | [] => by rw [kerSum, gcovSum]; rfl
  | k :: l => by rw [kerSum, gcovSum, Arr.add, kerK_gcov cfg hX i j k, kerSum_gcov cfg hX i j l]; rfl
theorem kerProd_gcov (cfg : Cfg) {n : ℕ} {X : Fin n → ℝ} (hX : Function.Injective X) (i j : Fin n) : ∀ l : List (GK ℝ), kerProd cfg X l i j = gcovProd cfg l (X i) (X j)
  | [] => by rw [kerProd, gcovProd]; rfl
  | k :: l => by rw [kerProd, gcovProd, Arr.mul, kerK_gcov cfg hX i j k, kerProd_gcov cfg hX i j l]; rfl
end

theorem covOf_iff {cfg : Cfg} {g : GK ℝ} {f : Cov} : CovOf cfg g f ↔ gcov cfg g = f := by
  constructor
  · intro h
    funext x y
    by_cases e : x = y
    · subst e
      have := h 1 (fun _ => x) (fun a b _ => Subsingleton.elim a b) 0 0
      rwa [kerK_gcov cfg (fun a b _ => Subsingleton.elim a b)] at this
    · have hX : Function.Injective ![x, y] := by
        intro a b hab
        fin_cases a <;> fin_cases b <;> simp_all
      have := h 2 ![x, y] hX 0 1
      rwa [kerK_gcov cfg hX] at this
  · rintro rfl n X hX i j
    exact kerK_gcov cfg hX i j g

/-! ## Families -/

/-- Base kernels of variance one. -/
def unitF (cfg : Cfg) : Base → Fam := realF cfg {1}

theorem realF_unit (cfg : Cfg) (b : Base) (hb : b.isSigmoid = false) : (realI cfg posV).F b = positives * unitF cfg b := by
  ext f
  rw [Set.mem_mul]
  cases b <;> simp [Base.isSigmoid] at hb
  case WN =>
    constructor
    · rintro ⟨v, hv, rfl⟩
      exact ⟨_, ⟨v, hv, rfl⟩, white 1, ⟨1, rfl, rfl⟩, by funext x y; simp [white]⟩
    · rintro ⟨_, ⟨v, hv, rfl⟩, _, ⟨_, rfl, rfl⟩, rfl⟩
      exact ⟨v, hv, by funext x y; simp [white]⟩
  case C =>
    constructor
    · rintro ⟨v, hv, rfl⟩
      exact ⟨_, ⟨v, hv, rfl⟩, bias 1, ⟨1, rfl, rfl⟩, by funext x y; simp [bias]⟩
    · rintro ⟨_, ⟨v, hv, rfl⟩, _, ⟨_, rfl, rfl⟩, rfl⟩
      exact ⟨v, hv, by funext x y; simp [bias]⟩
  case LIN =>
    constructor
    · rintro ⟨v, hv, o, ho, rfl⟩
      exact ⟨_, ⟨v, hv, rfl⟩, linearOffset 1 o, ⟨1, rfl, o, ho, rfl⟩, by funext x y; simp [linearOffset]; ring⟩
    · rintro ⟨_, ⟨v, hv, rfl⟩, _, ⟨_, rfl, o, ho, rfl⟩, rfl⟩
      exact ⟨v, hv, o, ho, by funext x y; simp [linearOffset]; ring⟩
  case SE =>
    constructor
    · rintro ⟨v, hv, l, hl, rfl⟩
      exact ⟨_, ⟨v, hv, rfl⟩, rbf 1 l, ⟨1, rfl, l, hl, rfl⟩, by funext x y; simp [rbf]⟩
    · rintro ⟨_, ⟨v, hv, rfl⟩, _, ⟨_, rfl, l, hl, rfl⟩, rfl⟩
      exact ⟨v, hv, l, hl, by funext x y; simp [rbf]⟩
  case PER =>
    constructor
    · rintro ⟨v, hv, p, l, hp, hl, rfl⟩
      exact ⟨_, ⟨v, hv, rfl⟩, per 1 p l, ⟨1, rfl, p, l, hp, hl, rfl⟩, by funext x y; simp [per]⟩
    · rintro ⟨_, ⟨v, hv, rfl⟩, _, ⟨_, rfl, p, l, hp, hl, rfl⟩, rfl⟩
      exact ⟨v, hv, p, l, hp, hl, by funext x y; simp [per]⟩

/-- The covariances a kernel can be given. -/
def vals (cfg : Cfg) (s : GK Unit) : Fam := {f | ∃ g : GK ℝ, erase g = s ∧ Adm g ∧ gcov cfg g = f}

theorem vals_base (cfg : Cfg) {b : Base} {p : PD Unit} (hb : b.isSigmoid = false) (hp : p.noVar = (linked (basePars cfg b)).noVar) :
    vals cfg (.base b p) = kernelFam positives (unitF cfg) (chgFam cfg) (.base b p) := by
  have h1 : vals cfg (.base b p) = {f | ∃ q : PD ℝ, mapPD (fun _ => ()) q = p ∧ AdmPD q ∧ baseCov cfg b q = f} := by
    ext f
    constructor
    · rintro ⟨g, hg, ha, rfl⟩
      cases g with
      | base b' q =>
        simp only [erase, GK.base.injEq] at hg
        obtain ⟨rfl, hq⟩ := hg
        exact ⟨q, hq, by simpa only [Adm] using ha, by rw [gcov]⟩
      | _ => simp [erase] at hg
    · rintro ⟨q, rfl, ha, rfl⟩
      exact ⟨.base b q, by rw [erase], by rw [Adm]; exact ha, by rw [gcov]⟩
  have h2 : vals cfg (.base b p) = if p.variance.isSome then realF cfg posV b else unitF cfg b := by
    rw [h1]
    obtain ⟨v, l, pe, o, lo, sl, w⟩ := p
    cases b <;> simp [Base.isSigmoid] at hb
    case WN =>
      simp [PD.noVar, basePars, linked, Par.put] at hp
      obtain ⟨rfl, rfl, rfl, rfl, rfl, rfl⟩ := hp
      ext f
      cases v with
      | none =>
        constructor
        · rintro ⟨⟨qv, ql, qp, qo, qlo, qs, qw⟩, hq, ha, rfl⟩
          simp [mapPD] at hq
          obtain ⟨rfl, rfl, rfl, rfl, rfl, rfl, rfl⟩ := hq
          exact ⟨1, rfl, rfl⟩
        · rintro ⟨v, rfl, rfl⟩
          exact ⟨{}, rfl, by simp [AdmPD], rfl⟩
      | some u =>
        constructor
        · rintro ⟨⟨qv, ql, qp, qo, qlo, qs, qw⟩, hq, ha, rfl⟩
          simp [mapPD] at hq
          obtain ⟨⟨v, rfl⟩, rfl, rfl, rfl, rfl, rfl, rfl⟩ := hq
          exact ⟨v, ha.1 v rfl, rfl⟩
        · rintro ⟨v, hv, rfl⟩
          exact ⟨{ variance := some v }, rfl, ⟨by simpa using mem_posV.1 hv, by simp⟩, rfl⟩
    case C =>
      simp [PD.noVar, basePars, linked, Par.put] at hp
      obtain ⟨rfl, rfl, rfl, rfl, rfl, rfl⟩ := hp
      ext f
      cases v with
      | none =>
        constructor
        · rintro ⟨⟨qv, ql, qp, qo, qlo, qs, qw⟩, hq, ha, rfl⟩
          simp [mapPD] at hq
          obtain ⟨rfl, rfl, rfl, rfl, rfl, rfl, rfl⟩ := hq
          exact ⟨1, rfl, rfl⟩
        · rintro ⟨v, rfl, rfl⟩
          exact ⟨{}, rfl, by simp [AdmPD], rfl⟩
      | some u =>
        constructor
        · rintro ⟨⟨qv, ql, qp, qo, qlo, qs, qw⟩, hq, ha, rfl⟩
          simp [mapPD] at hq
          obtain ⟨⟨v, rfl⟩, rfl, rfl, rfl, rfl, rfl, rfl⟩ := hq
          exact ⟨v, ha.1 v rfl, rfl⟩
        · rintro ⟨v, hv, rfl⟩
          exact ⟨{ variance := some v }, rfl, ⟨by simpa using mem_posV.1 hv, by simp⟩, rfl⟩
    case LIN =>
      cases hl : cfg.linOffset with
      | false =>
        simp [PD.noVar, basePars, hl, linked, Par.put] at hp
        obtain ⟨rfl, rfl, rfl, rfl, rfl, rfl⟩ := hp
        ext f
        cases v with
        | none =>
          constructor
          · rintro ⟨⟨qv, ql, qp, qo, qlo, qs, qw⟩, hq, ha, rfl⟩
            simp [mapPD] at hq
            obtain ⟨rfl, rfl, rfl, rfl, rfl, rfl, rfl⟩ := hq
            exact ⟨1, rfl, 0, fun _ => rfl, by funext x y; simp [baseCov, hl, linear, linearOffset, varOf]⟩
          · rintro ⟨v, rfl, o, ho, rfl⟩
            exact ⟨{}, rfl, by simp [AdmPD], by rw [ho hl]; funext x y; simp [baseCov, hl, linear, linearOffset, varOf]⟩
        | some u =>
          constructor
          · rintro ⟨⟨qv, ql, qp, qo, qlo, qs, qw⟩, hq, ha, rfl⟩
            simp [mapPD] at hq
            obtain ⟨⟨v, rfl⟩, rfl, rfl, rfl, rfl, rfl, rfl⟩ := hq
            exact ⟨v, ha.1 v rfl, 0, fun _ => rfl, by funext x y; simp [baseCov, hl, linear, linearOffset, varOf]; try ring⟩
          · rintro ⟨v, hv, o, ho, rfl⟩
            exact ⟨{ variance := some v }, rfl, ⟨by simpa using mem_posV.1 hv, by simp⟩, by rw [ho hl]; funext x y; simp [baseCov, hl, linear, linearOffset, varOf]; try ring⟩
      | true =>
        simp [PD.noVar, basePars, hl, linked, Par.put] at hp
        obtain ⟨rfl, rfl, rfl, rfl, rfl, rfl⟩ := hp
        ext f
        cases v with
        | none =>
          constructor
          · rintro ⟨⟨qv, ql, qp, qo, qlo, qs, qw⟩, hq, ha, rfl⟩
            simp [mapPD] at hq
            obtain ⟨rfl, rfl, rfl, ⟨o, rfl⟩, rfl, rfl, rfl⟩ := hq
            exact ⟨1, rfl, o, by simp [hl], by simp [baseCov, hl, varOf]⟩
          · rintro ⟨v, rfl, o, ho, rfl⟩
            exact ⟨{ offset := some o }, rfl, by simp [AdmPD], by simp [baseCov, hl, varOf]⟩
        | some u =>
          constructor
          · rintro ⟨⟨qv, ql, qp, qo, qlo, qs, qw⟩, hq, ha, rfl⟩
            simp [mapPD] at hq
            obtain ⟨⟨v, rfl⟩, rfl, rfl, ⟨o, rfl⟩, rfl, rfl, rfl⟩ := hq
            exact ⟨v, ha.1 v rfl, o, by simp [hl], by simp [baseCov, hl, varOf]⟩
          · rintro ⟨v, hv, o, ho, rfl⟩
            exact ⟨{ variance := some v, offset := some o }, rfl, ⟨by simpa using mem_posV.1 hv, by simp⟩, by simp [baseCov, hl, varOf]⟩
    case SE =>
      simp [PD.noVar, basePars, linked, Par.put] at hp
      obtain ⟨rfl, rfl, rfl, rfl, rfl, rfl⟩ := hp
      ext f
      cases v with
      | none =>
        constructor
        · rintro ⟨⟨qv, ql, qp, qo, qlo, qs, qw⟩, hq, ha, rfl⟩
          simp [mapPD] at hq
          obtain ⟨rfl, ⟨l, rfl⟩, rfl, rfl, rfl, rfl, rfl⟩ := hq
          exact ⟨1, rfl, l, ha.2.1 l rfl, rfl⟩
        · rintro ⟨v, rfl, l, hl, rfl⟩
          exact ⟨{ lengthscale := some l }, rfl, ⟨by simp, by simpa using hl, by simp⟩, rfl⟩
      | some u =>
        constructor
        · rintro ⟨⟨qv, ql, qp, qo, qlo, qs, qw⟩, hq, ha, rfl⟩
          simp [mapPD] at hq
          obtain ⟨⟨v, rfl⟩, ⟨l, rfl⟩, rfl, rfl, rfl, rfl, rfl⟩ := hq
          exact ⟨v, ha.1 v rfl, l, ha.2.1 l rfl, rfl⟩
        · rintro ⟨v, hv, l, hl, rfl⟩
          exact ⟨{ variance := some v, lengthscale := some l }, rfl, ⟨by simpa using mem_posV.1 hv, by simpa using hl, by simp⟩, rfl⟩
    case PER =>
      simp [PD.noVar, basePars, linked, Par.put] at hp
      obtain ⟨rfl, rfl, rfl, rfl, rfl, rfl⟩ := hp
      ext f
      cases v with
      | none =>
        constructor
        · rintro ⟨⟨qv, ql, qp, qo, qlo, qs, qw⟩, hq, ha, rfl⟩
          simp [mapPD] at hq
          obtain ⟨rfl, ⟨l, rfl⟩, ⟨p, rfl⟩, rfl, rfl, rfl, rfl⟩ := hq
          exact ⟨1, rfl, p, l, ha.2.2.1 p rfl, ha.2.1 l rfl, rfl⟩
        · rintro ⟨v, rfl, p, l, hp, hl, rfl⟩
          exact ⟨{ lengthscale := some l, period := some p }, rfl, ⟨by simp, by simpa using hl, by simpa using hp, by simp⟩, rfl⟩
      | some u =>
        constructor
        · rintro ⟨⟨qv, ql, qp, qo, qlo, qs, qw⟩, hq, ha, rfl⟩
          simp [mapPD] at hq
          obtain ⟨⟨v, rfl⟩, ⟨l, rfl⟩, ⟨p, rfl⟩, rfl, rfl, rfl, rfl⟩ := hq
          exact ⟨v, ha.1 v rfl, p, l, ha.2.2.1 p rfl, ha.2.1 l rfl, rfl⟩
        · rintro ⟨v, hv, p, l, hp, hl, rfl⟩
          exact ⟨{ variance := some v, lengthscale := some l, period := some p }, rfl,
            ⟨by simpa using mem_posV.1 hv, by simpa using hl, by simpa using hp, by simp⟩, rfl⟩
  rw [h2, kernelFam]
  split
  · exact realF_unit cfg b hb
  · rfl

/-- Change parameters that may be given. -/
theorem basis_vals (cfg : Cfg) (c : CC) (x : (ℝ → ℝ) × (ℝ → ℝ)) :
    x ∈ basisOf cfg c ↔ ∃ q : PD ℝ, mapPD (fun _ => ()) q = linked (changePars cfg c) ∧ AdmPD q ∧ (changePhi c q false, changePhi c q true) = x := by
  cases c <;> cases hf : cfg.fixSlope
  · constructor
    · rintro ⟨loc, s, hs, -, rfl⟩
      exact ⟨{ location := some loc, slope := some s }, by simp [changePars, hf, linked, Par.put, mapPD], by simpa [AdmPD] using hs, rfl⟩
    · rintro ⟨⟨qv, ql, qp, qo, qlo, qs, qw⟩, hq, ha, rfl⟩
      simp [mapPD, changePars, hf, linked, Par.put] at hq
      obtain ⟨rfl, rfl, rfl, rfl, ⟨loc, rfl⟩, ⟨s, rfl⟩, rfl⟩ := hq
      exact ⟨loc, s, ha.2.2.2.1 s rfl, by simp [hf], rfl⟩
  · constructor
    · rintro ⟨loc, s, hs, h5, rfl⟩
      rw [h5 hf]
      exact ⟨{ location := some loc }, by simp [changePars, hf, linked, Par.put, mapPD], by simp [AdmPD], rfl⟩
    · rintro ⟨⟨qv, ql, qp, qo, qlo, qs, qw⟩, hq, ha, rfl⟩
      simp [mapPD, changePars, hf, linked, Par.put] at hq
      obtain ⟨rfl, rfl, rfl, rfl, ⟨loc, rfl⟩, rfl, rfl⟩ := hq
      exact ⟨loc, 0.5, by norm_num, fun _ => rfl, rfl⟩
  · constructor
    · rintro ⟨loc, s, w, hs, -, hw, rfl⟩
      exact ⟨{ location := some loc, slope := some s, width := some w }, by simp [changePars, hf, linked, Par.put, mapPD],
        by simpa [AdmPD] using ⟨hs, hw⟩, rfl⟩
    · rintro ⟨⟨qv, ql, qp, qo, qlo, qs, qw⟩, hq, ha, rfl⟩
      simp [mapPD, changePars, hf, linked, Par.put] at hq
      obtain ⟨rfl, rfl, rfl, rfl, ⟨loc, rfl⟩, ⟨s, rfl⟩, ⟨w, rfl⟩⟩ := hq
      exact ⟨loc, s, w, ha.2.2.2.1 s rfl, by simp [hf], ha.2.2.2.2 w rfl, rfl⟩
  · constructor
    · rintro ⟨loc, s, w, hs, h5, hw, rfl⟩
      rw [h5 hf]
      exact ⟨{ location := some loc, width := some w }, by simp [changePars, hf, linked, Par.put, mapPD], by simpa [AdmPD] using hw, rfl⟩
    · rintro ⟨⟨qv, ql, qp, qo, qlo, qs, qw⟩, hq, ha, rfl⟩
      simp [mapPD, changePars, hf, linked, Par.put] at hq
      obtain ⟨rfl, rfl, rfl, rfl, ⟨loc, rfl⟩, rfl, ⟨w, rfl⟩⟩ := hq
      exact ⟨loc, 0.5, w, by norm_num, fun _ => rfl, ha.2.2.2.2 w rfl, rfl⟩

theorem vals_sum (cfg : Cfg) (ps : List (GK Unit)) : vals cfg (.comb .sum ps) = (ps.map (vals cfg)).sum := by
  have h : vals cfg (.comb .sum ps) = {f | ∃ l : List (GK ℝ), eraseL l = ps ∧ AdmL l ∧ gcovSum cfg l = f} := by
    ext f
    constructor
    · rintro ⟨g, hg, ha, rfl⟩
      cases g with
      | comb o l =>
        simp only [erase, GK.comb.injEq] at hg
        obtain ⟨rfl, rfl⟩ := hg
        exact ⟨l, rfl, by simpa only [Adm] using ha, by rw [gcov]⟩
      | _ => simp [erase] at hg
    · rintro ⟨l, rfl, ha, rfl⟩
      exact ⟨.comb .sum l, by rw [erase], by rw [Adm]; exact ha, by rw [gcov]⟩
  rw [h]
  clear h
  induction ps with
  | nil =>
    ext f
    rw [List.map_nil, List.sum_nil, Set.mem_zero]
    constructor
    · rintro ⟨l, hl, -, rfl⟩
      cases l with
      | nil => rw [gcovSum]
      | cons => simp [eraseL] at hl
    · rintro rfl
      exact ⟨[], rfl, trivial, by rw [gcovSum]⟩
  | cons s ps ih =>
    rw [List.map_cons, List.sum_cons, ← ih]
    ext f
    rw [Set.mem_add]
    constructor
    · rintro ⟨l, hl, ha, rfl⟩
      cases l with
      | nil => simp [eraseL] at hl
      | cons g l =>
        simp only [eraseL, List.cons.injEq] at hl
        rw [AdmL] at ha
        exact ⟨_, ⟨g, hl.1, ha.1, rfl⟩, _, ⟨l, hl.2, ha.2, rfl⟩, by rw [gcovSum]⟩
    · rintro ⟨_, ⟨g, h1, h2, rfl⟩, _, ⟨l, h3, h4, rfl⟩, rfl⟩
      exact ⟨g :: l, by rw [eraseL, h1, h3], by rw [AdmL]; exact ⟨h2, h4⟩, by rw [gcovSum]⟩

theorem vals_prod (cfg : Cfg) (ps : List (GK Unit)) : vals cfg (.comb .prod ps) = (ps.map (vals cfg)).prod := by
  have h : vals cfg (.comb .prod ps) = {f | ∃ l : List (GK ℝ), eraseL l = ps ∧ AdmL l ∧ gcovProd cfg l = f} := by
    ext f
    constructor
    · rintro ⟨g, hg, ha, rfl⟩
      cases g with
      | comb o l =>
        simp only [erase, GK.comb.injEq] at hg
        obtain ⟨rfl, rfl⟩ := hg
        exact ⟨l, rfl, by simpa only [Adm] using ha, by rw [gcov]⟩
      | _ => simp [erase] at hg
    · rintro ⟨l, rfl, ha, rfl⟩
      exact ⟨.comb .prod l, by rw [erase], by rw [Adm]; exact ha, by rw [gcov]⟩
  rw [h]
  clear h
  induction ps with
  | nil =>
    ext f
    rw [List.map_nil, List.prod_nil, Set.mem_one]
    constructor
    · rintro ⟨l, hl, -, rfl⟩
      cases l with
      | nil => rw [gcovProd]
      | cons => simp [eraseL] at hl
    · rintro rfl
      exact ⟨[], rfl, trivial, by rw [gcovProd]⟩
  | cons s ps ih =>
    rw [List.map_cons, List.prod_cons, ← ih]
    ext f
    rw [Set.mem_mul]
    constructor
    · rintro ⟨l, hl, ha, rfl⟩
      cases l with
      | nil => simp [eraseL] at hl
      | cons g l =>
        simp only [eraseL, List.cons.injEq] at hl
        rw [AdmL] at ha
        exact ⟨_, ⟨g, hl.1, ha.1, rfl⟩, _, ⟨l, hl.2, ha.2, rfl⟩, by rw [gcovProd]⟩
    · rintro ⟨_, ⟨g, h1, h2, rfl⟩, _, ⟨l, h3, h4, rfl⟩, rfl⟩
      exact ⟨g :: l, by rw [eraseL, h1, h3], by rw [AdmL]; exact ⟨h2, h4⟩, by rw [gcovProd]⟩

theorem vals_change (cfg : Cfg) (c : CC) (l r : GK Unit) :
    vals cfg (.change c (linked (changePars cfg c)) l r) = chgFam cfg c (vals cfg l) (vals cfg r) := by
  ext f
  constructor
  · rintro ⟨g, hg, ha, rfl⟩
    cases g with
    | change c' q a b =>
      simp only [erase, GK.change.injEq] at hg
      obtain ⟨rfl, hq, hl, hr⟩ := hg
      rw [Adm] at ha
      exact ⟨_, ⟨a, hl, ha.2.1, rfl⟩, _, ⟨b, hr, ha.2.2, rfl⟩, _, (basis_vals cfg c' _).2 ⟨q, hq, ha.1, rfl⟩, by rw [gcov]⟩
    | _ => simp [erase] at hg
  · rintro ⟨_, ⟨a, rfl, h1, rfl⟩, _, ⟨b, rfl, h2, rfl⟩, x, hx, rfl⟩
    obtain ⟨q, hq, ha, rfl⟩ := (basis_vals cfg c x).1 hx
    exact ⟨.change c q a b, by rw [erase, hq], by rw [Adm]; exact ⟨ha, h1, h2⟩, by rw [gcov]⟩

mutual
theorem vals_std (cfg : Cfg) : ∀ s : GK Unit, Std cfg s → vals cfg s = kernelFam positives (unitF cfg) (chgFam cfg) s
  | .base b p, h => by rw [Std] at h; exact vals_base cfg h.1 h.2
  | .comb .sum ps, h => by rw [Std] at h; rw [vals_sum, vals_stdL cfg ps h, kernelFam]; rfl
  | .comb .prod ps, h => by rw [Std] at h; rw [vals_prod, vals_stdL cfg ps h, kernelFam]; rfl
  | .change c p l r, h => by
    rw [Std] at h
    obtain ⟨rfl, hl, hr⟩ := h
    rw [vals_change, vals_std cfg l hl, vals_std cfg r hr, kernelFam]
theorem vals_stdL (cfg : Cfg) : ∀ l : List (GK Unit), StdL cfg l → l.map (vals cfg) = kernelFams positives (unitF cfg) (chgFam cfg) l
  | [], _ => rfl
  | s :: l, h => by rw [StdL] at h; rw [List.map_cons, vals_std cfg s h.1, vals_stdL cfg l h.2, kernelFams]
end

/-- The kernel of an expression can be given the covariances the expression stands for. -/
theorem kernel_vals (cfg : Cfg) (k : KE) (hs : ∀ x ∈ bases k, x.isSigmoid = false) (he : noEmpty k = true) :
    ∃ s, toKernel cfg k = .ok s ∧ vals cfg s = den (realI cfg posV) k := by
  obtain ⟨s, h1, h2⟩ := fam_toKernel (V := positives) (sh := unitF cfg) (chg := chgFam cfg) positives_mul cfg (realI cfg posV) (realF_unit cfg) rfl k hs he
  exact ⟨s, h1, (vals_std cfg s (std_toKernel cfg k hs s h1)).trans h2⟩

end GPyABCD
