import Verif.Spec.Reach
import Verif.Lemmas.Fading
import Verif.Lemmas.PerFacts

/-!
# Lemmas for C116: growth on either side
-/

namespace GPyABCD
namespace Reach
open Kern Params Sops KE Fading

/-! ### Growth -/

mutual
/-- The reach of a kernel. -/
def rdeg {α : Type} (sd : Bool) : GK α → ℕ
  | .base b _ => if b = .LIN then 1 else 0
  | .comb op ps => rdegL sd op ps
  | .change .CP _ l r => if sd then max (rdeg sd l - 1) (rdeg sd r) else max (rdeg sd l) (rdeg sd r - 1)
  | .change .CW _ l r => max (rdeg sd l) (rdeg sd r - 2)
/-- Over the parts of a sum or product. -/
def rdegL {α : Type} (sd : Bool) : Op → List (GK α) → ℕ
  | _, [] => 0
  | .sum, k :: ks => max (rdeg sd k) (rdegL sd .sum ks)
  | .prod, k :: ks => rdeg sd k + rdegL sd .prod ks
end

variable {sd : Bool}

theorem rdegL_cons {α : Type} (op : Op) (k : GK α) (ks : List (GK α)) : rdegL sd op (k :: ks) = degOp op (rdeg sd k) (rdegL sd op ks) := by
  cases op <;> rw [rdegL] <;> rfl

theorem rdegL_nil {α : Type} (op : Op) : rdegL sd op ([] : List (GK α)) = 0 := by cases op <;> rw [rdegL]

theorem rdegL_append {α : Type} (op : Op) (l m : List (GK α)) : rdegL sd op (l ++ m) = degOp op (rdegL sd op l) (rdegL sd op m) := by
  induction l with
  | nil => rw [List.nil_append, rdegL_nil, degOp_zero']
  | cons k l ih => rw [List.cons_append, rdegL_cons, rdegL_cons, ih, degOp_assoc]

mutual
theorem rdeg_erase {α : Type} : ∀ g : GK α, rdeg sd (erase g) = rdeg sd g
  | .base _ p => rfl
  | .comb op ps => by rw [erase, rdeg, rdeg, rdeg_eraseL op ps]
  | .change c _ l r => by cases c <;> rw [erase, rdeg, rdeg, rdeg_erase l, rdeg_erase r]
theorem rdeg_eraseL {α : Type} (op : Op) : ∀ gs : List (GK α), rdegL sd op (eraseL gs) = rdegL sd op gs
  | [] => by rw [eraseL, rdegL_nil, rdegL_nil]
  | g :: gs => by rw [eraseL, rdegL_cons, rdegL_cons, rdeg_erase g, rdeg_eraseL op gs]
end

theorem rdeg_parts {α : Type} (op : Op) (g : GK α) : rdegL sd op (partsOf op g) = rdeg sd g := by
  have one : ∀ x : GK α, rdegL sd op [x] = rdeg sd x := fun x => by rw [rdegL_cons, rdegL_nil, degOp_zero]
  cases g with
  | comb o ps =>
    rw [partsOf]
    split
    · next h => subst h; rw [rdeg]
    · exact one _
  | base b p => exact one _
  | change c p l r => exact one _

theorem rdeg_foldl {α : Type} (op : Op) : ∀ (l : List (GK α)) (g : GK α), rdeg sd (l.foldl (combine op) g) = degOp op (rdeg sd g) (rdegL sd op l)
  | [], g => by rw [rdegL_nil, degOp_zero]; rfl
  | x :: l, g => by
    rw [List.foldl_cons, rdeg_foldl op l, combine, rdeg, rdegL_append, rdeg_parts, rdeg_parts, rdegL_cons, degOp_assoc]

theorem rdeg_baseKers (cfg : Cfg) (op : Op) : ∀ (bs : List Base) (ks : List (GK Unit)), baseKers cfg bs = .ok ks → rdegL sd op ks = degB op bs ∧ rdegL sd op (ks.map unlinkVar) = degB op bs
  | [], ks, h => by
    simp only [baseKers, Except.ok.injEq] at h; subst h
    rw [List.map_nil, rdegL_nil]; cases op <;> simp [degB]
  | b :: bs, ks, h => by
    cases h1 : baseKer cfg b with
    | error e => simp [baseKers, h1, bind, Except.bind] at h
    | ok a =>
      cases h2 : baseKers cfg bs with
      | error e => simp [baseKers, h1, h2, bind, Except.bind] at h
      | ok as =>
        simp only [baseKers, h1, h2, bind, Except.bind, pure, Except.pure, Except.ok.injEq] at h
        subst h
        have ih := rdeg_baseKers cfg op bs as h2
        unfold baseKer at h1
        split at h1
        · simp at h1
        · simp only [Except.ok.injEq] at h1; subst h1
          rw [List.map_cons, rdegL_cons, rdegL_cons, ih.1, ih.2, degB_cons, unlinkVar, rdeg, rdeg]
          exact ⟨rfl, rfl⟩

mutual
theorem rdeg_toKernel (cfg : Cfg) (k : KE) (s : GK Unit) (h : toKernel cfg k = .ok s) : rdeg sd s = reach sd k := by
  cases k with
  | base b =>
    rw [toKernel, baseKer] at h
    split at h
    · simp at h
    · simp only [Except.ok.injEq] at h; subst h; rw [rdeg, reach]
  | comm op b cs =>
    cases h1 : baseKers cfg (orderBase b.elements) with
    | error e => cases op <;> simp [toKernel, h1, bind, Except.bind] at h
    | ok bs =>
      cases h2 : toKernelL cfg cs with
      | error e => cases op <;> simp [toKernel, h1, h2, bind, Except.bind] at h
      | ok ks =>
        have hk := rdeg_toKernelL cfg cs ks h2
        have hb := fun op => rdeg_baseKers (sd := sd) cfg op _ bs h1
        have hp : ∀ op, degB op (orderBase b.elements) = degB op b.elements := fun op => degB_perm op (List.perm_insertionSort ..)
        have main : ∀ l : List (GK Unit), reduceK op l = .ok s → rdeg sd s = rdegL sd op l := by
          intro l hr
          cases l with
          | nil => simp [reduceK] at hr
          | cons x l =>
            simp only [reduceK, Except.ok.injEq] at hr
            subst hr
            rw [rdeg_foldl, rdegL_cons]
        cases op with
        | sum =>
          simp only [toKernel, h1, h2, bind, Except.bind] at h
          rw [main _ h, rdegL_append, (hb _).1, hp, hk.1, reach]
          rfl
        | prod =>
          simp only [toKernel, h1, h2, bind, Except.bind] at h
          have hu : rdegL sd .prod (unlinkTail bs) = rdegL sd .prod bs := by
            cases bs with
            | nil => rfl
            | cons x bs =>
              rw [unlinkTail, rdegL_cons, rdegL_cons]
              congr 1
              clear main h hk hb hp h2
              have : ∀ g ∈ x :: bs, rdeg sd (unlinkVar g) = rdeg sd g := fun g _ => by cases g <;> rfl
              replace this := fun g hg => this g (List.mem_cons_of_mem _ hg)
              clear h1
              induction bs with
              | nil => rfl
              | cons y bs ih => rw [List.map_cons, rdegL_cons, rdegL_cons, this y (List.mem_cons_self ..), ih fun g hg => this g (List.mem_cons_of_mem _ hg)]
          rw [main _ h, rdegL_append, hu, (hb _).1, hp, hk.2, reach]
          rfl
  | change c l r =>
    cases h1 : toKernel cfg l with
    | error e => simp [toKernel, h1, bind, Except.bind] at h
    | ok a =>
      cases h2 : toKernel cfg r with
      | error e => simp [toKernel, h1, h2, bind, Except.bind] at h
      | ok b =>
        simp only [toKernel, h1, h2, bind, Except.bind, pure, Except.pure, Except.ok.injEq] at h
        subst h
        cases c <;> rw [rdeg, rdeg_toKernel cfg l a h1, rdeg_toKernel cfg r b h2, reach]
theorem rdeg_toKernelL (cfg : Cfg) (cs : List KE) (ks : List (GK Unit)) (h : toKernelL cfg cs = .ok ks) :
    rdegL sd .sum ks = reachMax sd cs ∧ rdegL sd .prod ks = reachSum sd cs := by
  cases cs with
  | nil => simp only [toKernelL, Except.ok.injEq] at h; subst h; rw [rdegL_nil, rdegL_nil, reachMax, reachSum]; exact ⟨rfl, rfl⟩
  | cons k cs =>
    cases h1 : toKernel cfg k with
    | error e => simp [toKernelL, h1, bind, Except.bind] at h
    | ok a =>
      cases h2 : toKernelL cfg cs with
      | error e => simp [toKernelL, h1, h2, bind, Except.bind] at h
      | ok as =>
        simp only [toKernelL, h1, h2, bind, Except.bind, pure, Except.pure, Except.ok.injEq] at h
        subst h
        have ih := rdeg_toKernelL cfg cs as h2
        rw [rdegL_cons, rdegL_cons, rdeg_toKernel cfg k a h1, ih.1, ih.2, reachMax, reachSum]
        exact ⟨rfl, rfl⟩
end

/-! ### No empty sums and products -/

mutual
/-- Neither empty sums or products nor sigmoids in a kernel. -/
def solid {α : Type} : GK α → Bool
  | .base b _ => !b.isSigmoid
  | .comb _ ps => !ps.isEmpty && solidL ps
  | .change _ _ l r => solid l && solid r
/-- Over a list. -/
def solidL {α : Type} : List (GK α) → Bool
  | [] => true
  | k :: ks => solid k && solidL ks
end

theorem isEmpty_eraseL {α : Type} (gs : List (GK α)) : (eraseL gs).isEmpty = gs.isEmpty := by cases gs <;> simp [eraseL]

mutual
theorem solid_erase {α : Type} : ∀ g : GK α, solid (erase g) = solid g
  | .base _ p => rfl
  | .comb _ ps => by rw [erase, solid, solid, solid_eraseL ps, isEmpty_eraseL]
  | .change _ _ l r => by rw [erase, solid, solid, solid_erase l, solid_erase r]
theorem solid_eraseL {α : Type} : ∀ gs : List (GK α), solidL (eraseL gs) = solidL gs
  | [] => rfl
  | g :: gs => by simp only [eraseL, solidL, solid_erase g, solid_eraseL gs]
end

theorem solidL_iff {α : Type} {l : List (GK α)} : solidL l = true ↔ ∀ g ∈ l, solid g = true := by
  induction l with
  | nil => simp [solidL]
  | cons k l ih => simp [solidL, ih]

theorem solid_comb {α : Type} {op : Op} {ps : List (GK α)} : solid (.comb op ps) = true ↔ ps ≠ [] ∧ ∀ g ∈ ps, solid g = true := by
  rw [solid, Bool.and_eq_true, solidL_iff]; cases ps <;> simp

theorem solid_parts {α : Type} (op : Op) {g : GK α} (h : solid g = true) : partsOf op g ≠ [] ∧ ∀ x ∈ partsOf op g, solid x = true := by
  cases g with
  | comb o ps =>
    rw [partsOf]
    split
    · exact solid_comb.1 h
    · simpa using h
  | _ => simpa [partsOf] using h

theorem solid_foldl {α : Type} (op : Op) : ∀ (l : List (GK α)) (g : GK α), solid g = true → (∀ x ∈ l, solid x = true) → solid (l.foldl (combine op) g) = true
  | [], g, h1, _ => h1
  | x :: l, g, h1, h => by
    refine solid_foldl op l _ ?_ fun y hy => h y (List.mem_cons_of_mem _ hy)
    have p1 := solid_parts op h1
    have p2 := solid_parts op (h x (List.mem_cons_self ..))
    rw [combine, solid_comb]
    refine ⟨by simp [p1.1], fun y hy => ?_⟩
    rcases List.mem_append.1 hy with hy | hy
    · exact p1.2 y hy
    · exact p2.2 y hy

theorem solid_baseKer (cfg : Cfg) (b : Base) (g : GK Unit) (h : baseKer cfg b = .ok g) : ∃ p, g = .base b p ∧ b.isSigmoid = false := by
  cases b <;> simp [baseKer, baseName] at h <;> exact ⟨_, h.symm, rfl⟩

theorem solid_baseKers (cfg : Cfg) : ∀ (bs : List Base) (ks : List (GK Unit)), baseKers cfg bs = .ok ks → ∀ g ∈ ks, ∃ b p, g = .base b p ∧ b.isSigmoid = false
  | [], ks, h => by simp only [baseKers, Except.ok.injEq] at h; subst h; simp
  | b :: bs, ks, h => by
    cases h1 : baseKer cfg b with
    | error e => simp [baseKers, h1, bind, Except.bind] at h
    | ok a =>
      cases h2 : baseKers cfg bs with
      | error e => simp [baseKers, h1, h2, bind, Except.bind] at h
      | ok as =>
        simp only [baseKers, h1, h2, bind, Except.bind, pure, Except.pure, Except.ok.injEq] at h
        subst h
        intro g hg
        rcases List.mem_cons.1 hg with rfl | hg
        · exact ⟨b, solid_baseKer cfg b _ h1⟩
        · exact solid_baseKers cfg bs as h2 g hg

mutual
theorem solid_toKernel (cfg : Cfg) (k : KE) (s : GK Unit) (h : toKernel cfg k = .ok s) : solid s = true := by
  cases k with
  | base b =>
    rw [toKernel] at h
    obtain ⟨p, rfl, hb⟩ := solid_baseKer cfg b s h
    simp [solid, hb]
  | comm op b cs =>
    cases h1 : baseKers cfg (orderBase b.elements) with
    | error e => cases op <;> simp [toKernel, h1, bind, Except.bind] at h
    | ok bs =>
      cases h2 : toKernelL cfg cs with
      | error e => cases op <;> simp [toKernel, h1, h2, bind, Except.bind] at h
      | ok ks =>
        have hk := solid_toKernelL cfg cs ks h2
        have hb := solid_baseKers cfg _ bs h1
        have main : ∀ l : List (GK Unit), (∀ g ∈ l, solid g = true) → reduceK op l = .ok s → solid s = true := by
          intro l hl hr
          cases l with
          | nil => simp [reduceK] at hr
          | cons x l =>
            simp only [reduceK, Except.ok.injEq] at hr
            subst hr
            exact solid_foldl op l x (hl x (List.mem_cons_self ..)) fun y hy => hl y (List.mem_cons_of_mem _ hy)
        cases op with
        | sum =>
          simp only [toKernel, h1, h2, bind, Except.bind] at h
          refine main _ (fun g hg => ?_) h
          rcases List.mem_append.1 hg with hg | hg
          · obtain ⟨b, p, rfl, hb⟩ := hb g hg; simp [solid, hb]
          · exact hk g hg
        | prod =>
          simp only [toKernel, h1, h2, bind, Except.bind] at h
          refine main _ (fun g hg => ?_) h
          rcases List.mem_append.1 hg with hg | hg
          · cases bs with
            | nil => simp [unlinkTail] at hg
            | cons x bs =>
              simp only [unlinkTail, List.mem_cons, List.mem_map] at hg
              rcases hg with rfl | ⟨y, hy, rfl⟩
              · obtain ⟨b, p, rfl, hb'⟩ := hb g (List.mem_cons_self ..); simp [solid, hb']
              · obtain ⟨b, p, rfl, hb⟩ := hb y (List.mem_cons_of_mem _ hy); simp [solid, unlinkVar, hb]
          · exact hk g hg
  | change c l r =>
    cases h1 : toKernel cfg l with
    | error e => simp [toKernel, h1, bind, Except.bind] at h
    | ok a =>
      cases h2 : toKernel cfg r with
      | error e => simp [toKernel, h1, h2, bind, Except.bind] at h
      | ok b =>
        simp only [toKernel, h1, h2, bind, Except.bind, pure, Except.pure, Except.ok.injEq] at h
        subst h
        rw [solid, solid_toKernel cfg l a h1, solid_toKernel cfg r b h2]
        rfl
theorem solid_toKernelL (cfg : Cfg) (cs : List KE) (ks : List (GK Unit)) (h : toKernelL cfg cs = .ok ks) : ∀ g ∈ ks, solid g = true := by
  cases cs with
  | nil => simp only [toKernelL, Except.ok.injEq] at h; subst h; simp
  | cons k cs =>
    cases h1 : toKernel cfg k with
    | error e => simp [toKernelL, h1, bind, Except.bind] at h
    | ok a =>
      cases h2 : toKernelL cfg cs with
      | error e => simp [toKernelL, h1, h2, bind, Except.bind] at h
      | ok as =>
        simp only [toKernelL, h1, h2, bind, Except.bind, pure, Except.pure, Except.ok.injEq] at h
        subst h
        intro g hg
        rcases List.mem_cons.1 hg with rfl | hg
        · exact solid_toKernel cfg k _ h1
        · exact solid_toKernelL cfg cs as h2 g hg
end

/-! ### Growth of covariances -/

/-- Covariances among any inputs. -/
abbrev Fam := ∀ n : ℕ, (Fin n → ℝ) → Fin n → Fin n → ℝ

/-- Grows no faster than the power `d` of the inputs. -/
def Up (sd : Bool) (A : Fam) (d : ℕ) : Prop :=
  ∃ B D : ℝ, 0 ≤ B ∧ 1 ≤ D ∧ ∀ n X i j, Far sd D (X i) → Far sd D (X j) → |A n X i j| ≤ B * (|X i| * |X j|) ^ d

/-- Variances grow no slower. -/
def Lo (sd : Bool) (A : Fam) (d : ℕ) : Prop :=
  ∃ c D : ℝ, 0 < c ∧ 1 ≤ D ∧ ∀ n X i, Far sd D (X i) → c * (|X i| * |X i|) ^ d ≤ A n X i i

/-- A weight that falls like the power `k`. -/
def Wt (sd : Bool) (w : ℝ → ℝ) (k : ℕ) : Prop :=
  ∃ c C D : ℝ, 0 < c ∧ 0 < C ∧ 1 ≤ D ∧ ∀ x, Far sd D x → c ≤ |x| ^ k * w x ∧ |x| ^ k * w x ≤ C

theorem far_mono {D D' x : ℝ} (h : D ≤ D') (hx : Far sd D' x) : Far sd D x := le_trans h hx

theorem far_abs {D x : ℝ} (hx : Far sd D x) : D ≤ |x| := by
  unfold Far at hx
  split at hx
  · exact hx.trans (le_abs_self _)
  · exact hx.trans (neg_le_abs _)

theorem up_mono {A : Fam} {d e : ℕ} (h : d ≤ e) : Up sd A d → Up sd A e := by
  rintro ⟨B, D, hB, hD, hA⟩
  refine ⟨B, D, hB, hD, fun n X i j hi hj => (hA n X i j hi hj).trans (mul_le_mul_of_nonneg_left (pow_le_pow_right₀ ?_ h) hB)⟩
  have h1 := hD.trans (far_abs hi)
  have h2 := hD.trans (far_abs hj)
  nlinarith

theorem up_add {A B : Fam} {d e : ℕ} (h1 : Up sd A d) (h2 : Up sd B e) : Up sd (fun n X i j => A n X i j + B n X i j) (max d e) := by
  obtain ⟨B1, D1, p1, q1, r1⟩ := up_mono (le_max_left d e) h1
  obtain ⟨B2, D2, p2, q2, r2⟩ := up_mono (le_max_right d e) h2
  refine ⟨B1 + B2, max D1 D2, by positivity, le_max_of_le_left q1, fun n X i j hi hj => (abs_add_le _ _).trans ?_⟩
  rw [add_mul]
  exact add_le_add (r1 n X i j (far_mono (le_max_left ..) hi) (far_mono (le_max_left ..) hj)) (r2 n X i j (far_mono (le_max_right ..) hi) (far_mono (le_max_right ..) hj))

theorem up_mul {A B : Fam} {d e : ℕ} (h1 : Up sd A d) (h2 : Up sd B e) : Up sd (fun n X i j => A n X i j * B n X i j) (d + e) := by
  obtain ⟨B1, D1, p1, q1, r1⟩ := h1
  obtain ⟨B2, D2, p2, q2, r2⟩ := h2
  refine ⟨B1 * B2, max D1 D2, by positivity, le_max_of_le_left q1, fun n X i j hi hj => ?_⟩
  have a := r1 n X i j (far_mono (le_max_left ..) hi) (far_mono (le_max_left ..) hj)
  have b := r2 n X i j (far_mono (le_max_right ..) hi) (far_mono (le_max_right ..) hj)
  rw [abs_mul, pow_add]
  calc _ ≤ _ := mul_le_mul a b (abs_nonneg _) (by positivity)
    _ = _ := by ring

theorem lo_nonneg {A : Fam} {d : ℕ} (h : Lo sd A d) : ∃ D : ℝ, ∀ n X i, Far sd D (X i) → 0 ≤ A n X i i := by
  obtain ⟨c, D, hc, -, h⟩ := h
  exact ⟨D, fun n X i hi => le_trans (by positivity) (h n X i hi)⟩

theorem lo_add_left {A B : Fam} {d : ℕ} (h1 : Lo sd A d) (h2 : ∃ D : ℝ, ∀ n X i, Far sd D (X i) → 0 ≤ B n X i i) : Lo sd (fun n X i j => A n X i j + B n X i j) d := by
  obtain ⟨c, D, hc, hD, h⟩ := h1
  obtain ⟨D', h'⟩ := h2
  refine ⟨c, max D D', hc, le_max_of_le_left hD, fun n X i hi => ?_⟩
  have := h n X i (far_mono (le_max_left ..) hi)
  have := h' n X i (far_mono (le_max_right ..) hi)
  linarith

theorem lo_add_right {A B : Fam} {d : ℕ} (h1 : Lo sd B d) (h2 : ∃ D : ℝ, ∀ n X i, Far sd D (X i) → 0 ≤ A n X i i) : Lo sd (fun n X i j => A n X i j + B n X i j) d := by
  have := lo_add_left h1 h2
  simpa only [add_comm] using this

theorem lo_add {A B : Fam} {d e : ℕ} (h1 : Lo sd A d) (h2 : Lo sd B e) : Lo sd (fun n X i j => A n X i j + B n X i j) (max d e) := by
  rcases le_total d e with h | h
  · rw [max_eq_right h]; exact lo_add_right h2 (lo_nonneg h1)
  · rw [max_eq_left h]; exact lo_add_left h1 (lo_nonneg h2)

theorem lo_mul {A B : Fam} {d e : ℕ} (h1 : Lo sd A d) (h2 : Lo sd B e) : Lo sd (fun n X i j => A n X i j * B n X i j) (d + e) := by
  obtain ⟨c1, D1, p1, q1, r1⟩ := h1
  obtain ⟨c2, D2, p2, q2, r2⟩ := h2
  refine ⟨c1 * c2, max D1 D2, by positivity, le_max_of_le_left q1, fun n X i hi => ?_⟩
  have a := r1 n X i (far_mono (le_max_left ..) hi)
  have b := r2 n X i (far_mono (le_max_right ..) hi)
  rw [pow_add]
  calc _ = c1 * (|X i| * |X i|) ^ d * (c2 * (|X i| * |X i|) ^ e) := by ring
    _ ≤ _ := mul_le_mul a b (by positivity) (le_trans (by positivity) a)

theorem up_wt {A : Fam} {d k : ℕ} {w : ℝ → ℝ} (h1 : Up sd A d) (h2 : Wt sd w k) : Up sd (fun n X i j => A n X i j * (1 * (w (X i) * w (X j)))) (d - k) := by
  obtain ⟨B, D1, p1, q1, r1⟩ := h1
  obtain ⟨c, C, D2, hc, hC, q2, r2⟩ := h2
  refine ⟨B * C ^ 2, max D1 D2, by positivity, le_max_of_le_left q1, fun n X i j hi hj => ?_⟩
  have a := r1 n X i j (far_mono (le_max_left ..) hi) (far_mono (le_max_left ..) hj)
  have wi := r2 _ (far_mono (le_max_right ..) hi)
  have wj := r2 _ (far_mono (le_max_right ..) hj)
  have xi : 1 ≤ |X i| := (q1.trans (le_max_left ..)).trans (far_abs hi)
  have xj : 1 ≤ |X j| := (q1.trans (le_max_left ..)).trans (far_abs hj)
  have w0 : ∀ x, 1 ≤ |x| → c ≤ |x| ^ k * w x → 0 < w x := fun x hx h => pos_of_mul_pos_right (hc.trans_le h) (by positivity)
  have ui := w0 _ xi wi.1
  have uj := w0 _ xj wj.1
  have hx : 1 ≤ |X i| * |X j| := by nlinarith
  change |A n X i j * (1 * (w (X i) * w (X j)))| ≤ _
  rw [one_mul, abs_mul, abs_of_pos (mul_pos ui uj)]
  have hpow : (|X i| * |X j|) ^ d ≤ (|X i| * |X j|) ^ (d - k) * (|X i| * |X j|) ^ k := by
    rw [← pow_add]; exact pow_le_pow_right₀ hx (by omega)
  calc _ ≤ B * (|X i| * |X j|) ^ d * (w (X i) * w (X j)) := mul_le_mul_of_nonneg_right a (mul_pos ui uj).le
    _ ≤ B * ((|X i| * |X j|) ^ (d - k) * (|X i| * |X j|) ^ k) * (w (X i) * w (X j)) :=
      mul_le_mul_of_nonneg_right (mul_le_mul_of_nonneg_left hpow p1) (mul_pos ui uj).le
    _ = B * (|X i| * |X j|) ^ (d - k) * ((|X i| ^ k * w (X i)) * (|X j| ^ k * w (X j))) := by rw [mul_pow _ _ k]; ring
    _ ≤ B * (|X i| * |X j|) ^ (d - k) * (C * C) :=
      mul_le_mul_of_nonneg_left (mul_le_mul wi.2 wj.2 (hc.le.trans wj.1) hC.le) (by positivity)
    _ = _ := by ring

theorem lo_wt {A : Fam} {d k : ℕ} {w : ℝ → ℝ} (h1 : Lo sd A d) (h2 : Wt sd w k) (hk : k ≤ d) : Lo sd (fun n X i j => A n X i j * (1 * (w (X i) * w (X j)))) (d - k) := by
  obtain ⟨b, D1, p1, q1, r1⟩ := h1
  obtain ⟨c, C, D2, hc, hC, q2, r2⟩ := h2
  refine ⟨b * c ^ 2, max D1 D2, by positivity, le_max_of_le_left q1, fun n X i hi => ?_⟩
  have a := r1 n X i (far_mono (le_max_left ..) hi)
  have wi := r2 _ (far_mono (le_max_right ..) hi)
  have e : (|X i| * |X i|) ^ d = (|X i| * |X i|) ^ (d - k) * (|X i| * |X i|) ^ k := by
    rw [← pow_add]; congr 1; omega
  calc _ = b * (|X i| * |X i|) ^ (d - k) * (c * c) := by ring
    _ ≤ b * (|X i| * |X i|) ^ (d - k) * ((|X i| ^ k * w (X i)) * (|X i| ^ k * w (X i))) :=
      mul_le_mul_of_nonneg_left (mul_le_mul wi.1 wi.1 hc.le (hc.le.trans wi.1)) (by positivity)
    _ = b * (|X i| * |X i|) ^ d * (1 * (w (X i) * w (X i))) := by rw [e, mul_pow _ _ k]; ring
    _ ≤ _ := mul_le_mul_of_nonneg_right a (by rw [one_mul]; exact mul_self_nonneg _)

/-- Both. -/
def Gr (sd : Bool) (A : Fam) (d : ℕ) : Prop := Up sd A d ∧ Lo sd A d

/-- What a change leaves of its two branches, the one of which it leaves. -/
theorem gr_change {A B : Fam} {d e k : ℕ} {w v : ℝ → ℝ} (hA : Gr sd A d) (hB : Gr sd B e) (hw : Wt sd w k) (hv : Wt sd v 0) :
    Gr sd (fun n X i j => A n X i j * (1 * (w (X i) * w (X j))) + B n X i j * (1 * (v (X i) * v (X j)))) (max (d - k) e) := by
  have b := lo_wt hB.2 hv (Nat.zero_le _)
  refine ⟨up_add (up_wt hA.1 hw) (up_wt hB.1 hv), ?_⟩
  rcases le_total k d with h | h
  · exact lo_add (lo_wt hA.2 hw h) b
  · rw [Nat.sub_eq_zero_of_le h, max_eq_right (Nat.zero_le _)]
    refine lo_add_right b ?_
    obtain ⟨D, hD⟩ := lo_nonneg hA.2
    exact ⟨D, fun n X i hi => mul_nonneg (hD n X i hi) (by rw [one_mul]; exact mul_self_nonneg _)⟩

/-! ### Weights -/

theorem ratio {q t : ℝ} (h : 2 * |q| + 1 ≤ t) : 0 < t + q ∧ 2 / 3 ≤ t / (t + q) ∧ t / (t + q) ≤ 2 := by
  have h1 := abs_le.1 (le_refl |q|)
  have h2 : 0 < t + q := by linarith [abs_nonneg q]
  refine ⟨h2, ?_, ?_⟩
  · rw [div_le_div_iff₀ (by norm_num) h2]; linarith
  · rw [div_le_iff₀ h2]; linarith

theorem wt_compl {w : ℝ → ℝ} {k : ℕ} (hw : Wt sd w (k + 1)) (h0 : ∀ x, 0 ≤ w x) : Wt sd (fun x => 1 - w x) 0 := by
  obtain ⟨c, C, D, hc, hC, hD, h⟩ := hw
  refine ⟨1 / 2, 1, max D (2 * C), by norm_num, one_pos, le_max_of_le_left hD, fun x hx => ?_⟩
  have h1 := (h x (far_mono (le_max_left ..) hx)).2
  have h2 : 2 * C ≤ |x| := (le_max_right ..).trans (far_abs hx)
  have h3 : 1 ≤ |x| := (hD.trans (le_max_left ..)).trans (far_abs hx)
  have h4 : |x| ≤ |x| ^ (k + 1) := le_self_pow₀ h3 (by omega)
  have h5 : |x| * w x ≤ C := (mul_le_mul_of_nonneg_right h4 (h0 x)).trans h1
  have h6 : 2 * C * w x ≤ C := (mul_le_mul_of_nonneg_right h2 (h0 x)).trans h5
  have h7 : w x ≤ 1 / 2 := by nlinarith
  rw [pow_zero, one_mul]
  exact ⟨by linarith, by linarith [h0 x]⟩

theorem sig_symm (p : PD ℝ) (x : ℝ) : changePhi .CP p false x = changePhi .CP p true (2 * p.location.getD 0 - x) := by
  simp only [changePhi, phiS, Bool.false_eq_true, if_false, if_true, sigmoid_eq]
  rw [show (2 * p.location.getD 0 - x - p.location.getD 0) / p.slope.getD 0.5 = -((x - p.location.getD 0) / p.slope.getD 0.5) by rw [← neg_div]; congr 1; ring, core_neg]
  ring

/-- The side that a change point leaves falls like `1 / x`. -/
theorem wt_cp {p : PD ℝ} (h : AdmPD p) (sd : Bool) : Wt sd (changePhi .CP p sd) 1 := by
  have hs := slope_pos h
  have key : ∀ q t : ℝ, 2 * |q| + 1 ≤ t → slopeOf p / 3 ≤ t * (slopeOf p / (2 * (t + q))) ∧ t * (slopeOf p / (2 * (t + q))) ≤ slopeOf p := by
    intro q t ht
    obtain ⟨h1, h2, h3⟩ := ratio ht
    rw [show t * (slopeOf p / (2 * (t + q))) = slopeOf p / 2 * (t / (t + q)) by field_simp]
    constructor <;> nlinarith
  cases sd with
  | true =>
    refine ⟨slopeOf p / 3, slopeOf p, max (2 * |slopeOf p - p.location.getD 0| + 1) (p.location.getD 0), by positivity, hs,
      le_max_of_le_left (by linarith [abs_nonneg (slopeOf p - p.location.getD 0)]), fun x hx => ?_⟩
    simp only [Far, if_true] at hx
    have hx1 := (le_max_left ..).trans hx
    have hx2 := (le_max_right ..).trans hx
    have := key _ _ hx1
    rw [show x + (slopeOf p - p.location.getD 0) = slopeOf p + (x - p.location.getD 0) by ring, ← rev_far hs hx2] at this
    rw [pow_one, abs_of_nonneg (by linarith [abs_nonneg (slopeOf p - p.location.getD 0)])]
    exact this
  | false =>
    refine ⟨slopeOf p / 3, slopeOf p, max (2 * |slopeOf p + p.location.getD 0| + 1) (-p.location.getD 0), by positivity, hs,
      le_max_of_le_left (by linarith [abs_nonneg (slopeOf p + p.location.getD 0)]), fun x hx => ?_⟩
    simp only [Far, Bool.false_eq_true, if_false] at hx
    have hx1 := (le_max_left ..).trans hx
    have hx2 := (le_max_right ..).trans hx
    have := key _ _ hx1
    rw [show -x + (slopeOf p + p.location.getD 0) = slopeOf p + (2 * p.location.getD 0 - x - p.location.getD 0) by ring,
      ← rev_far hs (by linarith), ← sig_symm] at this
    rw [pow_one, abs_of_nonpos (by linarith [abs_nonneg (slopeOf p + p.location.getD 0)])]
    exact this

theorem wt_cp' {p : PD ℝ} (h : AdmPD p) (sd : Bool) : Wt sd (changePhi .CP p !sd) 0 := by
  have := wt_compl (wt_cp h sd) fun x => (phi_range .CP h sd x).1
  convert this using 2 with x
  cases sd
  · exact phi_compl .CP p x
  · rw [phi_compl]; simp

/-- A window falls like `1 / x ^ 2`. -/
theorem wt_cw {p : PD ℝ} (h : AdmPD p) (sd : Bool) : Wt sd (changePhi .CW p false) 2 := by
  have hs := slope_pos h
  have hw := width_pos h
  set W := (1 + p.width.getD 1 / (2 * slopeOf p)) * slopeOf p ^ 2 with hW
  have hW0 : 0 < W := by positivity
  have key : ∀ q r t : ℝ, 2 * |q| + 1 ≤ t → 2 * |r| + 1 ≤ t → W * (4 / 9) ≤ t ^ 2 * (W / ((t + q) * (t + r))) ∧ t ^ 2 * (W / ((t + q) * (t + r))) ≤ W * 4 := by
    intro q r t hq hr
    obtain ⟨h1, h2, h3⟩ := ratio hq
    obtain ⟨k1, k2, k3⟩ := ratio hr
    rw [show t ^ 2 * (W / ((t + q) * (t + r))) = W * ((t / (t + q)) * (t / (t + r))) by field_simp]
    have m1 := mul_le_mul h2 k2 (by norm_num) (by linarith)
    have m2 := mul_le_mul h3 k3 (by linarith) (by norm_num)
    exact ⟨mul_le_mul_of_nonneg_left (by linarith) hW0.le, mul_le_mul_of_nonneg_left (by linarith) hW0.le⟩
  have form : ∀ x, p.location.getD 0 + p.width.getD 1 ≤ x → changePhi .CW p false x =
      W / ((x + (slopeOf p - p.location.getD 0)) * (x + (slopeOf p - p.location.getD 0 - p.width.getD 1))) := by
    intro x hx
    rw [hat_after h hx, hW]
    have e1 : x + (slopeOf p - p.location.getD 0) ≠ 0 := by linarith
    have e2 : x + (slopeOf p - p.location.getD 0 - p.width.getD 1) ≠ 0 := by linarith
    rw [show 1 + (x - p.location.getD 0) / slopeOf p = (x + (slopeOf p - p.location.getD 0)) / slopeOf p by field_simp; ring,
      show 1 + (x - p.location.getD 0 - p.width.getD 1) / slopeOf p = (x + (slopeOf p - p.location.getD 0 - p.width.getD 1)) / slopeOf p by field_simp; ring]
    field_simp
  cases sd with
  | true =>
    refine ⟨W * (4 / 9), W * 4, max (max (2 * |slopeOf p - p.location.getD 0| + 1) (2 * |slopeOf p - p.location.getD 0 - p.width.getD 1| + 1))
      (p.location.getD 0 + p.width.getD 1), by positivity, by positivity,
      le_max_of_le_left (le_max_of_le_left (by linarith [abs_nonneg (slopeOf p - p.location.getD 0)])), fun x hx => ?_⟩
    simp only [Far, if_true, max_le_iff] at hx
    have := key _ _ _ hx.1.1 hx.1.2
    rw [← form x hx.2] at this
    rw [sq_abs]
    exact this
  | false =>
    refine ⟨W * (4 / 9), W * 4, max (max (2 * |slopeOf p + p.location.getD 0 + p.width.getD 1| + 1) (2 * |slopeOf p + p.location.getD 0| + 1))
      (-p.location.getD 0), by positivity, by positivity,
      le_max_of_le_left (le_max_of_le_right (by linarith [abs_nonneg (slopeOf p + p.location.getD 0)])), fun x hx => ?_⟩
    simp only [Far, Bool.false_eq_true, if_false, max_le_iff] at hx
    have := key _ _ _ hx.1.1 hx.1.2
    have f := form (2 * p.location.getD 0 + p.width.getD 1 - x) (by linarith [hx.2])
    rw [← hat_symm h] at f
    rw [sq_abs, f, show 2 * p.location.getD 0 + p.width.getD 1 - x + (slopeOf p - p.location.getD 0) = -x + (slopeOf p + p.location.getD 0 + p.width.getD 1) by ring,
      show 2 * p.location.getD 0 + p.width.getD 1 - x + (slopeOf p - p.location.getD 0 - p.width.getD 1) = -x + (slopeOf p + p.location.getD 0) by ring]
    rw [neg_sq] at this
    exact this

theorem wt_cw' {p : PD ℝ} (h : AdmPD p) (sd : Bool) : Wt sd (changePhi .CW p true) 0 := by
  have := wt_compl (wt_cw h sd) fun x => (phi_range .CW h false x).1
  convert this using 2 with x
  exact phi_compl .CW p x

/-! ### Kernels -/

theorem gr_lin (cfg : Cfg) {p : PD ℝ} (h : AdmPD p) : Gr sd (fun _ X => kerK cfg X (.base .LIN p)) 1 := by
  have hv : 0 < varOf p := by
    rw [varOf]
    cases hp : p.variance with
    | none => norm_num
    | some v => exact h.1 v hp
  set o := if cfg.linOffset then p.offset.getD 0 else 0 with ho
  have form : ∀ (n : ℕ) (X : Fin n → ℝ) i j, kerK cfg X (.base .LIN p) i j = varOf p * ((X i - o) * (X j - o)) := by
    intro n X i j
    simp only [kerK, baseK, ho]
    split_ifs <;> simp [matK, linearOffset, linear] <;> ring
  have b : ∀ x, Far sd (2 * |o| + 1) x → |x| / 2 ≤ |x - o| ∧ |x - o| ≤ 2 * |x| := by
    intro x hx
    have h1 := far_abs hx
    have h2 := abs_sub_abs_le_abs_sub x o
    have h3 := abs_sub x o
    constructor <;> linarith [abs_nonneg o]
  have one : 1 ≤ 2 * |o| + 1 := by linarith [abs_nonneg o]
  refine ⟨⟨4 * varOf p, 2 * |o| + 1, by positivity, one, fun n X i j hi hj => ?_⟩, ⟨varOf p / 4, 2 * |o| + 1, by positivity, one, fun n X i hi => ?_⟩⟩
  · change |kerK cfg X (.base .LIN p) i j| ≤ _
    rw [form, abs_mul, abs_mul, abs_of_pos hv, pow_one]
    have := mul_le_mul (b _ hi).2 (b _ hj).2 (abs_nonneg _) (by positivity)
    nlinarith
  · change _ ≤ kerK cfg X (.base .LIN p) i i
    rw [form, pow_one, ← abs_mul_abs_self (X i - o)]
    have := mul_le_mul (b _ hi).1 (b _ hi).1 (by positivity) (abs_nonneg _)
    nlinarith

theorem gr_base (cfg : Cfg) {b : Base} {p : PD ℝ} (hb : b.isSigmoid = false) (h : AdmPD p) : Gr sd (fun _ X => kerK cfg X (.base b p)) (rdeg sd (.base b p)) := by
  have hv : 0 < varOf p := by
    rw [varOf]
    cases hp : p.variance with
    | none => norm_num
    | some v => exact h.1 v hp
  have hl : 0 < p.lengthscale.getD 1 := by
    cases hp : p.lengthscale with
    | none => norm_num
    | some v => exact h.2.1 v hp
  by_cases e : b = .LIN
  · subst e; exact gr_lin cfg h
  · rw [rdeg, if_neg e]
    obtain ⟨B, hB⟩ := bdd_base cfg b p e
    refine ⟨⟨B, 1, (abs_nonneg _).trans (hB.1 1 (fun _ => 0) 0 0), le_rfl, fun n X i j _ _ => by rw [pow_zero, mul_one]; exact hB.1 n X i j⟩,
      ⟨varOf p, 1, hv, le_rfl, fun n X i _ => ?_⟩⟩
    rw [pow_zero, mul_one]
    cases b <;> simp_all [kerK, baseK, matK, bias, rbf, per_diag, Base.isSigmoid]

theorem entry_change_fun (cfg : Cfg) (c : CC) (p : PD ℝ) (l r : GK ℝ) : (fun (n : ℕ) (X : Fin n → ℝ) => kerK cfg X (.change c p l r)) = fun n X i j =>
    kerK cfg X l i j * (1 * (changePhi c p true (X i) * changePhi c p true (X j))) + kerK cfg X r i j * (1 * (changePhi c p false (X i) * changePhi c p false (X j))) := by
  funext n X i j; exact entry_change cfg X c p l r i j

mutual
theorem gr_of (cfg : Cfg) : ∀ g : GK ℝ, solid g = true → Adm g → Gr sd (fun _ X => kerK cfg X g) (rdeg sd g)
  | .base b p, hs, ha => gr_base cfg (by simpa [solid] using hs) ha
  | .comb .sum ps, hs, ha => by
    rw [solid, Bool.and_eq_true] at hs
    have := gr_sum cfg ps (by simpa using hs.1) hs.2 ha
    simp only [kerK, rdeg]; exact this
  | .comb .prod ps, hs, ha => by
    rw [solid, Bool.and_eq_true] at hs
    have := gr_prod cfg ps hs.2 ha
    simp only [kerK, rdeg]; exact this
  | .change .CP p l r, hs, ha => by
    rw [solid, Bool.and_eq_true] at hs
    have hl := gr_of cfg l hs.1 ha.2.1
    have hr := gr_of cfg r hs.2 ha.2.2
    simp only [entry_change_fun, rdeg]
    cases sd with
    | true => exact gr_change hl hr (wt_cp ha.1 true) (wt_cp' ha.1 true)
    | false =>
      have := gr_change hr hl (wt_cp ha.1 false) (wt_cp' ha.1 false)
      simp only [Bool.false_eq_true, if_false, max_comm (rdeg false l)]
      simpa only [add_comm, Bool.not_false] using this
  | .change .CW p l r, hs, ha => by
    rw [solid, Bool.and_eq_true] at hs
    have hl := gr_of cfg l hs.1 ha.2.1
    have hr := gr_of cfg r hs.2 ha.2.2
    have := gr_change hr hl (wt_cw ha.1 sd) (wt_cw' ha.1 sd)
    simp only [entry_change_fun, rdeg, max_comm (rdeg sd l)]
    simpa only [add_comm] using this
theorem gr_sum (cfg : Cfg) : ∀ gs : List (GK ℝ), gs ≠ [] → solidL gs = true → AdmL gs → Gr sd (fun _ X => kerSum cfg X gs) (rdegL sd .sum gs)
  | [], h, _, _ => absurd rfl h
  | [g], _, hs, ha => by
    rw [solidL, Bool.and_eq_true] at hs
    have := gr_of cfg g hs.1 ha.1
    rw [rdegL_cons, rdegL_nil, degOp_zero]
    convert this using 4
    rw [kerSum, kerSum]; funext i j; simp [Arr.add]
  | g :: h :: gs, _, hs, ha => by
    rw [solidL, Bool.and_eq_true] at hs
    have h1 := gr_of cfg g hs.1 ha.1
    have h2 := gr_sum cfg (h :: gs) (by simp) hs.2 ha.2
    rw [rdegL_cons]
    exact ⟨up_add h1.1 h2.1, lo_add h1.2 h2.2⟩
theorem gr_prod (cfg : Cfg) : ∀ gs : List (GK ℝ), solidL gs = true → AdmL gs → Gr sd (fun _ X => kerProd cfg X gs) (rdegL sd .prod gs)
  | [], _, _ => by
    rw [rdegL_nil]
    exact ⟨⟨1, 1, zero_le_one, le_rfl, fun n X i j _ _ => by simp [kerProd]⟩, ⟨1, 1, one_pos, le_rfl, fun n X i _ => by simp [kerProd]⟩⟩
  | g :: gs, hs, ha => by
    rw [solidL, Bool.and_eq_true] at hs
    have h1 := gr_of cfg g hs.1 ha.1
    have h2 := gr_prod cfg gs hs.2 ha.2
    rw [rdegL_cons]
    exact ⟨up_mul h1.1 h2.1, lo_mul h1.2 h2.2⟩
end

theorem gr_fitted {cfg : Cfg} {k : KE} {g : GK ℝ} (h : FittedTo cfg k g) (sd : Bool) : Gr sd (fun _ X => kerK cfg X g) (reach sd k) := by
  rw [← rdeg_toKernel cfg k _ h.1, rdeg_erase]
  exact gr_of cfg g (by rw [← solid_erase]; exact solid_toKernel cfg k _ h.1) h.2

/-- What has a weight fades just if it grows more slowly than the weight falls. -/
theorem fades {A : Fam} {d k : ℕ} {w : ℝ → ℝ} (hA : Gr sd A d) (hw : Wt sd w k) :
    (∀ e : ℝ, 0 < e → ∃ D, ∀ (n : ℕ) (X : Fin n → ℝ) (i j : Fin n), Far sd D (X i) → Far sd D (X j) → |A n X i j * (1 * (w (X i) * w (X j)))| ≤ e) ↔ d < k := by
  constructor
  · intro h
    by_contra hk
    obtain ⟨c, D, hc, hD, hlo⟩ := lo_wt hA.2 hw (not_lt.1 hk)
    obtain ⟨D', h⟩ := h (c / 2) (by positivity)
    set x : ℝ := if sd then max D D' else -max D D' with hx
    have hf : Far sd (max D D') x := by rw [hx, Far]; split <;> simp
    have h1 := h 1 (fun _ => x) 0 0 (far_mono (le_max_right ..) hf) (far_mono (le_max_right ..) hf)
    have h2 := hlo 1 (fun _ => x) 0 (far_mono (le_max_left ..) hf)
    have h3 : 1 ≤ |x| := (hD.trans (le_max_left ..)).trans (far_abs hf)
    have h4 : 1 ≤ (|x| * |x|) ^ (d - k) := one_le_pow₀ (by nlinarith)
    have h5 := (le_abs_self _).trans h1
    simp only at h2
    nlinarith
  · intro hk e he
    obtain ⟨B, D1, p1, q1, r1⟩ := hA.1
    obtain ⟨c, C, D2, hc, hC, q2, r2⟩ := hw
    refine ⟨max (max D1 D2) (B * C ^ 2 / e), fun n X i j hi hj => ?_⟩
    have hi1 := far_mono (le_max_left ..) hi
    have hj1 := far_mono (le_max_left ..) hj
    have a := r1 n X i j (far_mono (le_max_left ..) hi1) (far_mono (le_max_left ..) hj1)
    have xi : 1 ≤ |X i| := (q1.trans (le_max_left ..)).trans (far_abs hi1)
    have xj : 1 ≤ |X j| := (q1.trans (le_max_left ..)).trans (far_abs hj1)
    have ei : B * C ^ 2 / e ≤ |X i| := (le_max_right ..).trans (far_abs hi)
    have small : ∀ x, Far sd D2 x → 1 ≤ |x| → 0 < w x ∧ |x| ^ d * w x ≤ C / |x| := by
      intro x hx h1
      have h2 := r2 x hx
      have h3 : 0 < w x := pos_of_mul_pos_right (hc.trans_le h2.1) (by positivity)
      refine ⟨h3, ?_⟩
      rw [le_div_iff₀ (by positivity)]
      calc _ = |x| ^ (d + 1) * w x := by ring
        _ ≤ |x| ^ k * w x := mul_le_mul_of_nonneg_right (pow_le_pow_right₀ h1 hk) h3.le
        _ ≤ C := h2.2
    obtain ⟨ui, si⟩ := small _ (far_mono (le_max_right ..) hi1) xi
    obtain ⟨uj, sj⟩ := small _ (far_mono (le_max_right ..) hj1) xj
    rw [one_mul, abs_mul, abs_of_pos (mul_pos ui uj)]
    calc _ ≤ B * (|X i| * |X j|) ^ d * (w (X i) * w (X j)) := mul_le_mul_of_nonneg_right a (mul_pos ui uj).le
      _ = B * ((|X i| ^ d * w (X i)) * (|X j| ^ d * w (X j))) := by rw [mul_pow]; ring
      _ ≤ B * (C / |X i| * (C / |X j|)) := mul_le_mul_of_nonneg_left (mul_le_mul si sj (by positivity) (by positivity)) p1
      _ ≤ B * (C / |X i| * C) := by
        refine mul_le_mul_of_nonneg_left (mul_le_mul_of_nonneg_left ?_ (by positivity)) p1
        exact div_le_self hC.le xj
      _ = B * C ^ 2 / |X i| := by ring
      _ ≤ e := by
        rw [div_le_iff₀ (by positivity)]
        rw [div_le_iff₀ he] at ei
        linarith

theorem pointFirst_entry (cfg : Cfg) {n : ℕ} (X : Fin n → ℝ) (p : PD ℝ) (l : GK ℝ) (i j : Fin n) :
    kerK cfg X (pointFirst p l) i j = kerK cfg X l i j * (1 * (changePhi .CP p true (X i) * changePhi .CP p true (X j))) := by
  simp only [pointFirst, kerK, kerProd, Arr.mul, baseK, matK, basisK, varOf, sigPhi, reversed, changePhi, slopeOf, Option.getD_none, Option.getD_some, mul_one]

/-! ### Between given and far inputs -/

/-- Between inputs within `R` and far ones, grows no faster than the power `d` of the latter. -/
def Up2 (sd : Bool) (R : ℝ) (A : ∀ n m : ℕ, (Fin n → ℝ) → (Fin m → ℝ) → Fin n → Fin m → ℝ) (d : ℕ) : Prop :=
  ∃ B D : ℝ, 0 ≤ B ∧ 1 ≤ D ∧ ∀ n m X Y i j, |X i| ≤ R → Far sd D (Y j) → |A n m X Y i j| ≤ B * |Y j| ^ d

theorem up2_mono {R : ℝ} {A : ∀ n m : ℕ, (Fin n → ℝ) → (Fin m → ℝ) → Fin n → Fin m → ℝ} {d e : ℕ} (h : d ≤ e) : Up2 sd R A d → Up2 sd R A e := by
  rintro ⟨B, D, hB, hD, hA⟩
  exact ⟨B, D, hB, hD, fun n m X Y i j hi hj => (hA n m X Y i j hi hj).trans (mul_le_mul_of_nonneg_left (pow_le_pow_right₀ (hD.trans (far_abs hj)) h) hB)⟩

theorem up2_add {R : ℝ} {A B : ∀ n m : ℕ, (Fin n → ℝ) → (Fin m → ℝ) → Fin n → Fin m → ℝ} {d e : ℕ} (h1 : Up2 sd R A d) (h2 : Up2 sd R B e) :
    Up2 sd R (fun n m X Y i j => A n m X Y i j + B n m X Y i j) (max d e) := by
  obtain ⟨B1, D1, p1, q1, r1⟩ := up2_mono (le_max_left d e) h1
  obtain ⟨B2, D2, p2, q2, r2⟩ := up2_mono (le_max_right d e) h2
  refine ⟨B1 + B2, max D1 D2, by positivity, le_max_of_le_left q1, fun n m X Y i j hi hj => (abs_add_le _ _).trans ?_⟩
  rw [add_mul]
  exact add_le_add (r1 n m X Y i j hi (far_mono (le_max_left ..) hj)) (r2 n m X Y i j hi (far_mono (le_max_right ..) hj))

theorem up2_mul {R : ℝ} {A B : ∀ n m : ℕ, (Fin n → ℝ) → (Fin m → ℝ) → Fin n → Fin m → ℝ} {d e : ℕ} (h1 : Up2 sd R A d) (h2 : Up2 sd R B e) :
    Up2 sd R (fun n m X Y i j => A n m X Y i j * B n m X Y i j) (d + e) := by
  obtain ⟨B1, D1, p1, q1, r1⟩ := h1
  obtain ⟨B2, D2, p2, q2, r2⟩ := h2
  refine ⟨B1 * B2, max D1 D2, by positivity, le_max_of_le_left q1, fun n m X Y i j hi hj => ?_⟩
  have a := r1 n m X Y i j hi (far_mono (le_max_left ..) hj)
  have b := r2 n m X Y i j hi (far_mono (le_max_right ..) hj)
  rw [abs_mul, pow_add]
  calc _ ≤ _ := mul_le_mul a b (abs_nonneg _) (by positivity)
    _ = _ := by ring

theorem up2_wt {R : ℝ} {A : ∀ n m : ℕ, (Fin n → ℝ) → (Fin m → ℝ) → Fin n → Fin m → ℝ} {d k : ℕ} {w : ℝ → ℝ} (h1 : Up2 sd R A d) (h2 : Wt sd w k)
    (h0 : ∀ x, 0 ≤ w x ∧ w x ≤ 1) : Up2 sd R (fun n m X Y i j => A n m X Y i j * (1 * (w (X i) * w (Y j)))) (d - k) := by
  obtain ⟨B, D1, p1, q1, r1⟩ := h1
  obtain ⟨c, C, D2, hc, hC, q2, r2⟩ := h2
  refine ⟨B * C, max D1 D2, by positivity, le_max_of_le_left q1, fun n m X Y i j hi hj => ?_⟩
  have a := r1 n m X Y i j hi (far_mono (le_max_left ..) hj)
  have wj := r2 _ (far_mono (le_max_right ..) hj)
  have xj : 1 ≤ |Y j| := (q1.trans (le_max_left ..)).trans (far_abs hj)
  change |A n m X Y i j * (1 * (w (X i) * w (Y j)))| ≤ _
  rw [one_mul, abs_mul, abs_of_nonneg (mul_nonneg (h0 _).1 (h0 _).1)]
  have hpow : |Y j| ^ d ≤ |Y j| ^ (d - k) * |Y j| ^ k := by
    rw [← pow_add]; exact pow_le_pow_right₀ xj (by omega)
  have hw : w (X i) * w (Y j) ≤ w (Y j) := mul_le_of_le_one_left (h0 _).1 (h0 _).2
  calc _ ≤ B * |Y j| ^ d * w (Y j) := mul_le_mul a hw (mul_nonneg (h0 _).1 (h0 _).1) (by positivity)
    _ ≤ B * (|Y j| ^ (d - k) * |Y j| ^ k) * w (Y j) := mul_le_mul_of_nonneg_right (mul_le_mul_of_nonneg_left hpow p1) (h0 _).1
    _ = B * |Y j| ^ (d - k) * (|Y j| ^ k * w (Y j)) := by ring
    _ ≤ B * |Y j| ^ (d - k) * C := mul_le_mul_of_nonneg_left wj.2 (by positivity)
    _ = _ := by ring

theorem up2_lin (cfg : Cfg) (p : PD ℝ) (R : ℝ) : Up2 sd R (fun _ _ X Y => kerK2 cfg X Y (.base .LIN p)) 1 := by
  set o := if cfg.linOffset then p.offset.getD 0 else 0 with ho
  have form : ∀ (n m : ℕ) (X : Fin n → ℝ) (Y : Fin m → ℝ) i j, kerK2 cfg X Y (.base .LIN p) i j = varOf p * ((X i - o) * (Y j - o)) := by
    intro n m X Y i j
    simp only [kerK2, baseK2, ho]
    split_ifs <;> simp [matK, linearOffset, linear] <;> ring
  refine ⟨|varOf p| * ((|R| + |o|) * (1 + |o|)), 1, by positivity, le_rfl, fun n m X Y i j hi hj => ?_⟩
  change |kerK2 cfg X Y (.base .LIN p) i j| ≤ _
  have h1 := far_abs hj
  have a : |X i - o| ≤ |R| + |o| := (abs_sub _ _).trans (by linarith [le_abs_self R])
  have b : |Y j - o| ≤ (1 + |o|) * |Y j| := (abs_sub _ _).trans (by nlinarith [abs_nonneg o])
  rw [form, abs_mul, abs_mul, pow_one]
  calc _ ≤ |varOf p| * ((|R| + |o|) * ((1 + |o|) * |Y j|)) := mul_le_mul_of_nonneg_left (mul_le_mul a b (abs_nonneg _) (by positivity)) (abs_nonneg _)
    _ = _ := by ring

theorem up2_change {R : ℝ} {A B : ∀ n m : ℕ, (Fin n → ℝ) → (Fin m → ℝ) → Fin n → Fin m → ℝ} {d e k : ℕ} {w v : ℝ → ℝ} (hA : Up2 sd R A d) (hB : Up2 sd R B e)
    (hw : Wt sd w k) (hv : Wt sd v 0) (w0 : ∀ x, 0 ≤ w x ∧ w x ≤ 1) (v0 : ∀ x, 0 ≤ v x ∧ v x ≤ 1) :
    Up2 sd R (fun n m X Y i j => A n m X Y i j * (1 * (w (X i) * w (Y j))) + B n m X Y i j * (1 * (v (X i) * v (Y j)))) (max (d - k) e) :=
  up2_add (up2_wt hA hw w0) (up2_wt hB hv v0)

theorem entry_change_fun2 (cfg : Cfg) (c : CC) (p : PD ℝ) (l r : GK ℝ) : (fun (n m : ℕ) (X : Fin n → ℝ) (Y : Fin m → ℝ) => kerK2 cfg X Y (.change c p l r)) = fun n m X Y i j =>
    kerK2 cfg X Y l i j * (1 * (changePhi c p true (X i) * changePhi c p true (Y j))) +
      kerK2 cfg X Y r i j * (1 * (changePhi c p false (X i) * changePhi c p false (Y j))) := by
  funext n m X Y i j; exact entry_change2 cfg X Y c p l r i j

mutual
theorem up2_of (cfg : Cfg) (R : ℝ) : ∀ g : GK ℝ, Adm g → Up2 sd R (fun _ _ X Y => kerK2 cfg X Y g) (rdeg sd g)
  | .base b p, _ => by
    by_cases e : b = .LIN
    · subst e; exact up2_lin cfg p R
    · rw [rdeg, if_neg e]
      obtain ⟨B, hB⟩ := bdd_base cfg b p e
      exact ⟨B, 1, (abs_nonneg _).trans (hB.1 1 (fun _ => 0) 0 0), le_rfl, fun n m X Y i j _ _ => by rw [pow_zero, mul_one]; exact hB.2 n m X Y i j⟩
  | .comb .sum ps, ha => by
    have := up2_sum cfg R ps ha
    simp only [kerK2, rdeg]; exact this
  | .comb .prod ps, ha => by
    have := up2_prod cfg R ps ha
    simp only [kerK2, rdeg]; exact this
  | .change .CP p l r, ha => by
    have hl := up2_of cfg R l ha.2.1
    have hr := up2_of cfg R r ha.2.2
    simp only [entry_change_fun2, rdeg]
    cases sd with
    | true => exact up2_change hl hr (wt_cp ha.1 true) (wt_cp' ha.1 true) (phi_range .CP ha.1 _) (phi_range .CP ha.1 _)
    | false =>
      have := up2_change hr hl (wt_cp ha.1 false) (wt_cp' ha.1 false) (phi_range .CP ha.1 _) (phi_range .CP ha.1 _)
      simp only [Bool.false_eq_true, if_false, max_comm (rdeg false l)]
      simpa only [add_comm, Bool.not_false] using this
  | .change .CW p l r, ha => by
    have hl := up2_of cfg R l ha.2.1
    have hr := up2_of cfg R r ha.2.2
    have := up2_change hr hl (wt_cw ha.1 sd) (wt_cw' ha.1 sd) (phi_range .CW ha.1 _) (phi_range .CW ha.1 _)
    simp only [entry_change_fun2, rdeg, max_comm (rdeg sd l)]
    simpa only [add_comm] using this
theorem up2_sum (cfg : Cfg) (R : ℝ) : ∀ gs : List (GK ℝ), AdmL gs → Up2 sd R (fun _ _ X Y => kerSum2 cfg X Y gs) (rdegL sd .sum gs)
  | [], _ => ⟨0, 1, le_rfl, le_rfl, fun n m X Y i j _ _ => by simp [kerSum2]⟩
  | g :: gs, ha => by
    have h1 := up2_of cfg R g ha.1
    have h2 := up2_sum cfg R gs ha.2
    rw [rdegL_cons]
    simp only [kerSum2]
    exact up2_add h1 h2
theorem up2_prod (cfg : Cfg) (R : ℝ) : ∀ gs : List (GK ℝ), AdmL gs → Up2 sd R (fun _ _ X Y => kerProd2 cfg X Y gs) (rdegL sd .prod gs)
  | [], _ => by
    rw [rdegL_nil]
    exact ⟨1, 1, zero_le_one, le_rfl, fun n m X Y i j _ _ => by simp [kerProd2]⟩
  | g :: gs, ha => by
    have h1 := up2_of cfg R g ha.1
    have h2 := up2_prod cfg R gs ha.2
    rw [rdegL_cons]
    simp only [kerProd2]
    exact up2_mul h1 h2
end

theorem up2_fitted {cfg : Cfg} {k : KE} {g : GK ℝ} (h : FittedTo cfg k g) (sd : Bool) (R : ℝ) : Up2 sd R (fun _ _ X Y => kerK2 cfg X Y g) (reach sd k) := by
  rw [← rdeg_toKernel cfg k _ h.1, rdeg_erase]
  exact up2_of cfg R g h.2

end Reach
end GPyABCD
