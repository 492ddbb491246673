import Verif.Spec.Units
import Verif.Lemmas.KernelFam

/-!
# Lemmas: order, origin and units of the data
-/

namespace GPyABCD
namespace Units
open Kern Params Sops KE Print

/-! ## Order -/

mutual
theorem kerK_perm (cfg : Cfg) {n m : ℕ} (X : Fin n → ℝ) (σ : Fin m → Fin n) (hσ : Function.Injective σ) :
    ∀ (g : GK ℝ) (i j : Fin m), kerK cfg (X ∘ σ) g i j = kerK cfg X g (σ i) (σ j)
  | .base b p, i, j => by
    rw [kerK, kerK]
    cases b <;> simp only [baseK]
    case WN => simp only [hσ.eq_iff]
    case LIN => split_ifs <;> rfl
    all_goals rfl
  | .comb .sum ps, i, j => by rw [kerK, kerK]; exact (kerL_perm cfg X σ hσ ps i j).1
  | .comb .prod ps, i, j => by rw [kerK, kerK]; exact (kerL_perm cfg X σ hσ ps i j).2
  | .change c p l r, i, j => by
    simp only [kerK, Arr.add, Arr.mul, kerK_perm cfg X σ hσ l i j, kerK_perm cfg X σ hσ r i j, changeSig, matK, Function.comp]
theorem kerL_perm (cfg : Cfg) {n m : ℕ} (X : Fin n → ℝ) (σ : Fin m → Fin n) (hσ : Function.Injective σ) :
    ∀ (gs : List (GK ℝ)) (i j : Fin m), kerSum cfg (X ∘ σ) gs i j = kerSum cfg X gs (σ i) (σ j) ∧
      kerProd cfg (X ∘ σ) gs i j = kerProd cfg X gs (σ i) (σ j)
  | [], _, _ => ⟨rfl, rfl⟩
  | g :: gs, i, j => by
    simp only [kerSum, kerProd, Arr.add, Arr.mul, kerK_perm cfg X σ hσ g i j, kerL_perm cfg X σ hσ gs i j, and_self]
end

mutual
theorem kerK2_perm (cfg : Cfg) {n m n' m' : ℕ} (X : Fin n → ℝ) (Y : Fin m → ℝ) (σ : Fin n' → Fin n) (τ : Fin m' → Fin m) :
    ∀ (g : GK ℝ) (i : Fin n') (j : Fin m'), kerK2 cfg (X ∘ σ) (Y ∘ τ) g i j = kerK2 cfg X Y g (σ i) (τ j)
  | .base b p, i, j => by
    rw [kerK2, kerK2]
    cases b <;> simp only [baseK2]
    case LIN => split_ifs <;> rfl
    all_goals rfl
  | .comb .sum ps, i, j => by rw [kerK2, kerK2]; exact (kerL2_perm cfg X Y σ τ ps i j).1
  | .comb .prod ps, i, j => by rw [kerK2, kerK2]; exact (kerL2_perm cfg X Y σ τ ps i j).2
  | .change c p l r, i, j => by
    simp only [kerK2, kerK2_perm cfg X Y σ τ l i j, kerK2_perm cfg X Y σ τ r i j, changeSig2, matK, Function.comp]
theorem kerL2_perm (cfg : Cfg) {n m n' m' : ℕ} (X : Fin n → ℝ) (Y : Fin m → ℝ) (σ : Fin n' → Fin n) (τ : Fin m' → Fin m) :
    ∀ (gs : List (GK ℝ)) (i : Fin n') (j : Fin m'), kerSum2 cfg (X ∘ σ) (Y ∘ τ) gs i j = kerSum2 cfg X Y gs (σ i) (τ j) ∧
      kerProd2 cfg (X ∘ σ) (Y ∘ τ) gs i j = kerProd2 cfg X Y gs (σ i) (τ j)
  | [], _, _ => ⟨rfl, rfl⟩
  | g :: gs, i, j => by
    simp only [kerSum2, kerProd2, kerK2_perm cfg X Y σ τ g i j, kerL2_perm cfg X Y σ τ gs i j, and_self]
end

mutual
theorem kerDiag_perm (cfg : Cfg) {m m' : ℕ} (Y : Fin m → ℝ) (τ : Fin m' → Fin m) :
    ∀ (g : GK ℝ) (i : Fin m'), kerDiag cfg (Y ∘ τ) g i = kerDiag cfg Y g (τ i)
  | .base b p, i => by
    rw [kerDiag, kerDiag]
    cases b <;> simp only [baseKdiag]
    case LIN => split_ifs <;> rfl
    all_goals rfl
  | .comb .sum ps, i => by rw [kerDiag, kerDiag]; exact (diagL_perm cfg Y τ ps i).1
  | .comb .prod ps, i => by rw [kerDiag, kerDiag]; exact (diagL_perm cfg Y τ ps i).2
  | .change c p l r, i => by
    simp only [kerDiag, changeKdiag, kerDiag_perm cfg Y τ l i, kerDiag_perm cfg Y τ r i, Function.comp]
theorem diagL_perm (cfg : Cfg) {m m' : ℕ} (Y : Fin m → ℝ) (τ : Fin m' → Fin m) :
    ∀ (gs : List (GK ℝ)) (i : Fin m'), diagSum cfg (Y ∘ τ) gs i = diagSum cfg Y gs (τ i) ∧ diagProd cfg (Y ∘ τ) gs i = diagProd cfg Y gs (τ i)
  | [], _ => ⟨rfl, rfl⟩
  | g :: gs, i => by simp only [diagSum, diagProd, kerDiag_perm cfg Y τ g i, diagL_perm cfg Y τ gs i, and_self]
end

theorem covY_perm (cfg : Cfg) {n : ℕ} (X : Fin n → ℝ) (σ : Equiv.Perm (Fin n)) (g : GK ℝ) (noise : ℝ) :
    covY cfg (X ∘ σ) g noise = (covY cfg X g noise).submatrix σ σ := by
  ext i j
  simp only [covY, Matrix.add_apply, Matrix.of_apply, Matrix.smul_apply, Matrix.one_apply, Matrix.submatrix_apply, kerK_perm cfg X σ σ.injective,
    σ.injective.eq_iff]

/-! ## Moving and scaling -/

/-- At moved inputs the second kernel has `e` times the covariances of the first. -/
def Rel (cfg : Cfg) (φ : ℝ → ℝ) (e : ℝ) (g g' : GK ℝ) : Prop :=
  (∀ (n : ℕ) (X : Fin n → ℝ) (i j : Fin n), kerK cfg (φ ∘ X) g' i j = e * kerK cfg X g i j) ∧
  (∀ (n m : ℕ) (X : Fin n → ℝ) (Y : Fin m → ℝ) (i : Fin n) (j : Fin m), kerK2 cfg (φ ∘ X) (φ ∘ Y) g' i j = e * kerK2 cfg X Y g i j) ∧
  ∀ (n : ℕ) (X : Fin n → ℝ) (i : Fin n), kerDiag cfg (φ ∘ X) g' i = e * kerDiag cfg X g i

/-- The same of sums. -/
def RelS (cfg : Cfg) (φ : ℝ → ℝ) (e : ℝ) (g g' : List (GK ℝ)) : Prop :=
  (∀ (n : ℕ) (X : Fin n → ℝ) (i j : Fin n), kerSum cfg (φ ∘ X) g' i j = e * kerSum cfg X g i j) ∧
  (∀ (n m : ℕ) (X : Fin n → ℝ) (Y : Fin m → ℝ) (i : Fin n) (j : Fin m), kerSum2 cfg (φ ∘ X) (φ ∘ Y) g' i j = e * kerSum2 cfg X Y g i j) ∧
  ∀ (n : ℕ) (X : Fin n → ℝ) (i : Fin n), diagSum cfg (φ ∘ X) g' i = e * diagSum cfg X g i

/-- The same of products. -/
def RelP (cfg : Cfg) (φ : ℝ → ℝ) (e : ℝ) (g g' : List (GK ℝ)) : Prop :=
  (∀ (n : ℕ) (X : Fin n → ℝ) (i j : Fin n), kerProd cfg (φ ∘ X) g' i j = e * kerProd cfg X g i j) ∧
  (∀ (n m : ℕ) (X : Fin n → ℝ) (Y : Fin m → ℝ) (i : Fin n) (j : Fin m), kerProd2 cfg (φ ∘ X) (φ ∘ Y) g' i j = e * kerProd2 cfg X Y g i j) ∧
  ∀ (n : ℕ) (X : Fin n → ℝ) (i : Fin n), diagProd cfg (φ ∘ X) g' i = e * diagProd cfg X g i

theorem relS_nil (cfg : Cfg) (φ : ℝ → ℝ) (e : ℝ) : RelS cfg φ e [] [] := by
  refine ⟨fun _ _ _ _ => ?_, fun _ _ _ _ _ _ => ?_, fun _ _ _ => ?_⟩ <;> simp [kerSum, kerSum2, diagSum]

theorem relP_nil (cfg : Cfg) (φ : ℝ → ℝ) : RelP cfg φ 1 [] [] := by
  refine ⟨fun _ _ _ _ => ?_, fun _ _ _ _ _ _ => ?_, fun _ _ _ => ?_⟩ <;> simp [kerProd, kerProd2, diagProd]

theorem relS_cons {cfg : Cfg} {φ : ℝ → ℝ} {e : ℝ} {k k' : GK ℝ} {ks ks' : List (GK ℝ)} (h : Rel cfg φ e k k') (hs : RelS cfg φ e ks ks') :
    RelS cfg φ e (k :: ks) (k' :: ks') := by
  refine ⟨fun n X i j => ?_, fun n m X Y i j => ?_, fun n X i => ?_⟩
  · simp only [kerSum, Arr.add, h.1, hs.1, mul_add]
  · simp only [kerSum2, h.2.1, hs.2.1, mul_add]
  · simp only [diagSum, h.2.2, hs.2.2, mul_add]

theorem relP_cons {cfg : Cfg} {φ : ℝ → ℝ} {e f : ℝ} {k k' : GK ℝ} {ks ks' : List (GK ℝ)} (h : Rel cfg φ e k k') (hs : RelP cfg φ f ks ks') :
    RelP cfg φ (e * f) (k :: ks) (k' :: ks') := by
  refine ⟨fun n X i j => ?_, fun n m X Y i j => ?_, fun n X i => ?_⟩
  · simp only [kerProd, Arr.mul, h.1, hs.1]; ring
  · simp only [kerProd2, h.2.1, hs.2.1]; ring
  · simp only [diagProd, h.2.2, hs.2.2]; ring

theorem rel_sum {cfg : Cfg} {φ : ℝ → ℝ} {e : ℝ} {ks ks' : List (GK ℝ)} (h : RelS cfg φ e ks ks') : Rel cfg φ e (.comb .sum ks) (.comb .sum ks') := by
  simp only [Rel, kerK, kerK2, kerDiag]; exact h

theorem rel_prod {cfg : Cfg} {φ : ℝ → ℝ} {e : ℝ} {ks ks' : List (GK ℝ)} (h : RelP cfg φ e ks ks') : Rel cfg φ e (.comb .prod ks) (.comb .prod ks') := by
  simp only [Rel, kerK, kerK2, kerDiag]; exact h

theorem rel_change {cfg : Cfg} {φ : ℝ → ℝ} {e : ℝ} {l l' r r' : GK ℝ} (c : CC) {p p' : PD ℝ} (hp : ∀ rev x, changePhi c p' rev (φ x) = changePhi c p rev x)
    (hl : Rel cfg φ e l l') (hr : Rel cfg φ e r r') : Rel cfg φ e (.change c p l r) (.change c p' l' r') := by
  refine ⟨fun n X i j => ?_, fun n m X Y i j => ?_, fun n X i => ?_⟩
  · simp only [kerK, Arr.add, Arr.mul, hl.1, hr.1, changeSig, matK, basisK, Function.comp, hp]; ring
  · simp only [kerK2, hl.2.1, hr.2.1, changeSig2, matK, basisK, Function.comp, hp]; ring
  · simp only [kerDiag, changeKdiag, hl.2.2, hr.2.2, Function.comp, hp]; ring

theorem rel_trans {cfg : Cfg} {φ : ℝ → ℝ} {e t : ℝ} {g g' g'' : GK ℝ} (h : Rel cfg φ e g g') (h' : Rel cfg id t g' g'') : Rel cfg φ (t * e) g g'' := by
  refine ⟨fun n X i j => ?_, fun n m X Y i j => ?_, fun n X i => ?_⟩
  · have := h'.1 n (φ ∘ X) i j
    rw [Function.id_comp] at this
    rw [this, h.1, mul_assoc]
  · have := h'.2.1 n m (φ ∘ X) (φ ∘ Y) i j
    rw [Function.id_comp, Function.id_comp] at this
    rw [this, h.2.1, mul_assoc]
  · have := h'.2.2 n (φ ∘ X) i
    rw [Function.id_comp] at this
    rw [this, h.2.2, mul_assoc]

theorem noVar_offset {p : PD ℝ} {q : PD Unit} (h : (mapPD (fun _ => ()) p).noVar = q.noVar) (hq : q.offset = some ()) : ∃ v, p.offset = some v := by
  have := congrArg PD.offset h
  simp only [PD.noVar, mapPD, hq] at this
  cases e : p.offset with
  | none => simp [e] at this
  | some v => exact ⟨v, rfl⟩

theorem noVar_lengthscale {p : PD ℝ} {q : PD Unit} (h : (mapPD (fun _ => ()) p).noVar = q.noVar) (hq : q.lengthscale = some ()) :
    ∃ v, p.lengthscale = some v := by
  have := congrArg PD.lengthscale h
  simp only [PD.noVar, mapPD, hq] at this
  cases e : p.lengthscale with
  | none => simp [e] at this
  | some v => exact ⟨v, rfl⟩

theorem noVar_period {p : PD ℝ} {q : PD Unit} (h : (mapPD (fun _ => ()) p).noVar = q.noVar) (hq : q.period = some ()) : ∃ v, p.period = some v := by
  have := congrArg PD.period h
  simp only [PD.noVar, mapPD, hq] at this
  cases e : p.period with
  | none => simp [e] at this
  | some v => exact ⟨v, rfl⟩

theorem some_of_unit {o : Option ℝ} (h : o.map (fun _ => ()) = some ()) : ∃ v, o = some v := by
  cases o with
  | none => simp at h
  | some v => exact ⟨v, rfl⟩

/-! ### Origin of the inputs -/

theorem shift_base (cfg : Cfg) (hc : cfg.linOffset = true) (c : ℝ) (b : Base) (p : PD ℝ) (h : Std cfg (erase (.base b p))) :
    ∃ g', erase g' = erase (.base b p) ∧ (Adm (.base b p) → Adm g') ∧ Rel cfg (· + c) 1 (.base b p) g' := by
  rw [erase, Std] at h
  obtain ⟨hs, hn⟩ := h
  refine ⟨.base b { p with offset := p.offset.map (· + c) }, ?_, fun h => h, ?_⟩
  · simp only [erase, mapPD, Option.map_map, Function.comp_def]
  · cases b <;> simp [Base.isSigmoid] at hs
    case LIN =>
      obtain ⟨o, ho⟩ := noVar_offset hn (by simp [linked, basePars, hc, Par.put])
      refine ⟨fun n X i j => ?_, fun n m X Y i j => ?_, fun n X i => ?_⟩ <;>
        simp [kerK, kerK2, kerDiag, baseK, baseK2, baseKdiag, hc, ho, matK, linearOffset, linearOffsetKdiag, varOf]
    all_goals
      refine ⟨fun n X i j => ?_, fun n m X Y i j => ?_, fun n X i => ?_⟩ <;>
        simp [kerK, kerK2, kerDiag, baseK, baseK2, baseKdiag, matK, bias, rbf, per, perKdiag, varOf]

theorem shift_change (cfg : Cfg) (c : ℝ) (d : CC) (p : PD ℝ) (h : mapPD (fun _ => ()) p = linked (changePars cfg d)) (rev : Bool) (x : ℝ) :
    changePhi d { p with location := p.location.map (· + c) } rev (x + c) = changePhi d p rev x := by
  have hl : ∃ l, p.location = some l := by
    have := congrArg PD.location h
    refine some_of_unit (this.trans ?_)
    cases d <;> cases hf : cfg.fixSlope <;> simp [changePars, hf, linked, Par.put]
  obtain ⟨l, hl⟩ := hl
  cases d <;> simp [changePhi, hl, phiS, phiSI]

mutual
theorem shift_ex (cfg : Cfg) (hc : cfg.linOffset = true) (c : ℝ) : ∀ g : GK ℝ, Std cfg (erase g) →
    ∃ g', erase g' = erase g ∧ (Adm g → Adm g') ∧ Rel cfg (· + c) 1 g g'
  | .base b p, h => shift_base cfg hc c b p h
  | .comb op ps, h => by
    rw [erase, Std] at h
    obtain ⟨ps', h1, h2, h3, h4⟩ := shift_exL cfg hc c ps h
    refine ⟨.comb op ps', by simp only [erase, h1], by simpa only [Adm] using h2, ?_⟩
    cases op
    · exact rel_sum h3
    · exact rel_prod h4
  | .change d p l r, h => by
    rw [erase, Std] at h
    obtain ⟨hp, hl, hr⟩ := h
    obtain ⟨l', l1, l2, l3⟩ := shift_ex cfg hc c l hl
    obtain ⟨r', r1, r2, r3⟩ := shift_ex cfg hc c r hr
    refine ⟨.change d { p with location := p.location.map (· + c) } l' r', ?_, ?_, rel_change d (shift_change cfg c d p hp) l3 r3⟩
    · simp only [erase, mapPD, Option.map_map, Function.comp_def, l1, r1]
    · simp only [Adm]
      exact fun h => ⟨h.1, l2 h.2.1, r2 h.2.2⟩
theorem shift_exL (cfg : Cfg) (hc : cfg.linOffset = true) (c : ℝ) : ∀ gs : List (GK ℝ), StdL cfg (eraseL gs) →
    ∃ gs', eraseL gs' = eraseL gs ∧ (AdmL gs → AdmL gs') ∧ RelS cfg (· + c) 1 gs gs' ∧ RelP cfg (· + c) 1 gs gs'
  | [], _ => ⟨[], rfl, fun h => h, relS_nil .., relP_nil ..⟩
  | g :: gs, h => by
    rw [eraseL, StdL] at h
    obtain ⟨g', a1, a2, a3⟩ := shift_ex cfg hc c g h.1
    obtain ⟨gs', b1, b2, b3, b4⟩ := shift_exL cfg hc c gs h.2
    refine ⟨g' :: gs', by simp only [eraseL, a1, b1], ?_, relS_cons a3 b3, ?_⟩
    · simp only [AdmL]; exact fun h => ⟨a2 h.1, b2 h.2⟩
    · have := relP_cons a3 b4
      rwa [one_mul] at this
end

/-! ### Unit of the outputs -/

mutual
/-- There is a variance to scale the kernel with. -/
def sc {α : Type} : GK α → Bool
  | .base _ p => p.variance.isSome
  | .comb .sum ps => scAll ps
  | .comb .prod ps => scAny ps
  | .change _ _ l r => sc l && sc r
/-- All of them. -/
def scAll {α : Type} : List (GK α) → Bool
  | [] => true
  | k :: ks => sc k && scAll ks
/-- One of them. -/
def scAny {α : Type} : List (GK α) → Bool
  | [] => false
  | k :: ks => sc k || scAny ks
end

mutual
theorem sc_erase {α : Type} : ∀ g : GK α, sc (erase g) = sc g
  | .base _ p => by simp [erase, sc, mapPD]
  | .comb .sum ps => by rw [erase, sc, sc, (sc_eraseL ps).1]
  | .comb .prod ps => by rw [erase, sc, sc, (sc_eraseL ps).2]
  | .change _ _ l r => by rw [erase, sc, sc, sc_erase l, sc_erase r]
theorem sc_eraseL {α : Type} : ∀ gs : List (GK α), scAll (eraseL gs) = scAll gs ∧ scAny (eraseL gs) = scAny gs
  | [] => ⟨rfl, rfl⟩
  | g :: gs => by simp only [eraseL, scAll, scAny, sc_erase g, sc_eraseL gs, and_self]
end

theorem rel_refl (cfg : Cfg) (g : GK ℝ) : Rel cfg id 1 g g := by
  refine ⟨fun _ _ _ _ => ?_, fun _ _ _ _ _ _ => ?_, fun _ _ _ => ?_⟩ <;> simp

theorem relP_refl (cfg : Cfg) (gs : List (GK ℝ)) : RelP cfg id 1 gs gs := by
  refine ⟨fun _ _ _ _ => ?_, fun _ _ _ _ _ _ => ?_, fun _ _ _ => ?_⟩ <;> simp

mutual
theorem scale_ex (cfg : Cfg) {t : ℝ} (ht : 0 < t) : ∀ g : GK ℝ, sc g = true → ∃ g', erase g' = erase g ∧ (Adm g → Adm g') ∧ Rel cfg id t g g'
  | .base b p, h => by
    rw [sc, Option.isSome_iff_exists] at h
    obtain ⟨v, hv⟩ := h
    refine ⟨.base b { p with variance := some (t * v) }, by simp [erase, mapPD, hv], ?_, ?_⟩
    · simp only [Adm, AdmPD, hv, Option.mem_some_iff, forall_eq']
      exact fun h => ⟨mul_pos ht h.1, h.2⟩
    · have hsig : ∀ b, sigPhi b { p with variance := some (t * v) } = sigPhi b p := fun b => by cases b <;> rfl
      refine ⟨fun n X i j => ?_, fun n m X Y i j => ?_, fun n X i => ?_⟩
      · cases b <;> simp only [kerK, baseK, varOf, hv, Option.getD_some, Function.id_comp, matK, bias, rbf, per, basisK]
        case WN => split_ifs <;> simp
        case LIN => split_ifs <;> simp only [matK, linearOffset, linear] <;> ring1
        all_goals first | (simp only [hsig]; ring1) | ring1
      · cases b <;> simp only [kerK2, baseK2, varOf, hv, Option.getD_some, Function.id_comp, matK, bias, rbf, per, basisK]
        case LIN => split_ifs <;> simp only [matK, linearOffset, linear] <;> ring1
        all_goals first | (simp only [hsig]; ring1) | ring1
      · cases b <;> simp only [kerDiag, baseKdiag, varOf, hv, Option.getD_some, Function.id_comp, perKdiag]
        case LIN => split_ifs <;> (first | simp only [linearOffsetKdiag] | simp only [linearKdiag]) <;> ring1
        all_goals first | (simp only [hsig]; ring1) | ring1
  | .comb .sum ps, h => by
    rw [sc] at h
    obtain ⟨ps', h1, h2, h3⟩ := scale_all cfg ht ps h
    exact ⟨.comb .sum ps', by simp only [erase, h1], by simpa only [Adm] using h2, rel_sum h3⟩
  | .comb .prod ps, h => by
    rw [sc] at h
    obtain ⟨ps', h1, h2, h3⟩ := scale_any cfg ht ps h
    exact ⟨.comb .prod ps', by simp only [erase, h1], by simpa only [Adm] using h2, rel_prod h3⟩
  | .change d p l r, h => by
    rw [sc, Bool.and_eq_true] at h
    obtain ⟨l', l1, l2, l3⟩ := scale_ex cfg ht l h.1
    obtain ⟨r', r1, r2, r3⟩ := scale_ex cfg ht r h.2
    refine ⟨.change d p l' r', by simp only [erase, l1, r1], ?_, rel_change d (fun _ _ => rfl) l3 r3⟩
    simp only [Adm]
    exact fun h => ⟨h.1, l2 h.2.1, r2 h.2.2⟩
theorem scale_all (cfg : Cfg) {t : ℝ} (ht : 0 < t) : ∀ gs : List (GK ℝ), scAll gs = true →
    ∃ gs', eraseL gs' = eraseL gs ∧ (AdmL gs → AdmL gs') ∧ RelS cfg id t gs gs'
  | [], _ => ⟨[], rfl, fun h => h, relS_nil ..⟩
  | g :: gs, h => by
    rw [scAll, Bool.and_eq_true] at h
    obtain ⟨g', a1, a2, a3⟩ := scale_ex cfg ht g h.1
    obtain ⟨gs', b1, b2, b3⟩ := scale_all cfg ht gs h.2
    refine ⟨g' :: gs', by simp only [eraseL, a1, b1], ?_, relS_cons a3 b3⟩
    simp only [AdmL]; exact fun h => ⟨a2 h.1, b2 h.2⟩
theorem scale_any (cfg : Cfg) {t : ℝ} (ht : 0 < t) : ∀ gs : List (GK ℝ), scAny gs = true →
    ∃ gs', eraseL gs' = eraseL gs ∧ (AdmL gs → AdmL gs') ∧ RelP cfg id t gs gs'
  | [], h => by simp [scAny] at h
  | g :: gs, h => by
    by_cases hg : sc g = true
    · obtain ⟨g', a1, a2, a3⟩ := scale_ex cfg ht g hg
      refine ⟨g' :: gs, by simp only [eraseL, a1], ?_, ?_⟩
      · simp only [AdmL]; exact fun h => ⟨a2 h.1, h.2⟩
      · have := relP_cons a3 (relP_refl cfg gs)
        rwa [mul_one] at this
    · have h' : scAny gs = true := by simpa [scAny, hg] using h
      obtain ⟨gs', b1, b2, b3⟩ := scale_any cfg ht gs h'
      refine ⟨g :: gs', by simp only [eraseL, b1], ?_, ?_⟩
      · simp only [AdmL]; exact fun h => ⟨h.1, b2 h.2⟩
      · have := relP_cons (rel_refl cfg g) b3
        rwa [one_mul] at this
end

/-! ### Unit of the inputs -/

mutual
/-- Sums and change kernels have terms and branches that can be scaled. -/
def good {α : Type} : GK α → Bool
  | .base _ _ => true
  | .comb .sum ps => goodL ps && scAll ps
  | .comb .prod ps => goodL ps
  | .change _ _ l r => good l && good r && (sc l && sc r)
/-- Over a list. -/
def goodL {α : Type} : List (GK α) → Bool
  | [] => true
  | k :: ks => good k && goodL ks
end

mutual
theorem good_erase {α : Type} : ∀ g : GK α, good (erase g) = good g
  | .base _ p => rfl
  | .comb .sum ps => by rw [erase, good, good, good_eraseL ps, (sc_eraseL ps).1]
  | .comb .prod ps => by rw [erase, good, good, good_eraseL ps]
  | .change _ _ l r => by rw [erase, good, good, good_erase l, good_erase r, sc_erase l, sc_erase r]
theorem good_eraseL {α : Type} : ∀ gs : List (GK α), goodL (eraseL gs) = goodL gs
  | [] => rfl
  | g :: gs => by simp only [eraseL, goodL, good_erase g, good_eraseL gs]
end

mutual
/-- No change kernels in a kernel. -/
def nc {α : Type} : GK α → Bool
  | .base _ _ => true
  | .comb _ ps => ncL ps
  | .change _ _ _ _ => false
/-- Over a list. -/
def ncL {α : Type} : List (GK α) → Bool
  | [] => true
  | k :: ks => nc k && ncL ks
end

mutual
theorem nc_erase {α : Type} : ∀ g : GK α, nc (erase g) = nc g
  | .base _ p => rfl
  | .comb _ ps => by rw [erase, nc, nc, nc_eraseL ps]
  | .change .. => rfl
theorem nc_eraseL {α : Type} : ∀ gs : List (GK α), ncL (eraseL gs) = ncL gs
  | [] => rfl
  | g :: gs => by simp only [eraseL, ncL, nc_erase g, nc_eraseL gs]
end

theorem units_base (cfg : Cfg) {s : ℝ} (hs0 : 0 < s) (b : Base) (p : PD ℝ) (h : Std cfg (erase (.base b p))) :
    ∃ e, 0 < e ∧ ∃ g', erase g' = erase (.base b p) ∧ (Adm (.base b p) → Adm g') ∧ Rel cfg (s * ·) e (.base b p) g' := by
  rw [erase, Std] at h
  obtain ⟨hs, hn⟩ := h
  have hs1 : s ≠ 0 := hs0.ne'
  cases b <;> simp [Base.isSigmoid] at hs
  case LIN =>
    refine ⟨s ^ 2, by positivity, .base .LIN { p with offset := p.offset.map (s * ·) }, ?_, fun h => h, ?_⟩
    · simp only [erase, mapPD, Option.map_map, Function.comp_def]
    · cases hc : cfg.linOffset
      · refine ⟨fun n X i j => ?_, fun n m X Y i j => ?_, fun n X i => ?_⟩ <;>
          simp [kerK, kerK2, kerDiag, baseK, baseK2, baseKdiag, hc, matK, linear, linearKdiag, varOf] <;> ring
      · obtain ⟨o, ho⟩ := noVar_offset hn (by simp [linked, basePars, hc, Par.put])
        refine ⟨fun n X i j => ?_, fun n m X Y i j => ?_, fun n X i => ?_⟩ <;>
          simp [kerK, kerK2, kerDiag, baseK, baseK2, baseKdiag, hc, ho, matK, linearOffset, linearOffsetKdiag, varOf] <;> ring
  case SE =>
    obtain ⟨l, hl⟩ := noVar_lengthscale hn (by simp [linked, basePars, Par.put])
    refine ⟨1, one_pos, .base .SE { p with lengthscale := some (s * l) }, by simp [erase, mapPD, hl], ?_, ?_⟩
    · simp only [Adm, AdmPD, hl, Option.mem_some_iff, forall_eq']
      exact fun h => ⟨h.1, mul_pos hs0 h.2.1, h.2.2⟩
    · have e : ∀ x y : ℝ, (s * x - s * y) / (s * l) = (x - y) / l := fun x y => by rw [← mul_sub, mul_div_mul_left _ _ hs1]
      refine ⟨fun n X i j => ?_, fun n m X Y i j => ?_, fun n X i => ?_⟩ <;>
        simp [kerK, kerK2, kerDiag, baseK, baseK2, baseKdiag, matK, rbf, varOf, hl, e]
  case PER =>
    obtain ⟨l, hl⟩ := noVar_period hn (by simp [linked, basePars, Par.put])
    refine ⟨1, one_pos, .base .PER { p with period := some (s * l) }, by simp [erase, mapPD, hl], ?_, ?_⟩
    · simp only [Adm, AdmPD, hl, Option.mem_some_iff, forall_eq']
      exact fun h => ⟨h.1, h.2.1, mul_pos hs0 h.2.2.1, h.2.2.2⟩
    · have e : ∀ x y : ℝ, 2 * Real.pi / (s * l) * (s * x - s * y) = 2 * Real.pi / l * (x - y) := fun x y => by
        rw [← mul_sub]
        by_cases h0 : l = 0
        · simp [h0]
        · field_simp
      refine ⟨fun n X i j => ?_, fun n m X Y i j => ?_, fun n X i => ?_⟩ <;>
        simp [kerK, kerK2, kerDiag, baseK, baseK2, baseKdiag, matK, per, perKdiag, varOf, hl, e]
  all_goals
    refine ⟨1, one_pos, _, rfl, fun h => h, ?_⟩
    refine ⟨fun n X i j => ?_, fun n m X Y i j => ?_, fun n X i => ?_⟩ <;>
      simp [kerK, kerK2, kerDiag, baseK, baseK2, baseKdiag, matK, bias, varOf]

/-- Change kernels in other units. -/
def unitsPD (s : ℝ) (p : PD ℝ) : PD ℝ := { p with location := p.location.map (s * ·), slope := p.slope.map (s * ·), width := p.width.map (s * ·) }

theorem units_change (cfg : Cfg) (hf : cfg.fixSlope = false) {s : ℝ} (hs0 : 0 < s) (d : CC) (p : PD ℝ)
    (h : mapPD (fun _ => ()) p = linked (changePars cfg d)) (rev : Bool) (x : ℝ) : changePhi d (unitsPD s p) rev (s * x) = changePhi d p rev x := by
  have hs1 : s ≠ 0 := hs0.ne'
  obtain ⟨l, hl⟩ : ∃ l, p.location = some l := by
    have := congrArg PD.location h
    refine some_of_unit (this.trans ?_)
    cases d <;> simp [changePars, hf, linked, Par.put]
  obtain ⟨t, ht⟩ : ∃ l, p.slope = some l := by
    have := congrArg PD.slope h
    refine some_of_unit (this.trans ?_)
    cases d <;> simp [changePars, hf, linked, Par.put]
  have e1 : (s * x - s * l) / (s * t) = (x - l) / t := by rw [← mul_sub, mul_div_mul_left _ _ hs1]
  cases d
  · simp only [changePhi, unitsPD, hl, ht, Option.map_some, Option.getD_some, phiS, e1]
  · obtain ⟨w, hw⟩ : ∃ l, p.width = some l := by
      have := congrArg PD.width h
      refine some_of_unit (this.trans ?_)
      simp [changePars, hf, linked, Par.put]
    have e2 : (s * x - s * l - s * w) / (-(s * t)) = (x - l - w) / (-t) := by
      rw [← mul_sub, ← mul_sub, ← mul_neg, mul_div_mul_left _ _ hs1]
    have e3 : s * w / (2 * (s * t)) = w / (2 * t) := by rw [mul_left_comm, mul_div_mul_left _ _ hs1]
    simp only [changePhi, unitsPD, hl, ht, hw, Option.map_some, Option.getD_some, phiSI, e1, e2, e3]

theorem norm_one {cfg : Cfg} {φ : ℝ → ℝ} {g : GK ℝ} (h : ∃ e, 0 < e ∧ ∃ g', erase g' = erase g ∧ (Adm g → Adm g') ∧ Rel cfg φ e g g') (hc : sc g = true) :
    ∃ g', erase g' = erase g ∧ (Adm g → Adm g') ∧ Rel cfg φ 1 g g' := by
  obtain ⟨e, he, g', h1, h2, h3⟩ := h
  obtain ⟨g'', q1, q2, q3⟩ := scale_ex cfg (inv_pos.2 he) g' (by rw [← sc_erase, h1, sc_erase]; exact hc)
  refine ⟨g'', q1.trans h1, fun h => q2 (h2 h), ?_⟩
  have := rel_trans h3 q3
  rwa [inv_mul_cancel₀ he.ne'] at this

mutual
theorem units_ex (cfg : Cfg) {s : ℝ} (hs : 0 < s) : ∀ g : GK ℝ, cfg.fixSlope = false ∨ nc g = true → Std cfg (erase g) → good g = true →
    ∃ e, 0 < e ∧ ∃ g', erase g' = erase g ∧ (Adm g → Adm g') ∧ Rel cfg (s * ·) e g g'
  | .base b p, _, h, _ => units_base cfg hs b p h
  | .comb .sum ps, hf, h, hg => by
    rw [erase, Std] at h
    rw [good, Bool.and_eq_true] at hg
    obtain ⟨ps', h1, h2, h3⟩ := units_all cfg hs ps (by simpa [nc] using hf) h hg.1 hg.2
    exact ⟨1, one_pos, .comb .sum ps', by simp only [erase, h1], by simpa only [Adm] using h2, rel_sum h3⟩
  | .comb .prod ps, hf, h, hg => by
    rw [erase, Std] at h
    rw [good] at hg
    obtain ⟨e, he, ps', h1, h2, h3⟩ := units_prod cfg hs ps (by simpa [nc] using hf) h hg
    exact ⟨e, he, .comb .prod ps', by simp only [erase, h1], by simpa only [Adm] using h2, rel_prod h3⟩
  | .change d p l r, hf, h, hg => by
    replace hf : cfg.fixSlope = false := by simpa [nc] using hf
    rw [erase, Std] at h
    obtain ⟨hp, hl, hr⟩ := h
    simp only [good, Bool.and_eq_true] at hg
    obtain ⟨l', l1, l2, l3⟩ := norm_one (units_ex cfg hs l (.inl hf) hl hg.1.1) hg.2.1
    obtain ⟨r', r1, r2, r3⟩ := norm_one (units_ex cfg hs r (.inl hf) hr hg.1.2) hg.2.2
    refine ⟨1, one_pos, .change d (unitsPD s p) l' r', ?_, ?_, rel_change d (units_change cfg hf hs d p hp) l3 r3⟩
    · simp only [erase, mapPD, unitsPD, Option.map_map, Function.comp_def, l1, r1]
    · simp only [Adm]
      refine fun h => ⟨⟨h.1.1, h.1.2.1, h.1.2.2.1, ?_, ?_⟩, l2 h.2.1, r2 h.2.2⟩
      · intro v hv
        simp only [unitsPD, Option.mem_def, Option.map_eq_some_iff] at hv
        obtain ⟨w, hw, rfl⟩ := hv
        exact mul_pos hs (h.1.2.2.2.1 w hw)
      · intro v hv
        simp only [unitsPD, Option.mem_def, Option.map_eq_some_iff] at hv
        obtain ⟨w, hw, rfl⟩ := hv
        exact mul_pos hs (h.1.2.2.2.2 w hw)
theorem units_all (cfg : Cfg) {s : ℝ} (hs : 0 < s) : ∀ gs : List (GK ℝ), cfg.fixSlope = false ∨ ncL gs = true → StdL cfg (eraseL gs) → goodL gs = true → scAll gs = true →
    ∃ gs', eraseL gs' = eraseL gs ∧ (AdmL gs → AdmL gs') ∧ RelS cfg (s * ·) 1 gs gs'
  | [], _, _, _, _ => ⟨[], rfl, fun h => h, relS_nil ..⟩
  | g :: gs, hf, h, hg, hc => by
    simp only [ncL, Bool.and_eq_true] at hf
    rw [eraseL, StdL] at h
    rw [goodL, Bool.and_eq_true] at hg
    rw [scAll, Bool.and_eq_true] at hc
    obtain ⟨g', a1, a2, a3⟩ := norm_one (units_ex cfg hs g (hf.imp_right And.left) h.1 hg.1) hc.1
    obtain ⟨gs', b1, b2, b3⟩ := units_all cfg hs gs (hf.imp_right And.right) h.2 hg.2 hc.2
    refine ⟨g' :: gs', by simp only [eraseL, a1, b1], ?_, relS_cons a3 b3⟩
    simp only [AdmL]; exact fun h => ⟨a2 h.1, b2 h.2⟩
theorem units_prod (cfg : Cfg) {s : ℝ} (hs : 0 < s) : ∀ gs : List (GK ℝ), cfg.fixSlope = false ∨ ncL gs = true → StdL cfg (eraseL gs) → goodL gs = true →
    ∃ e, 0 < e ∧ ∃ gs', eraseL gs' = eraseL gs ∧ (AdmL gs → AdmL gs') ∧ RelP cfg (s * ·) e gs gs'
  | [], _, _, _ => ⟨1, one_pos, [], rfl, fun h => h, relP_nil ..⟩
  | g :: gs, hf, h, hg => by
    simp only [ncL, Bool.and_eq_true] at hf
    rw [eraseL, StdL] at h
    rw [goodL, Bool.and_eq_true] at hg
    obtain ⟨e, he, g', a1, a2, a3⟩ := units_ex cfg hs g (hf.imp_right And.left) h.1 hg.1
    obtain ⟨f, hf', gs', b1, b2, b3⟩ := units_prod cfg hs gs (hf.imp_right And.right) h.2 hg.2
    refine ⟨e * f, mul_pos he hf', g' :: gs', by simp only [eraseL, a1, b1], ?_, relP_cons a3 b3⟩
    simp only [AdmL]; exact fun h => ⟨a2 h.1, b2 h.2⟩
end

/-! ### Kernels of expressions -/

theorem scAll_iff {α : Type} {l : List (GK α)} : scAll l = true ↔ ∀ g ∈ l, sc g = true := by
  induction l with
  | nil => simp [scAll]
  | cons k l ih => simp [scAll, ih]

theorem scAny_iff {α : Type} {l : List (GK α)} : scAny l = true ↔ ∃ g ∈ l, sc g = true := by
  induction l with
  | nil => simp [scAny]
  | cons k l ih => simp [scAny, ih]

theorem goodL_iff {α : Type} {l : List (GK α)} : goodL l = true ↔ ∀ g ∈ l, good g = true := by
  induction l with
  | nil => simp [goodL]
  | cons k l ih => simp [goodL, ih]

theorem good_parts {α : Type} (op : Op) {g : GK α} (h : good g = true) : ∀ x ∈ partsOf op g, good x = true := by
  cases g with
  | comb o ps =>
    rw [partsOf]
    split
    · cases o
      · rw [good, Bool.and_eq_true, goodL_iff] at h; exact h.1
      · rw [good, goodL_iff] at h; exact h
    · simpa using h
  | _ => simpa [partsOf] using h

theorem sc_parts_sum {α : Type} {g : GK α} (h : sc g = true) : ∀ x ∈ partsOf .sum g, sc x = true := by
  cases g with
  | comb o ps =>
    cases o
    · rw [sc, scAll_iff] at h; simpa [partsOf] using h
    · simpa [partsOf] using h
  | _ => simpa [partsOf] using h

theorem sc_parts_prod {α : Type} {g : GK α} (h : sc g = true) : ∃ x ∈ partsOf .prod g, sc x = true := by
  cases g with
  | comb o ps =>
    cases o
    · simpa [partsOf] using h
    · rw [sc, scAny_iff] at h; simpa [partsOf] using h
  | _ => simpa [partsOf] using h

theorem nice_sum {α : Type} : ∀ (l : List (GK α)) (g : GK α), good g = true → sc g = true → (∀ x ∈ l, good x = true ∧ sc x = true) →
    good (l.foldl (combine .sum) g) = true ∧ sc (l.foldl (combine .sum) g) = true
  | [], g, h1, h2, _ => ⟨h1, h2⟩
  | x :: l, g, h1, h2, h => by
    have hx := h x (List.mem_cons_self ..)
    refine nice_sum l _ ?_ ?_ fun y hy => h y (List.mem_cons_of_mem _ hy)
    · rw [combine, good, Bool.and_eq_true, goodL_iff, scAll_iff]
      refine ⟨fun y hy => ?_, fun y hy => ?_⟩ <;> rcases List.mem_append.1 hy with hy | hy
      · exact good_parts _ h1 y hy
      · exact good_parts _ hx.1 y hy
      · exact sc_parts_sum h2 y hy
      · exact sc_parts_sum hx.2 y hy
    · rw [combine, sc, scAll_iff]
      intro y hy
      rcases List.mem_append.1 hy with hy | hy
      · exact sc_parts_sum h2 y hy
      · exact sc_parts_sum hx.2 y hy

theorem nice_prod {α : Type} : ∀ (l : List (GK α)) (g : GK α), good g = true → sc g = true → (∀ x ∈ l, good x = true) →
    good (l.foldl (combine .prod) g) = true ∧ sc (l.foldl (combine .prod) g) = true
  | [], g, h1, h2, _ => ⟨h1, h2⟩
  | x :: l, g, h1, h2, h => by
    have hx := h x (List.mem_cons_self ..)
    refine nice_prod l _ ?_ ?_ fun y hy => h y (List.mem_cons_of_mem _ hy)
    · rw [combine, good, goodL_iff]
      intro y hy
      rcases List.mem_append.1 hy with hy | hy
      · exact good_parts _ h1 y hy
      · exact good_parts _ hx y hy
    · rw [combine, sc, scAny_iff]
      obtain ⟨y, hy, hy'⟩ := sc_parts_prod h2
      exact ⟨y, List.mem_append_left _ hy, hy'⟩

theorem nice_base (cfg : Cfg) (b : Base) (hb : b.isSigmoid = false) :
    good (.base b (linked (basePars cfg b)) : GK Unit) = true ∧ sc (.base b (linked (basePars cfg b)) : GK Unit) = true := by
  refine ⟨rfl, ?_⟩
  cases b <;> simp [Base.isSigmoid] at hb <;> cases hc : cfg.linOffset <;> simp [sc, linked, basePars, hc, Par.put]

mutual
theorem nice_toKernel (cfg : Cfg) (k : KE) (hs : ∀ x ∈ bases k, x.isSigmoid = false) (s : GK Unit) (h : toKernel cfg k = .ok s) :
    good s = true ∧ sc s = true := by
  cases k with
  | base b =>
    have hb := hs b (by simp [bases])
    have e : s = .base b (linked (basePars cfg b)) := by
      rw [toKernel] at h
      cases b <;> simp [baseKer, baseName] at h <;> exact h.symm
    subst e
    exact nice_base cfg b hb
  | comm op b cs =>
    have hb : ∀ x ∈ b.elements, x.isSigmoid = false := fun x hx => hs x (by simp [bases, hx])
    cases h2 : toKernelL cfg cs with
    | error e =>
      cases h1 : baseKers cfg (orderBase b.elements) <;> cases op <;> simp [toKernel, h1, h2, bind, Except.bind] at h
    | ok ks =>
      rw [toKernel_comm hb h2] at h
      have hk := nice_toKernelL cfg cs (fun x hx => hs x (by simp [bases, hx])) ks h2
      have hb' : ∀ x ∈ orderBase b.elements, x.isSigmoid = false := fun x hx => hb x (mem_orderBase.1 hx)
      generalize orderBase b.elements = es at h hb'
      cases op with
      | sum =>
        have hall : ∀ g ∈ baseParts cfg .sum es ++ ks, good g = true ∧ sc g = true := by
          intro g hg
          rcases List.mem_append.1 hg with hg | hg
          · obtain ⟨x, hx, rfl⟩ := List.mem_map.1 hg
            exact nice_base cfg x (hb' x hx)
          · exact hk g hg
        cases hl : baseParts cfg .sum es ++ ks with
        | nil => rw [hl] at h; simp [reduceK] at h
        | cons x l =>
          rw [hl] at h hall
          simp only [reduceK, Except.ok.injEq] at h
          subst h
          have hx := hall x (List.mem_cons_self ..)
          exact nice_sum l x hx.1 hx.2 fun y hy => hall y (List.mem_cons_of_mem _ hy)
      | prod =>
        cases es with
        | nil =>
          simp only [baseParts, List.map_nil, unlinkTail, List.nil_append] at h
          cases ks with
          | nil => simp [reduceK] at h
          | cons x l =>
            simp only [reduceK, Except.ok.injEq] at h
            subst h
            have hx := hk x (List.mem_cons_self ..)
            exact nice_prod l x hx.1 hx.2 fun y hy => (hk y (List.mem_cons_of_mem _ hy)).1
        | cons x es =>
          simp only [baseParts, List.map_cons, unlinkTail, List.cons_append, reduceK, Except.ok.injEq] at h
          subst h
          have hx := nice_base cfg x (hb' x (List.mem_cons_self ..))
          refine nice_prod _ _ hx.1 hx.2 fun y hy => ?_
          rcases List.mem_append.1 hy with hy | hy
          · simp only [List.mem_map] at hy
            obtain ⟨z, ⟨w, _, rfl⟩, rfl⟩ := hy
            rfl
          · exact (hk y hy).1
  | change c l r =>
    cases h1 : toKernel cfg l with
    | error e => simp [toKernel, h1, bind, Except.bind] at h
    | ok a =>
      cases h2 : toKernel cfg r with
      | error e => simp [toKernel, h1, h2, bind, Except.bind] at h
      | ok b =>
        simp only [toKernel, h1, h2, bind, Except.bind, pure, Except.pure, Except.ok.injEq] at h
        subst h
        have ha := nice_toKernel cfg l (fun x hx => hs x (by simp [bases, hx])) a h1
        have hb := nice_toKernel cfg r (fun x hx => hs x (by simp [bases, hx])) b h2
        simp [good, sc, ha, hb]
theorem nice_toKernelL (cfg : Cfg) (cs : List KE) (hs : ∀ x ∈ basesL cs, x.isSigmoid = false) (ks : List (GK Unit)) (h : toKernelL cfg cs = .ok ks) :
    ∀ g ∈ ks, good g = true ∧ sc g = true := by
  cases cs with
  | nil => simp only [toKernelL, Except.ok.injEq] at h; subst h; simp
  | cons k cs =>
    cases h1 : toKernel cfg k with
    | error e => simp [toKernelL, h1, bind, Except.bind] at h
    | ok a =>
      cases h2 : toKernelL cfg cs with
      | error e => simp [toKernelL, h1, h2, bind, Except.bind] at h
      | ok as =>
        simp only [toKernelL, h1, h2, bind, Except.bind, pure, Except.pure, Except.ok.injEq] at h
        subst h
        intro g hg
        rcases List.mem_cons.1 hg with rfl | hg
        · exact nice_toKernel cfg k (fun x hx => hs x (by simp [basesL, hx])) _ h1
        · exact nice_toKernelL cfg cs (fun x hx => hs x (by simp [basesL, hx])) as h2 g hg
end

theorem ncL_iff {α : Type} {l : List (GK α)} : ncL l = true ↔ ∀ g ∈ l, nc g = true := by
  induction l with
  | nil => simp [ncL]
  | cons k l ih => simp [ncL, ih]

theorem nc_parts {α : Type} (op : Op) {g : GK α} (h : nc g = true) : ∀ x ∈ partsOf op g, nc x = true := by
  cases g with
  | comb o ps =>
    rw [partsOf]
    split
    · rw [nc, ncL_iff] at h; exact h
    · simpa using h
  | _ => simpa [partsOf] using h

theorem nc_foldl {α : Type} (op : Op) : ∀ (l : List (GK α)) (g : GK α), nc g = true → (∀ x ∈ l, nc x = true) → nc (l.foldl (combine op) g) = true
  | [], g, h1, _ => h1
  | x :: l, g, h1, h => by
    refine nc_foldl op l _ ?_ fun y hy => h y (List.mem_cons_of_mem _ hy)
    rw [combine, nc, ncL_iff]
    intro y hy
    rcases List.mem_append.1 hy with hy | hy
    · exact nc_parts _ h1 y hy
    · exact nc_parts _ (h x (List.mem_cons_self ..)) y hy

theorem nc_baseKers (cfg : Cfg) : ∀ (bs : List Base) (ks : List (GK Unit)), baseKers cfg bs = .ok ks → ∀ g ∈ ks, ∃ b p, g = .base b p
  | [], ks, h => by simp only [baseKers, Except.ok.injEq] at h; subst h; simp
  | b :: bs, ks, h => by
    cases h1 : baseKer cfg b with
    | error e => simp [baseKers, h1, bind, Except.bind] at h
    | ok a =>
      cases h2 : baseKers cfg bs with
      | error e => simp [baseKers, h1, h2, bind, Except.bind] at h
      | ok as =>
        simp only [baseKers, h1, h2, bind, Except.bind, pure, Except.pure, Except.ok.injEq] at h
        subst h
        intro g hg
        rcases List.mem_cons.1 hg with rfl | hg
        · unfold baseKer at h1
          split at h1
          · simp at h1
          · simp only [Except.ok.injEq] at h1; exact ⟨_, _, h1.symm⟩
        · exact nc_baseKers cfg bs as h2 g hg

mutual
theorem nc_toKernel (cfg : Cfg) (k : KE) (hn : noChange k = true) (s : GK Unit) (h : toKernel cfg k = .ok s) : nc s = true := by
  cases k with
  | base b =>
    rw [toKernel, baseKer] at h
    split at h
    · simp at h
    · simp only [Except.ok.injEq] at h; subst h; rfl
  | comm op b cs =>
    rw [noChange] at hn
    cases h1 : baseKers cfg (orderBase b.elements) with
    | error e => cases op <;> simp [toKernel, h1, bind, Except.bind] at h
    | ok bs =>
      cases h2 : toKernelL cfg cs with
      | error e => cases op <;> simp [toKernel, h1, h2, bind, Except.bind] at h
      | ok ks =>
        have hk := nc_toKernelL cfg cs hn ks h2
        have hb := nc_baseKers cfg _ bs h1
        have main : ∀ l : List (GK Unit), (∀ g ∈ l, nc g = true) → reduceK op l = .ok s → nc s = true := by
          intro l hl hr
          cases l with
          | nil => simp [reduceK] at hr
          | cons x l =>
            simp only [reduceK, Except.ok.injEq] at hr
            subst hr
            exact nc_foldl op l x (hl x (List.mem_cons_self ..)) fun y hy => hl y (List.mem_cons_of_mem _ hy)
        cases op with
        | sum =>
          simp only [toKernel, h1, h2, bind, Except.bind] at h
          refine main _ (fun g hg => ?_) h
          rcases List.mem_append.1 hg with hg | hg
          · obtain ⟨b, p, rfl⟩ := hb g hg; rfl
          · exact hk g hg
        | prod =>
          simp only [toKernel, h1, h2, bind, Except.bind] at h
          refine main _ (fun g hg => ?_) h
          rcases List.mem_append.1 hg with hg | hg
          · cases bs with
            | nil => simp [unlinkTail] at hg
            | cons x bs =>
              simp only [unlinkTail, List.mem_cons, List.mem_map] at hg
              rcases hg with rfl | ⟨y, hy, rfl⟩
              · obtain ⟨b, p, rfl⟩ := hb g (List.mem_cons_self ..); rfl
              · obtain ⟨b, p, rfl⟩ := hb y (List.mem_cons_of_mem _ hy); rfl
          · exact hk g hg
  | change c l r => simp [noChange] at hn
theorem nc_toKernelL (cfg : Cfg) (cs : List KE) (hn : noChangeL cs = true) (ks : List (GK Unit)) (h : toKernelL cfg cs = .ok ks) :
    ∀ g ∈ ks, nc g = true := by
  cases cs with
  | nil => simp only [toKernelL, Except.ok.injEq] at h; subst h; simp
  | cons k cs =>
    rw [noChangeL, Bool.and_eq_true] at hn
    cases h1 : toKernel cfg k with
    | error e => simp [toKernelL, h1, bind, Except.bind] at h
    | ok a =>
      cases h2 : toKernelL cfg cs with
      | error e => simp [toKernelL, h1, h2, bind, Except.bind] at h
      | ok as =>
        simp only [toKernelL, h1, h2, bind, Except.bind, pure, Except.pure, Except.ok.injEq] at h
        subst h
        intro g hg
        rcases List.mem_cons.1 hg with rfl | hg
        · exact nc_toKernel cfg k hn.1 _ h1
        · exact nc_toKernelL cfg cs hn.2 as h2 g hg
end

end Units
end GPyABCD
