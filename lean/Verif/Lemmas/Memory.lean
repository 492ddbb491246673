import Verif.Spec.Memory
import Verif.Lemmas.Reach

/-!
# Lemmas for C119
-/

namespace GPyABCD
namespace Memory
open Kern Params Sops KE Fading Reach

/-- Sums and products of powers. -/
def mOp : Op → WithBot ℤ → WithBot ℤ → WithBot ℤ
  | .sum => max
  | .prod => (· + ·)

/-- Of nothing. -/
def mOne : Op → WithBot ℤ
  | .sum => ⊥
  | .prod => 0

mutual
/-- The memory of a kernel. -/
def mdeg {α : Type} (sd : Bool) : GK α → WithBot ℤ
  | .base b _ => memBase b
  | .comb op ps => mdegL sd op ps
  | .change .CP _ l r => if sd then max (mdeg sd l + ((-1 : ℤ) : WithBot ℤ)) (mdeg sd r) else max (mdeg sd l) (mdeg sd r + ((-1 : ℤ) : WithBot ℤ))
  | .change .CW _ l r => max (mdeg sd l) (mdeg sd r + ((-2 : ℤ) : WithBot ℤ))
/-- Over the parts of a sum or product. -/
def mdegL {α : Type} (sd : Bool) : Op → List (GK α) → WithBot ℤ
  | op, [] => mOne op
  | op, k :: ks => mOp op (mdeg sd k) (mdegL sd op ks)
end

variable {sd : Bool}

theorem mdegL_cons {α : Type} (op : Op) (k : GK α) (ks : List (GK α)) : mdegL sd op (k :: ks) = mOp op (mdeg sd k) (mdegL sd op ks) := by rw [mdegL]

theorem mdegL_nil {α : Type} (op : Op) : mdegL sd op ([] : List (GK α)) = mOne op := by rw [mdegL]

theorem mOp_one (op : Op) (a : WithBot ℤ) : mOp op a (mOne op) = a := by cases op <;> simp [mOp, mOne]

theorem mOp_one' (op : Op) (a : WithBot ℤ) : mOp op (mOne op) a = a := by cases op <;> simp [mOp, mOne]

theorem mOp_assoc (op : Op) (a b c : WithBot ℤ) : mOp op (mOp op a b) c = mOp op a (mOp op b c) := by
  cases op
  · exact max_assoc ..
  · exact add_assoc ..

theorem mOp_left_comm (op : Op) (a b c : WithBot ℤ) : mOp op a (mOp op b c) = mOp op b (mOp op a c) := by
  cases op
  · exact max_left_comm ..
  · exact add_left_comm ..

theorem mdegL_append {α : Type} (op : Op) (l m : List (GK α)) : mdegL sd op (l ++ m) = mOp op (mdegL sd op l) (mdegL sd op m) := by
  induction l with
  | nil => rw [List.nil_append, mdegL_nil, mOp_one']
  | cons k l ih => rw [List.cons_append, mdegL_cons, mdegL_cons, ih, mOp_assoc]

mutual
theorem mdeg_erase {α : Type} : ∀ g : GK α, mdeg sd (erase g) = mdeg sd g
  | .base _ p => rfl
  | .comb op ps => by rw [erase, mdeg, mdeg, mdeg_eraseL op ps]
  | .change c _ l r => by cases c <;> rw [erase, mdeg, mdeg, mdeg_erase l, mdeg_erase r]
theorem mdeg_eraseL {α : Type} (op : Op) : ∀ gs : List (GK α), mdegL sd op (eraseL gs) = mdegL sd op gs
  | [] => by rw [eraseL, mdegL_nil, mdegL_nil]
  | g :: gs => by rw [eraseL, mdegL_cons, mdegL_cons, mdeg_erase g, mdeg_eraseL op gs]
end

theorem mdeg_parts {α : Type} (op : Op) (g : GK α) : mdegL sd op (partsOf op g) = mdeg sd g := by
  have one : ∀ x : GK α, mdegL sd op [x] = mdeg sd x := fun x => by rw [mdegL_cons, mdegL_nil, mOp_one]
  cases g with
  | comb o ps =>
    rw [partsOf]
    split
    · next h => subst h; rw [mdeg]
    · exact one _
  | base b p => exact one _
  | change c p l r => exact one _

theorem mdeg_foldl {α : Type} (op : Op) : ∀ (l : List (GK α)) (g : GK α), mdeg sd (l.foldl (combine op) g) = mOp op (mdeg sd g) (mdegL sd op l)
  | [], g => by rw [mdegL_nil, mOp_one]; rfl
  | x :: l, g => by
    rw [List.foldl_cons, mdeg_foldl op l, combine, mdeg, mdegL_append, mdeg_parts, mdeg_parts, mdegL_cons, mOp_assoc]

/-- Of a bag of base kernels. -/
def mB (op : Op) (bs : List Base) : WithBot ℤ := (bs.map memBase).foldr (mOp op) (mOne op)

theorem mB_perm (op : Op) {l m : List Base} (h : l.Perm m) : mB op l = mB op m := by
  induction h with
  | nil => rfl
  | cons x _ ih => simp only [mB, List.map_cons, List.foldr_cons] at *; rw [ih]
  | swap x y l => simp only [mB, List.map_cons, List.foldr_cons]; exact mOp_left_comm ..
  | trans _ _ h1 h2 => exact h1.trans h2

theorem mdeg_baseKers (cfg : Cfg) (op : Op) : ∀ (bs : List Base) (ks : List (GK Unit)), baseKers cfg bs = .ok ks → mdegL sd op ks = mB op bs
  | [], ks, h => by
    simp only [baseKers, Except.ok.injEq] at h; subst h
    rw [mdegL_nil]; rfl
  | b :: bs, ks, h => by
    cases h1 : baseKer cfg b with
    | error e => simp [baseKers, h1, bind, Except.bind] at h
    | ok a =>
      cases h2 : baseKers cfg bs with
      | error e => simp [baseKers, h1, h2, bind, Except.bind] at h
      | ok as =>
        simp only [baseKers, h1, h2, bind, Except.bind, pure, Except.pure, Except.ok.injEq] at h
        subst h
        have ih := mdeg_baseKers cfg op bs as h2
        unfold baseKer at h1
        split at h1
        · simp at h1
        · simp only [Except.ok.injEq] at h1; subst h1
          rw [mdegL_cons, ih, mdeg]
          rfl

mutual
theorem mdeg_toKernel (cfg : Cfg) (k : KE) (s : GK Unit) (h : toKernel cfg k = .ok s) : mdeg sd s = memory sd k := by
  cases k with
  | base b =>
    rw [toKernel, baseKer] at h
    split at h
    · simp at h
    · simp only [Except.ok.injEq] at h; subst h; rw [mdeg, memory]
  | comm op b cs =>
    cases h1 : baseKers cfg (orderBase b.elements) with
    | error e => cases op <;> simp [toKernel, h1, bind, Except.bind] at h
    | ok bs =>
      cases h2 : toKernelL cfg cs with
      | error e => cases op <;> simp [toKernel, h1, h2, bind, Except.bind] at h
      | ok ks =>
        have hk := mdeg_toKernelL cfg cs ks h2
        have hb := fun op => mdeg_baseKers (sd := sd) cfg op _ bs h1
        have hp : ∀ op, mB op (orderBase b.elements) = mB op b.elements := fun op => mB_perm op (List.perm_insertionSort ..)
        have main : ∀ l : List (GK Unit), reduceK op l = .ok s → mdeg sd s = mdegL sd op l := by
          intro l hr
          cases l with
          | nil => simp [reduceK] at hr
          | cons x l =>
            simp only [reduceK, Except.ok.injEq] at hr
            subst hr
            rw [mdeg_foldl, mdegL_cons]
        cases op with
        | sum =>
          simp only [toKernel, h1, h2, bind, Except.bind] at h
          rw [main _ h, mdegL_append, hb, hp, hk.1, memory]
          rfl
        | prod =>
          simp only [toKernel, h1, h2, bind, Except.bind] at h
          have hu : mdegL sd .prod (unlinkTail bs) = mdegL sd .prod bs := by
            cases bs with
            | nil => rfl
            | cons x bs =>
              rw [unlinkTail, mdegL_cons, mdegL_cons]
              congr 1
              clear main h hk hb hp h2 h1
              have : ∀ g : GK Unit, mdeg sd (unlinkVar g) = mdeg sd g := fun g => by cases g <;> rfl
              induction bs with
              | nil => rfl
              | cons y bs ih => rw [List.map_cons, mdegL_cons, mdegL_cons, this y, ih]
          rw [main _ h, mdegL_append, hu, hb, hp, hk.2, memory]
          rfl
  | change c l r =>
    cases h1 : toKernel cfg l with
    | error e => simp [toKernel, h1, bind, Except.bind] at h
    | ok a =>
      cases h2 : toKernel cfg r with
      | error e => simp [toKernel, h1, h2, bind, Except.bind] at h
      | ok b =>
        simp only [toKernel, h1, h2, bind, Except.bind, pure, Except.pure, Except.ok.injEq] at h
        subst h
        cases c <;> rw [mdeg, mdeg_toKernel cfg l a h1, mdeg_toKernel cfg r b h2, memory]
theorem mdeg_toKernelL (cfg : Cfg) (cs : List KE) (ks : List (GK Unit)) (h : toKernelL cfg cs = .ok ks) :
    mdegL sd .sum ks = memMax sd cs ∧ mdegL sd .prod ks = memSum sd cs := by
  cases cs with
  | nil => simp only [toKernelL, Except.ok.injEq] at h; subst h; rw [mdegL_nil, mdegL_nil, memMax, memSum]; exact ⟨rfl, rfl⟩
  | cons k cs =>
    cases h1 : toKernel cfg k with
    | error e => simp [toKernelL, h1, bind, Except.bind] at h
    | ok a =>
      cases h2 : toKernelL cfg cs with
      | error e => simp [toKernelL, h1, h2, bind, Except.bind] at h
      | ok as =>
        simp only [toKernelL, h1, h2, bind, Except.bind, pure, Except.pure, Except.ok.injEq] at h
        subst h
        have ih := mdeg_toKernelL cfg cs as h2
        rw [mdegL_cons, mdegL_cons, mdeg_toKernel cfg k a h1, ih.1, ih.2, memMax, memSum]
        exact ⟨rfl, rfl⟩
end

/-! ### Bounds -/

/-- Grows no faster than the power `e`, or fades as fast. -/
def Pw (sd : Bool) (R : ℝ) (A : ∀ n m : ℕ, (Fin n → ℝ) → (Fin m → ℝ) → Fin n → Fin m → ℝ) (e : ℤ) : Prop :=
  ∃ B D : ℝ, 0 ≤ B ∧ 1 ≤ D ∧ ∀ n m X Y i j, |X i| ≤ R → Far sd D (Y j) → |A n m X Y i j| ≤ B * |Y j| ^ e

/-- No faster than any power that is no less than `d`. -/
def Mem (sd : Bool) (R : ℝ) (A : ∀ n m : ℕ, (Fin n → ℝ) → (Fin m → ℝ) → Fin n → Fin m → ℝ) (d : WithBot ℤ) : Prop := ∀ e : ℤ, d ≤ e → Pw sd R A e

variable {R : ℝ} {A B : ∀ n m : ℕ, (Fin n → ℝ) → (Fin m → ℝ) → Fin n → Fin m → ℝ}

theorem mem_add {d e : WithBot ℤ} (h1 : Mem sd R A d) (h2 : Mem sd R B e) : Mem sd R (fun n m X Y i j => A n m X Y i j + B n m X Y i j) (max d e) := by
  intro f hf
  obtain ⟨B1, D1, p1, q1, r1⟩ := h1 f ((le_max_left ..).trans hf)
  obtain ⟨B2, D2, p2, q2, r2⟩ := h2 f ((le_max_right ..).trans hf)
  refine ⟨B1 + B2, max D1 D2, by positivity, le_max_of_le_left q1, fun n m X Y i j hi hj => (abs_add_le _ _).trans ?_⟩
  rw [add_mul]
  exact add_le_add (r1 n m X Y i j hi (far_mono (le_max_left ..) hj)) (r2 n m X Y i j hi (far_mono (le_max_right ..) hj))

theorem split_le {d e : WithBot ℤ} {f : ℤ} (h : d + e ≤ f) : ∃ a b : ℤ, d ≤ a ∧ e ≤ b ∧ a + b = f := by
  induction d using WithBot.recBotCoe with
  | bot =>
    induction e using WithBot.recBotCoe with
    | bot => exact ⟨f, 0, bot_le, bot_le, by ring⟩
    | coe e => exact ⟨f - e, e, bot_le, le_rfl, by ring⟩
  | coe d =>
    induction e using WithBot.recBotCoe with
    | bot => exact ⟨d, f - d, le_rfl, bot_le, by ring⟩
    | coe e =>
      have : d + e ≤ f := by exact_mod_cast h
      exact ⟨d, f - d, le_rfl, by exact_mod_cast (by omega : e ≤ f - d), by ring⟩

theorem mem_mul {d e : WithBot ℤ} (h1 : Mem sd R A d) (h2 : Mem sd R B e) : Mem sd R (fun n m X Y i j => A n m X Y i j * B n m X Y i j) (d + e) := by
  intro f hf
  obtain ⟨a, b, ha, hb, rfl⟩ := split_le hf
  obtain ⟨B1, D1, p1, q1, r1⟩ := h1 a ha
  obtain ⟨B2, D2, p2, q2, r2⟩ := h2 b hb
  refine ⟨B1 * B2, max D1 D2, by positivity, le_max_of_le_left q1, fun n m X Y i j hi hj => ?_⟩
  have a' := r1 n m X Y i j hi (far_mono (le_max_left ..) hj)
  have b' := r2 n m X Y i j hi (far_mono (le_max_right ..) hj)
  have hy : 0 < |Y j| := by have := (q1.trans (le_max_left D1 D2)).trans (far_abs hj); linarith
  change |A n m X Y i j * B n m X Y i j| ≤ _
  rw [abs_mul, zpow_add₀ hy.ne']
  calc _ ≤ _ := mul_le_mul a' b' (abs_nonneg _) (by positivity)
    _ = _ := by ring

theorem mem_wt {d : WithBot ℤ} {k : ℕ} {w : ℝ → ℝ} (h1 : Mem sd R A d) (h2 : Wt sd w k) (h0 : ∀ x, 0 ≤ w x ∧ w x ≤ 1) {c : ℤ} (hc : c = -k) :
    Mem sd R (fun n m X Y i j => A n m X Y i j * (1 * (w (X i) * w (Y j)))) (d + (c : WithBot ℤ)) := by
  intro e he
  subst hc
  have hd : d ≤ ((e + k : ℤ) : WithBot ℤ) := by
    induction d using WithBot.recBotCoe with
    | bot => exact bot_le
    | coe d =>
      have : d + -(k : ℤ) ≤ e := by exact_mod_cast he
      exact_mod_cast (by omega : d ≤ e + k)
  obtain ⟨B, D1, p1, q1, r1⟩ := h1 _ hd
  obtain ⟨c, C, D2, hc, hC, q2, r2⟩ := h2
  refine ⟨B * C, max D1 D2, by positivity, le_max_of_le_left q1, fun n m X Y i j hi hj => ?_⟩
  have a := r1 n m X Y i j hi (far_mono (le_max_left ..) hj)
  have wj := r2 _ (far_mono (le_max_right ..) hj)
  have xj : 0 < |Y j| := by have := (q1.trans (le_max_left D1 D2)).trans (far_abs hj); linarith
  change |A n m X Y i j * (1 * (w (X i) * w (Y j)))| ≤ _
  rw [one_mul, abs_mul, abs_of_nonneg (mul_nonneg (h0 _).1 (h0 _).1)]
  rw [zpow_add₀ xj.ne', zpow_natCast] at a
  have hw : w (X i) * w (Y j) ≤ w (Y j) := mul_le_of_le_one_left (h0 _).1 (h0 _).2
  calc _ ≤ B * (|Y j| ^ e * |Y j| ^ k) * w (Y j) := mul_le_mul a hw (mul_nonneg (h0 _).1 (h0 _).1) (by positivity)
    _ = B * |Y j| ^ e * (|Y j| ^ k * w (Y j)) := by ring
    _ ≤ B * |Y j| ^ e * C := mul_le_mul_of_nonneg_left wj.2 (by positivity)
    _ = _ := by ring

theorem mem_wt0 {d : WithBot ℤ} {w : ℝ → ℝ} (h1 : Mem sd R A d) (h2 : Wt sd w 0) (h0 : ∀ x, 0 ≤ w x ∧ w x ≤ 1) :
    Mem sd R (fun n m X Y i j => A n m X Y i j * (1 * (w (X i) * w (Y j)))) d := by
  have := mem_wt h1 h2 h0 (c := 0) (by simp)
  simpa using this

theorem mem_up {d : ℕ} (h : Up2 sd R A d) : Mem sd R A ((d : ℤ) : WithBot ℤ) := by
  intro e he
  have he : (d : ℤ) ≤ e := by exact_mod_cast he
  obtain ⟨B, D, p, q, r⟩ := h
  refine ⟨B, D, p, q, fun n m X Y i j hi hj => (r n m X Y i j hi hj).trans ?_⟩
  rw [← zpow_natCast]
  exact mul_le_mul_of_nonneg_left (zpow_le_zpow_right₀ (q.trans (far_abs hj)) he) p

theorem mem_se (cfg : Cfg) {p : PD ℝ} (h : AdmPD p) (R : ℝ) : Mem sd R (fun _ _ X Y => kerK2 cfg X Y (.base .SE p)) ⊥ := by
  intro e _
  set l := p.lengthscale.getD 1 with hl
  have lp : 0 < l := by
    rw [hl]
    cases hh : p.lengthscale with
    | none => simp
    | some v => exact h.2.1 v hh
  refine ⟨|varOf p| * (e.natAbs.factorial : ℝ), 1 + 2 * |R| + 8 * l ^ 2, by positivity, by nlinarith [abs_nonneg R, sq_nonneg l], fun n m X Y i j hi hj => ?_⟩
  change |kerK2 cfg X Y (.base .SE p) i j| ≤ _
  have hy := far_abs hj
  have y0 : 0 ≤ |Y j| := abs_nonneg _
  have y1 : 1 ≤ |Y j| := by nlinarith [abs_nonneg R, sq_nonneg l]
  have hd : |Y j| / 2 ≤ |X i - Y j| := by
    have h1 : |Y j| ≤ |X i| + |X i - Y j| := by
      have := abs_sub (X i) (X i - Y j)
      simpa using this
    have := le_abs_self R
    nlinarith [sq_nonneg l]
  have hq : |Y j| ≤ ((X i - Y j) / l) ^ 2 / 2 := by
    have h2 : (|Y j| / 2) ^ 2 ≤ (X i - Y j) ^ 2 := by rw [← sq_abs (X i - Y j)]; exact pow_le_pow_left₀ (by positivity) hd 2
    rw [div_pow, div_div, le_div_iff₀ (by positivity)]
    nlinarith [abs_nonneg R]
  have he : Real.exp (-((X i - Y j) / l) ^ 2 / 2) ≤ (e.natAbs.factorial : ℝ) * |Y j| ^ e := by
    have e1 : Real.exp (-((X i - Y j) / l) ^ 2 / 2) ≤ Real.exp (-|Y j|) := Real.exp_le_exp.2 (by nlinarith)
    have e2 := Real.pow_div_factorial_le_exp |Y j| y0 e.natAbs
    have e3 : |Y j| ^ (-(e.natAbs : ℤ)) ≤ |Y j| ^ e := zpow_le_zpow_right₀ y1 (by omega)
    have f0 : (0 : ℝ) < e.natAbs.factorial := by positivity
    have e4 : Real.exp (-|Y j|) ≤ (e.natAbs.factorial : ℝ) * |Y j| ^ (-(e.natAbs : ℤ)) := by
      rw [Real.exp_neg, zpow_neg, zpow_natCast, ← div_eq_mul_inv, inv_eq_one_div, div_le_div_iff₀ (Real.exp_pos _) (by positivity)]
      rw [div_le_iff₀ f0] at e2
      linarith
    exact e1.trans (e4.trans (mul_le_mul_of_nonneg_left e3 f0.le))
  have form : kerK2 cfg X Y (.base .SE p) i j = varOf p * Real.exp (-((X i - Y j) / l) ^ 2 / 2) := by simp [kerK2, baseK2, matK, rbf, hl]
  rw [form, abs_mul, abs_of_pos (Real.exp_pos _), mul_assoc]
  exact mul_le_mul_of_nonneg_left he (abs_nonneg _)

theorem mem_base (cfg : Cfg) {b : Base} {p : PD ℝ} (h : AdmPD p) (R : ℝ) : Mem sd R (fun _ _ X Y => kerK2 cfg X Y (.base b p)) (memBase b) := by
  by_cases h1 : b = .LIN
  · subst h1; exact mem_up (d := 1) (up2_lin cfg p R)
  by_cases h2 : b = .SE
  · subst h2; exact mem_se cfg h R
  by_cases h3 : b = .WN
  · subst h3
    intro e _
    refine ⟨0, 1, le_rfl, le_rfl, fun n m X Y i j _ _ => ?_⟩
    simp [kerK2, baseK2]
  have : memBase b = (((0 : ℕ) : ℤ) : WithBot ℤ) := by cases b <;> first | rfl | exact absurd rfl ‹_›
  rw [this]
  obtain ⟨B, hB⟩ := bdd_base cfg b p h1
  exact mem_up ⟨B, 1, (abs_nonneg _).trans (hB.1 1 (fun _ => 0) 0 0), le_rfl, fun n m X Y i j _ _ => by rw [pow_zero, mul_one]; exact hB.2 n m X Y i j⟩

mutual
theorem mem_of (cfg : Cfg) (R : ℝ) : ∀ g : GK ℝ, Adm g → Mem sd R (fun _ _ X Y => kerK2 cfg X Y g) (mdeg sd g)
  | .base b p, ha => by rw [mdeg]; exact mem_base cfg ha R
  | .comb .sum ps, ha => by
    have := mem_sum cfg R ps ha
    simp only [kerK2, mdeg]; exact this
  | .comb .prod ps, ha => by
    have := mem_prod cfg R ps ha
    simp only [kerK2, mdeg]; exact this
  | .change .CP p l r, ha => by
    have hl := mem_of cfg R l ha.2.1
    have hr := mem_of cfg R r ha.2.2
    simp only [entry_change_fun2, mdeg]
    cases sd with
    | true => exact mem_add (mem_wt hl (wt_cp ha.1 true) (phi_range .CP ha.1 _) rfl) (mem_wt0 hr (wt_cp' ha.1 true) (phi_range .CP ha.1 _))
    | false => exact mem_add (mem_wt0 hl (wt_cp' ha.1 false) (phi_range .CP ha.1 _)) (mem_wt hr (wt_cp ha.1 false) (phi_range .CP ha.1 _) rfl)
  | .change .CW p l r, ha => by
    have hl := mem_of cfg R l ha.2.1
    have hr := mem_of cfg R r ha.2.2
    simp only [entry_change_fun2, mdeg]
    exact mem_add (mem_wt0 hl (wt_cw' ha.1 sd) (phi_range .CW ha.1 _)) (mem_wt hr (wt_cw ha.1 sd) (phi_range .CW ha.1 _) rfl)
theorem mem_sum (cfg : Cfg) (R : ℝ) : ∀ gs : List (GK ℝ), AdmL gs → Mem sd R (fun _ _ X Y => kerSum2 cfg X Y gs) (mdegL sd .sum gs)
  | [], _ => fun e _ => ⟨0, 1, le_rfl, le_rfl, fun n m X Y i j _ _ => by simp [kerSum2]⟩
  | g :: gs, ha => by
    have h1 := mem_of cfg R g ha.1
    have h2 := mem_sum cfg R gs ha.2
    rw [mdegL_cons]
    simp only [kerSum2]
    exact mem_add h1 h2
theorem mem_prod (cfg : Cfg) (R : ℝ) : ∀ gs : List (GK ℝ), AdmL gs → Mem sd R (fun _ _ X Y => kerProd2 cfg X Y gs) (mdegL sd .prod gs)
  | [], _ => by
    rw [mdegL_nil]
    exact mem_up (d := 0) ⟨1, 1, zero_le_one, le_rfl, fun n m X Y i j _ _ => by simp [kerProd2]⟩
  | g :: gs, ha => by
    have h1 := mem_of cfg R g ha.1
    have h2 := mem_prod cfg R gs ha.2
    rw [mdegL_cons]
    simp only [kerProd2]
    exact mem_mul h1 h2
end

theorem mem_fitted {cfg : Cfg} {k : KE} {g : GK ℝ} (h : FittedTo cfg k g) (sd : Bool) (R : ℝ) : Mem sd R (fun _ _ X Y => kerK2 cfg X Y g) (memory sd k) := by
  rw [← mdeg_toKernel cfg k _ h.1, mdeg_erase]
  exact mem_of cfg R g h.2

/-- Covariances with data fade. -/
theorem covs_fade {cfg : Cfg} {k : KE} {g : GK ℝ} (h : FittedTo cfg k g) {sd : Bool} (hk : memory sd k < 0) {n : ℕ} (X : Fin n → ℝ) {δ : ℝ} (hδ : 0 < δ) :
    ∃ D : ℝ, ∀ (m : ℕ) (Y : Fin m → ℝ) (j : Fin m), Far sd D (Y j) → ∀ i, |kerK2 cfg X Y g i j| ≤ δ := by
  have hk' : memory sd k ≤ ((-1 : ℤ) : WithBot ℤ) := by
    generalize memory sd k = d at hk
    induction d using WithBot.recBotCoe with
    | bot => exact bot_le
    | coe d =>
      have : d < 0 := by exact_mod_cast hk
      exact_mod_cast (by omega : d ≤ -1)
  obtain ⟨B, D, hB, hD, hb⟩ := mem_fitted h sd (∑ i, |X i|) (-1) hk'
  refine ⟨max D (B / δ), fun m Y j hj i => ?_⟩
  refine (hb n m X Y i j (Finset.single_le_sum (f := fun i => |X i|) (fun i _ => abs_nonneg _) (Finset.mem_univ i)) (far_mono (le_max_left ..) hj)).trans ?_
  have h1 : 0 < |Y j| := by have := (hD.trans (le_max_left D (B / δ))).trans (far_abs hj); linarith
  have h2 : B / δ ≤ |Y j| := (le_max_right ..).trans (far_abs hj)
  rw [zpow_neg_one, ← div_eq_mul_inv, div_le_iff₀ h1]
  rw [div_le_iff₀ hδ] at h2
  linarith

end Memory
end GPyABCD
