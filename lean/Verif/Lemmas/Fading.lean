import Verif.Spec.Fading
import Verif.Lemmas.Units
import Verif.Props.Numeric

/-!
# Lemmas for C116
-/

namespace GPyABCD
namespace Fading
open Kern Params Sops KE

/-! ### No linear kernels -/

mutual
/-- No linear kernel in a kernel. -/
def nl {α : Type} : GK α → Bool
  | .base b _ => b != .LIN
  | .comb _ ps => nlL ps
  | .change _ _ l r => nl l && nl r
/-- Over a list. -/
def nlL {α : Type} : List (GK α) → Bool
  | [] => true
  | k :: ks => nl k && nlL ks
end

mutual
theorem nl_erase {α : Type} : ∀ g : GK α, nl (erase g) = nl g
  | .base _ p => rfl
  | .comb _ ps => by rw [erase, nl, nl, nl_eraseL ps]
  | .change _ _ l r => by rw [erase, nl, nl, nl_erase l, nl_erase r]
theorem nl_eraseL {α : Type} : ∀ gs : List (GK α), nlL (eraseL gs) = nlL gs
  | [] => rfl
  | g :: gs => by simp only [eraseL, nlL, nl_erase g, nl_eraseL gs]
end

theorem nlL_iff {α : Type} {l : List (GK α)} : nlL l = true ↔ ∀ g ∈ l, nl g = true := by
  induction l with
  | nil => simp [nlL]
  | cons k l ih => simp [nlL, ih]

theorem nl_parts {α : Type} (op : Op) {g : GK α} (h : nl g = true) : ∀ x ∈ partsOf op g, nl x = true := by
  cases g with
  | comb o ps =>
    rw [partsOf]
    split
    · rw [nl, nlL_iff] at h; exact h
    · simpa using h
  | _ => simpa [partsOf] using h

theorem nl_foldl {α : Type} (op : Op) : ∀ (l : List (GK α)) (g : GK α), nl g = true → (∀ x ∈ l, nl x = true) → nl (l.foldl (combine op) g) = true
  | [], g, h1, _ => h1
  | x :: l, g, h1, h => by
    refine nl_foldl op l _ ?_ fun y hy => h y (List.mem_cons_of_mem _ hy)
    rw [combine, nl, nlL_iff]
    intro y hy
    rcases List.mem_append.1 hy with hy | hy
    · exact nl_parts _ h1 y hy
    · exact nl_parts _ (h x (List.mem_cons_self ..)) y hy

theorem nl_baseKers (cfg : Cfg) : ∀ (bs : List Base) (ks : List (GK Unit)), baseKers cfg bs = .ok ks → ∀ g ∈ ks, ∃ b ∈ bs, ∃ p, g = .base b p
  | [], ks, h => by simp only [baseKers, Except.ok.injEq] at h; subst h; simp
  | b :: bs, ks, h => by
    cases h1 : baseKer cfg b with
    | error e => simp [baseKers, h1, bind, Except.bind] at h
    | ok a =>
      cases h2 : baseKers cfg bs with
      | error e => simp [baseKers, h1, h2, bind, Except.bind] at h
      | ok as =>
        simp only [baseKers, h1, h2, bind, Except.bind, pure, Except.pure, Except.ok.injEq] at h
        subst h
        intro g hg
        rcases List.mem_cons.1 hg with rfl | hg
        · unfold baseKer at h1
          split at h1
          · simp at h1
          · simp only [Except.ok.injEq] at h1; exact ⟨b, List.mem_cons_self .., _, h1.symm⟩
        · obtain ⟨b', hb', p, e⟩ := nl_baseKers cfg bs as h2 g hg
          exact ⟨b', List.mem_cons_of_mem _ hb', p, e⟩

mutual
theorem nl_toKernel (cfg : Cfg) (k : KE) (hn : Base.LIN ∉ bases k) (s : GK Unit) (h : toKernel cfg k = .ok s) : nl s = true := by
  cases k with
  | base b =>
    rw [toKernel, baseKer] at h
    split at h
    · simp at h
    · simp only [Except.ok.injEq] at h; subst h
      simp only [bases, List.mem_singleton] at hn
      simpa [nl] using Ne.symm hn
  | comm op b cs =>
    simp only [bases, List.mem_append, not_or] at hn
    cases h1 : baseKers cfg (orderBase b.elements) with
    | error e => cases op <;> simp [toKernel, h1, bind, Except.bind] at h
    | ok bs =>
      cases h2 : toKernelL cfg cs with
      | error e => cases op <;> simp [toKernel, h1, h2, bind, Except.bind] at h
      | ok ks =>
        have hk := nl_toKernelL cfg cs hn.2 ks h2
        have hb : ∀ g ∈ bs, ∃ b p, b ≠ Base.LIN ∧ g = .base b p := by
          intro g hg
          obtain ⟨b', hb', p, e⟩ := nl_baseKers cfg _ bs h1 g hg
          rw [orderBase, List.mem_insertionSort] at hb'
          exact ⟨b', p, fun e => hn.1 (e ▸ hb'), e⟩
        have main : ∀ l : List (GK Unit), (∀ g ∈ l, nl g = true) → reduceK op l = .ok s → nl s = true := by
          intro l hl hr
          cases l with
          | nil => simp [reduceK] at hr
          | cons x l =>
            simp only [reduceK, Except.ok.injEq] at hr
            subst hr
            exact nl_foldl op l x (hl x (List.mem_cons_self ..)) fun y hy => hl y (List.mem_cons_of_mem _ hy)
        cases op with
        | sum =>
          simp only [toKernel, h1, h2, bind, Except.bind] at h
          refine main _ (fun g hg => ?_) h
          rcases List.mem_append.1 hg with hg | hg
          · obtain ⟨b, p, hb, rfl⟩ := hb g hg; simpa [nl] using hb
          · exact hk g hg
        | prod =>
          simp only [toKernel, h1, h2, bind, Except.bind] at h
          refine main _ (fun g hg => ?_) h
          rcases List.mem_append.1 hg with hg | hg
          · cases bs with
            | nil => simp [unlinkTail] at hg
            | cons x bs =>
              simp only [unlinkTail, List.mem_cons, List.mem_map] at hg
              rcases hg with rfl | ⟨y, hy, rfl⟩
              · obtain ⟨b, p, hb', rfl⟩ := hb g (List.mem_cons_self ..); simpa [nl] using hb'
              · obtain ⟨b, p, hb, rfl⟩ := hb y (List.mem_cons_of_mem _ hy); simpa [nl, unlinkVar] using hb
          · exact hk g hg
  | change c l r =>
    simp only [bases, List.mem_append, not_or] at hn
    cases h1 : toKernel cfg l with
    | error e => simp [toKernel, h1, bind, Except.bind] at h
    | ok a =>
      cases h2 : toKernel cfg r with
      | error e => simp [toKernel, h1, h2, bind, Except.bind] at h
      | ok b =>
        simp only [toKernel, h1, h2, bind, Except.bind, pure, Except.pure, Except.ok.injEq] at h
        subst h
        rw [nl, nl_toKernel cfg l hn.1 a h1, nl_toKernel cfg r hn.2 b h2]
        rfl
theorem nl_toKernelL (cfg : Cfg) (cs : List KE) (hn : Base.LIN ∉ basesL cs) (ks : List (GK Unit)) (h : toKernelL cfg cs = .ok ks) :
    ∀ g ∈ ks, nl g = true := by
  cases cs with
  | nil => simp only [toKernelL, Except.ok.injEq] at h; subst h; simp
  | cons k cs =>
    simp only [basesL, List.mem_append, not_or] at hn
    cases h1 : toKernel cfg k with
    | error e => simp [toKernelL, h1, bind, Except.bind] at h
    | ok a =>
      cases h2 : toKernelL cfg cs with
      | error e => simp [toKernelL, h1, h2, bind, Except.bind] at h
      | ok as =>
        simp only [toKernelL, h1, h2, bind, Except.bind, pure, Except.pure, Except.ok.injEq] at h
        subst h
        intro g hg
        rcases List.mem_cons.1 hg with rfl | hg
        · exact nl_toKernel cfg k hn.1 _ h1
        · exact nl_toKernelL cfg cs hn.2 as h2 g hg
end

/-! ### Bounds -/

/-- Bounded. -/
def BddC (f : Cov) : Prop := ∃ B, ∀ x y, |f x y| ≤ B

theorem abs_sigmoid (a : ℝ) : |sigmoid a| ≤ 1 := by
  have h1 := core_lt_one a
  have h2 := neg_one_lt_core a
  rw [sigmoid_eq, abs_le]; constructor <;> linarith

theorem bdd_phiS (l s : ℝ) (rev : Bool) : ∃ M, ∀ x, |phiS l s rev x| ≤ M :=
  ⟨1, fun x => abs_le.2 ⟨by linarith [(C48_range (l := l) (s := s) rev x).1], (C48_range rev x).2.le⟩⟩

theorem bdd_phiSI (l s w : ℝ) (rev : Bool) : ∃ M, ∀ x, |phiSI l s w rev x| ≤ M := by
  refine ⟨1 + 3 / |core (w / (2 * s))|, fun x => ?_⟩
  have key : |(sigmoid ((x - l) / s) + sigmoid ((x - l - w) / (-s)) - 1) / core (w / (2 * s))| ≤ 3 / |core (w / (2 * s))| := by
    rw [abs_div]
    refine div_le_div_of_nonneg_right ?_ (abs_nonneg _)
    have h1 := abs_le.1 (abs_sigmoid ((x - l) / s))
    have h2 := abs_le.1 (abs_sigmoid ((x - l - w) / (-s)))
    rw [abs_le]; constructor <;> linarith [h1.1, h1.2, h2.1, h2.2]
  have := abs_le.1 key
  cases rev <;> simp only [phiSI, Bool.false_eq_true, if_false, if_true] <;> rw [abs_le] <;> constructor <;> linarith [this.1, this.2]

theorem bdd_basis (v : ℝ) {phi : ℝ → ℝ} (h : ∃ M, ∀ x, |phi x| ≤ M) : BddC (basisK v phi) := by
  obtain ⟨M, h⟩ := h
  refine ⟨|v| * (M * M), fun x y => ?_⟩
  rw [basisK, abs_mul, abs_mul]
  have := (abs_nonneg _).trans (h x)
  exact mul_le_mul_of_nonneg_left (mul_le_mul (h x) (h y) (abs_nonneg _) this) (abs_nonneg _)

theorem bdd_bias (v : ℝ) : BddC (bias v) := ⟨|v|, fun _ _ => le_rfl⟩

theorem bdd_rbf (v l : ℝ) : BddC (rbf v l) := by
  refine ⟨|v|, fun x y => ?_⟩
  rw [rbf, abs_mul, abs_of_pos (Real.exp_pos _)]
  refine mul_le_of_le_one_right (abs_nonneg _) (Real.exp_le_one_iff.2 ?_)
  have : 0 ≤ ((x - y) / l) ^ 2 := sq_nonneg _
  nlinarith

theorem bdd_perCore (l : ℝ) : ∃ B, ∀ c, |c| ≤ 1 → |perCore l c| ≤ B := by
  unfold perCore
  simp only
  split_ifs with h1 h2
  · exact ⟨1, fun c h => h⟩
  · refine ⟨(Real.exp (1 / l ^ 2) + |i0 (1 / l ^ 2)|) / |Real.exp (1 / l ^ 2) - i0 (1 / l ^ 2)|, fun c h => ?_⟩
    rw [abs_div]
    refine div_le_div_of_nonneg_right ((abs_sub _ _).trans (add_le_add_left ?_ _)) (abs_nonneg _)
    rw [abs_of_pos (Real.exp_pos _)]
    exact Real.exp_le_exp.2 (mul_le_of_le_one_left (by positivity) (abs_le.1 h).2)
  · refine ⟨(1 + |embi0 (1 / l ^ 2)|) / |1 - embi0 (1 / l ^ 2)|, fun c h => ?_⟩
    rw [abs_div]
    refine div_le_div_of_nonneg_right ((abs_sub _ _).trans (add_le_add_left ?_ _)) (abs_nonneg _)
    rw [abs_of_pos (Real.exp_pos _)]
    refine Real.exp_le_one_iff.2 (mul_nonpos_of_nonpos_of_nonneg ?_ (by positivity))
    linarith [(abs_le.1 h).2]

theorem bdd_per (v p l : ℝ) : BddC (per v p l) := by
  obtain ⟨B, h⟩ := bdd_perCore l
  refine ⟨|v| * B, fun x y => ?_⟩
  rw [per, abs_mul]
  exact mul_le_mul_of_nonneg_left (h _ (Real.abs_cos_le_one _)) (abs_nonneg _)

/-- Bounded by `B`, whatever the inputs. -/
def Bdd (cfg : Cfg) (g : GK ℝ) (B : ℝ) : Prop :=
  (∀ (n : ℕ) (X : Fin n → ℝ) i j, |kerK cfg X g i j| ≤ B) ∧ ∀ (n m : ℕ) (X : Fin n → ℝ) (Y : Fin m → ℝ) i j, |kerK2 cfg X Y g i j| ≤ B

theorem bdd_base (cfg : Cfg) (b : Base) (p : PD ℝ) (hb : b ≠ .LIN) : ∃ B, Bdd cfg (.base b p) B := by
  have main : ∀ f : Cov, BddC f → (∀ (n : ℕ) (X : Fin n → ℝ), baseK cfg X b p = matK f X X) →
      (∀ (n m : ℕ) (X : Fin n → ℝ) (Y : Fin m → ℝ), baseK2 cfg X Y b p = matK f X Y) → ∃ B, Bdd cfg (.base b p) B := by
    rintro f ⟨B, h⟩ h1 h2
    refine ⟨B, fun n X i j => ?_, fun n m X Y i j => ?_⟩
    · rw [kerK, h1]; exact h _ _
    · rw [kerK2, h2]; exact h _ _
  cases b with
  | WN =>
    refine ⟨|varOf p|, fun n X i j => ?_, fun n m X Y i j => ?_⟩
    · simp only [kerK, baseK]; split_ifs <;> simp
    · simp [kerK2, baseK2]
  | LIN => exact absurd rfl hb
  | C => exact main _ (bdd_bias _) (fun _ _ => rfl) fun _ _ _ _ => rfl
  | SE => exact main _ (bdd_rbf _ _) (fun _ _ => rfl) fun _ _ _ _ => rfl
  | PER => exact main _ (bdd_per _ _ _) (fun _ _ => rfl) fun _ _ _ _ => rfl
  | S => exact main (basisK (varOf p) (sigPhi .S p)) (bdd_basis _ (by simp only [sigPhi]; exact bdd_phiS _ _ _)) (fun _ _ => rfl) fun _ _ _ _ => rfl
  | Sr => exact main (basisK (varOf p) (sigPhi .Sr p)) (bdd_basis _ (by simp only [sigPhi]; exact bdd_phiS _ _ _)) (fun _ _ => rfl) fun _ _ _ _ => rfl
  | SI => exact main (basisK (varOf p) (sigPhi .SI p)) (bdd_basis _ (by simp only [sigPhi]; exact bdd_phiSI _ _ _ _)) (fun _ _ => rfl) fun _ _ _ _ => rfl
  | SIr => exact main (basisK (varOf p) (sigPhi .SIr p)) (bdd_basis _ (by simp only [sigPhi]; exact bdd_phiSI _ _ _ _)) (fun _ _ => rfl) fun _ _ _ _ => rfl

theorem bdd_changePhi (c : CC) (p : PD ℝ) (rev : Bool) : ∃ M, ∀ x, |changePhi c p rev x| ≤ M := by
  cases c
  · exact bdd_phiS _ _ _
  · exact bdd_phiSI _ _ _ _

mutual
theorem bdd_of_nl (cfg : Cfg) : ∀ g : GK ℝ, nl g = true → ∃ B, Bdd cfg g B
  | .base b p, h => bdd_base cfg b p (by simpa [nl] using h)
  | .comb .sum ps, h => by
    obtain ⟨B, h1, h2, -⟩ := bdd_of_nlL cfg ps h
    exact ⟨B, fun n X i j => by rw [kerK]; exact h1 n X i j, fun n m X Y i j => by rw [kerK2]; exact h2 n m X Y i j⟩
  | .comb .prod ps, h => by
    obtain ⟨B, -, -, h1, h2⟩ := bdd_of_nlL cfg ps h
    exact ⟨B, fun n X i j => by rw [kerK]; exact h1 n X i j, fun n m X Y i j => by rw [kerK2]; exact h2 n m X Y i j⟩
  | .change c p l r, h => by
    rw [nl, Bool.and_eq_true] at h
    obtain ⟨B1, h1, h1'⟩ := bdd_of_nl cfg l h.1
    obtain ⟨B2, h2, h2'⟩ := bdd_of_nl cfg r h.2
    obtain ⟨M1, m1⟩ := bdd_basis 1 (bdd_changePhi c p true)
    obtain ⟨M2, m2⟩ := bdd_basis 1 (bdd_changePhi c p false)
    have aux : ∀ a b x y : ℝ, |a| ≤ B1 → |b| ≤ M1 → |x| ≤ B2 → |y| ≤ M2 → |a * b + x * y| ≤ B1 * M1 + B2 * M2 := by
      intro a b x y ha hb hx hy
      refine (abs_add_le _ _).trans (add_le_add ?_ ?_)
      · rw [abs_mul]; exact mul_le_mul ha hb (abs_nonneg _) ((abs_nonneg _).trans ha)
      · rw [abs_mul]; exact mul_le_mul hx hy (abs_nonneg _) ((abs_nonneg _).trans hx)
    refine ⟨B1 * M1 + B2 * M2, fun n X i j => ?_, fun n m X Y i j => ?_⟩
    · rw [kerK]; exact aux _ _ _ _ (h1 n X i j) (m1 _ _) (h2 n X i j) (m2 _ _)
    · rw [kerK2]; exact aux _ _ _ _ (h1' n m X Y i j) (m1 _ _) (h2' n m X Y i j) (m2 _ _)
theorem bdd_of_nlL (cfg : Cfg) : ∀ gs : List (GK ℝ), nlL gs = true → ∃ B,
    (∀ (n : ℕ) (X : Fin n → ℝ) i j, |kerSum cfg X gs i j| ≤ B) ∧ (∀ (n m : ℕ) (X : Fin n → ℝ) (Y : Fin m → ℝ) i j, |kerSum2 cfg X Y gs i j| ≤ B) ∧
      (∀ (n : ℕ) (X : Fin n → ℝ) i j, |kerProd cfg X gs i j| ≤ B) ∧ ∀ (n m : ℕ) (X : Fin n → ℝ) (Y : Fin m → ℝ) i j, |kerProd2 cfg X Y gs i j| ≤ B
  | [], _ => ⟨1, fun _ _ _ _ => by simp [kerSum], fun _ _ _ _ _ _ => by simp [kerSum2], fun _ _ _ _ => by simp [kerProd], fun _ _ _ _ _ _ => by simp [kerProd2]⟩
  | g :: gs, h => by
    rw [nlL, Bool.and_eq_true] at h
    obtain ⟨B1, h1, h1'⟩ := bdd_of_nl cfg g h.1
    obtain ⟨B2, a, b, c, d⟩ := bdd_of_nlL cfg gs h.2
    have hm : ∀ x y : ℝ, |x| ≤ B1 → |y| ≤ B2 → |x + y| ≤ max (B1 + B2) (B1 * B2) ∧ |x * y| ≤ max (B1 + B2) (B1 * B2) := by
      intro x y hx hy
      refine ⟨(abs_add_le _ _).trans ((add_le_add hx hy).trans (le_max_left ..)), ?_⟩
      rw [abs_mul]
      exact (mul_le_mul hx hy (abs_nonneg _) ((abs_nonneg _).trans hx)).trans (le_max_right ..)
    refine ⟨max (B1 + B2) (B1 * B2), fun n X i j => ?_, fun n m X Y i j => ?_, fun n X i j => ?_, fun n m X Y i j => ?_⟩
    · rw [kerSum]; exact (hm _ _ (h1 n X i j) (a n X i j)).1
    · rw [kerSum2]; exact (hm _ _ (h1' n m X Y i j) (b n m X Y i j)).1
    · rw [kerProd]; exact (hm _ _ (h1 n X i j) (c n X i j)).2
    · rw [kerProd2]; exact (hm _ _ (h1' n m X Y i j) (d n m X Y i j)).2
end

/-! ### Weights -/

theorem slope_pos {p : PD ℝ} (h : AdmPD p) : 0 < slopeOf p := by
  rw [slopeOf]
  cases hp : p.slope with
  | none => norm_num
  | some s => exact h.2.2.2.1 s hp

theorem width_pos {p : PD ℝ} (h : AdmPD p) : 0 < p.width.getD 1 := by
  cases hp : p.width with
  | none => norm_num
  | some s => exact h.2.2.2.2 s hp

theorem phi_compl (c : CC) (p : PD ℝ) (x : ℝ) : changePhi c p true x = 1 - changePhi c p false x := by
  cases c
  · exact C48_complement _ _ _
  · exact C49_complement _ _ _ _

theorem phi_range (c : CC) {p : PD ℝ} (h : AdmPD p) (rev : Bool) (x : ℝ) : 0 ≤ changePhi c p rev x ∧ changePhi c p rev x ≤ 1 := by
  have main : 0 ≤ changePhi c p false x ∧ changePhi c p false x ≤ 1 := by
    cases c
    · have := C48_range (l := p.location.getD 0) (s := p.slope.getD 0.5) false x
      exact ⟨this.1.le, this.2.le⟩
    · exact ⟨(C49_pos (slope_pos h) (width_pos h) x).le, C49_le_one (slope_pos h) (width_pos h) x⟩
  cases rev
  · exact main
  · rw [phi_compl]; constructor <;> linarith [main.1, main.2]

theorem core_ge {a t : ℝ} (ht : 0 ≤ t) (h : t ≤ a) : 1 - 1 / (1 + t) ≤ core a := by
  have := core_strictMono.monotone h
  rw [core_of_nonneg ht] at this
  have e : t / (1 + t) = 1 - 1 / (1 + t) := by field_simp; ring
  linarith

theorem core_le {a t : ℝ} (ht : 0 ≤ t) (h : a ≤ -t) : core a ≤ -1 + 1 / (1 + t) := by
  have := core_ge ht (le_neg.1 h)
  rw [core_neg] at this
  linarith

theorem weight_on (c : CC) {p : PD ℝ} (h : AdmPD p) {d x : ℝ} (hd : 0 ≤ d) (hx : OnSide c p d x) :
    changePhi c p true x ≤ 1 / (1 + d / slopeOf p) := by
  have hs := slope_pos h
  have hdd : 0 ≤ d / slopeOf p := by positivity
  have hpos : 0 < 1 / (1 + d / slopeOf p) := by positivity
  cases c with
  | CP =>
    have h1 : d / slopeOf p ≤ (x - p.location.getD 0) / slopeOf p := div_le_div_of_nonneg_right (by simp only [OnSide] at hx; linarith) hs.le
    have := core_ge hdd h1
    simp only [changePhi, phiS, if_true, sigmoid_eq]
    simp only [slopeOf] at *
    linarith
  | CW =>
    have hw := width_pos h
    have h1 : d / slopeOf p ≤ (x - p.location.getD 0) / slopeOf p := div_le_div_of_nonneg_right (by linarith [hx.1]) hs.le
    have h2 : d / slopeOf p ≤ (p.location.getD 0 + p.width.getD 1 - x) / slopeOf p := div_le_div_of_nonneg_right (by linarith [hx.2]) hs.le
    have a1 := core_ge hdd h1
    have a2 := core_ge hdd h2
    have hh := core_pos (a := p.width.getD 1 / (2 * slopeOf p)) (by positivity)
    have hh1 := core_lt_one (p.width.getD 1 / (2 * slopeOf p))
    have hle : 1 / (1 + d / slopeOf p) ≤ 1 := by rw [div_le_one (by positivity)]; linarith
    have key : 1 - 1 / (1 + d / slopeOf p) ≤ changePhi .CW p false x := by
      rw [changePhi]
      change _ ≤ phiSI _ (slopeOf p) _ _ _
      rw [phiSI_core hs, le_div_iff₀ hh]
      nlinarith
    rw [phi_compl]; linarith

theorem weight_off (c : CC) {p : PD ℝ} (h : AdmPD p) {d x : ℝ} (hd : 0 ≤ d) (hx : OffSide c p d x) :
    changePhi c p false x ≤ 1 / (1 + d / slopeOf p) := by
  have hs := slope_pos h
  have hdd : 0 ≤ d / slopeOf p := by positivity
  have hpos : 0 < 1 / (1 + d / slopeOf p) := by positivity
  cases c with
  | CP =>
    have h1 : (x - p.location.getD 0) / slopeOf p ≤ -(d / slopeOf p) := by
      rw [← neg_div]; exact div_le_div_of_nonneg_right (by simp only [OffSide] at hx; linarith) hs.le
    have := core_le hdd h1
    simp only [changePhi, phiS, Bool.false_eq_true, if_false, sigmoid_eq]
    simp only [slopeOf] at *
    linarith
  | CW =>
    have hw := width_pos h
    set u := p.width.getD 1 / (2 * slopeOf p) with hu
    have hu0 : 0 < u := by positivity
    have hh := core_pos hu0
    -- both sides of the window
    have main : ∀ b, d / slopeOf p ≤ b → (core (b + 2 * u) + core (-b)) / 2 / core u ≤ 1 / (1 + d / slopeOf p) := by
      intro b hb
      have hb0 : 0 ≤ b := hdd.trans hb
      have e : (core (b + 2 * u) + core (-b)) / 2 / core u = (1 + u) / ((1 + b + 2 * u) * (1 + b)) := by
        rw [core_neg, core_of_nonneg (by positivity : 0 ≤ b + 2 * u), core_of_nonneg hb0, core_of_nonneg hu0.le]
        have : 1 + (b + 2 * u) ≠ 0 := by positivity
        have h' : 1 + b + 2 * u ≠ 0 := by positivity
        field_simp
        ring
      rw [e, div_le_div_iff₀ (by positivity) (by positivity), one_mul]
      have h3 : 1 + u ≤ 1 + b + 2 * u := by linarith
      exact mul_le_mul h3 (by linarith) (by positivity) (by positivity)
    rw [changePhi]
    change phiSI _ (slopeOf p) _ _ _ ≤ _
    rw [phiSI_core hs]
    have hsum : (x - p.location.getD 0) / slopeOf p + (p.location.getD 0 + p.width.getD 1 - x) / slopeOf p = 2 * u := by
      rw [hu]; field_simp; ring
    rcases hx with hx | hx
    · have := main (-((x - p.location.getD 0) / slopeOf p)) (by rw [← neg_div]; exact div_le_div_of_nonneg_right (by linarith) hs.le)
      rw [neg_neg, ← hsum] at this
      rw [show -((x - p.location.getD 0) / slopeOf p) + ((x - p.location.getD 0) / slopeOf p + (p.location.getD 0 + p.width.getD 1 - x) / slopeOf p) =
        (p.location.getD 0 + p.width.getD 1 - x) / slopeOf p by ring, add_comm] at this
      exact this
    · have := main (-((p.location.getD 0 + p.width.getD 1 - x) / slopeOf p)) (by rw [← neg_div]; exact div_le_div_of_nonneg_right (by linarith) hs.le)
      rw [neg_neg, ← hsum] at this
      rw [show -((p.location.getD 0 + p.width.getD 1 - x) / slopeOf p) + ((x - p.location.getD 0) / slopeOf p + (p.location.getD 0 + p.width.getD 1 - x) / slopeOf p) =
        (x - p.location.getD 0) / slopeOf p by ring] at this
      exact this

/-- The weight of a window behind it. -/
theorem hat_after {p : PD ℝ} (h : AdmPD p) {x : ℝ} (hx : p.location.getD 0 + p.width.getD 1 ≤ x) :
    changePhi .CW p false x = (1 + p.width.getD 1 / (2 * slopeOf p)) /
      ((1 + (x - p.location.getD 0) / slopeOf p) * (1 + (x - p.location.getD 0 - p.width.getD 1) / slopeOf p)) := by
  have hs := slope_pos h
  have hw := width_pos h
  rw [changePhi]
  change phiSI _ (slopeOf p) _ _ _ = _
  set b := (x - p.location.getD 0 - p.width.getD 1) / slopeOf p with hb
  set u := p.width.getD 1 / (2 * slopeOf p) with hu
  have hb0 : 0 ≤ b := div_nonneg (by linarith) hs.le
  have hu0 : 0 < u := by positivity
  have e1 : (x - p.location.getD 0) / slopeOf p = b + 2 * u := by rw [hb, hu]; field_simp; ring
  have e2 : (p.location.getD 0 + p.width.getD 1 - x) / slopeOf p = -b := by rw [hb, ← neg_div]; congr 1; ring
  rw [phiSI_core hs, e1, e2, ← hu, core_neg, core_of_nonneg (by positivity : 0 ≤ b + 2 * u), core_of_nonneg hb0, core_of_nonneg hu0.le]
  have : 1 + (b + 2 * u) ≠ 0 := by positivity
  field_simp
  ring

theorem hat_symm {p : PD ℝ} (h : AdmPD p) (x : ℝ) :
    changePhi .CW p false x = changePhi .CW p false (2 * p.location.getD 0 + p.width.getD 1 - x) := by
  have := C49_symm (l := p.location.getD 0) (w := p.width.getD 1) (slope_pos h) (x - p.location.getD 0 - p.width.getD 1 / 2)
  rw [show p.location.getD 0 + p.width.getD 1 / 2 + (x - p.location.getD 0 - p.width.getD 1 / 2) = x by ring,
    show p.location.getD 0 + p.width.getD 1 / 2 - (x - p.location.getD 0 - p.width.getD 1 / 2) = 2 * p.location.getD 0 + p.width.getD 1 - x by ring] at this
  exact this

theorem hat_sq {p : PD ℝ} (h : AdmPD p) {d x : ℝ} (hd : 0 ≤ d) (hx : OffSide .CW p d x) :
    changePhi .CW p false x ≤ (1 + p.width.getD 1 / (2 * slopeOf p)) / (1 + d / slopeOf p) ^ 2 := by
  have hs := slope_pos h
  have hw := width_pos h
  have main : ∀ x, p.location.getD 0 + p.width.getD 1 + d ≤ x →
      changePhi .CW p false x ≤ (1 + p.width.getD 1 / (2 * slopeOf p)) / (1 + d / slopeOf p) ^ 2 := by
    intro x hx
    rw [hat_after h (by linarith)]
    refine div_le_div_of_nonneg_left (by positivity) (by positivity) ?_
    rw [sq]
    have h1 : d / slopeOf p ≤ (x - p.location.getD 0) / slopeOf p := div_le_div_of_nonneg_right (by linarith) hs.le
    have h2 : d / slopeOf p ≤ (x - p.location.getD 0 - p.width.getD 1) / slopeOf p := div_le_div_of_nonneg_right (by linarith) hs.le
    have h0 : 0 ≤ d / slopeOf p := by positivity
    exact mul_le_mul (by linarith) (by linarith) (by linarith) (by linarith)
  rcases hx with hx | hx
  · rw [hat_symm h]; exact main _ (by linarith)
  · exact main _ hx

/-- Around a window even a line fades. -/
theorem hat_line {p : PD ℝ} (h : AdmPD p) {t : ℝ} (ht : 0 < t) : ∃ D, ∀ x, D ≤ |x| → (1 + |x|) * changePhi .CW p false x ≤ t := by
  have hs := slope_pos h
  have hw := width_pos h
  set u := p.width.getD 1 / (2 * slopeOf p) with hu
  have hu0 : 0 < u := by positivity
  set M := max 1 (2 * slopeOf p) with hM
  have hM0 : 0 < M := lt_of_lt_of_le one_pos (le_max_left ..)
  refine ⟨max (2 * (|p.location.getD 0| + p.width.getD 1)) (2 * slopeOf p * ((1 + u) * M / t)), fun x hx => ?_⟩
  have h1 : 2 * (|p.location.getD 0| + p.width.getD 1) ≤ |x| := (le_max_left ..).trans hx
  have h2 : (1 + u) * M / t ≤ |x| / 2 / slopeOf p := by
    rw [le_div_iff₀ hs, le_div_iff₀ two_pos]
    exact le_trans (by linarith) ((le_max_right ..).trans hx)
  have hoff : OffSide .CW p (|x| / 2) x := by
    have h5 := le_abs_self (p.location.getD 0)
    have h6 := neg_abs_le (p.location.getD 0)
    rcases le_total 0 x with h | h
    · right; rw [abs_of_nonneg h] at *; linarith
    · left; rw [abs_of_nonpos h] at *; linarith
  have h3 := hat_sq h (by positivity : 0 ≤ |x| / 2) hoff
  set y := |x| / 2 / slopeOf p with hy
  have hy0 : 0 ≤ y := by positivity
  have h4 : 1 + |x| ≤ M * (1 + y) := by
    have e : |x| = 2 * slopeOf p * y := by rw [hy]; field_simp
    rw [e, mul_add, mul_one]
    exact add_le_add (le_max_left ..) (mul_le_mul_of_nonneg_right (le_max_right ..) hy0)
  have h7 : (1 + u) * M ≤ t * (1 + y) := by
    rw [div_le_iff₀ ht] at h2
    nlinarith
  calc (1 + |x|) * changePhi .CW p false x ≤ (M * (1 + y)) * ((1 + u) / (1 + y) ^ 2) := mul_le_mul h4 h3 (phi_range .CW h false x).1 (by positivity)
    _ = (1 + u) * M / (1 + y) := by field_simp
    _ ≤ t := by rw [div_le_iff₀ (by positivity)]; exact h7

/-! ### Growth -/

mutual
/-- The degree of a kernel. -/
def deg {α : Type} : GK α → ℕ
  | .base b _ => if b = .LIN then 1 else 0
  | .comb op ps => degL op ps
  | .change _ _ l r => max (deg l) (deg r)
/-- Over the parts of a sum or product. -/
def degL {α : Type} : Op → List (GK α) → ℕ
  | _, [] => 0
  | .sum, k :: ks => max (deg k) (degL .sum ks)
  | .prod, k :: ks => deg k + degL .prod ks
end

/-- Of a sum or product of two. -/
def degOp : Op → ℕ → ℕ → ℕ
  | .sum => max
  | .prod => (· + ·)

theorem degL_cons {α : Type} (op : Op) (k : GK α) (ks : List (GK α)) : degL op (k :: ks) = degOp op (deg k) (degL op ks) := by
  cases op <;> rw [degL] <;> rfl

theorem degL_nil {α : Type} (op : Op) : degL op ([] : List (GK α)) = 0 := by cases op <;> rw [degL]

theorem degOp_zero (op : Op) (a : ℕ) : degOp op a 0 = a := by cases op <;> simp [degOp]

theorem degOp_zero' (op : Op) (a : ℕ) : degOp op 0 a = a := by cases op <;> simp [degOp]

theorem degOp_assoc (op : Op) (a b c : ℕ) : degOp op (degOp op a b) c = degOp op a (degOp op b c) := by
  cases op
  · exact max_assoc ..
  · exact add_assoc ..

theorem degL_append {α : Type} (op : Op) (l m : List (GK α)) : degL op (l ++ m) = degOp op (degL op l) (degL op m) := by
  induction l with
  | nil => rw [List.nil_append, degL_nil, degOp_zero']
  | cons k l ih => rw [List.cons_append, degL_cons, degL_cons, ih, degOp_assoc]

mutual
theorem deg_erase {α : Type} : ∀ g : GK α, deg (erase g) = deg g
  | .base _ p => rfl
  | .comb op ps => by rw [erase, deg, deg, deg_eraseL op ps]
  | .change _ _ l r => by rw [erase, deg, deg, deg_erase l, deg_erase r]
theorem deg_eraseL {α : Type} (op : Op) : ∀ gs : List (GK α), degL op (eraseL gs) = degL op gs
  | [] => by rw [eraseL, degL_nil, degL_nil]
  | g :: gs => by rw [eraseL, degL_cons, degL_cons, deg_erase g, deg_eraseL op gs]
end

theorem deg_parts {α : Type} (op : Op) (g : GK α) : degL op (partsOf op g) = deg g := by
  have one : ∀ x : GK α, degL op [x] = deg x := fun x => by rw [degL_cons, degL_nil, degOp_zero]
  cases g with
  | comb o ps =>
    rw [partsOf]
    split
    · next h => subst h; rw [deg]
    · exact one _
  | base b p => exact one _
  | change c p l r => exact one _

theorem deg_foldl {α : Type} (op : Op) : ∀ (l : List (GK α)) (g : GK α), deg (l.foldl (combine op) g) = degOp op (deg g) (degL op l)
  | [], g => by rw [degL_nil, degOp_zero]; rfl
  | x :: l, g => by
    rw [List.foldl_cons, deg_foldl op l, combine, deg, degL_append, deg_parts, deg_parts, degL_cons, degOp_assoc]

/-- Of a bag of base kernels. -/
def degB (op : Op) (bs : List Base) : ℕ :=
  match op with
  | .sum => if .LIN ∈ bs then 1 else 0
  | .prod => bs.count .LIN

theorem degB_cons (op : Op) (b : Base) (bs : List Base) : degB op (b :: bs) = degOp op (if b = .LIN then 1 else 0) (degB op bs) := by
  cases op
  · simp only [degB, degOp, List.mem_cons]
    by_cases h1 : b = .LIN <;> by_cases h2 : Base.LIN ∈ bs <;> simp [h1, h2, eq_comm]
  · simp only [degB, degOp, List.count_cons, beq_iff_eq]
    exact add_comm _ _

theorem degB_perm (op : Op) {l m : List Base} (h : l.Perm m) : degB op l = degB op m := by
  cases op
  · simp only [degB, h.mem_iff]
  · exact h.count_eq _

theorem deg_baseKers (cfg : Cfg) (op : Op) : ∀ (bs : List Base) (ks : List (GK Unit)), baseKers cfg bs = .ok ks → degL op ks = degB op bs ∧ degL op (ks.map unlinkVar) = degB op bs
  | [], ks, h => by
    simp only [baseKers, Except.ok.injEq] at h; subst h
    rw [List.map_nil, degL_nil]; cases op <;> simp [degB]
  | b :: bs, ks, h => by
    cases h1 : baseKer cfg b with
    | error e => simp [baseKers, h1, bind, Except.bind] at h
    | ok a =>
      cases h2 : baseKers cfg bs with
      | error e => simp [baseKers, h1, h2, bind, Except.bind] at h
      | ok as =>
        simp only [baseKers, h1, h2, bind, Except.bind, pure, Except.pure, Except.ok.injEq] at h
        subst h
        have ih := deg_baseKers cfg op bs as h2
        unfold baseKer at h1
        split at h1
        · simp at h1
        · simp only [Except.ok.injEq] at h1; subst h1
          rw [List.map_cons, degL_cons, degL_cons, ih.1, ih.2, degB_cons, unlinkVar, deg, deg]
          exact ⟨rfl, rfl⟩

mutual
theorem deg_toKernel (cfg : Cfg) (k : KE) (s : GK Unit) (h : toKernel cfg k = .ok s) : deg s = degree k := by
  cases k with
  | base b =>
    rw [toKernel, baseKer] at h
    split at h
    · simp at h
    · simp only [Except.ok.injEq] at h; subst h; rw [deg, degree]
  | comm op b cs =>
    cases h1 : baseKers cfg (orderBase b.elements) with
    | error e => cases op <;> simp [toKernel, h1, bind, Except.bind] at h
    | ok bs =>
      cases h2 : toKernelL cfg cs with
      | error e => cases op <;> simp [toKernel, h1, h2, bind, Except.bind] at h
      | ok ks =>
        have hk := deg_toKernelL cfg cs ks h2
        have hb := fun op => deg_baseKers cfg op _ bs h1
        have hp : ∀ op, degB op (orderBase b.elements) = degB op b.elements := fun op => degB_perm op (List.perm_insertionSort ..)
        have main : ∀ l : List (GK Unit), reduceK op l = .ok s → deg s = degL op l := by
          intro l hr
          cases l with
          | nil => simp [reduceK] at hr
          | cons x l =>
            simp only [reduceK, Except.ok.injEq] at hr
            subst hr
            rw [deg_foldl, degL_cons]
        cases op with
        | sum =>
          simp only [toKernel, h1, h2, bind, Except.bind] at h
          rw [main _ h, degL_append, (hb _).1, hp, hk.1, degree]
          rfl
        | prod =>
          simp only [toKernel, h1, h2, bind, Except.bind] at h
          have hu : degL .prod (unlinkTail bs) = degL .prod bs := by
            cases bs with
            | nil => rfl
            | cons x bs =>
              rw [unlinkTail, degL_cons, degL_cons]
              congr 1
              clear main h hk hb hp h2
              have : ∀ g ∈ x :: bs, deg (unlinkVar g) = deg g := fun g _ => by cases g <;> rfl
              replace this := fun g hg => this g (List.mem_cons_of_mem _ hg)
              clear h1
              induction bs with
              | nil => rfl
              | cons y bs ih => rw [List.map_cons, degL_cons, degL_cons, this y (List.mem_cons_self ..), ih fun g hg => this g (List.mem_cons_of_mem _ hg)]
          rw [main _ h, degL_append, hu, (hb _).1, hp, hk.2, degree]
          rfl
  | change c l r =>
    cases h1 : toKernel cfg l with
    | error e => simp [toKernel, h1, bind, Except.bind] at h
    | ok a =>
      cases h2 : toKernel cfg r with
      | error e => simp [toKernel, h1, h2, bind, Except.bind] at h
      | ok b =>
        simp only [toKernel, h1, h2, bind, Except.bind, pure, Except.pure, Except.ok.injEq] at h
        subst h
        rw [deg, deg_toKernel cfg l a h1, deg_toKernel cfg r b h2, degree]
theorem deg_toKernelL (cfg : Cfg) (cs : List KE) (ks : List (GK Unit)) (h : toKernelL cfg cs = .ok ks) :
    degL .sum ks = degreeMax cs ∧ degL .prod ks = degreeSum cs := by
  cases cs with
  | nil => simp only [toKernelL, Except.ok.injEq] at h; subst h; rw [degL_nil, degL_nil, degreeMax, degreeSum]; exact ⟨rfl, rfl⟩
  | cons k cs =>
    cases h1 : toKernel cfg k with
    | error e => simp [toKernelL, h1, bind, Except.bind] at h
    | ok a =>
      cases h2 : toKernelL cfg cs with
      | error e => simp [toKernelL, h1, h2, bind, Except.bind] at h
      | ok as =>
        simp only [toKernelL, h1, h2, bind, Except.bind, pure, Except.pure, Except.ok.injEq] at h
        subst h
        have ih := deg_toKernelL cfg cs as h2
        rw [degL_cons, degL_cons, deg_toKernel cfg k a h1, ih.1, ih.2, degreeMax, degreeSum]
        exact ⟨rfl, rfl⟩
end

/-- Bounded by a polynomial of the inputs. -/
def Poly (cfg : Cfg) (g : GK ℝ) (d : ℕ) (B : ℝ) : Prop :=
  ∀ (n : ℕ) (X : Fin n → ℝ) i j, |kerK cfg X g i j| ≤ B * ((1 + |X i|) * (1 + |X j|)) ^ d

theorem one_le_w (x y : ℝ) : 1 ≤ (1 + |x|) * (1 + |y|) := by nlinarith [abs_nonneg x, abs_nonneg y, mul_nonneg (abs_nonneg x) (abs_nonneg y)]

theorem poly_mono {B B' : ℝ} {d d' : ℕ} {x y z : ℝ} (hB : 0 ≤ B) (h1 : B ≤ B') (h2 : d ≤ d') (h : |z| ≤ B * ((1 + |x|) * (1 + |y|)) ^ d) :
    |z| ≤ B' * ((1 + |x|) * (1 + |y|)) ^ d' :=
  h.trans (mul_le_mul h1 (pow_le_pow_right₀ (one_le_w x y) h2) (by positivity) (hB.trans h1))

theorem sub_le_w (x o : ℝ) : |x - o| ≤ (1 + |o|) * (1 + |x|) := by
  have := abs_sub x o
  nlinarith [abs_nonneg x, abs_nonneg o, mul_nonneg (abs_nonneg x) (abs_nonneg o)]

theorem poly_lin (cfg : Cfg) (p : PD ℝ) : ∃ B, 0 ≤ B ∧ Poly cfg (.base .LIN p) 1 B := by
  have key : ∀ v o x y : ℝ, |v * ((x - o) * (y - o))| ≤ |v| * (1 + |o|) ^ 2 * ((1 + |x|) * (1 + |y|)) ^ 1 := by
    intro v o x y
    rw [abs_mul, abs_mul, pow_one]
    have := mul_le_mul (sub_le_w x o) (sub_le_w y o) (abs_nonneg _) (by positivity)
    calc _ ≤ |v| * ((1 + |o|) * (1 + |x|) * ((1 + |o|) * (1 + |y|))) := mul_le_mul_of_nonneg_left this (abs_nonneg _)
      _ = _ := by ring
  refine ⟨|varOf p| * (1 + |if cfg.linOffset then p.offset.getD 0 else 0|) ^ 2, by positivity, fun n X i j => ?_⟩
  refine le_trans (le_of_eq ?_) (key (varOf p) (if cfg.linOffset then p.offset.getD 0 else 0) (X i) (X j))
  simp only [kerK, baseK]
  split_ifs <;> simp [matK, linearOffset, linear] <;> ring_nf

mutual
theorem poly_of (cfg : Cfg) : ∀ g : GK ℝ, ∃ B, 0 ≤ B ∧ Poly cfg g (deg g) B
  | .base b p => by
    by_cases hb : b = .LIN
    · subst hb; exact poly_lin cfg p
    · obtain ⟨B, h⟩ := bdd_base cfg b p hb
      refine ⟨B, (abs_nonneg _).trans (h.1 1 (fun _ => 0) 0 0), fun n X i j => ?_⟩
      rw [deg, if_neg hb, pow_zero, mul_one]; exact h.1 n X i j
  | .comb .sum ps => by
    obtain ⟨B, h0, h⟩ := poly_sum cfg ps
    exact ⟨B, h0, fun n X i j => by rw [kerK, deg]; exact h n X i j⟩
  | .comb .prod ps => by
    obtain ⟨B, h0, h⟩ := poly_prod cfg ps
    exact ⟨B, h0, fun n X i j => by rw [kerK, deg]; exact h n X i j⟩
  | .change c p l r => by
    obtain ⟨B1, n1, h1⟩ := poly_of cfg l
    obtain ⟨B2, n2, h2⟩ := poly_of cfg r
    obtain ⟨M1, m1⟩ := bdd_basis 1 (bdd_changePhi c p true)
    obtain ⟨M2, m2⟩ := bdd_basis 1 (bdd_changePhi c p false)
    have q1 : 0 ≤ M1 := (abs_nonneg _).trans (m1 0 0)
    have q2 : 0 ≤ M2 := (abs_nonneg _).trans (m2 0 0)
    refine ⟨B1 * M1 + B2 * M2, by positivity, fun n X i j => ?_⟩
    rw [kerK, deg, add_mul]
    refine (abs_add_le _ _).trans (add_le_add ?_ ?_)
    · rw [Arr.mul, abs_mul]
      have := poly_mono n1 le_rfl (le_max_left (deg l) (deg r)) (h1 n X i j)
      calc _ ≤ B1 * ((1 + |X i|) * (1 + |X j|)) ^ max (deg l) (deg r) * M1 := mul_le_mul this (m1 _ _) (abs_nonneg _) (by positivity)
        _ = _ := by ring
    · rw [Arr.mul, abs_mul]
      have := poly_mono n2 le_rfl (le_max_right (deg l) (deg r)) (h2 n X i j)
      calc _ ≤ B2 * ((1 + |X i|) * (1 + |X j|)) ^ max (deg l) (deg r) * M2 := mul_le_mul this (m2 _ _) (abs_nonneg _) (by positivity)
        _ = _ := by ring
theorem poly_sum (cfg : Cfg) : ∀ gs : List (GK ℝ), ∃ B, 0 ≤ B ∧
    ∀ (n : ℕ) (X : Fin n → ℝ) i j, |kerSum cfg X gs i j| ≤ B * ((1 + |X i|) * (1 + |X j|)) ^ degL .sum gs
  | [] => ⟨0, le_rfl, fun n X i j => by simp [kerSum]⟩
  | g :: gs => by
    obtain ⟨B1, n1, h1⟩ := poly_of cfg g
    obtain ⟨B2, n2, h2⟩ := poly_sum cfg gs
    refine ⟨B1 + B2, by positivity, fun n X i j => ?_⟩
    rw [kerSum, degL, add_mul]
    exact (abs_add_le _ _).trans (add_le_add (poly_mono n1 le_rfl (le_max_left ..) (h1 n X i j)) (poly_mono n2 le_rfl (le_max_right ..) (h2 n X i j)))
theorem poly_prod (cfg : Cfg) : ∀ gs : List (GK ℝ), ∃ B, 0 ≤ B ∧
    ∀ (n : ℕ) (X : Fin n → ℝ) i j, |kerProd cfg X gs i j| ≤ B * ((1 + |X i|) * (1 + |X j|)) ^ degL .prod gs
  | [] => ⟨1, zero_le_one, fun n X i j => by simp [kerProd, degL_nil]⟩
  | g :: gs => by
    obtain ⟨B1, n1, h1⟩ := poly_of cfg g
    obtain ⟨B2, n2, h2⟩ := poly_prod cfg gs
    refine ⟨B1 * B2, by positivity, fun n X i j => ?_⟩
    rw [kerProd, degL, pow_add, Arr.mul, abs_mul]
    calc _ ≤ _ := mul_le_mul (h1 n X i j) (h2 n X i j) (abs_nonneg _) (by positivity)
      _ = _ := by ring
end

/-- A blend whose first weights are small is its second part. -/
theorem blend {a b e l r : ℝ} (ha : 0 ≤ a ∧ a ≤ e) (hb : 0 ≤ b ∧ b ≤ e) (hb1 : b ≤ 1) :
    |l * (1 * (a * b)) + r * (1 * ((1 - a) * (1 - b))) - r| ≤ e ^ 2 * |l| + 2 * e * |r| := by
  have e1 : l * (1 * (a * b)) + r * (1 * ((1 - a) * (1 - b))) - r = l * (a * b) - r * (a + b - a * b) := by ring
  rw [e1]
  refine (abs_sub _ _).trans (add_le_add ?_ ?_)
  · rw [abs_mul, abs_of_nonneg (mul_nonneg ha.1 hb.1), mul_comm]
    refine mul_le_mul_of_nonneg_right ?_ (abs_nonneg _)
    rw [sq]; exact mul_le_mul ha.2 hb.2 hb.1 (ha.1.trans ha.2)
  · rw [abs_mul, mul_comm]
    refine mul_le_mul_of_nonneg_right ?_ (abs_nonneg _)
    rw [abs_le]
    constructor <;> nlinarith [mul_nonneg ha.1 hb.1, mul_nonneg ha.1 (sub_nonneg.2 hb1), ha.1, hb.1, ha.2, hb.2]

/-- A blend of which either part has a small weight is small. -/
theorem blend_across {a b e l r : ℝ} (ha : 0 ≤ a ∧ a ≤ 1) (hb : 0 ≤ b ∧ b ≤ 1) (ha1 : 1 - a ≤ e) (hb1 : b ≤ e) :
    |l * (1 * (a * b)) + r * (1 * ((1 - a) * (1 - b)))| ≤ e * (|l| + |r|) := by
  have he : 0 ≤ e := hb.1.trans hb1
  rw [mul_add]
  refine (abs_add_le _ _).trans (add_le_add ?_ ?_)
  · rw [abs_mul, one_mul, abs_of_nonneg (mul_nonneg ha.1 hb.1), mul_comm]
    refine mul_le_mul_of_nonneg_right ?_ (abs_nonneg _)
    nlinarith [mul_nonneg hb.1 (sub_nonneg.2 ha.2)]
  · rw [abs_mul, one_mul, abs_of_nonneg (mul_nonneg (sub_nonneg.2 ha.2) (sub_nonneg.2 hb.2)), mul_comm]
    refine mul_le_mul_of_nonneg_right ?_ (abs_nonneg _)
    nlinarith [mul_nonneg hb.1 (sub_nonneg.2 ha.2)]

theorem small {s : ℝ} (hs : 0 < s) {B e : ℝ} (hB : 0 ≤ B) (he : 0 < e) :
    ∃ d, 0 ≤ d ∧ (1 / (1 + d / s)) ^ 2 * B ≤ e ∧ 2 * (1 / (1 + d / s)) ≤ e ∧ (1 / (1 + d / s)) * B ≤ e := by
  refine ⟨s * ((B + 2) / e), by positivity, ?_⟩
  have h1 : s * ((B + 2) / e) / s = (B + 2) / e := by field_simp
  rw [h1]
  set t := 1 / (1 + (B + 2) / e) with ht
  have ht0 : 0 < t := by positivity
  have ht1 : t ≤ 1 := by rw [ht, div_le_one (by positivity)]; linarith [show 0 ≤ (B + 2) / e by positivity]
  have ht2 : t * (B + 2) ≤ e := by
    rw [ht, div_mul_eq_mul_div, one_mul, div_le_iff₀ (by positivity)]
    have : e * (1 + (B + 2) / e) = e + (B + 2) := by field_simp
    linarith
  have h3 : t * B ≤ e := by nlinarith
  exact ⟨by nlinarith [mul_nonneg ht0.le hB], by nlinarith [mul_nonneg ht0.le hB], h3⟩

theorem fitted_change {cfg : Cfg} {c : CC} {a b : KE} {g : GK ℝ} (h : FittedTo cfg (.change c a b) g) :
    ∃ p l r, g = .change c p l r ∧ AdmPD p ∧ FittedTo cfg a l ∧ FittedTo cfg b r ∧ mapPD (fun _ => ()) p = linked (kerPars cfg c) := by
  obtain ⟨h, ha⟩ := h
  cases h1 : toKernel cfg a with
  | error e => simp [toKernel, h1, bind, Except.bind] at h
  | ok x =>
    cases h2 : toKernel cfg b with
    | error e => simp [toKernel, h1, h2, bind, Except.bind] at h
    | ok y =>
      simp only [toKernel, h1, h2, bind, Except.bind, pure, Except.pure, Except.ok.injEq] at h
      cases g with
      | base b p => simp [erase] at h
      | comb o ps => simp [erase] at h
      | change c' p l r =>
        simp only [erase, GK.change.injEq] at h
        obtain ⟨rfl, hp, rfl, rfl⟩ := h
        exact ⟨p, l, r, rfl, ha.1, ⟨h1, ha.2.1⟩, ⟨h2, ha.2.2⟩, hp.symm⟩

theorem fitted_branches {cfg : Cfg} {c c' : CC} {a b : KE} {p : PD ℝ} {l r : GK ℝ} (h : FittedTo cfg (.change c a b) (.change c' p l r)) :
    c' = c ∧ AdmPD p ∧ FittedTo cfg a l ∧ FittedTo cfg b r := by
  obtain ⟨p', l', r', e, h1, h2, h3, -⟩ := fitted_change h
  simp only [GK.change.injEq] at e
  obtain ⟨rfl, rfl, rfl, rfl⟩ := e
  exact ⟨rfl, h1, h2, h3⟩

theorem bdd_fitted {cfg : Cfg} {k : KE} (hk : NoLin k) {g : GK ℝ} (hg : FittedTo cfg k g) : ∃ B, 0 ≤ B ∧ Bdd cfg g B := by
  obtain ⟨B, h⟩ := bdd_of_nl cfg g (by rw [← nl_erase]; exact nl_toKernel cfg k hk _ hg.1)
  exact ⟨B, (abs_nonneg _).trans (h.1 1 (fun _ => 0) 0 0), h⟩

theorem entry_change (cfg : Cfg) {n : ℕ} (X : Fin n → ℝ) (c : CC) (p : PD ℝ) (l r : GK ℝ) (i j : Fin n) :
    kerK cfg X (.change c p l r) i j = kerK cfg X l i j * (1 * (changePhi c p true (X i) * changePhi c p true (X j))) +
      kerK cfg X r i j * (1 * (changePhi c p false (X i) * changePhi c p false (X j))) := by
  rw [kerK]; rfl

theorem entry_change2 (cfg : Cfg) {n m : ℕ} (X : Fin n → ℝ) (Y : Fin m → ℝ) (c : CC) (p : PD ℝ) (l r : GK ℝ) (i : Fin n) (j : Fin m) :
    kerK2 cfg X Y (.change c p l r) i j = kerK2 cfg X Y l i j * (1 * (changePhi c p true (X i) * changePhi c p true (Y j))) +
      kerK2 cfg X Y r i j * (1 * (changePhi c p false (X i) * changePhi c p false (Y j))) := by
  rw [kerK2]; rfl

theorem second_entry (cfg : Cfg) {n : ℕ} (X : Fin n → ℝ) (p : PD ℝ) (r : GK ℝ) (i j : Fin n) :
    kerK cfg X (secondPart p r) i j = kerK cfg X r i j * (1 * (changePhi .CP p false (X i) * changePhi .CP p false (X j))) := by
  simp only [secondPart, kerK, kerProd, Arr.mul, baseK, matK, basisK, varOf, sigPhi, reversed, changePhi, slopeOf, Option.getD_none, Option.getD_some, mul_one]

theorem second_entry2 (cfg : Cfg) {n m : ℕ} (X : Fin n → ℝ) (Y : Fin m → ℝ) (p : PD ℝ) (r : GK ℝ) (i : Fin n) (j : Fin m) :
    kerK2 cfg X Y (secondPart p r) i j = kerK2 cfg X Y r i j * (1 * (changePhi .CP p false (X i) * changePhi .CP p false (Y j))) := by
  simp only [secondPart, kerK2, kerProd2, baseK2, matK, basisK, varOf, sigPhi, reversed, changePhi, slopeOf, Option.getD_none, Option.getD_some, mul_one]

/-- What the first branch of a change point adds to the predicted mean. -/
theorem mean_diff (cfg : Cfg) {n m : ℕ} (X y : Fin n → ℝ) (Y : Fin m → ℝ) (p : PD ℝ) (l r : GK ℝ) (noise : ℝ) (j : Fin m) :
    rawMean cfg X y Y (.change .CP p l r) noise j - rawMeanWith cfg X y Y (.change .CP p l r) (secondPart p r) noise j =
      ∑ i, kerK2 cfg X Y l i j * (changePhi .CP p true (X i) * changePhi .CP p true (Y j)) *
        ((Matrix.of (kerK cfg X (.change .CP p l r)) + noise • (1 : Matrix (Fin n) (Fin n) ℝ))⁻¹.mulVec y) i := by
  rw [rawMean, rawMeanWith, Matrix.mulVec, Matrix.mulVec, dotProduct, dotProduct, ← Finset.sum_sub_distrib]
  refine Finset.sum_congr rfl fun i _ => ?_
  simp only [Matrix.transpose_apply, Matrix.of_apply, entry_change2, second_entry2]
  ring

theorem rev_far {p : PD ℝ} {x : ℝ} (hs : 0 < slopeOf p) (hx : p.location.getD 0 ≤ x) :
    changePhi .CP p true x = slopeOf p / (2 * (slopeOf p + (x - p.location.getD 0))) := by
  have h0 : 0 ≤ (x - p.location.getD 0) / slopeOf p := div_nonneg (by linarith) hs.le
  have e : changePhi .CP p true x = 1 - (1 + core ((x - p.location.getD 0) / slopeOf p)) / 2 := by
    simp only [changePhi, phiS, if_true, sigmoid_eq]; rfl
  rw [e, core_of_nonneg h0]
  have h1 : slopeOf p + (x - p.location.getD 0) ≠ 0 := by
    have : 0 ≤ x - p.location.getD 0 := by linarith
    positivity
  have h2 : 1 + (x - p.location.getD 0) / slopeOf p = (slopeOf p + (x - p.location.getD 0)) / slopeOf p := by field_simp
  rw [h2]
  field_simp
  ring

/-- A line does not fade behind a change point. -/
theorem line_limit {p : PD ℝ} (hs : 0 < slopeOf p) (o : ℝ) :
    Filter.Tendsto (fun x => (x - o) * changePhi .CP p true x) Filter.atTop (nhds (slopeOf p / 2)) := by
  have h1 : Filter.Tendsto (fun x : ℝ => slopeOf p + (x - p.location.getD 0)) Filter.atTop Filter.atTop :=
    Filter.tendsto_atTop_add_const_left _ _ (Filter.tendsto_atTop_add_const_right _ (-p.location.getD 0) Filter.tendsto_id)
  have h2 : Filter.Tendsto (fun x : ℝ => slopeOf p / 2 * (1 + (p.location.getD 0 - o - slopeOf p) * (slopeOf p + (x - p.location.getD 0))⁻¹)) Filter.atTop
      (nhds (slopeOf p / 2 * (1 + (p.location.getD 0 - o - slopeOf p) * 0))) :=
    ((h1.inv_tendsto_atTop.const_mul _).const_add 1).const_mul _
  simp only [mul_zero, add_zero, mul_one] at h2
  refine h2.congr' ?_
  filter_upwards [Filter.eventually_ge_atTop (p.location.getD 0)] with x hx
  rw [rev_far hs hx]
  have : slopeOf p + (x - p.location.getD 0) ≠ 0 := by
    have : 0 ≤ x - p.location.getD 0 := by linarith
    positivity
  field_simp
  ring

theorem first_entry (cfg : Cfg) {n : ℕ} (X : Fin n → ℝ) (p : PD ℝ) (l : GK ℝ) (i j : Fin n) :
    kerK cfg X (firstPart p l) i j = kerK cfg X l i j * (1 * (changePhi .CW p true (X i) * changePhi .CW p true (X j))) := by
  simp only [firstPart, kerK, kerProd, Arr.mul, baseK, matK, basisK, varOf, sigPhi, reversed, changePhi, slopeOf, Option.getD_none, Option.getD_some, mul_one]

/-- A parabola does not fade behind a window. -/
theorem parabola_limit {p : PD ℝ} (h : AdmPD p) (o o' : ℝ) :
    Filter.Tendsto (fun x => (x - o) * (x - o') * changePhi .CW p false x) Filter.atTop (nhds (slopeOf p ^ 2 * (1 + p.width.getD 1 / (2 * slopeOf p)))) := by
  have hs := slope_pos h
  have hw := width_pos h
  have far : ∀ c : ℝ, Filter.Tendsto (fun x : ℝ => x + c) Filter.atTop Filter.atTop := fun c => Filter.tendsto_atTop_add_const_right _ c Filter.tendsto_id
  have q : ∀ a c : ℝ, Filter.Tendsto (fun x : ℝ => 1 + a * (x + c)⁻¹) Filter.atTop (nhds (1 + a * 0)) := fun a c => ((far c).inv_tendsto_atTop.const_mul a).const_add 1
  have h2 := ((q (p.location.getD 0 - slopeOf p - o) (slopeOf p - p.location.getD 0)).mul
    (q (p.location.getD 0 + p.width.getD 1 - slopeOf p - o') (slopeOf p - p.location.getD 0 - p.width.getD 1))).const_mul
    (slopeOf p ^ 2 * (1 + p.width.getD 1 / (2 * slopeOf p)))
  simp only [mul_zero, add_zero, mul_one] at h2
  refine h2.congr' ?_
  filter_upwards [Filter.eventually_ge_atTop (p.location.getD 0 + p.width.getD 1)] with x hx
  rw [hat_after h hx]
  have e1 : 1 + (x - p.location.getD 0) / slopeOf p = (x + (slopeOf p - p.location.getD 0)) / slopeOf p := by field_simp; ring
  have e2 : 1 + (x - p.location.getD 0 - p.width.getD 1) / slopeOf p = (x + (slopeOf p - p.location.getD 0 - p.width.getD 1)) / slopeOf p := by field_simp; ring
  rw [e1, e2]
  have n1 : x + (slopeOf p - p.location.getD 0) ≠ 0 := ne_of_gt (by linarith)
  have n2 : x + (slopeOf p - p.location.getD 0 - p.width.getD 1) ≠ 0 := ne_of_gt (by linarith)
  have f1 : 1 + (p.location.getD 0 - slopeOf p - o) * (x + (slopeOf p - p.location.getD 0))⁻¹ = (x - o) / (x + (slopeOf p - p.location.getD 0)) := by
    rw [eq_div_iff n1, add_mul, mul_assoc, inv_mul_cancel₀ n1]; ring
  have f2 : 1 + (p.location.getD 0 + p.width.getD 1 - slopeOf p - o') * (x + (slopeOf p - p.location.getD 0 - p.width.getD 1))⁻¹ =
      (x - o') / (x + (slopeOf p - p.location.getD 0 - p.width.getD 1)) := by
    rw [eq_div_iff n2, add_mul, mul_assoc, inv_mul_cancel₀ n2]; ring
  rw [f1, f2]
  generalize x + (slopeOf p - p.location.getD 0 - p.width.getD 1) = z2 at *
  generalize x + (slopeOf p - p.location.getD 0) = z1 at *
  field_simp

end Fading
end GPyABCD
