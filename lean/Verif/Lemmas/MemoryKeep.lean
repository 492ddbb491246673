import Verif.Lemmas.Memory

/-!
# Lemmas for the converse of C119: what is kept

All parameters are set to 1, offsets and locations to 0, and inputs are whole numbers: then covariances are not negative, and cannot cancel.
-/

namespace GPyABCD
namespace Memory
open Kern Params Sops KE Fading Reach

/-- All parameters 1, offsets and locations 0. -/
def fillPD (p : PD Unit) : PD ℝ :=
  { variance := p.variance.map fun _ => 1, lengthscale := p.lengthscale.map fun _ => 1, period := p.period.map fun _ => 1, offset := p.offset.map fun _ => 0,
    location := p.location.map fun _ => 0, slope := p.slope.map fun _ => 1, width := p.width.map fun _ => 1 }

mutual
/-- In a kernel. -/
def fill : GK Unit → GK ℝ
  | .base b p => .base b (fillPD p)
  | .comb op ps => .comb op (fillL ps)
  | .change c p l r => .change c (fillPD p) (fill l) (fill r)
/-- In a list. -/
def fillL : List (GK Unit) → List (GK ℝ)
  | [] => []
  | k :: ks => fill k :: fillL ks
end

theorem erase_fillPD (p : PD Unit) : mapPD (fun _ => ()) (fillPD p) = p := by
  cases p
  simp [mapPD, fillPD, Function.comp_def]

mutual
theorem erase_fill : ∀ s : GK Unit, erase (fill s) = s
  | .base b p => by rw [fill, erase, erase_fillPD]
  | .comb op ps => by rw [fill, erase, erase_fillL]
  | .change c p l r => by rw [fill, erase, erase_fillPD, erase_fill, erase_fill]
theorem erase_fillL : ∀ s : List (GK Unit), eraseL (fillL s) = s
  | [] => by rw [fillL, eraseL]
  | k :: ks => by rw [fillL, eraseL, erase_fill, erase_fillL]
end

theorem adm_fillPD (p : PD Unit) : AdmPD (fillPD p) := by
  refine ⟨?_, ?_, ?_, ?_, ?_⟩ <;> intro v hv <;> simp [fillPD] at hv <;> rw [← hv.2] <;> norm_num

mutual
theorem adm_fill : ∀ s : GK Unit, Adm (fill s)
  | .base b p => by rw [fill, Adm]; exact adm_fillPD p
  | .comb op ps => by rw [fill, Adm]; exact adm_fillL ps
  | .change c p l r => by rw [fill, Adm]; exact ⟨adm_fillPD p, adm_fill l, adm_fill r⟩
theorem adm_fillL : ∀ s : List (GK Unit), AdmL (fillL s)
  | [] => by rw [fillL, AdmL]; trivial
  | k :: ks => by rw [fillL, AdmL]; exact ⟨adm_fill k, adm_fillL ks⟩
end

theorem fill_getD {o : Option Unit} (v : ℝ) : (o.map fun _ => v).getD v = v := by cases o <;> rfl

/-- The input `a` out on that side. -/
def at' (sd : Bool) (a : ℕ) : ℝ := if sd then a else -a

theorem far_at {sd : Bool} {D : ℝ} {a : ℕ} (h : D ≤ a) : Far sd D (at' sd a) := by
  cases sd <;> simpa [Far, at'] using h

theorem abs_at (sd : Bool) (a : ℕ) : |at' sd a| = a := by cases sd <;> simp [at']

/-- Covariances between the input `a` and others out there: not negative, and at least like the power `e`. -/
def Keep (sd : Bool) (K : ℕ → ℕ → ℝ) (d : WithBot ℤ) : Prop :=
  ∃ N : ℕ, 1 ≤ N ∧ (∀ a b, N ≤ a → N ≤ b → 0 ≤ K a b) ∧ ∀ e : ℤ, (e : WithBot ℤ) ≤ d → ∀ a, N ≤ a → ∃ c : ℝ, 0 < c ∧ ∀ b, N ≤ b → c * (b : ℝ) ^ e ≤ K a b

variable {sd : Bool} {K L : ℕ → ℕ → ℝ}

theorem keep_add {d e : WithBot ℤ} (h1 : Keep sd K d) (h2 : Keep sd L e) : Keep sd (fun a b => K a b + L a b) (max d e) := by
  obtain ⟨N, n1, p, q⟩ := h1
  obtain ⟨M, m1, r, s⟩ := h2
  refine ⟨max N M, le_max_of_le_left n1, fun a b ha hb => add_nonneg (p a b (by omega) (by omega)) (r a b (by omega) (by omega)), fun f hf a ha => ?_⟩
  rcases le_max_iff.1 hf with hf | hf
  · obtain ⟨c, hc, h⟩ := q f hf a (by omega)
    exact ⟨c, hc, fun b hb => (h b (by omega)).trans (by linarith [r a b (by omega) (by omega)])⟩
  · obtain ⟨c, hc, h⟩ := s f hf a (by omega)
    exact ⟨c, hc, fun b hb => (h b (by omega)).trans (by linarith [p a b (by omega) (by omega)])⟩

theorem split_ge {d e : WithBot ℤ} {f : ℤ} (h : (f : WithBot ℤ) ≤ d + e) : ∃ a b : ℤ, (a : WithBot ℤ) ≤ d ∧ (b : WithBot ℤ) ≤ e ∧ a + b = f := by
  induction d using WithBot.recBotCoe with
  | bot => simp at h
  | coe d =>
    induction e using WithBot.recBotCoe with
    | bot => simp at h
    | coe e =>
      have : f ≤ d + e := by exact_mod_cast h
      exact ⟨d, f - d, le_rfl, by exact_mod_cast (by omega : f - d ≤ e), by ring⟩

theorem keep_mul {d e : WithBot ℤ} (h1 : Keep sd K d) (h2 : Keep sd L e) : Keep sd (fun a b => K a b * L a b) (d + e) := by
  obtain ⟨N, n1, p, q⟩ := h1
  obtain ⟨M, m1, r, s⟩ := h2
  refine ⟨max N M, le_max_of_le_left n1, fun a b ha hb => mul_nonneg (p a b (by omega) (by omega)) (r a b (by omega) (by omega)), fun f hf a ha => ?_⟩
  obtain ⟨f1, f2, hf1, hf2, rfl⟩ := split_ge hf
  obtain ⟨c, hc, h⟩ := q f1 hf1 a (by omega)
  obtain ⟨c', hc', h'⟩ := s f2 hf2 a (by omega)
  refine ⟨c * c', by positivity, fun b hb => ?_⟩
  have hb0 : (0 : ℝ) < b := by exact_mod_cast (by omega : 0 < b)
  rw [zpow_add₀ hb0.ne']
  calc c * c' * ((b : ℝ) ^ f1 * (b : ℝ) ^ f2) = c * (b : ℝ) ^ f1 * (c' * (b : ℝ) ^ f2) := by ring
    _ ≤ _ := mul_le_mul (h b (by omega)) (h' b (by omega)) (by positivity) (p a b (by omega) (by omega))

theorem keep_wt {d : WithBot ℤ} {k : ℕ} {w : ℝ → ℝ} (h1 : Keep sd K d) (h2 : Wt sd w k) (h0 : ∀ x, 0 ≤ w x ∧ w x ≤ 1) {c : ℤ} (hc : c = -k) :
    Keep sd (fun a b => K a b * (1 * (w (at' sd a) * w (at' sd b)))) (d + (c : WithBot ℤ)) := by
  subst hc
  obtain ⟨N, n1, p, q⟩ := h1
  obtain ⟨c, C, D, hc, hC, hD, r⟩ := h2
  obtain ⟨M, hM⟩ := exists_nat_ge D
  have far : ∀ a, max N M ≤ a → c ≤ (a : ℝ) ^ k * w (at' sd a) := fun a ha => by
    have : D ≤ a := hM.trans (by exact_mod_cast (by omega : M ≤ a))
    have := (r _ (far_at this)).1
    rwa [abs_at] at this
  refine ⟨max N M, le_max_of_le_left n1, fun a b ha hb => mul_nonneg (p a b (by omega) (by omega)) (by rw [one_mul]; exact mul_nonneg (h0 _).1 (h0 _).1), fun e he a ha => ?_⟩
  have hd : ((e + k : ℤ) : WithBot ℤ) ≤ d := by
    induction d using WithBot.recBotCoe with
    | bot => simp at he
    | coe d =>
      have : e ≤ d + -(k : ℤ) := by exact_mod_cast he
      exact_mod_cast (by omega : e + k ≤ d)
  obtain ⟨c1, hc1, h⟩ := q _ hd a (by omega)
  have wa : 0 < w (at' sd a) := by
    rcases (h0 (at' sd a)).1.eq_or_lt with h | h
    · have := far a ha
      rw [← h, mul_zero] at this
      linarith
    · exact h
  refine ⟨c1 * c * w (at' sd a), by positivity, fun b hb => ?_⟩
  have hb0 : (0 : ℝ) < b := by exact_mod_cast (by omega : 0 < b)
  have h3 := h b (by omega)
  rw [zpow_add₀ hb0.ne', zpow_natCast] at h3
  have wb := (h0 (at' sd b)).1
  calc c1 * c * w (at' sd a) * (b : ℝ) ^ e = c1 * (b : ℝ) ^ e * w (at' sd a) * c := by ring
    _ ≤ c1 * (b : ℝ) ^ e * w (at' sd a) * ((b : ℝ) ^ k * w (at' sd b)) := mul_le_mul_of_nonneg_left (far b hb) (by positivity)
    _ = c1 * ((b : ℝ) ^ e * (b : ℝ) ^ k) * (1 * (w (at' sd a) * w (at' sd b))) := by ring
    _ ≤ _ := mul_le_mul_of_nonneg_right h3 (by positivity)

theorem keep_wt0 {d : WithBot ℤ} {w : ℝ → ℝ} (h1 : Keep sd K d) (h2 : Wt sd w 0) (h0 : ∀ x, 0 ≤ w x ∧ w x ≤ 1) :
    Keep sd (fun a b => K a b * (1 * (w (at' sd a) * w (at' sd b)))) d := by
  have := keep_wt h1 h2 h0 (c := 0) (by simp)
  simpa using this

theorem keep_zero (h : ∀ a b, 0 ≤ K a b) : Keep sd K ⊥ :=
  ⟨1, le_rfl, fun a b _ _ => h a b, fun e he => absurd he (by simp)⟩

theorem keep_one (h : ∀ a b, K a b = 1) : Keep sd K 0 := by
  refine ⟨1, le_rfl, fun a b _ _ => by rw [h]; norm_num, fun e he a _ => ⟨1, one_pos, fun b hb => ?_⟩⟩
  have he : e ≤ 0 := by exact_mod_cast he
  rw [h, one_mul]
  exact zpow_le_one_of_nonpos₀ (by exact_mod_cast hb) he

/-- `K(X, X2)` between the inputs `a` and `b`. -/
noncomputable def cov2 (cfg : Cfg) (sd : Bool) (g : GK ℝ) (a b : ℕ) : ℝ := kerK2 cfg (fun _ : Fin 1 => at' sd a) (fun _ : Fin 1 => at' sd b) g 0 0

theorem keep_base (cfg : Cfg) {b : Base} (hb : b.isSigmoid = false) (p : PD Unit) : Keep sd (cov2 cfg sd (.base b (fillPD p))) (memBase b) := by
  have hv : varOf (fillPD p) = 1 := fill_getD 1
  cases b with
  | WN => exact keep_zero fun a b => by simp [cov2, kerK2, baseK2]
  | C => exact keep_one fun a b => by simp [cov2, kerK2, baseK2, matK, bias, hv]
  | SE =>
      refine keep_zero fun a b => ?_
      simp only [cov2, kerK2, baseK2, matK, rbf, hv, one_mul]
      exact (Real.exp_pos _).le
  | PER =>
    refine keep_one fun a b => ?_
    have h1 : (fillPD p).period.getD 1 = 1 := fill_getD 1
    have h2 : (fillPD p).lengthscale.getD 1 = 1 := fill_getD 1
    have hc : Real.cos (2 * Real.pi / 1 * (at' sd a - at' sd b)) = Real.cos (2 * Real.pi / 1 * ((0 : ℝ) - 0)) := by
      have : ∃ z : ℤ, at' sd a - at' sd b = z := by
        cases sd
        · exact ⟨b - a, by simp [at']; ring⟩
        · exact ⟨a - b, by simp [at']⟩
      obtain ⟨z, hz⟩ := this
      rw [hz, div_one, sub_zero, mul_zero, Real.cos_zero, mul_comm]
      exact Real.cos_int_mul_two_pi z
    have hd := per_diag (v := 1) (p := 1) (l := 1) one_pos 0
    simp only [cov2, kerK2, baseK2, matK, hv, h1, h2]
    rw [per] at hd ⊢
    rw [hc]; exact hd
  | LIN =>
    have ho : (fillPD p).offset.getD 0 = 0 := fill_getD 0
    have form : ∀ a b, cov2 cfg sd (.base .LIN (fillPD p)) a b = a * b := fun a b => by
      simp only [cov2, kerK2, baseK2]
      split_ifs <;> cases sd <;> simp [matK, linearOffset, linear, hv, ho, at']
    refine ⟨1, le_rfl, fun a b _ _ => by rw [form]; positivity, fun e he a ha => ⟨1, one_pos, fun b hb => ?_⟩⟩
    have he : e ≤ 1 := WithBot.coe_le_coe.1 he
    have a1 : (1 : ℝ) ≤ a := by exact_mod_cast ha
    have b1 : (1 : ℝ) ≤ b := by exact_mod_cast hb
    rw [form, one_mul]
    have := zpow_le_zpow_right₀ b1 he
    rw [zpow_one] at this
    nlinarith
  | _ => simp [Base.isSigmoid] at hb

theorem cov2_change (cfg : Cfg) (c : CC) (p : PD ℝ) (l r : GK ℝ) : cov2 cfg sd (.change c p l r) = fun a b =>
    cov2 cfg sd l a b * (1 * (changePhi c p true (at' sd a) * changePhi c p true (at' sd b))) +
      cov2 cfg sd r a b * (1 * (changePhi c p false (at' sd a) * changePhi c p false (at' sd b))) := by
  funext a b; exact entry_change2 cfg _ _ c p l r 0 0

mutual
theorem keep_of (cfg : Cfg) : ∀ s : GK Unit, solid s = true → Keep sd (cov2 cfg sd (fill s)) (mdeg sd s)
  | .base b p, h => by
    rw [fill, mdeg]
    exact keep_base cfg (by simpa [solid] using h) p
  | .comb .sum ps, h => by
    have := keep_sum cfg ps (solid_comb.1 h).2
    simp only [fill, mdeg]; exact this
  | .comb .prod ps, h => by
    have := keep_prod cfg ps (solid_comb.1 h).2
    simp only [fill, mdeg]; exact this
  | .change .CP p l r, h => by
    have hs : solid l = true ∧ solid r = true := by simpa [solid] using h
    have hl := keep_of cfg l hs.1
    have hr := keep_of cfg r hs.2
    have ha := adm_fillPD p
    rw [fill, cov2_change, mdeg]
    cases sd with
    | true => exact keep_add (keep_wt hl (wt_cp ha true) (phi_range .CP ha _) rfl) (keep_wt0 hr (wt_cp' ha true) (phi_range .CP ha _))
    | false => exact keep_add (keep_wt0 hl (wt_cp' ha false) (phi_range .CP ha _)) (keep_wt hr (wt_cp ha false) (phi_range .CP ha _) rfl)
  | .change .CW p l r, h => by
    have hs : solid l = true ∧ solid r = true := by simpa [solid] using h
    have hl := keep_of cfg l hs.1
    have hr := keep_of cfg r hs.2
    have ha := adm_fillPD p
    rw [fill, cov2_change, mdeg]
    exact keep_add (keep_wt0 hl (wt_cw' ha sd) (phi_range .CW ha _)) (keep_wt hr (wt_cw ha sd) (phi_range .CW ha _) rfl)
theorem keep_sum (cfg : Cfg) : ∀ gs : List (GK Unit), (∀ g ∈ gs, solid g = true) →
    Keep sd (fun a b => kerSum2 cfg (fun _ : Fin 1 => at' sd a) (fun _ : Fin 1 => at' sd b) (fillL gs) 0 0) (mdegL sd .sum gs)
  | [], _ => by rw [mdegL_nil]; exact keep_zero fun a b => by simp [fillL, kerSum2]
  | g :: gs, h => by
    have h1 := keep_of cfg g (h g (List.mem_cons_self ..))
    have h2 := keep_sum cfg gs fun x hx => h x (List.mem_cons_of_mem _ hx)
    rw [mdegL_cons]
    simp only [fillL, kerSum2]
    exact keep_add h1 h2
theorem keep_prod (cfg : Cfg) : ∀ gs : List (GK Unit), (∀ g ∈ gs, solid g = true) →
    Keep sd (fun a b => kerProd2 cfg (fun _ : Fin 1 => at' sd a) (fun _ : Fin 1 => at' sd b) (fillL gs) 0 0) (mdegL sd .prod gs)
  | [], _ => by rw [mdegL_nil]; exact keep_one fun a b => by simp [fillL, kerProd2]
  | g :: gs, h => by
    have h1 := keep_of cfg g (h g (List.mem_cons_self ..))
    have h2 := keep_prod cfg gs fun x hx => h x (List.mem_cons_of_mem _ hx)
    rw [mdegL_cons]
    simp only [fillL, kerProd2]
    exact keep_mul h1 h2
end

/-- Some covariances never fade, for some parameters, if the power is not negative. -/
theorem kept {cfg : Cfg} {k : KE} {s : GK Unit} (h : toKernel cfg k = .ok s) {sd : Bool} (hk : ¬ memory sd k < 0) :
    ∃ g, FittedTo cfg k g ∧ ∀ D : ℝ, ∃ a : ℕ, D ≤ a ∧ ∃ c : ℝ, 0 < c ∧ ∃ N : ℕ, ∀ b, N ≤ b → c ≤ cov2 cfg sd g a b := by
  refine ⟨fill s, ⟨by rw [erase_fill]; exact h, adm_fill s⟩, fun D => ?_⟩
  obtain ⟨N, n1, -, q⟩ := keep_of (sd := sd) cfg s (solid_toKernel cfg k s h)
  rw [mdeg_toKernel cfg k s h] at q
  obtain ⟨M, hM⟩ := exists_nat_ge D
  obtain ⟨c, hc, h⟩ := q 0 (not_lt.1 hk) (max N M) (le_max_left ..)
  refine ⟨max N M, hM.trans (by exact_mod_cast le_max_right N M), c, hc, N, fun b hb => ?_⟩
  have := h b hb
  rwa [zpow_zero, mul_one] at this

end Memory
end GPyABCD
