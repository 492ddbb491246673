import Verif.Spec.Components
import Verif.Lemmas.KernelFam
import Verif.Props.KernelTree
import Verif.Props.Periodic
import Verif.Lemmas.ParamsTerms

/-!
# Lemmas: the value read off a fitted kernel is the entry of its matrix
-/

namespace GPyABCD
open Kern Params Sops KE

theorem entry_per (cfg : Cfg) {n : ℕ} (X : Fin n → ℝ) (i j : Fin n) {p : PD ℝ} (hp : ∀ l ∈ p.lengthscale, 0 < l) :
    entry cfg X i j .PER p = per 1 (p.period.getD 1) (p.lengthscale.getD 1) (X i) (X j) := by
  simp only [entry, if_pos hp, baseK, varOf, Option.getD_some, matK]

theorem entry_laws (cfg : Cfg) {n : ℕ} (X : Fin n → ℝ) (i j : Fin n) : ShapeLaws (α := ℝ) id (entry cfg X i j) := by
  refine ⟨rfl, fun _ _ => rfl, fun p => by simp [entry, baseK, varOf, matK, bias], ?_⟩
  intro b p q hb
  by_cases h : i = j
  · subst h
    rcases hb with rfl | rfl | rfl
    · simp [entry, baseK, varOf, matK, bias]
    · simp [entry, baseK, varOf, matK, rbf]
    · by_cases hq : ∀ l ∈ q.lengthscale, 0 < l
      · have := C53_diagonal (v := 1) (p := q.period.getD 1) (l := q.lengthscale.getD 1) (by
          cases hl : q.lengthscale with
          | none => simp
          | some l => simpa using hq l (by simp [hl])) X i
        simp only [perKdiag] at this
        simp only [entry, if_pos hq, baseK, varOf, Option.getD_some, matK, this, mul_one]
      · simp only [entry, if_neg hq, mul_one]
  · simp [entry, baseK, h]

theorem entry_base (cfg : Cfg) {n : ℕ} (X : Fin n → ℝ) (i j : Fin n) {b : Base} {p : PD ℝ} (hb : b.isSigmoid = false)
    (hp : b = .PER → ∀ l ∈ p.lengthscale, 0 < l) : termVal id (entry cfg X i j) b p = baseK cfg X b p i j := by
  obtain ⟨v, l, pe, o, lo, sl, w⟩ := p
  cases b <;> simp [Base.isSigmoid] at hb
  case WN => cases v <;> simp [termVal, varVal, PD.noVar, entry, baseK, varOf]
  case C => cases v <;> simp [termVal, varVal, PD.noVar, entry, baseK, varOf, matK, bias]
  case LIN =>
    cases v <;> simp only [termVal, varVal, PD.noVar, entry, baseK, varOf] <;> split <;> simp [matK, linear, linearOffset] <;> ring
  case SE => cases v <;> simp [termVal, varVal, PD.noVar, entry, baseK, varOf, matK, rbf]
  case PER =>
    rw [termVal, entry_per cfg X i j (p := PD.noVar ⟨v, l, pe, o, lo, sl, w⟩) (hp rfl)]
    cases v <;> simp [varVal, PD.noVar, baseK, varOf, matK, per]

theorem entry_weights (cfg : Cfg) {n : ℕ} (X : Fin n → ℝ) (i j : Fin n) (c : CC) {p : PD ℝ} (hp : p.variance = none) :
    termVal id (entry cfg X i j) (firstWeight c) p = changeSig X c p true i j ∧ termVal id (entry cfg X i j) (secondWeight c) p = changeSig X c p false i j := by
  obtain ⟨v, l, pe, o, lo, sl, w⟩ := p
  subst hp
  cases c <;> simp [firstWeight, secondWeight, termVal, varVal, PD.noVar, entry, weightOf]

mutual
/-- Positive lengthscales from admissible values. -/
theorem posLength_adm : ∀ g : GK ℝ, Adm g → PosLength g
  | .base b p, h => by rw [Adm] at h; rw [PosLength]; exact fun _ => h.2.1
  | .comb o ps, h => by rw [Adm] at h; rw [PosLength]; exact posLength_admL ps h
  | .change c p l r, h => by rw [Adm] at h; rw [PosLength]; exact ⟨posLength_adm l h.2.1, posLength_adm r h.2.2⟩
theorem posLength_admL : ∀ gs : List (GK ℝ), AdmL gs → PosLengthL gs
  | [], _ => by rw [PosLengthL]; trivial
  | g :: gs, h => by rw [AdmL] at h; rw [PosLengthL]; exact ⟨posLength_adm g h.1, posLength_admL gs h.2⟩
end

theorem change_noVar {cfg : Cfg} {c : CC} {p : PD ℝ} (h : mapPD (fun _ => ()) p = linked (changePars cfg c)) : p.variance = none := by
  have : (mapPD (fun _ => ()) p).variance = (linked (changePars cfg c)).variance := by rw [h]
  have e : (linked (changePars cfg c)).variance = none := by
    cases c <;> cases hc : cfg.fixSlope <;> simp [changePars, hc, linked, Par.put]
  rw [e] at this
  simpa [mapPD] using this

mutual
theorem kerK_gval (cfg : Cfg) {n : ℕ} (X : Fin n → ℝ) (i j : Fin n) : ∀ g : GK ℝ, Std cfg (erase g) → PosLength g →
    kerK cfg X g i j = gval id (entry cfg X i j) g
  | .base b p, hs, hp => by
    rw [erase, Std] at hs
    rw [PosLength] at hp
    rw [kerK, gval, entry_base cfg X i j hs.1 hp]
  | .comb .sum ps, hs, hp => by
    rw [erase, Std] at hs
    rw [PosLength] at hp
    rw [kerK, gval]; exact kerSum_gval cfg X i j ps hs hp
  | .comb .prod ps, hs, hp => by
    rw [erase, Std] at hs
    rw [PosLength] at hp
    rw [kerK, gval]; exact kerProd_gval cfg X i j ps hs hp
  | .change c p l r, hs, hp => by
    rw [erase, Std] at hs
    rw [PosLength] at hp
    obtain ⟨h1, h2⟩ := entry_weights cfg X i j c (change_noVar hs.1)
    rw [kerK, gval, Arr.add, Arr.mul, Arr.mul, h1, h2, kerK_gval cfg X i j l hs.2.1 hp.1, kerK_gval cfg X i j r hs.2.2 hp.2]
theorem kerSum_gval (cfg : Cfg) {n : ℕ} (X : Fin n → ℝ) (i j : Fin n) : ∀ gs : List (GK ℝ), StdL cfg (eraseL gs) → PosLengthL gs →
    kerSum cfg X gs i j = gsum id (entry cfg X i j) gs
  | [], _, _ => by rw [kerSum, gsum]
  | g :: gs, hs, hp => by
    rw [eraseL, StdL] at hs
    rw [PosLengthL] at hp
    rw [kerSum, gsum, Arr.add, kerK_gval cfg X i j g hs.1 hp.1, kerSum_gval cfg X i j gs hs.2 hp.2]
theorem kerProd_gval (cfg : Cfg) {n : ℕ} (X : Fin n → ℝ) (i j : Fin n) : ∀ gs : List (GK ℝ), StdL cfg (eraseL gs) → PosLengthL gs →
    kerProd cfg X gs i j = gprod id (entry cfg X i j) gs
  | [], _, _ => by rw [kerProd, gprod]
  | g :: gs, hs, hp => by
    rw [eraseL, StdL] at hs
    rw [PosLengthL] at hp
    rw [kerProd, gprod, Arr.mul, kerK_gval cfg X i j g hs.1 hp.1, kerProd_gval cfg X i j gs hs.2 hp.2]
end

/-! ## Where the variances and factors of the components come from -/

section
variable {α : Type} {V : α → Prop} {Q : Base → PD α → Prop}

/-- Variances and factors satisfy the conditions. -/
def Comp.Fine (V : α → Prop) (Q : Base → PD α → Prop) (c : Comp α) : Prop := (∀ v ∈ c.vars, V v) ∧ ∀ x ∈ c.fs, Q x.1 x.2

theorem fine_mul {c d : Comp α} (hc : Comp.Fine V Q c) (hd : Comp.Fine V Q d) : Comp.Fine V Q (c.mul d) := by
  refine ⟨fun v hv => ?_, fun x hx => ?_⟩
  · rcases List.mem_append.1 hv with h | h
    · exact hc.1 v h
    · exact hd.1 v h
  · rcases List.mem_append.1 hx with h | h
    · exact hc.2 x h
    · exact hd.2 x h

theorem fine_one (hV : ∀ b p, Q b p → ∀ v ∈ p.variance, V v) (hQ : ∀ b p, Q b p → Q b p.noVar) {b : Base} {p : PD α} (h : Q b p) :
    Comp.Fine V Q (Comp.one b p) := by
  refine ⟨fun v hv => hV b p h v (by simpa [Comp.one] using hv), ?_⟩
  simpa [Comp.one] using hQ b p h

theorem variances_fine (hV : ∀ b p, Q b p → ∀ v ∈ p.variance, V v) {gs : List (GK α)} (h : ∀ g ∈ gs, GEvery Q g) : ∀ v ∈ variances gs, V v := by
  induction gs with
  | nil => simp [variances]
  | cons g gs ih =>
    have ih := ih (fun x hx => h x (List.mem_cons_of_mem _ hx))
    cases g with
    | base b p =>
      rw [variances]
      intro v hv
      rcases List.mem_append.1 hv with hv | hv
      · have := h _ (List.mem_cons_self ..)
        rw [GEvery] at this
        exact hV b p this v (by simpa using hv)
      · exact ih v hv
    | _ => simpa [variances] using ih

mutual
theorem comps_fine (hV : ∀ b p, Q b p → ∀ v ∈ p.variance, V v) (hQ : ∀ b p, Q b p → Q b p.noVar) (f : PKE α) (g : GK α) (h : Carries f g)
    (hg : GEvery Q g) : ∀ c ∈ comps f, Comp.Fine V Q c := by
  have he := every_carries hQ f g h hg
  cases f with
  | leaf b p =>
    rw [EveryTerm] at he
    simpa [comps] using fine_one hV hQ he
  | change c p l r =>
    rw [Carries] at h
    obtain ⟨a, b, rfl, h1, h2⟩ := h
    rw [GEvery] at hg
    intro x hx
    rw [comps] at hx
    rcases List.mem_append.1 hx with hx | hx <;> obtain ⟨y, hy, rfl⟩ := List.mem_map.1 hx
    · exact fine_mul (comps_fine hV hQ l a h1 hg.2.2.1 y hy) (fine_one hV hQ hg.1)
    · exact fine_mul (comps_fine hV hQ r b h2 hg.2.2.2 y hy) (fine_one hV hQ hg.2.1)
  | comm op b ps pv cts =>
    rw [EveryTerm] at he
    cases op with
    | sum =>
      rw [Carries] at h
      obtain ⟨h1, h2, _, h4⟩ := h
      have hp := every_parts .sum hg
      intro x hx
      rw [comps] at hx
      rcases List.mem_append.1 hx with hx | hx
      · rw [List.mem_reverse, List.mem_flatMap] at hx
        obtain ⟨e, he1, hx⟩ := hx
        obtain ⟨p, hp1, rfl⟩ := List.mem_map.1 hx
        exact fine_one hV hQ (he.1 e he1 p hp1)
      · exact compsSum_fine hV hQ cts _ h4 (GEveryL_iff.2 fun x hx => hp x (composites_subset hx)) x hx
    | prod =>
      rw [Carries] at h
      obtain ⟨h1, h2, h3, h4⟩ := h
      have hp := every_parts .prod hg
      intro x hx
      rw [comps] at hx
      obtain ⟨y, hy, rfl⟩ := List.mem_map.1 hx
      refine fine_mul ⟨fun v hv => ?_, fun z hz => ?_⟩ (compsProd_fine hV hQ cts _ h4 (GEveryL_iff.2 fun x hx => hp x (composites_subset hx)) y hy)
      · simp only [h3] at hv
        exact variances_fine hV hp v hv
      · simp only [List.mem_flatMap, List.mem_map] at hz
        obtain ⟨e, he1, p, hp1, rfl⟩ := hz
        exact he.1 e he1 p hp1
theorem compsSum_fine (hV : ∀ b p, Q b p → ∀ v ∈ p.variance, V v) (hQ : ∀ b p, Q b p → Q b p.noVar) (fs : List (PKE α)) (gs : List (GK α)) (h : CarriesL fs gs)
    (hg : GEveryL Q gs) : ∀ c ∈ compsSum fs, Comp.Fine V Q c := by
  cases fs with
  | nil => simp [compsSum]
  | cons f fs =>
    rw [CarriesL] at h
    obtain ⟨g, r, rfl, h1, h2⟩ := h
    rw [GEveryL] at hg
    intro x hx
    rw [compsSum] at hx
    rcases List.mem_append.1 hx with hx | hx
    · exact comps_fine hV hQ f g h1 hg.1 x hx
    · exact compsSum_fine hV hQ fs r h2 hg.2 x hx
theorem compsProd_fine (hV : ∀ b p, Q b p → ∀ v ∈ p.variance, V v) (hQ : ∀ b p, Q b p → Q b p.noVar) (fs : List (PKE α)) (gs : List (GK α)) (h : CarriesL fs gs)
    (hg : GEveryL Q gs) : ∀ c ∈ compsProd fs, Comp.Fine V Q c := by
  cases fs with
  | nil => simp [compsProd, Comp.Fine]
  | cons f fs =>
    rw [CarriesL] at h
    obtain ⟨g, r, rfl, h1, h2⟩ := h
    rw [GEveryL] at hg
    intro x hx
    rw [compsProd, List.mem_flatMap] at hx
    obtain ⟨y, hy, hx⟩ := hx
    obtain ⟨z, hz, rfl⟩ := List.mem_map.1 hx
    exact fine_mul (comps_fine hV hQ f g h1 hg.1 y hy) (compsProd_fine hV hQ fs r h2 hg.2 z hz)
end
end

/-! ## Positive semidefinite -/

/-- The conditions of `Exact`, on one kernel. -/
def ExactPD (b : Base) (p : PD ℝ) : Prop := (∀ v ∈ p.variance, 0 ≤ v) ∧ (b = .PER → ∀ l ∈ p.lengthscale, 0 < l ∧ (l > 10000 ∨ 1 / l ^ 2 < 3.75))

mutual
theorem exact_every (cfg : Cfg) : ∀ g : GK ℝ, Std cfg (erase g) → Exact g → GEvery ExactPD g
  | .base b p, _, h => by rw [Exact] at h; rw [GEvery]; exact h
  | .comb o ps, hs, h => by
    rw [erase, Std] at hs
    rw [Exact] at h
    rw [GEvery]; exact exact_everyL cfg ps hs h
  | .change c p l r, hs, h => by
    rw [erase, Std] at hs
    rw [Exact] at h
    have hv := change_noVar hs.1
    rw [GEvery]
    refine ⟨⟨by simp [hv], ?_⟩, ⟨by simp [hv], ?_⟩, exact_every cfg l hs.2.1 h.1, exact_every cfg r hs.2.2 h.2⟩ <;>
      cases c <;> simp [firstWeight, secondWeight]
theorem exact_everyL (cfg : Cfg) : ∀ gs : List (GK ℝ), StdL cfg (eraseL gs) → ExactL gs → GEveryL ExactPD gs
  | [], _, _ => by rw [GEveryL]; trivial
  | g :: gs, hs, h => by
    rw [eraseL, StdL] at hs
    rw [ExactL] at h
    rw [GEveryL]; exact ⟨exact_every cfg g hs.1 h.1, exact_everyL cfg gs hs.2 h.2⟩
end

theorem psd_entry (cfg : Cfg) {n : ℕ} (X : Fin n → ℝ) {b : Base} {p : PD ℝ} (h : ExactPD b p) : (Matrix.of (fun i j => entry cfg X i j b p)).PosSemidef := by
  have hb : Exact (.base b { p with variance := some 1 }) := by
    rw [Exact]; exact ⟨by simp, h.2⟩
  cases b <;> simp only [entry]
  case PER =>
    simp only [if_pos (fun l hl => (h.2 rfl l hl).1 : ∀ l ∈ p.lengthscale, 0 < l)]
    exact psd_base cfg X _ _ hb
  case WN | C | LIN | SE => exact psd_base cfg X _ _ hb
  all_goals exact psd_of (isCov_basisK zero_le_one _) X

theorem psd_factors (cfg : Cfg) {n : ℕ} (X : Fin n → ℝ) : ∀ l : List (Base × PD ℝ), (∀ x ∈ l, ExactPD x.1 x.2) →
    (Matrix.of (fun i j => (l.map (fun f => entry cfg X i j f.1 f.2)).prod)).PosSemidef
  | [], _ => by exact psd_of (isCov_bias zero_le_one) X
  | x :: l, h => by
    simp only [List.map_cons, List.prod_cons]
    exact Matrix.PosSemidef.hadamard (psd_entry cfg X (h x (List.mem_cons_self ..))) (psd_factors cfg X l fun y hy => h y (List.mem_cons_of_mem _ hy))

theorem psd_comp (cfg : Cfg) {n : ℕ} (X : Fin n → ℝ) {c : Comp ℝ} (h : Comp.Fine (fun v => 0 ≤ v) ExactPD c) :
    (Matrix.of (fun i j => c.val id (entry cfg X i j))).PosSemidef := by
  have := (psd_factors cfg X c.fs h.2).smul (a := c.vars.prod) (List.prod_nonneg h.1)
  have e : (Matrix.of (fun i j => c.val id (entry cfg X i j))) = c.vars.prod • Matrix.of (fun i j => (c.fs.map (fun f => entry cfg X i j f.1 f.2)).prod) := by
    ext i j
    simp [Comp.val]
  rwa [e]

end GPyABCD
