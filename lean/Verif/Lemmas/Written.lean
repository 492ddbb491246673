import Verif.Model.Written
import Verif.Lemmas.Growing
import Verif.Lemmas.PrintRepr
import Verif.Lemmas.Settled

namespace GPyABCD
namespace KE

theorem buildL_eq (cfg : Cfg) (cs : List KE) : buildL cfg cs = cs.map (build cfg) := by
  induction cs with
  | nil => rfl
  | cons k ks ih => simp [buildL, ih]

theorem isBase_build (cfg : Cfg) (k : KE) : (build cfg k).isBase = k.isBase := by
  cases k with
  | base b => rfl
  | comm o b cs => rw [build, mkC, isBase_simplify]; rfl
  | change c l r => rw [build, mkChange, isBase_simplify]; rfl

theorem isComm_build (cfg : Cfg) (o : Op) (k : KE) : isComm o (build cfg k) = isComm o k := by
  cases k with
  | base b => rfl
  | comm o b cs => rw [build, mkC, isComm_simplify]; rfl
  | change c l r => rw [build, mkChange, isComm_simplify]; rfl

theorem wf_build (cfg : Cfg) (k : KE) (h : wf k = true) : wf (build cfg k) = true := by
  induction k using KE.ind with
  | base b => rfl
  | comm o b cs ih =>
    have hw := wf_comm.1 h
    rw [build, mkC]
    refine wf_simplify cfg _ (wf_comm.2 ⟨hw.1, hw.2.1, ?_⟩)
    intro x hx
    rw [buildL_eq] at hx
    obtain ⟨y, hy, rfl⟩ := List.mem_map.1 hx
    exact ⟨by rw [isBase_build]; exact (hw.2.2 y hy).1, ih y hy (hw.2.2 y hy).2⟩
  | change c l r hl hr =>
    have hw := wf_change.1 h
    rw [build, mkChange]
    exact wf_simplify cfg _ (wf_change.2 ⟨hl hw.1, hr hw.2⟩)

theorem wf_built_comm {cfg : Cfg} {o : Op} {b : Counter} {cs : List KE} (h : wf (comm o b cs) = true) :
    wf (comm o b (cs.map (build cfg))) = true := by
  have hw := wf_comm.1 h
  refine wf_comm.2 ⟨hw.1, hw.2.1, fun x hx => ?_⟩
  obtain ⟨y, hy, rfl⟩ := List.mem_map.1 hx
  exact ⟨by rw [isBase_build]; exact (hw.2.2 y hy).1, wf_build cfg y (hw.2.2 y hy).2⟩

/-- What absorbing fully simplified terms leaves has fully simplified terms, none of them with one term only. -/
theorem absorb_terms {cfg : Cfg} {o : Op} {b : Counter} {cs : List KE} (h : ∀ k ∈ cs, normal cfg k = true) :
    ∃ b', absorb cfg o b cs = comm o b' (restOf (flat o cs)) ∧
      ∀ x ∈ restOf (flat o cs), x.isBase = false ∧ normal cfg x = true ∧ isSingleton x = false := by
  obtain ⟨ns, _, e⟩ := absorb_eq cfg o b cs
  refine ⟨_, e, ?_⟩
  intro x hx
  obtain ⟨⟨y, hy, rfl⟩, hb⟩ := mem_restOf.1 hx
  refine ⟨hb, ?_⟩
  have hy' : normal cfg y = true := by
    rcases mem_flat.1 hy with ⟨h1, _⟩ | ⟨z, h1, h2, h3⟩
    · exact h y h1
    · obtain ⟨c, cs', rfl⟩ := isComm_iff.1 h2
      exact (normal_child (h _ h1) y h3).1
  refine ⟨normal_extract hy', ?_⟩
  have hw := (normal_iff.1 hy').1
  rcases extract_cases hw with ⟨h1, e⟩ | ⟨o', b', rfl, e⟩ | ⟨o', ct, rfl, e⟩
  · rw [e]; exact h1
  · rw [e] at hb; simp [isBase] at hb
  · rw [e]; exact (normal_child hy' ct (by simp)).2.1

/-- One more simplification makes an expression written with constructors fully simplified. -/
theorem normal_build (cfg : Cfg) (k : KE) (h : wf k = true) : normal cfg (simplify cfg (build cfg k)) = true := by
  induction k using KE.ind with
  | base b => rfl
  | comm o b cs ih =>
    have hw := wf_comm.1 h
    have hcs : ∀ x ∈ (cs.map (build cfg)).map (simplify cfg), normal cfg x = true := by
      intro x hx
      simp only [List.map_map, List.mem_map, Function.comp] at hx
      obtain ⟨y, hy, rfl⟩ := hx
      exact ih y hy (hw.2.2 y hy).2
    obtain ⟨b', e, ht⟩ := absorb_terms (o := o) (b := b) hcs
    have e2 : build cfg (comm o b cs) = comm o b' (restOf (flat o ((cs.map (build cfg)).map (simplify cfg)))) := by
      rw [build, mkC, buildL_eq, simplify, simplifyL_eq, e]
    have hwb := wf_build cfg _ h
    rw [e2] at hwb ⊢
    have hw' := wf_comm.1 hwb
    refine normal_mkC hw'.1 hw'.2.1 (fun x hx => ?_)
    obtain ⟨h1, h2, h3⟩ := ht x hx
    exact ⟨h1, h2, isSingleton_wrapper h3⟩
  | change c l r hl hr =>
    have hw := wf_change.1 h
    rw [build, mkChange]
    have := normal_simplify_change (c := c) (wf_build cfg l hw.1) (wf_build cfg r hw.2) (hl hw.1) (hr hw.2)
    rwa [simplify_of_normal this]

theorem bases_build (cfg : Cfg) (k : KE) (h : wf k = true) : (bases (build cfg k)).Subperm (bases k) := by
  induction k using KE.ind with
  | base b => exact List.Subperm.refl _
  | comm o b cs ih =>
    have hw := wf_comm.1 h
    rw [build, mkC, buildL_eq]
    refine (bases_simplify cfg _ (wf_built_comm h)).trans ?_
    rw [bases, bases, basesL_eq, basesL_eq, List.flatMap_map]
    exact (List.Subperm.refl _).append (subperm_flatMap (fun x hx => ih x hx (hw.2.2 x hx).2))
  | change c l r hl hr =>
    have hw := wf_change.1 h
    rw [build, mkChange]
    refine (bases_simplify cfg _ (wf_change.2 ⟨wf_build cfg l hw.1, wf_build cfg r hw.2⟩)).trans ?_
    simp only [bases]
    exact (hl hw.1).append (hr hw.2)

theorem changes_build (cfg : Cfg) (k : KE) (h : wf k = true) : (changes (build cfg k)).Perm (changes k) := by
  induction k using KE.ind with
  | base b => exact List.Perm.refl _
  | comm o b cs ih =>
    have hw := wf_comm.1 h
    rw [build, mkC, buildL_eq]
    refine (changes_simplify cfg _ (wf_built_comm h)).trans ?_
    rw [changes, changes, changesL_eq, changesL_eq, List.flatMap_map]
    exact List.Perm.flatMap_left _ (fun x hx => ih x hx (hw.2.2 x hx).2)
  | change c l r hl hr =>
    have hw := wf_change.1 h
    rw [build, mkChange]
    refine (changes_simplify cfg _ (wf_change.2 ⟨wf_build cfg l hw.1, wf_build cfg r hw.2⟩)).trans ?_
    simp only [changes]
    exact List.Perm.cons _ ((hl hw.1).append (hr hw.2))

theorem constOnly_build (cfg : Cfg) (k : KE) (h : wf k = true) (hc : constOnly k = false) : constOnly (build cfg k) = false := by
  induction k using KE.ind with
  | base b => exact hc
  | comm o b cs ih =>
    have hw := wf_comm.1 h
    rw [build, mkC, buildL_eq]
    refine constOnly_simplify cfg _ (wf_built_comm h) (constOnly_comm.2 ?_)
    rcases constOnly_comm.1 hc with h1 | ⟨x, hx, h1⟩
    · exact Or.inl h1
    · exact Or.inr ⟨_, List.mem_map_of_mem hx, ih x hx (hw.2.2 x hx).2 h1⟩
  | change c l r hl hr =>
    rw [constOnly_eq_false]
    left
    intro e
    have := changes_build cfg _ h
    rw [e] at this
    simp [changes] at this

/-- Products of constants directly in products are the only thing that can be lost. -/
theorem operand_build (cfg : Cfg) (k : KE) (h : operand k = true) : operand (build cfg k) = true := by
  induction k using KE.ind with
  | base b => exact h
  | comm o b cs ih =>
    obtain ⟨h1, h2, h3, h4⟩ := operand_comm.1 h
    rw [build, mkC, buildL_eq]
    refine operand_simplify cfg (operand_comm.2 ⟨h1, h2, by simpa using h3, fun x hx => ?_⟩)
    obtain ⟨y, hy, rfl⟩ := List.mem_map.1 hx
    obtain ⟨h5, h6, h7⟩ := h4 y hy
    refine ⟨by rw [isBase_build]; exact h5, ih y hy h6, fun ho hc => ?_⟩
    rw [isComm_build] at hc
    exact constOnly_build cfg y (operand_iff.1 h6).1 (h7 ho hc)
  | change c l r hl hr =>
    rw [build, mkChange]
    exact operand_simplify cfg (operand_change.2 ⟨hl (operand_change.1 h).1, hr (operand_change.1 h).2⟩)

theorem denL_eq_map (I : Interp) (cs : List KE) : denL I cs = cs.map (den I) := by
  induction cs with
  | nil => rfl
  | cons k ks ih => simp [denL, ih]

theorem den_build {I : Interp} (hI : Laws I) (cfg : Cfg) (k : KE) (h : operand k = true)
    (hc : LinSafe I cfg (bases k)) : den I (build cfg k) = den I k := by
  have step : ∀ t : KE, operand t = true → LinSafe I cfg (bases t) →
      den I (simplify cfg t) = den I t := fun t ht hct => by
    obtain ⟨h1, h2, h3⟩ := operand_iff.1 ht
    exact den_simplify hI cfg t h1 h2 (noEmpty_simplify cfg t h1 h2 h3) hct
  induction k using KE.ind with
  | base b => rfl
  | comm o b cs ih =>
    obtain ⟨h1, h2, h3, h4⟩ := operand_comm.1 h
    have hsub : ∀ x, x ∈ bases (comm o b (cs.map (build cfg))) → x ∈ bases (comm o b cs) := by
      intro x hx
      simp only [bases, basesL_eq, List.mem_append, List.mem_flatMap, List.mem_map] at hx ⊢
      rcases hx with hx | ⟨_, ⟨y, hy, rfl⟩, hx⟩
      · exact Or.inl hx
      · exact Or.inr ⟨y, hy, (bases_build cfg y (operand_iff.1 (h4 y hy).2.1).1).subset hx⟩
    have hop : operand (comm o b (cs.map (build cfg))) = true := by
      refine operand_comm.2 ⟨h1, h2, by simpa using h3, fun x hx => ?_⟩
      obtain ⟨y, hy, rfl⟩ := List.mem_map.1 hx
      obtain ⟨h5, h6, h7⟩ := h4 y hy
      refine ⟨by rw [isBase_build]; exact h5, operand_build cfg y h6, fun ho hc => ?_⟩
      rw [isComm_build] at hc
      exact constOnly_build cfg y (operand_iff.1 h6).1 (h7 ho hc)
    rw [build, mkC, buildL_eq, step _ hop (hc.sub hsub)]
    have e : (cs.map (build cfg)).map (den I) = cs.map (den I) := by
      rw [List.map_map]
      refine List.map_congr_left (fun y hy => ih y hy (h4 y hy).2.1 ?_)
      have hs : ∀ x, x ∈ bases y → x ∈ bases (comm o b cs) := fun x hx => by
        simp only [bases, basesL_eq, List.mem_append, List.mem_flatMap]
        exact Or.inr ⟨y, hy, hx⟩
      exact hc.sub hs
    simp only [den, denL_eq_map, e]
  | change c l r hl hr =>
    obtain ⟨h1, h2⟩ := operand_change.1 h
    have hbl := bases_build cfg l (operand_iff.1 h1).1
    have hbr := bases_build cfg r (operand_iff.1 h2).1
    have hm : ∀ x, x ∈ bases (change c (build cfg l) (build cfg r)) → x ∈ bases (change c l r) := fun x hx => by
      simp only [bases, List.mem_append] at hx ⊢
      exact hx.imp (fun h => hbl.subset h) (fun h => hbr.subset h)
    have hL : ∀ x, x ∈ bases l → x ∈ bases (change c l r) := fun x hx => by simp only [bases, List.mem_append]; exact Or.inl hx
    have hR : ∀ x, x ∈ bases r → x ∈ bases (change c l r) := fun x hx => by simp only [bases, List.mem_append]; exact Or.inr hx
    rw [build, mkChange, step _ (operand_change.2 ⟨operand_build cfg l h1, operand_build cfg r h2⟩)
      (hc.sub hm)]
    simp only [den]
    rw [hl h1 (hc.sub hL),
      hr h2 (hc.sub hR)]

end KE

namespace Print
open KE

theorem rval_build_ke (cfg : Cfg) (l : List KE) (h : ∀ x ∈ l, x.isBase = false) : kes? (l.map (fun k => rval (build cfg k))) = some (l.map (build cfg)) := by
  have := kes_rval (l.map (build cfg)) (by
    intro x hx
    obtain ⟨y, hy, rfl⟩ := List.mem_map.1 hx
    rw [isBase_build]; exact h y hy)
  simpa [List.map_map, Function.comp_def] using this

/-- Evaluating the text of constructor calls. -/
theorem eval_build {cfg : Cfg} (k : KE) (h : wf k = true) : evalK cfg (rast k) = some (rval (build cfg k)) := by
  induction k using KE.ind with
  | base b => simp [rast, evalK, rval, build]
  | comm op b cs ih =>
    have hw' := wf_comm.1 h
    have hmk : ∀ ks, mkL cfg op b.elements ks = mkC cfg op b ks := fun ks => by rw [mkL, ofList_elements hw'.1 hw'.2.1]
    have hl : ∀ l : List KE, (∀ x ∈ l, x ∈ cs) → evalKs cfg (rasts l) = some (l.map (fun k => rval (build cfg k))) := by
      intro l
      induction l with
      | nil => intro _; rfl
      | cons x l ihl =>
        intro hx
        have hm := hx x (List.mem_cons_self ..)
        rw [rasts, evalKs, ih x hm (hw'.2.2 x hm).2, ihl (fun y hy => hx y (List.mem_cons_of_mem _ hy))]
        rfl
    have hr : ∀ k : KE, k.isBase = false → rval k = .ke k := by intro k hk; cases k <;> simp_all [rval, isBase]
    have hbb : (build cfg (comm op b cs)).isBase = false := by rw [isBase_build]; rfl
    rw [hr _ hbb, rast, evalK, evalKs, evalK, (bases_names cfg _).1, build, buildL_eq]
    by_cases hz : cs = []
    · subst hz
      simp [evalKs, construct_bases, hmk]
    · rw [if_neg hz]
      have hk := rval_build_ke cfg cs (fun x hx => (hw'.2.2 x hx).1)
      simp [evalKs, evalK, hl cs (fun _ h => h), construct_comm cfg op _ hk, hmk]
  | change c l r hl hr =>
    have hw' := wf_change.1 h
    have h1 := hl hw'.1
    have h2 := hr hw'.2
    have hrv : ∀ k : KE, k.isBase = false → rval k = .ke k := by intro k hk; cases k <;> simp_all [rval, isBase]
    have hbb : (build cfg (change c l r)).isBase = false := by rw [isBase_build]; rfl
    rw [hrv _ hbb, rast, evalK, build]
    simp [evalKs, evalK, h1, h2, construct, callChange_name, branch_rval]

end Print
end GPyABCD
