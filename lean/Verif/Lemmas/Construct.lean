import Verif.Lemmas.Empty
import Mathlib.Logic.Function.Iterate

namespace GPyABCD
namespace KE

theorem extract_cases' {k : KE} (hw : wf k = true) (hn : isWrapper k = false) :
    (isSingleton k = false ∧ extract k = k) ∨ (∃ b, extract k = base b) := by
  rcases extract_cases hw with h | ⟨o, b, rfl, e⟩ | ⟨o, ct, rfl, e⟩
  · exact Or.inl h
  · exact Or.inr ⟨b, e⟩
  · simp [isWrapper, Counter.elements] at hn

/-- A sum or product built from fully simplified terms that are not one-composite wrappers is fully
simplified. -/
theorem normal_mkC {cfg : Cfg} {op : Op} {bts : Counter} {cts : List KE} (hb : bts.WF) (pb : bts.Pos)
    (h : ∀ k ∈ cts, k.isBase = false ∧ normal cfg k = true ∧ isWrapper k = false) :
    normal cfg (simplify cfg (comm op bts cts)) = true := by
  have hwk : ∀ k ∈ cts, k.isBase = false ∧ wf k = true := fun k hk => ⟨(h k hk).1, (normal_iff.1 (h k hk).2.1).1⟩
  have hw : wf (comm op bts cts) = true := wf_comm.2 ⟨hb, pb, hwk⟩
  rw [normal_simplify_iff cfg _ hw, simplify, simplifyL_eq]
  have e : cts.map (simplify cfg) = cts := by
    conv_rhs => rw [← List.map_id cts]
    exact List.map_congr_left (fun k hk => simplify_of_normal (h k hk).2.1)
  rw [e]
  obtain ⟨ns, e1, e2⟩ := absorb_eq cfg op bts cts
  rw [e2]
  have key : ∀ k ∈ restOf (flat op cts), isComm op k = false ∧ alternating k = true := by
    intro k hk
    obtain ⟨⟨x, hx, rfl⟩, hkb⟩ := mem_restOf.1 hk
    rcases mem_flat.1 hx with ⟨hx, hc⟩ | ⟨y, hy, hc, hx⟩
    · have hn := normal_iff.1 (h x hx).2.1
      rcases extract_cases' hn.1 (h x hx).2.2 with ⟨_, e⟩ | ⟨b, e⟩
      · rw [e]; exact ⟨hc, hn.2.2.2⟩
      · rw [e] at hkb; simp [isBase] at hkb
    · have hn := normal_iff.1 (h y hy).2.1
      obtain ⟨c, xs, rfl⟩ := isComm_iff.1 hc
      simp only [ctsOf] at hx
      have hwx := ((wf_comm.1 hn.1).2.2 x hx)
      have hb2 := hn.2.2.1
      simp only [allBelow, allNodesL_iff] at hb2
      have hs : isSingleton x = false := by
        have := hb2 x hx
        cases x <;> simp_all [allNodes, isSingleton]
      rw [extract_of_not_singleton hwx.2 hs]
      have ha := hn.2.2.2
      simp only [alternating, allNodes, Bool.and_eq_true, allNodesL_iff, altNode, List.all_eq_true] at ha
      exact ⟨by simpa using ha.1 x hx, ha.2 x hx⟩
  simp only [alternating, allNodes, Bool.and_eq_true, allNodesL_iff, altNode, List.all_eq_true]
  exact ⟨fun k hk => by simp [(key k hk).1], fun k hk => (key k hk).2⟩

/-- A change operator built from fully simplified branches is fully simplified. -/
theorem normal_mkChange {cfg : Cfg} {c : CC} {l r : KE} (hl : normal cfg l = true) (hr : normal cfg r = true) :
    normal cfg (simplify cfg (change c l r)) = true := by
  have hl' := normal_iff.1 hl
  have hr' := normal_iff.1 hr
  have hw : wf (change c l r) = true := wf_change.2 ⟨hl'.1, hr'.1⟩
  rw [normal_simplify_iff cfg _ hw, simplify, simplify_of_normal hl, simplify_of_normal hr]
  simp only [alternating, allNodes, Bool.and_eq_true]
  exact ⟨⟨rfl, allNodes_extract hl'.1 (fun _ => rfl) hl'.2.2.2⟩, allNodes_extract hr'.1 (fun _ => rfl) hr'.2.2.2⟩

theorem iterate_stabilises (cfg : Cfg) : ∀ (n : Nat) (k : KE), wf k = true → nodes (simplify cfg k) ≤ n →
    ∃ m ≤ n, normal cfg ((simplify cfg)^[m + 1] k) = true
  | n, k, hw, hn => by
    by_cases ha : alternating (simplify cfg k) = true
    · exact ⟨0, Nat.zero_le _, by simpa using (normal_simplify_iff cfg k hw).2 ha⟩
    · have h1 := nodes_simplify_lt cfg _ (wf_simplify cfg k hw) (by simpa using ha)
      cases n with
      | zero => omega
      | succ n =>
        obtain ⟨m, hm, h⟩ := iterate_stabilises cfg n _ (wf_simplify cfg k hw) (by omega)
        exact ⟨m + 1, by omega, by rw [Function.iterate_succ_apply]; exact h⟩

theorem containsBase_iff (qs : List Base) (k : KE) (hw : wf k = true) :
    containsBase qs k = true ↔ ∃ q ∈ qs, q ∈ bases k := by
  induction k using KE.ind with
  | base b => simp [containsBase, bases]
  | comm o c cs ih =>
    have hw' := wf_comm.1 hw
    have hl : ∀ ks : List KE, containsBase.containsBaseL qs ks = ks.any (containsBase qs) := by
      intro ks; induction ks with
      | nil => rfl
      | cons k ks ih => simp [containsBase.containsBaseL, ih]
    simp only [containsBase, hl, Bool.or_eq_true, List.any_eq_true, bases, basesL_eq, List.mem_append,
      List.mem_flatMap, Counter.mem_elements hw'.1, ← Counter.Pos.has_iff_get hw'.1 hw'.2.1]
    constructor
    · rintro (⟨q, hq, h⟩ | ⟨k, hk, h⟩)
      · exact ⟨q, hq, Or.inl h⟩
      · obtain ⟨q, hq, h⟩ := (ih k hk (hw'.2.2 k hk).2).1 h
        exact ⟨q, hq, Or.inr ⟨k, hk, h⟩⟩
    · rintro ⟨q, hq, h | ⟨k, hk, h⟩⟩
      · exact Or.inl ⟨q, hq, h⟩
      · exact Or.inr ⟨k, hk, (ih k hk (hw'.2.2 k hk).2).2 ⟨q, hq, h⟩⟩
  | change c l r hl hr =>
    have hw' := wf_change.1 hw
    simp only [containsBase, Bool.or_eq_true, hl hw'.1, hr hw'.2, bases, List.mem_append]
    constructor
    · rintro (⟨q, hq, h⟩ | ⟨q, hq, h⟩)
      · exact ⟨q, hq, Or.inl h⟩
      · exact ⟨q, hq, Or.inr h⟩
    · rintro ⟨q, hq, h | h⟩
      · exact Or.inl ⟨q, hq, h⟩
      · exact Or.inr ⟨q, hq, h⟩

end KE
end GPyABCD
