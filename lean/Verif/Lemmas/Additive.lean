import Verif.Spec.Additive
import Verif.Lemmas.Rules
import Verif.Spec.Params

namespace GPyABCD
namespace KE

/-- `slimNode` for lists without strings. -/
def slimNode' : KE → Bool
  | comm o _ cs => decide (o = .sum) && decide (topsL cs ≤ 1) && cs.all (fun k => !k.isBase)
  | _ => true

/-- Change operator. -/
def isChange : KE → Bool
  | change _ _ _ => true
  | _ => false

/-- A sum of base kernels and at most one change operator. -/
def formNode : KE → Bool
  | comm o _ cs => decide (o = .sum) && decide (cs.length ≤ 1) && cs.all isChange
  | _ => true

theorem topsL_eq (cs : List KE) : topsL cs = (cs.map tops).sum := by
  induction cs with
  | nil => rfl
  | cons k ks ih => rw [topsL, ih]; rfl

theorem topsL_changes {cs : List KE} (h : ∀ k ∈ cs, isChange k = true) : topsL cs = cs.length := by
  induction cs with
  | nil => rfl
  | cons k ks ih =>
    have hk := h k (by simp)
    rw [topsL, ih (fun x hx => h x (by simp [hx])), List.length_cons]
    cases k with
    | base b => simp [isChange] at hk
    | comm _ _ _ => simp [isChange] at hk
    | change _ _ _ => rw [tops]; omega

theorem slim'_of_slim {k : KE} (hw : wf k = true) (h : slim k = true) : allNodes slimNode' k = true := by
  induction k using KE.ind with
  | base b => rfl
  | comm o c cs ih =>
    simp only [slim, allNodes, Bool.and_eq_true, slimNode, allNodesL_iff] at h
    simp only [allNodes, Bool.and_eq_true, slimNode', allNodesL_iff, List.all_eq_true]
    have hw' := (wf_comm.1 hw).2.2
    exact ⟨⟨h.1, fun k hk => by simp [(hw' k hk).1]⟩, fun k hk => ih k hk (hw' k hk).2 (h.2 k hk)⟩
  | change c l r hl hr =>
    have hw' := wf_change.1 hw
    simp only [slim, allNodes, Bool.and_eq_true] at h
    simp only [allNodes, Bool.and_eq_true]
    exact ⟨⟨rfl, hl hw'.1 h.1.2⟩, hr hw'.2 h.2⟩

theorem slim_of_slim' {k : KE} (h : allNodes slimNode' k = true) : slim k = true := by
  refine allNodes_imp k (fun n hn => ?_) h
  cases n with
  | comm o c cs => simp only [slimNode', Bool.and_eq_true] at hn; simp only [slimNode, Bool.and_eq_true]; exact hn.1
  | base b => rfl
  | change _ _ _ => rfl

theorem slim'_of_form {k : KE} (h : allNodes formNode k = true) : allNodes slimNode' k = true := by
  refine allNodes_imp k (fun n hn => ?_) h
  cases n with
  | comm o c cs =>
    simp only [formNode, Bool.and_eq_true, decide_eq_true_eq, List.all_eq_true] at hn
    simp only [slimNode', Bool.and_eq_true, decide_eq_true_eq, List.all_eq_true]
    refine ⟨⟨hn.1.1, by rw [topsL_changes hn.2]; exact hn.1.2⟩, fun k hk => ?_⟩
    have := hn.2 k hk
    cases k <;> simp_all [isChange, isBase]
  | base b => rfl
  | change _ _ _ => rfl

theorem tops_le {k : KE} (h : allNodes slimNode' k = true) : tops k ≤ 1 := by
  cases k with
  | base b => simp [tops]
  | comm o c cs =>
    simp only [allNodes, Bool.and_eq_true, slimNode', decide_eq_true_eq] at h
    rw [tops]; exact h.1.1.2
  | change _ _ _ => simp [tops]

theorem form_extract {k : KE} (h : allNodes formNode k = true) : allNodes formNode (extract k) = true := by
  cases k with
  | base b => rfl
  | change _ _ _ => exact h
  | comm o c cs =>
    have h' := h
    simp only [allNodes, Bool.and_eq_true, allNodesL_iff] at h'
    simp only [extract]
    split
    · split
      · rfl
      · exact h
    · split
      · exact h'.2 _ (by simp)
      · exact h
    · exact h

theorem extract_change {k : KE} (h : isChange k = true) : extract k = k := by
  cases k <;> simp_all [isChange, extract]

theorem restOf_changes {cs : List KE} (h : ∀ k ∈ cs, isChange k = true) : restOf cs = cs := by
  induction cs with
  | nil => rfl
  | cons k ks ih =>
    have hk := h k (by simp)
    have := ih (fun x hx => h x (by simp [hx]))
    rw [restOf] at this ⊢
    rw [List.map_cons, extract_change hk, List.filter_cons_of_pos (by cases k <;> simp_all [isChange, isBase]), this]

theorem tops_flat {cs : List KE} (h : ∀ k ∈ cs, allNodes formNode k = true ∧ k.isBase = false) :
    (∀ k ∈ flat .sum cs, isChange k = true ∧ allNodes formNode k = true) ∧ (flat .sum cs).length = topsL cs := by
  have h1 : ∀ k ∈ flat .sum cs, isChange k = true ∧ allNodes formNode k = true := by
    intro k hk
    rcases mem_flat.1 hk with ⟨hk, hc⟩ | ⟨x, hx, hc, hk⟩
    · obtain ⟨f, hb⟩ := h k hk
      refine ⟨?_, f⟩
      cases k with
      | base b => simp [isBase] at hb
      | change _ _ _ => rfl
      | comm o c ks =>
        simp only [allNodes, Bool.and_eq_true, formNode, decide_eq_true_eq] at f
        simp only [isComm, decide_eq_false_iff_not] at hc
        exact absurd f.1.1.1 hc
    · obtain ⟨f, _⟩ := h x hx
      obtain ⟨c, ks, rfl⟩ := isComm_iff.1 hc
      simp only [allNodes, Bool.and_eq_true, formNode, decide_eq_true_eq, List.all_eq_true, allNodesL_iff] at f
      exact ⟨f.1.2 k hk, f.2 k hk⟩
  refine ⟨h1, ?_⟩
  clear h1
  induction cs with
  | nil => rfl
  | cons k ks ih =>
    have ih := ih (fun x hx => h x (by simp [hx]))
    obtain ⟨f, hb⟩ := h k (by simp)
    rw [topsL, ← ih]
    cases k with
    | base b => simp [isBase] at hb
    | change _ _ _ => simp [flat, isComm, tops]; omega
    | comm o c xs =>
      simp only [allNodes, Bool.and_eq_true, formNode, decide_eq_true_eq, List.all_eq_true, allNodesL_iff] at f
      obtain rfl := f.1.1.1
      rw [tops, topsL_changes f.1.2]
      simp [flat, isComm, ctsOf]; omega

/-- Simplification flattens. -/
theorem form_simplify (cfg : Cfg) {k : KE} (h : allNodes slimNode' k = true) :
    allNodes formNode (simplify cfg k) = true ∧ tops (simplify cfg k) = tops k := by
  induction k using KE.ind with
  | base b => exact ⟨rfl, rfl⟩
  | comm o c cs ih =>
    simp only [allNodes, Bool.and_eq_true, slimNode', decide_eq_true_eq, allNodesL_iff, List.all_eq_true, Bool.not_eq_true'] at h
    obtain ⟨⟨⟨rfl, ht⟩, hnb⟩, hcs⟩ := h
    have hi := fun k hk => ih k hk (hcs k hk)
    obtain ⟨f1, f2⟩ := tops_flat (cs := cs.map (simplify cfg)) (fun x hx => by
      obtain ⟨y, hy, rfl⟩ := List.mem_map.1 hx
      exact ⟨(hi y hy).1, by rw [isBase_simplify]; exact hnb y hy⟩)
    have e0 : topsL (cs.map (simplify cfg)) = topsL cs := by
      rw [topsL_eq, topsL_eq, List.map_map]
      exact congrArg List.sum (List.map_congr_left (fun x hx => (hi x hx).2))
    obtain ⟨ns, _, e⟩ := absorb_eq cfg .sum c (cs.map (simplify cfg))
    rw [restOf_changes (fun k hk => (f1 k hk).1)] at e
    rw [simplify, simplifyL_eq, e]
    refine ⟨?_, ?_⟩
    · simp only [allNodes, Bool.and_eq_true, formNode, decide_eq_true_eq, List.all_eq_true, allNodesL_iff]
      exact ⟨⟨⟨trivial, by omega⟩, fun k hk => (f1 k hk).1⟩, fun k hk => (f1 k hk).2⟩
    · rw [tops, tops, topsL_changes (fun k hk => (f1 k hk).1), f2, e0]
  | change c l r hl hr =>
    simp only [allNodes, Bool.and_eq_true] at h
    rw [simplify]
    refine ⟨?_, rfl⟩
    simp only [allNodes, Bool.and_eq_true]
    exact ⟨⟨rfl, form_extract (hl h.1.2).1⟩, form_extract (hr h.2).1⟩

theorem alternating_of_form {k : KE} (h : allNodes formNode k = true) : alternating k = true := by
  refine allNodes_imp k (fun n hn => ?_) h
  cases n with
  | comm o c cs =>
    simp only [formNode, Bool.and_eq_true, decide_eq_true_eq, List.all_eq_true] at hn
    simp only [altNode, List.all_eq_true]
    intro k hk
    have := hn.2 k hk
    cases k <;> simp_all [isChange, isComm]
  | base b => rfl
  | change _ _ _ => rfl

/-- Replacing a node. -/
theorem repl_slim {S new k k' : KE} (h : Repl S new k k') (hk : allNodes formNode k = true) (hn : allNodes slimNode' new = true)
    (hb : new.isBase = false) : allNodes slimNode' k' = true ∧ (k.isBase = false → k'.isBase = false) := by
  induction h with
  | here => exact ⟨hn, fun _ => hb⟩
  | @term o b l1 l2 y hSy =>
    simp only [allNodes, Bool.and_eq_true, formNode, decide_eq_true_eq, List.all_eq_true, allNodesL_iff, List.length_append, List.length_cons] at hk
    obtain ⟨⟨⟨rfl, hl⟩, _⟩, _⟩ := hk
    obtain rfl : l1 = [] := List.length_eq_zero_iff.1 (by omega)
    obtain rfl : l2 = [] := List.length_eq_zero_iff.1 (by omega)
    refine ⟨?_, fun _ => rfl⟩
    simp only [List.nil_append, List.append_nil, allNodes, Bool.and_eq_true, slimNode', decide_eq_true_eq, allNodesL, topsL, List.all_cons, List.all_nil,
      hb, Bool.not_false, and_true, true_and]
    exact ⟨by have := tops_le hn; omega, hn⟩
  | @sub o b l1 l2 a a' _ ih =>
    simp only [allNodes, Bool.and_eq_true, formNode, decide_eq_true_eq, List.all_eq_true, allNodesL_iff, List.length_append, List.length_cons] at hk
    obtain ⟨⟨⟨rfl, hl⟩, hc⟩, hf⟩ := hk
    obtain rfl : l1 = [] := List.length_eq_zero_iff.1 (by omega)
    obtain rfl : l2 = [] := List.length_eq_zero_iff.1 (by omega)
    obtain ⟨i1, i2⟩ := ih (hf a (by simp))
    have hab : a.isBase = false := by have := hc a (by simp); cases a <;> simp_all [isChange, isBase]
    refine ⟨?_, fun _ => rfl⟩
    simp only [List.nil_append, allNodes, Bool.and_eq_true, slimNode', decide_eq_true_eq, allNodesL, topsL, List.all_cons, List.all_nil,
      i2 hab, Bool.not_false, and_true, true_and]
    exact ⟨by have := tops_le i1; omega, i1⟩
  | left _ ih =>
    simp only [allNodes, Bool.and_eq_true] at hk ⊢
    exact ⟨⟨⟨rfl, (ih hk.1.2).1⟩, slim'_of_form hk.2⟩, fun _ => rfl⟩
  | right _ ih =>
    simp only [allNodes, Bool.and_eq_true] at hk ⊢
    exact ⟨⟨⟨rfl, slim'_of_form hk.1.2⟩, (ih hk.2).1⟩, fun _ => rfl⟩
  | leafL _ =>
    simp only [allNodes, Bool.and_eq_true] at hk ⊢
    exact ⟨⟨⟨rfl, rfl⟩, hn⟩, fun _ => rfl⟩
  | leafR _ =>
    simp only [allNodes, Bool.and_eq_true] at hk ⊢
    exact ⟨⟨⟨rfl, slim'_of_form hk.1.2⟩, hn⟩, fun _ => rfl⟩

/-- Nodes visited. -/
theorem traverse_form {cfg : Cfg} {k : KE} (hk : allNodes formNode k = true) : ∀ {p : List Step} {S : KE}, (p, S) ∈ traverse cfg k →
    allNodes formNode S = true := by
  induction k using KE.ind with
  | base b => intro p S h; simp [traverse] at h
  | comm o b cs ih =>
    intro p S h
    have hk' := hk
    simp only [allNodes, Bool.and_eq_true, allNodesL_iff] at hk'
    simp only [traverse, List.mem_cons, Prod.mk.injEq] at h
    rcases h with ⟨_, rfl⟩ | h
    · exact hk
    · obtain ⟨l1, a, l2, q, rfl, _, h2⟩ := mem_traverseL.1 h
      exact ih a (by simp) (hk'.2 a (by simp)) h2
  | change c l r hl hr =>
    intro p S h
    have hk' := hk
    simp only [allNodes, Bool.and_eq_true] at hk'
    rcases mem_traverse_change.1 h with ⟨_, rfl⟩ | ⟨b, rfl, _, rfl⟩ | ⟨_, _, h⟩ | ⟨b, rfl, _, rfl⟩ | ⟨_, _, h⟩
    · exact hk
    · rfl
    · exact hl hk'.1.2 h
    · rfl
    · exact hr hk'.2 h

theorem slim_mkC {cfg : Cfg} {b : Counter} {cs : List KE} (h1 : topsL cs ≤ 1) (h2 : ∀ k ∈ cs, k.isBase = false ∧ allNodes slimNode' k = true) :
    allNodes slimNode' (mkC cfg .sum b cs) = true := by
  refine slim'_of_form (form_simplify cfg ?_).1
  simp only [allNodes, Bool.and_eq_true, slimNode', decide_eq_true_eq, allNodesL_iff, List.all_eq_true, Bool.not_eq_true']
  exact ⟨⟨⟨trivial, h1⟩, fun k hk => (h2 k hk).1⟩, fun k hk => (h2 k hk).2⟩

theorem slim_mkChange {cfg : Cfg} {c : CC} {l r : KE} (h1 : allNodes slimNode' l = true) (h2 : allNodes slimNode' r = true) :
    allNodes slimNode' (mkChange cfg c l r) = true := by
  refine slim'_of_form (form_simplify cfg ?_).1
  simp only [allNodes, Bool.and_eq_true]
  exact ⟨⟨rfl, h1⟩, h2⟩

theorem slim_oneChange {cfg : Cfg} {S : KE} {x : CC} {B : Base} (h : allNodes slimNode' S = true) :
    ∀ new ∈ oneChange cfg S x (some (base B)), allNodes slimNode' new = true := by
  intro new hn
  simp only [oneChange] at hn
  split at hn
  · simp only [List.mem_singleton] at hn; subst hn; exact slim_mkChange h h
  · simp only [List.mem_cons, List.not_mem_nil, or_false] at hn
    rcases hn with rfl | rfl
    · exact slim_mkChange h rfl
    · exact slim_mkChange rfl h

theorem slim_names {cfg : Cfg} {l : List Base} : allNodes slimNode' (mkL cfg .sum l []) = true := slim_mkC (by simp [topsL]) (by simp)

/-- The additive rules. -/
theorem slim_rule {cfg : Cfg} {o : Orders} {n : RuleName} (ha : n.additive = true) {S : KE} (hS : allNodes formNode S = true)
    (hnb : S.isBase = false) : ∀ new ∈ n.rule cfg o S, allNodes slimNode' new = true := by
  have hs := slim'_of_form hS
  intro new hnew
  cases S with
  | base b => simp [isBase] at hnb
  | comm op b cs =>
    have hS' := hS
    have hs' := hs
    simp only [allNodes, Bool.and_eq_true, formNode, decide_eq_true_eq, List.all_eq_true, allNodesL_iff] at hS'
    simp only [allNodes, Bool.and_eq_true, slimNode', decide_eq_true_eq, List.all_eq_true, allNodesL_iff, Bool.not_eq_true'] at hs'
    obtain ⟨⟨⟨rfl, hl⟩, hc⟩, hf⟩ := hS'
    have ht : topsL cs ≤ 1 := hs'.1.1.2
    have hcs : ∀ k ∈ cs, k.isBase = false ∧ allNodes slimNode' k = true := fun k hk => ⟨hs'.1.2 k hk, hs'.2 k hk⟩
    cases n with
    | plus_base =>
      obtain ⟨B, _, h⟩ := List.mem_flatMap.1 hnew
      simp only [add, addRes, addNested, List.mem_singleton] at h
      subst h; exact slim_mkC ht hcs
    | times_base => simp [RuleName.additive] at ha
    | times_shifted_base => simp [RuleName.additive] at ha
    | try_higher_curves => simp [RuleName.additive] at ha
    | replace_base =>
      obtain ⟨B, _, h⟩ := List.mem_flatMap.1 hnew
      simp only [swapBase, List.mem_map] at h
      obtain ⟨p, _, rfl⟩ := h
      exact slim_mkC ht hcs
    | change_new_base =>
      obtain ⟨B, _, h⟩ := List.mem_flatMap.1 hnew
      rw [bothChanges_some, List.mem_append] at h
      rcases h with h | h <;> exact slim_oneChange hs new h
    | change_same =>
      simp only [RuleName.rule, bothChanges, List.flatMap_cons, List.flatMap_nil, List.append_nil, List.cons_append,
        List.nil_append, List.mem_cons, List.not_mem_nil, or_false] at hnew
      rcases hnew with rfl | rfl <;> exact slim_mkChange hs hs
    | change_window_constant => exact slim_oneChange hs new hnew
    | change_window_linear => exact slim_oneChange hs new hnew
    | change_point_linear => exact slim_oneChange hs new hnew
    | replace_with_singleton =>
      obtain ⟨B, _, h⟩ := List.mem_flatMap.1 hnew
      rw [mkL_one] at h
      simp only [replaceNode, List.mem_singleton] at h
      subst h; rfl
    | remove_some_term =>
      simp only [RuleName.rule, removeATerm] at hnew
      split at hnew
      · simp only [List.mem_append, List.mem_map, List.mem_range] at hnew
        rcases hnew with ⟨p, _, rfl⟩ | ⟨i, hi, rfl⟩
        · exact slim_mkC ht hcs
        · have : cs.take i ++ cs.drop (i + 1) = [] := by
            rw [← List.length_eq_zero_iff]; simp; omega
          rw [this]
          exact slim_mkC (by simp [topsL]) (by simp)
      · simp at hnew
  | change c l r =>
    have hs' := hs
    simp only [allNodes, Bool.and_eq_true] at hs'
    have hone : topsL [change c l r] ≤ 1 := by simp [topsL, tops]
    have hcs : ∀ k ∈ [change c l r], k.isBase = false ∧ allNodes slimNode' k = true := fun k hk => by
      rw [List.mem_singleton] at hk; subst hk; exact ⟨rfl, hs⟩
    have hbr : ∀ k, allNodes slimNode' k = true → allNodes slimNode' (branchNode cfg k) = true := by
      intro k hk
      cases k with
      | base b => exact slim_names
      | comm _ _ _ => exact hk
      | change _ _ _ => exact hk
    cases n with
    | plus_base =>
      obtain ⟨B, _, h⟩ := List.mem_flatMap.1 hnew
      simp only [add, addRes, addNested, List.mem_singleton] at h
      subst h; exact slim_mkC hone hcs
    | times_base => simp [RuleName.additive] at ha
    | times_shifted_base => simp [RuleName.additive] at ha
    | try_higher_curves => simp [RuleName.additive] at ha
    | replace_base =>
      obtain ⟨B, _, h⟩ := List.mem_flatMap.1 hnew
      simp only [swapBase, List.mem_append] at h
      rcases h with h | h
      · split at h
        · rw [List.mem_singleton] at h; subst h; exact slim_mkChange rfl hs'.2
        · simp at h
      · split at h
        · rw [List.mem_singleton] at h; subst h; exact slim_mkChange hs'.1.2 rfl
        · simp at h
    | change_new_base =>
      obtain ⟨B, _, h⟩ := List.mem_flatMap.1 hnew
      rw [bothChanges_some, List.mem_append] at h
      rcases h with h | h <;> exact slim_oneChange hs new h
    | change_same =>
      simp only [RuleName.rule, bothChanges, List.flatMap_cons, List.flatMap_nil, List.append_nil, List.cons_append,
        List.nil_append, List.mem_cons, List.not_mem_nil, or_false] at hnew
      rcases hnew with rfl | rfl <;> exact slim_mkChange hs hs
    | change_window_constant => exact slim_oneChange hs new hnew
    | change_window_linear => exact slim_oneChange hs new hnew
    | change_point_linear => exact slim_oneChange hs new hnew
    | replace_with_singleton =>
      obtain ⟨B, _, h⟩ := List.mem_flatMap.1 hnew
      rw [mkL_one] at h
      simp only [replaceNode, List.mem_singleton] at h
      subst h; rfl
    | remove_some_term =>
      simp only [RuleName.rule, removeATerm, List.mem_cons, List.not_mem_nil, or_false] at hnew
      rcases hnew with rfl | rfl
      · exact hbr l hs'.1.2
      · exact hbr r hs'.2

theorem standardiseF_form {cfg : Cfg} : ∀ (n : Nat) {k r : KE}, wf k = true → allNodes slimNode' k = true → standardiseF cfg n k = some r →
    allNodes formNode r = true ∧ isWrapper r = false := by
  intro n
  induction n with
  | zero => intro k r _ _ h; simp [standardiseF] at h
  | succ n ih =>
    intro k r hw hs h
    have hws := wf_simplify cfg k hw
    have hf := (form_simplify cfg hs).1
    simp only [standardiseF] at h
    split at h
    · rename_i he
      rw [Option.some.injEq] at h; subst h
      refine ⟨hf, ?_⟩
      rw [extractsSelf_eq hws, Bool.not_eq_true'] at he
      generalize simplify cfg k = s at he
      cases s with
      | base b => rfl
      | change _ _ _ => rfl
      | comm o c cs =>
        match cs with
        | [] => rfl
        | [x] =>
          simp only [isSingleton, List.length_singleton, decide_eq_false_iff_not] at he
          simp only [isWrapper, decide_eq_false_iff_not]
          intro e; rw [e] at he; simp at he
        | _ :: _ :: _ => rfl
    · split at h
      · rw [Option.some.injEq] at h; subst h
        rw [mkL_one]; exact ⟨rfl, rfl⟩
      · rename_i hne
        exact ih (wf_extract hws) (slim'_of_form (form_extract hf)) h

/-- The result of an additive expansion: sums of base kernels and at most one change operator, none of which stands alone. -/
theorem form_expand {cfg : Cfg} {o : Orders} (ho : ∀ B ∈ o.noC, B ≠ Base.C) {rules : List RuleName} (hr : ∀ n ∈ rules, n.additive = true) {k : KE}
    (hw : wf k = true) (hk : allNodes formNode k = true) {r : KE} (h : r ∈ expandNamed cfg o rules k) :
    allNodes formNode r = true ∧ isWrapper r = false := by
  obtain ⟨p, S, hp, rule, hrule, new, hnew, rfl⟩ := mem_expand h
  obtain ⟨n, hn, rfl⟩ := List.mem_map.1 hrule
  have hS := traverse_node hw hp
  have hSb := traverse_not_base hp
  have hrr := rr_rule ho n hS.1 hSb new hnew
  have hns := slim_rule (hr n hn) (traverse_form hk hp) hSb new hnew
  have hrepl := repl_of_traverse (new := new) hp
  have hkb : k.isBase = false := by
    cases k with
    | base b => simp [traverse] at hp
    | comm _ _ _ => rfl
    | change _ _ _ => rfl
  obtain ⟨h1, h2⟩ := repl_slim hrepl hk hns hrr.notBase
  have hwk := repl_wf hrepl hw hrr.wf hrr.notBase
  obtain ⟨x, hx, _⟩ := standardiseF_ind (cfg := cfg) (fun _ => True) (fun _ _ _ => trivial) (fun _ _ _ => trivial) (fun _ _ _ => trivial)
    (nodes (replaceAt k p new) + 1) _ hwk.1 hwk.2 trivial (by omega)
  rw [standardise, nodes'_eq, hx]
  exact standardiseF_form _ hwk.1 h1 hx

theorem isSingleton_wrapper {k : KE} (h : isSingleton k = false) : isWrapper k = false := by
  cases k with
  | base b => rfl
  | change _ _ _ => rfl
  | comm o c cs =>
    match cs with
    | [] => rfl
    | [x] =>
      simp only [isSingleton, List.length_singleton, decide_eq_false_iff_not] at h
      simp only [isWrapper, decide_eq_false_iff_not]
      intro e; rw [e] at h; simp at h
    | _ :: _ :: _ => rfl

theorem own_of_form {cfg : Cfg} {k : KE} (h : settled cfg k = true) (hf : allNodes formNode k = true) (hw : isWrapper k = false) :
    allNodes Params.ownNode k = true := by
  induction k using KE.ind with
  | base b => rfl
  | comm o c cs ih =>
    have hf' := hf
    simp only [allNodes, Bool.and_eq_true, allNodesL_iff] at hf'
    simp only [allNodes, Bool.and_eq_true, allNodesL_iff]
    refine ⟨?_, fun x hx => ih x hx (settled_child h x hx).1 (hf'.2 x hx) (isSingleton_wrapper (settled_child h x hx).2)⟩
    cases c with
    | cons p c => rfl
    | nil =>
      exfalso
      have h2 := (settled_iff.1 h).2.1
      have h3 := hf'.1
      simp only [noEmpty, allNodes, Bool.and_eq_true, Bool.not_eq_true'] at h2
      simp only [formNode, Bool.and_eq_true, decide_eq_true_eq] at h3
      match cs, h2.1, h3, hw with
      | [], h2, _, _ => simp [isEmptyNode, Counter.elements] at h2
      | [x], _, _, h4 => simp [isWrapper, Counter.elements] at h4
      | _ :: _ :: _, _, h3, _ => simp at h3
  | change c l r hl hr =>
    have hb := settled_branch h
    simp only [allNodes, Bool.and_eq_true] at hf ⊢
    exact ⟨⟨rfl, hl hb.1.1 hf.1.2 (isSingleton_wrapper hb.1.2)⟩, hr hb.2.1 hf.2 (isSingleton_wrapper hb.2.2)⟩

/-! ## Windows -/

theorem changes_mem_comm {o : Op} {c : Counter} {cs : List KE} {x : CC} : x ∈ changes (comm o c cs) ↔ ∃ k ∈ cs, x ∈ changes k := by
  rw [changes, changesL_eq, List.mem_flatMap]

theorem repl_changes {S new k k' : KE} (h : Repl S new k k') : ∀ x ∈ changes k', x ∈ changes k ∨ x ∈ changes new := by
  induction h with
  | here => exact fun x hx => Or.inr hx
  | term _ =>
    intro x hx
    obtain ⟨y, hy, h⟩ := changes_mem_comm.1 hx
    simp only [List.mem_append, List.mem_singleton] at hy
    rcases hy with (hy | hy) | rfl
    · exact Or.inl (changes_mem_comm.2 ⟨y, by simp [hy], h⟩)
    · exact Or.inl (changes_mem_comm.2 ⟨y, by simp [hy], h⟩)
    · exact Or.inr h
  | sub _ ih =>
    intro x hx
    obtain ⟨y, hy, h⟩ := changes_mem_comm.1 hx
    simp only [List.mem_append, List.mem_cons] at hy
    rcases hy with hy | rfl | hy
    · exact Or.inl (changes_mem_comm.2 ⟨y, by simp [hy], h⟩)
    · exact (ih x h).imp_left (fun h => changes_mem_comm.2 ⟨_, by simp, h⟩)
    · exact Or.inl (changes_mem_comm.2 ⟨y, by simp [hy], h⟩)
  | left _ ih =>
    intro x hx
    simp only [changes, List.mem_cons, List.mem_append] at hx ⊢
    rcases hx with h | h | h
    · simp [h]
    · rcases ih x h with h | h <;> simp [h]
    · simp [h]
  | right _ ih =>
    intro x hx
    simp only [changes, List.mem_cons, List.mem_append] at hx ⊢
    rcases hx with h | h | h
    · simp [h]
    · simp [h]
    · rcases ih x h with h | h <;> simp [h]
  | leafL _ => intro x hx; simp only [changes, List.mem_cons, List.mem_append] at hx ⊢; rcases hx with h | h | h <;> simp [h]
  | leafR _ => intro x hx; simp only [changes, List.mem_cons, List.mem_append] at hx ⊢; rcases hx with h | h | h <;> simp [h]

theorem traverse_changes {cfg : Cfg} {k : KE} : ∀ {p : List Step} {S : KE}, (p, S) ∈ traverse cfg k → ∀ x ∈ changes S, x ∈ changes k := by
  induction k using KE.ind with
  | base b => intro p S h; simp [traverse] at h
  | comm o b cs ih =>
    intro p S h x hx
    simp only [traverse, List.mem_cons, Prod.mk.injEq] at h
    rcases h with ⟨_, rfl⟩ | h
    · exact hx
    · obtain ⟨l1, a, l2, q, rfl, _, h2⟩ := mem_traverseL.1 h
      exact changes_mem_comm.2 ⟨a, by simp, ih a (by simp) h2 x hx⟩
  | change c l r hl hr =>
    intro p S h x hx
    rcases mem_traverse_change.1 h with ⟨_, rfl⟩ | ⟨b, rfl, _, rfl⟩ | ⟨_, _, h⟩ | ⟨b, rfl, _, rfl⟩ | ⟨_, _, h⟩
    · exact hx
    · simp [changes, changesL] at hx
    · simp [changes, hl h x hx]
    · simp [changes, changesL] at hx
    · simp [changes, hr h x hx]

theorem standardise_changes {cfg : Cfg} {k : KE} (hw : wf k = true) (hb : k.isBase = false) :
    ∀ x ∈ changes (standardise cfg k), x ∈ changes k := by
  have h := standardise_ind (cfg := cfg) (fun r => ∀ x ∈ changes r, x ∈ changes k)
    (fun r hr hq x hx => hq x ((changes_simplify cfg r hr).subset hx))
    (fun o b hq x hx => by simp [changes, changesL] at hx)
    (fun o ct hq x hx => hq x (by simpa [changes, changesL] using hx)) hw hb (fun _ h => h)
  exact h.1

theorem changes_extract_sub {k : KE} : ∀ x ∈ changes (extract k), x ∈ changes k := by
  intro x hx
  cases k with
  | base b => exact hx
  | change _ _ _ => exact hx
  | comm o c cs =>
    simp only [extract] at hx
    split at hx
    · split at hx
      · simp [changes] at hx
      · exact hx
    · split at hx
      · exact changes_mem_comm.2 ⟨_, by simp, hx⟩
      · exact hx
    · exact hx

theorem changes_simplify_sub (cfg : Cfg) (k : KE) : ∀ x ∈ changes (simplify cfg k), x ∈ changes k := by
  induction k using KE.ind with
  | base b => exact fun x h => h
  | comm o c cs ih =>
    intro x hx
    obtain ⟨ns, _, e⟩ := absorb_eq cfg o c (cs.map (simplify cfg))
    rw [simplify, simplifyL_eq, e] at hx
    obtain ⟨y, hy, h⟩ := changes_mem_comm.1 hx
    obtain ⟨⟨z, hz, rfl⟩, _⟩ := mem_restOf.1 hy
    have h := changes_extract_sub x h
    rcases mem_flat.1 hz with ⟨hz, _⟩ | ⟨w, hw, hc, hz⟩
    · obtain ⟨u, hu, rfl⟩ := List.mem_map.1 hz
      exact changes_mem_comm.2 ⟨u, hu, ih u hu x h⟩
    · obtain ⟨u, hu, rfl⟩ := List.mem_map.1 hw
      refine changes_mem_comm.2 ⟨u, hu, ih u hu x ?_⟩
      obtain ⟨c', xs, e'⟩ := isComm_iff.1 hc
      rw [e'] at hz ⊢
      exact changes_mem_comm.2 ⟨z, hz, h⟩
  | change c l r hl hr =>
    intro x hx
    simp only [simplify, changes, List.mem_cons, List.mem_append] at hx ⊢
    rcases hx with h | h | h
    · exact Or.inl h
    · exact Or.inr (Or.inl (hl x (changes_extract_sub x h)))
    · exact Or.inr (Or.inr (hr x (changes_extract_sub x h)))

theorem changes_mkC {cfg : Cfg} {op : Op} {b : Counter} {cs : List KE} {x : CC} (h : x ∈ changes (mkC cfg op b cs)) : ∃ k ∈ cs, x ∈ changes k :=
  changes_mem_comm.1 (changes_simplify_sub cfg _ x h)

theorem changes_mkChange {cfg : Cfg} {c x : CC} {l r : KE} (h : x ∈ changes (mkChange cfg c l r)) : x = c ∨ x ∈ changes l ∨ x ∈ changes r := by
  have := changes_simplify_sub cfg _ x h
  simpa only [changes, List.mem_cons, List.mem_append] using this

theorem changes_names {cfg : Cfg} {op : Op} {l : List Base} : changes (mkL cfg op l []) = [] := by
  rw [List.eq_nil_iff_forall_not_mem]
  intro x h
  obtain ⟨k, hk, _⟩ := changes_mkC h
  simp at hk

theorem changes_delSE (k : KE) : changes (delSE k) = changes k := by cases k <;> rfl

theorem changes_branchNode {cfg : Cfg} {k : KE} : changes (branchNode cfg k) = changes k := by
  cases k with
  | base b => exact changes_names
  | comm _ _ _ => rfl
  | change _ _ _ => rfl

theorem changes_add {cfg : Cfg} {S : KE} {B : Base} {new : KE} (h : new ∈ add cfg S (base B)) : ∀ x ∈ changes new, x ∈ changes S := by
  intro x hx
  simp only [add, List.mem_cons] at h
  rcases h with rfl | h
  · cases S with
    | base b => simp only [addRes, mkL] at hx; obtain ⟨k, hk, _⟩ := changes_mkC hx; simp at hk
    | comm o b cs =>
      cases o with
      | sum => simp only [addRes] at hx; exact changes_mem_comm.2 (changes_mkC hx)
      | prod => simp only [addRes, mkL] at hx; obtain ⟨k, hk, h⟩ := changes_mkC hx; rw [List.mem_singleton] at hk; subst hk; exact h
    | change _ _ _ => simp only [addRes, mkL] at hx; obtain ⟨k, hk, h⟩ := changes_mkC hx; rw [List.mem_singleton] at hk; subst hk; exact h
  · cases S with
    | base b => simp [addNested] at h
    | change _ _ _ => simp [addNested] at h
    | comm o b cs =>
      cases o with
      | sum => simp [addNested] at h
      | prod =>
        simp only [addNested, addNestedAt, List.mem_map] at h
        obtain ⟨bt, _, rfl⟩ := h
        obtain ⟨k, hk, h⟩ := changes_mkC hx
        rcases List.mem_append.1 hk with hk | hk
        · exact changes_mem_comm.2 ⟨k, hk, h⟩
        · rw [List.mem_singleton] at hk; subst hk; rw [changes_names] at h; simp at h

theorem changes_multiply {cfg : Cfg} {S k : KE} (hk : changes k = []) {new : KE} (h : new ∈ multiply cfg S k) (hc : ∀ c l r, k ≠ change c l r) :
    ∀ x ∈ changes new, x ∈ changes S := by
  intro x hx
  have key : ∀ {y : KE}, x ∈ changes y → y = k → x ∈ changes S := by
    rintro y hy rfl; rw [hk] at hy; simp at hy
  have kc : ∀ {o : Op} {b : Counter} {cs : List KE}, k = comm o b cs → ∀ y ∈ cs, x ∉ changes y := by
    rintro o b cs rfl y hy hxy
    have := changes_mem_comm (o := o) (c := b) (x := x) |>.2 ⟨y, hy, hxy⟩
    rw [hk] at this; simp at this
  simp only [multiply, List.mem_cons] at h
  rcases h with rfl | h
  · cases S with
    | base b =>
      cases k with
      | base a => simp only [mulRes, mkL] at hx; obtain ⟨y, hy, _⟩ := changes_mkC hx; simp at hy
      | change c l r => exact absurd rfl (hc c l r)
      | comm o b cs =>
        cases o with
        | sum => simp only [mulRes, mkL] at hx; obtain ⟨y, hy, h⟩ := changes_mkC hx; exact key h (by simpa using hy)
        | prod => simp only [mulRes, mkL] at hx; obtain ⟨y, hy, h⟩ := changes_mkC hx; exact absurd h (kc rfl y hy)
    | change c l r =>
      cases k with
      | base a => simp only [mulRes, mkL] at hx; obtain ⟨y, hy, h⟩ := changes_mkC hx; rw [List.mem_singleton] at hy; subst hy; exact h
      | change c l r => exact absurd rfl (hc c l r)
      | comm o b cs =>
        cases o with
        | sum =>
          simp only [mulRes, mkL] at hx; obtain ⟨y, hy, h⟩ := changes_mkC hx
          simp only [List.mem_cons, List.not_mem_nil, or_false] at hy
          rcases hy with rfl | rfl
          · exact h
          · exact key h rfl
        | prod =>
          simp only [mulRes, mkL] at hx; obtain ⟨y, hy, h⟩ := changes_mkC hx
          rcases List.mem_append.1 hy with hy | hy
          · exact absurd h (kc rfl y hy)
          · rw [List.mem_singleton] at hy; subst hy; exact h
    | comm o' b' cs' =>
      cases o' with
      | sum =>
        cases k with
        | base a => simp only [mulRes, mkL] at hx; obtain ⟨y, hy, h⟩ := changes_mkC hx; rw [List.mem_singleton] at hy; subst hy; exact h
        | change c l r => exact absurd rfl (hc c l r)
        | comm o b cs =>
          cases o with
          | sum =>
            simp only [mulRes, mkL] at hx; obtain ⟨y, hy, h⟩ := changes_mkC hx
            simp only [List.mem_cons, List.not_mem_nil, or_false] at hy
            rcases hy with rfl | rfl
            · exact h
            · exact key h rfl
          | prod =>
            simp only [mulRes, mkL] at hx; obtain ⟨y, hy, h⟩ := changes_mkC hx
            rcases List.mem_append.1 hy with hy | hy
            · exact absurd h (kc rfl y hy)
            · rw [List.mem_singleton] at hy; subst hy; exact h
      | prod =>
        cases k with
        | base a => simp only [mulRes] at hx; exact changes_mem_comm.2 (changes_mkC hx)
        | change c l r => exact absurd rfl (hc c l r)
        | comm o b cs =>
          cases o with
          | sum =>
            simp only [mulRes, mkL] at hx; obtain ⟨y, hy, h⟩ := changes_mkC hx
            rcases List.mem_append.1 hy with hy | hy
            · exact changes_mem_comm.2 ⟨y, hy, h⟩
            · exact key h (by simpa using hy)
          | prod =>
            simp only [mulRes, mkL] at hx; obtain ⟨y, hy, h⟩ := changes_mkC hx
            rcases List.mem_append.1 hy with hy | hy
            · exact changes_mem_comm.2 ⟨y, hy, h⟩
            · exact absurd h (kc rfl y hy)
  · have nested : ∀ {a : Base} {b : Counter} {cs : List KE}, new ∈ mulNestedAt cfg a b cs → ∃ y ∈ cs, x ∈ changes y := by
      intro a b cs h
      simp only [mulNestedAt, List.mem_map] at h
      obtain ⟨bt, _, rfl⟩ := h
      obtain ⟨y, hy, h⟩ := changes_mkC hx
      rcases List.mem_append.1 hy with hy | hy
      · exact ⟨y, hy, h⟩
      · rw [List.mem_singleton] at hy; subst hy; rw [changes_names] at h; simp at h
    cases S with
    | base b =>
      cases k with
      | base a => simp [mulNested] at h
      | change c l r => exact absurd rfl (hc c l r)
      | comm o b cs =>
        cases o with
        | sum => obtain ⟨y, hy, h⟩ := nested h; exact absurd h (kc rfl y hy)
        | prod => simp [mulNested] at h
    | change c l r => cases k <;> simp [mulNested] at h
    | comm o' b' cs' =>
      cases k with
      | base a =>
        cases o' with
        | sum => exact changes_mem_comm.2 (nested h)
        | prod => simp [mulNested] at h
      | change c l r => exact absurd rfl (hc c l r)
      | comm o b cs => cases o' <;> simp [mulNested] at h

/-- Rules that make no windows. -/
theorem changes_rule {cfg : Cfg} {o : Orders} {n : RuleName} (ha : n.windowless = true) {S : KE} : ∀ new ∈ n.rule cfg o S,
    CC.CW ∈ changes new → CC.CW ∈ changes S := by
  intro new hnew hx
  cases n with
  | change_new_base => simp [RuleName.windowless] at ha
  | change_same => simp [RuleName.windowless] at ha
  | change_window_constant => simp [RuleName.windowless] at ha
  | change_window_linear => simp [RuleName.windowless] at ha
  | plus_base => obtain ⟨B, _, h⟩ := List.mem_flatMap.1 hnew; exact changes_add h _ hx
  | times_base => obtain ⟨B, _, h⟩ := List.mem_flatMap.1 hnew; exact changes_multiply rfl h (by simp) _ hx
  | times_shifted_base =>
    obtain ⟨B, _, h⟩ := List.mem_flatMap.1 hnew
    exact changes_multiply changes_names h (fun c l r e => by simp [mkL, mkC, simplify, absorb] at e) _ hx
  | replace_base =>
    obtain ⟨B, _, h⟩ := List.mem_flatMap.1 hnew
    cases S with
    | base b => simp only [swapBase, List.mem_singleton] at h; subst h; exact hx
    | comm op b cs =>
      simp only [swapBase, List.mem_map] at h
      obtain ⟨p, _, rfl⟩ := h
      exact changes_mem_comm.2 (changes_mkC hx)
    | change c l r =>
      simp only [swapBase, List.mem_append] at h
      simp only [changes, List.mem_cons, List.mem_append]
      rcases h with h | h
      · split at h
        · rw [List.mem_singleton] at h; subst h
          rcases changes_mkChange hx with h | h | h
          · exact Or.inl h
          · simp [changes] at h
          · exact Or.inr (Or.inr h)
        · simp at h
      · split at h
        · rw [List.mem_singleton] at h; subst h
          rcases changes_mkChange hx with h | h | h
          · exact Or.inl h
          · exact Or.inr (Or.inl h)
          · simp [changes] at h
        · simp at h
  | change_point_linear =>
    simp only [RuleName.rule, oneChange] at hnew
    split at hnew
    · rw [List.mem_singleton] at hnew; subst hnew
      rcases changes_mkChange hx with h | h | h
      · simp at h
      · exact h
      · exact h
    · simp only [List.mem_cons, List.not_mem_nil, or_false] at hnew
      rcases hnew with rfl | rfl
      · rcases changes_mkChange hx with h | h | h
        · simp at h
        · exact h
        · simp [changes] at h
      · rcases changes_mkChange hx with h | h | h
        · simp at h
        · simp [changes] at h
        · exact h
  | replace_with_singleton =>
    obtain ⟨B, _, h⟩ := List.mem_flatMap.1 hnew
    rw [mkL_one] at h
    simp only [replaceNode, List.mem_singleton] at h
    subst h; simp [changes, changesL] at hx
  | remove_some_term =>
    cases S with
    | base b => simp [RuleName.rule, removeATerm] at hnew
    | change c l r =>
      simp only [RuleName.rule, removeATerm, List.mem_cons, List.not_mem_nil, or_false] at hnew
      simp only [changes, List.mem_cons, List.mem_append]
      rcases hnew with rfl | rfl
      · rw [changes_branchNode] at hx; exact Or.inr (Or.inl hx)
      · rw [changes_branchNode] at hx; exact Or.inr (Or.inr hx)
    | comm op b cs =>
      simp only [RuleName.rule, removeATerm] at hnew
      split at hnew
      · simp only [List.mem_append, List.mem_map, List.mem_range] at hnew
        rcases hnew with ⟨p, _, rfl⟩ | ⟨i, hi, rfl⟩
        · exact changes_mem_comm.2 (changes_mkC hx)
        · obtain ⟨y, hy, h⟩ := changes_mkC hx
          refine changes_mem_comm.2 ⟨y, ?_, h⟩
          rcases List.mem_append.1 hy with hy | hy
          · exact List.mem_of_mem_take hy
          · exact List.mem_of_mem_drop hy
      · simp at hnew
  | try_higher_curves =>
    have hk : ∀ y ∈ higherKers cfg, changes y = [] := by
      rw [higherKers_eq]; simp [changes, changesL]
    cases S with
    | base b => simp [RuleName.rule, higherCurves] at hnew
    | comm op b cs =>
      cases op with
      | sum =>
        have h2 : ∀ y ∈ (higherKers cfg).map (fun ct => mkC cfg .sum b.pos (cs ++ [ct])), CC.CW ∈ changes y → CC.CW ∈ changes (comm .sum b cs) := by
          intro y hy hx
          obtain ⟨ct, hct, rfl⟩ := List.mem_map.1 hy
          obtain ⟨z, hz, h⟩ := changes_mkC hx
          rcases List.mem_append.1 hz with hz | hz
          · exact changes_mem_comm.2 ⟨z, hz, h⟩
          · rw [List.mem_singleton] at hz; subst hz; rw [hk z hct] at h; simp at h
        simp only [RuleName.rule, higherCurves] at hnew
        split at hnew
        · obtain ⟨y, hy, rfl⟩ := List.mem_map.1 hnew
          rw [changes_delSE] at hx
          exact h2 y hy hx
        · exact h2 new hnew hx
      | prod =>
        have h2 : ∀ y ∈ [[(Base.LIN, (2 : Int))], [(Base.LIN, 3)]].map (fun bts => mkC cfg .prod (b.pos.add bts) cs) ++
            [mkC cfg .prod (b.pos.add (if b.pos.has .PER then [(.PER, 1)] else [(.PER, 2)])) cs], CC.CW ∈ changes y → CC.CW ∈ changes (comm .prod b cs) := by
          intro y hy hx
          simp only [List.mem_append, List.mem_map, List.mem_singleton] at hy
          rcases hy with ⟨bts, _, rfl⟩ | rfl
          · exact changes_mem_comm.2 (changes_mkC hx)
          · exact changes_mem_comm.2 (changes_mkC hx)
        simp only [RuleName.rule, higherCurves] at hnew
        split at hnew
        · obtain ⟨y, hy, rfl⟩ := List.mem_map.1 hnew
          rw [changes_delSE] at hx
          exact h2 y hy hx
        · exact h2 new hnew hx
    | change c l r =>
      simp only [RuleName.rule, higherCurves, List.mem_append] at hnew
      simp only [changes, List.mem_cons, List.mem_append]
      rcases hnew with h | h
      · split at h
        · obtain ⟨ct, hct, rfl⟩ := List.mem_map.1 h
          rcases changes_mkChange hx with h | h | h
          · exact Or.inl h
          · rw [hk ct hct] at h; simp at h
          · exact Or.inr (Or.inr h)
        · simp at h
      · split at h
        · obtain ⟨ct, hct, rfl⟩ := List.mem_map.1 h
          rcases changes_mkChange hx with h | h | h
          · exact Or.inl h
          · exact Or.inr (Or.inl h)
          · rw [hk ct hct] at h; simp at h
        · simp at h

theorem changes_expand {cfg : Cfg} {o : Orders} (ho : ∀ B ∈ o.noC, B ≠ Base.C) {rules : List RuleName} (hr : ∀ n ∈ rules, n.windowless = true) {k : KE}
    (hw : wf k = true) {r : KE} (h : r ∈ expandNamed cfg o rules k) (hx : CC.CW ∈ changes r) : CC.CW ∈ changes k := by
  obtain ⟨p, S, hp, rule, hrule, new, hnew, rfl⟩ := mem_expand h
  obtain ⟨n, hn, rfl⟩ := List.mem_map.1 hrule
  have hS := traverse_node hw hp
  have hrr := rr_rule ho n hS.1 (traverse_not_base hp) new hnew
  have hwk := repl_wf (repl_of_traverse (new := new) hp) hw hrr.wf hrr.notBase
  rcases repl_changes (repl_of_traverse (new := new) hp) _ (standardise_changes hwk.1 hwk.2 _ hx) with h | h
  · exact h
  · exact traverse_changes hp _ (changes_rule (hr n hn) new hnew h)

end KE
end GPyABCD
