import Verif.Props.Refine
import Verif.Lemmas.Start
import Verif.Props.Written

/-!
# Property C93: preparing start kernels changes the expressions that are given

`Start` (Lemmas/Start) is what the user passes: an expression held as a tree of objects, or a name. `Start.Fine` is the condition on it.
-/

namespace GPyABCD
open Objects Links
open KE hiding nodes

/-- The user's `SumKE(['WN'], [ProductKE([], [SumKE(['PER', 'LIN'])])])`. -/
private def userCalls : M Nat := do
  let i ← newList .default .sum [.PER, .LIN] []
  let p ← newList .default .prod [] [i]
  newList .default .sum [.WN] [p]

/-- The store after these calls. -/
private def userStore : Heap := [
  .comm none none .sum [(.PER, 1), (.LIN, 1)] [],
  .comm none none .prod [] [2],
  .comm (some 2) (some 1) .sum [(.PER, 1), (.LIN, 1)] [],
  .comm none none .sum [(.WN, 1)] [5],
  .comm none none .prod [] [5],
  .comm (some 5) (some 3) .sum [(.PER, 1), (.LIN, 1)] []]

/-- The expression in it: the constructor has put a sum into a sum. -/
private def userTree : LK := .comm 3 none none .sum [(.WN, 1)] [.comm 5 (some 5) (some 3) .sum [(.PER, 1), (.LIN, 1)] []]

/-- Whether a call returns this and leaves this store. -/
private def ends {β : Type} [DecidableEq β] (m : M β) (h : Heap) (x : β) (h' : Heap) : Bool :=
  match m h with
  | (.ok y, h1) => decide (y = x ∧ h1 = h')
  | _ => false

private theorem ends_iff {β : Type} [DecidableEq β] {m : M β} {h h' : Heap} {x : β} (h1 : ends m h x h' = true) : m h = (.ok x, h') := by
  rw [ends] at h1
  revert h1
  rcases m h with ⟨_ | y, h⟩
  · intro h1; cases h1
  · intro h1
    obtain ⟨rfl, rfl⟩ := of_decide_eq_true h1
    rfl

/-- Whether a call raises this. -/
private def raises {β : Type} (m : M β) (h : Heap) (e : Err) : Bool :=
  match m h with
  | (.error e', _) => decide (e' = e)
  | _ => false

private theorem raises_iff {β : Type} {m : M β} {h : Heap} {e : Err} (h1 : raises m h e = true) : (m h).1 = .error e := by
  rw [raises] at h1
  revert h1
  rcases m h with ⟨e' | y, h⟩
  · intro h1; rw [of_decide_eq_true h1]
  · intro h1; cases h1

private theorem user_ok : userCalls [] = (.ok 3, userStore) ∧ (Start.tree userTree).Fine userStore :=
  ⟨ends_iff (by decide +kernel), rfl, by simp [userStore, userTree, Stored, StoredL, addr, LK.id?, LK.isStr], rfl, by decide⟩

theorem single_simplify (cfg : Cfg) (b : Base) (hb : b ∈ baseKerns) : KE.simplify cfg (mkL cfg .sum [b] []) = .comm .sum [(b, 1)] [] := by
  obtain ⟨x, y, z⟩ := cfg
  simp only [baseKerns, List.mem_cons, List.not_mem_nil, or_false] at hb
  rcases hb with rfl | rfl | rfl | rfl | rfl <;> cases x <;> cases y <;> cases z <;> rfl

/-- C93. `make_simple_kexs` returns the given expression objects themselves, now with the simplified value, and new objects for names; each result is the root of a
well-linked tree. Nothing but the objects of the given expressions is changed. -/
theorem C93_prepared (cfg : Cfg) (h : Heap) (es : List Start) (hf : ∀ e ∈ es, e.Fine h) (hn : (es.flatMap Start.ids).Nodup) :
    ∃ as h', Objects.makeSimpleKexs cfg (es.map Start.given) h = (.ok as, h') ∧
      List.Forall₂ (fun e a => match e with
        | .tree t => a = addr t ∧ valueAt h a = some t.erase ∧ RootAt h' a (KE.simplify cfg t.erase)
        | .name b => h.length ≤ a ∧ RootAt h' a (.comm .sum [(b, 1)] [])) es as ∧
      as.Nodup ∧ ∀ a < h.length, a ∉ es.flatMap Start.ids → h'[a]? = h[a]? := by
  obtain ⟨ts, h', e1, b1, n1, _, r1⟩ := starts_ok cfg es hf hn
  refine ⟨_, h', e1, ?_, ?_, r1.2⟩
  · rw [List.forall₂_map_right_iff]
    have key : ∀ es ts, (∀ e ∈ es, e.Fine h) → List.Forall₂ (Start.Becomes cfg h h') es ts → List.Forall₂ (fun e t => match e with
        | Start.tree t' => addr t = addr t' ∧ valueAt h (addr t) = some t'.erase ∧ RootAt h' (addr t) (KE.simplify cfg t'.erase)
        | Start.name b => h.length ≤ addr t ∧ RootAt h' (addr t) (.comm .sum [(b, 1)] [])) es ts := by
      intro es ts hf hb
      induction hb with
      | nil => exact .nil
      | @cons e t es ts hb _ ih =>
        refine .cons ?_ (ih (fun e' he' => hf e' (by simp [he'])))
        cases e with
        | tree t' =>
          have ha := hb.same t' rfl
          obtain ⟨f1, f2, _, f4⟩ := hf _ (List.mem_cons_self ..)
          exact ⟨ha, by rw [ha]; exact valueAt_ok f1 f2 f4, t, rfl, hb.stored, hb.linked, hb.value⟩
        | name b =>
          refine ⟨?_, t, rfl, hb.stored, hb.linked, ?_⟩
          · rcases hb.own _ (addr_mem (wellLinked_root hb.linked).1) with h1 | h1
            · simp [Start.ids] at h1
            · exact h1
          · rw [hb.value]
            exact single_simplify cfg b (hf _ (List.mem_cons_self ..))
    exact key es ts hf b1
  · have key : ∀ ts : List LK, (∀ t ∈ ts, t.isStr = false) → (idsL ts).Nodup → (ts.map addr).Nodup := by
      intro ts
      induction ts with
      | nil => intros; exact List.nodup_nil
      | cons t ts ih =>
        intro hts hd
        rw [idsL, List.nodup_append] at hd
        rw [List.map_cons, List.nodup_cons]
        refine ⟨fun hm => ?_, ih (fun t' ht' => hts t' (by simp [ht'])) hd.2.1⟩
        obtain ⟨t', ht', he⟩ := List.mem_map.1 hm
        exact hd.2.2 _ (addr_mem (hts t (by simp))) _ (Objects.mem_idsL.2 ⟨t', ht', addr_mem (hts t' (by simp [ht']))⟩) he.symm
    refine key ts ?_ n1
    intro t ht
    obtain ⟨i, hi, rfl⟩ := List.mem_iff_getElem.1 ht
    exact (wellLinked_root ((List.forall₂_iff_get.1 b1).2 i (by rw [b1.length_eq]; exact hi) hi).linked).1

/-- The user's expression and two names, and what becomes of them. -/
example : (∀ e ∈ [Start.tree userTree, .name .PER, .name .C], e.Fine userStore) ∧ ([Start.tree userTree, .name .PER, .name .C].flatMap Start.ids).Nodup ∧
    ∃ h', Objects.makeSimpleKexs .default [.kex 3, .name .PER, .name .C] userStore = (.ok [3, 6, 7], h') := by
  refine ⟨?_, by decide, _, ends_iff (h' := [
    .comm none none .sum [(.PER, 1), (.LIN, 1)] [],
    .comm none none .prod [] [2],
    .comm (some 2) (some 1) .sum [(.PER, 1), (.LIN, 1)] [],
    .comm (some 3) none .sum [(.WN, 1), (.PER, 1), (.LIN, 1)] [],
    .comm none none .prod [] [5],
    .comm (some 3) (some 3) .sum [(.PER, 1), (.LIN, 1)] [],
    .comm (some 6) none .sum [(.PER, 1)] [],
    .comm (some 7) none .sum [(.C, 1)] []]) (by decide +kernel)⟩
  intro e he
  simp only [List.mem_cons, List.not_mem_nil, or_false] at he
  rcases he with rfl | rfl | rfl
  · exact user_ok.2
  · exact (by decide : Base.PER ∈ baseKerns)
  · exact (by decide : Base.C ∈ baseKerns)

/-- What the search begins with for a given start kernel: the simplified expression, or the sum of the one base kernel. -/
def startValue (cfg : Cfg) : Start → KE
  | .tree t => KE.simplify cfg t.erase
  | .name b => .comm .sum [(b, 1)] []

/-- C78, for a search (partial: not for expressions with sigmoids or whose simplification has an empty node): after `make_simple_kexs` has prepared the start
kernels, every object that any number of rounds with **any** rules comes to is a well-linked tree; its value is reached in the model of values from the
simplified value of a start kernel; and expanding it never raises and gives the values of the model. -/
theorem C78_search_partial (cfg : Cfg) (rules : List RuleName) (h : Heap) (es : List Start) (hf : ∀ e ∈ es, e.Fine h) (hn : (es.flatMap Start.ids).Nodup)
    (hs : ∀ t, .tree t ∈ es → wf t.erase = true ∧ NoSig t.erase ∧ noEmpty (KE.simplify cfg t.erase) = true) :
    ∃ as h', Objects.makeSimpleKexs cfg (es.map Start.given) h = (.ok as, h') ∧ as.length = es.length ∧ ∀ a0 ∈ as, ∀ h2 a, Derived cfg rules h' a0 h2 a →
      ∃ e ∈ es, ∃ v, RootAt h2 a v ∧ Reachable cfg [startValue cfg e] rules v ∧
        ∀ o : Orders, o.OK cfg → Returning (Objects.expand cfg o rules a) h2 (KE.expandNamed cfg o rules v) := by
  obtain ⟨as, h', e1, f1, _, _⟩ := C93_prepared cfg h es hf hn
  refine ⟨as, h', e1, f1.length_eq.symm, fun a0 ha0 h2 a hd => ?_⟩
  have key : ∀ es as, List.Forall₂ (fun e a => match e with
        | Start.tree t => a = addr t ∧ valueAt h a = some t.erase ∧ RootAt h' a (KE.simplify cfg t.erase)
        | Start.name b => h.length ≤ a ∧ RootAt h' a (.comm .sum [(b, 1)] [])) es as → ∀ a ∈ as,
      ∃ e ∈ es, RootAt h' a (startValue cfg e) := by
    intro es as hF
    induction hF with
    | nil => intro a ha; cases ha
    | @cons e x es as h1 _ ih =>
      intro a ha
      rcases List.mem_cons.1 ha with rfl | ha
      · refine ⟨e, by simp, ?_⟩
        cases e with
        | tree t => exact h1.2.2
        | name b => exact h1.2
      · obtain ⟨e', he', h2⟩ := ih a ha
        exact ⟨e', by simp [he'], h2⟩
  obtain ⟨e, he, hr⟩ := key es as f1 a0 ha0
  have hok : settled cfg (startValue cfg e) = true ∧
      (startValue cfg e).isBase = false ∧
      NoSig (startValue cfg e) := by
    cases e with
    | tree t =>
      obtain ⟨h1, h2, h3⟩ := hs t he
      have hb : t.erase.isBase = false := erase_not_base (hf _ he).1
      exact ⟨settled_iff.2 ⟨wf_simplify cfg _ h1, h3, canon_simplify cfg _ h1, allBelow_simplify cfg _ h1⟩, by rw [startValue, isBase_simplify]; exact hb,
        fun x hx => h2 x ((bases_simplify cfg _ h1).subset hx)⟩
    | name b =>
      have hb : b ∈ baseKerns := hf _ he
      refine ⟨?_, rfl, ?_⟩
      · obtain ⟨x, y, z⟩ := cfg
        simp only [baseKerns, List.mem_cons, List.not_mem_nil, or_false] at hb
        rcases hb with rfl | rfl | rfl | rfl | rfl <;> cases x <;> cases y <;> cases z <;> rfl
      · have : bases (.comm .sum [(b, 1)] []) = [b] := by simp [KE.bases, KE.basesL, Counter.elements]
        intro x hx
        rw [startValue, this, List.mem_singleton] at hx
        subst hx
        simp only [baseKerns, List.mem_cons, List.not_mem_nil, or_false] at hb
        rcases hb with rfl | rfl | rfl | rfl | rfl <;> rfl
  obtain ⟨v, h3, _, h4, h5⟩ := C78_rounds_simplified_partial cfg rules h' a0 _ hr hok.1 hok.2.1 hok.2.2 h2 a hd
  exact ⟨e, he, v, h3, h4, h5⟩

-- the user's expression and a name
example : (∀ e ∈ [Start.tree userTree, .name .PER], e.Fine userStore) ∧ ([Start.tree userTree, .name .PER].flatMap Start.ids).Nodup ∧
    wf userTree.erase = true ∧ NoSig userTree.erase ∧ noEmpty (KE.simplify .default userTree.erase) = true := by
  refine ⟨?_, by decide, by decide, ?_, by decide⟩
  · intro e he
    simp only [List.mem_cons, List.not_mem_nil, or_false] at he
    rcases he with rfl | rfl
    · exact user_ok.2
    · exact (by decide : Base.PER ∈ baseKerns)
  · show ∀ x ∈ [Base.WN, .PER, .LIN], _
    decide

/-- C93. The results are those of the model of expressions as values. -/
theorem C93_values (cfg : Cfg) (h : Heap) (es : List Start) (hf : ∀ e ∈ es, e.Fine h) (hn : (es.flatMap Start.ids).Nodup) :
    ∃ as h' vs, Objects.makeSimpleKexs cfg (es.map Start.given) h = (.ok as, h') ∧ KE.makeSimpleKexs cfg (es.map Start.pseudo) = some vs ∧
      as.map (valueAt h') = vs.map some := by
  obtain ⟨ts, h', e1, b1, _, _, _⟩ := starts_ok cfg es hf hn
  have key : ∀ es ts, (∀ e ∈ es, e.Fine h) → List.Forall₂ (Start.Becomes cfg h h') es ts →
      KE.makeSimpleKexs cfg (es.map Start.pseudo) = some (ts.map LK.erase) := by
    intro es ts hf hb
    induction hb with
    | nil => rfl
    | @cons e t es ts hb _ ih =>
      have hp : KE.pseudoToReal cfg e.pseudo = some (e.value cfg) := by
        cases e with
        | tree t => rfl
        | name b =>
          have : baseKerns.contains b = true := List.elem_iff.2 (hf _ (List.mem_cons_self ..))
          show (if baseKerns.contains b = true then _ else _) = _
          rw [if_pos this]; rfl
      simp only [List.map_cons, KE.makeSimpleKexs, hp, ih (fun e' he' => hf e' (by simp [he'])), hb.value]
  refine ⟨_, h', _, e1, key es ts hf b1, values_of ?_⟩
  intro t ht
  obtain ⟨i, hi, rfl⟩ := List.mem_iff_getElem.1 ht
  have hb := (List.forall₂_iff_get.1 b1).2 i (by rw [b1.length_eq]; exact hi) hi
  exact ⟨(wellLinked_root hb.linked).1, hb.stored, hb.linked.tree⟩

/-- C93. A name that is not that of a base kernel raises a `ValueError`, when the expressions before it in the list have been changed already. -/
theorem C93_unknown (cfg : Cfg) (h : Heap) (es : List Start) (hf : ∀ e ∈ es, e.Fine h) (hn : (es.flatMap Start.ids).Nodup) (p : Given)
    (hp : (∃ s, p = .unknown s) ∨ ∃ b, p = .name b ∧ b ∉ baseKerns) (rest : List Given) :
    ∃ h', Objects.makeSimpleKexs cfg (es.map Start.given ++ p :: rest) h = (.error .value, h') ∧
      ∀ t, Start.tree t ∈ es → RootAt h' (addr t) (KE.simplify cfg t.erase) := by
  obtain ⟨ts, h', e1, b1, _, _, _⟩ := starts_ok cfg es hf hn
  refine ⟨h', ?_, ?_⟩
  · have hbad : ∀ h, (do let a ← Objects.pseudoToReal cfg p; initialise cfg a : M Nat) h = (.error .value, h) := by
      intro h
      rcases hp with ⟨s, rfl⟩ | ⟨b, rfl, hb⟩
      · rfl
      · show ((if baseKerns.contains b = true then newList cfg .sum [b] [] else raise .value) >>= fun a => initialise cfg a) h = _
        rw [if_neg (fun hc => hb (List.elem_iff.1 hc))]; rfl
    have key : ∀ (l : List Given) h as h', Objects.makeSimpleKexs cfg l h = (.ok as, h') → Objects.makeSimpleKexs cfg (l ++ p :: rest) h = (.error .value, h') := by
      intro l
      induction l with
      | nil =>
        intro h as h' he
        cases he
        show collect _ (p :: rest) h = _
        rw [collect]
        simp only [bind]
        simp only [bind] at hbad
        rw [hbad]
      | cons q l ih =>
        intro h as h' he
        rw [Objects.makeSimpleKexs, collect] at he
        rw [List.cons_append, Objects.makeSimpleKexs, collect]
        generalize (do let a ← Objects.pseudoToReal cfg q; initialise cfg a : M Nat) = m at he ⊢
        simp only [bind] at he ⊢
        rcases hm : m h with ⟨e | y, h1⟩
        · rw [hm] at he; cases he
        · rw [hm] at he
          simp only at he ⊢
          rcases hc : Objects.makeSimpleKexs cfg l h1 with ⟨e | ys, h2⟩
          · rw [Objects.makeSimpleKexs] at hc
            simp only [bind] at hc
            rw [hc] at he; cases he
          · have := ih h1 ys h2 hc
            rw [Objects.makeSimpleKexs] at hc this
            simp only [bind] at hc this
            rw [hc] at he
            rw [this]
            cases he; rfl
    exact key _ h _ h' e1
  · intro t ht
    obtain ⟨i, hi, he⟩ := List.mem_iff_getElem.1 ht
    have hb := (List.forall₂_iff_get.1 b1).2 i hi (by rw [← b1.length_eq]; exact hi)
    simp only [List.get_eq_getElem, he] at hb
    exact ⟨_, hb.same t rfl, hb.stored, hb.linked, hb.value⟩

/-- The user's expression followed by the name of a sigmoid. -/
example : (∀ e ∈ [Start.tree userTree], e.Fine userStore) ∧ ([Start.tree userTree].flatMap Start.ids).Nodup ∧ Base.S ∉ baseKerns :=
  ⟨by simpa using user_ok.2, by decide, by decide⟩

/-- C93. Preparing the results again gives the same objects, simplified twice. If the expressions were written with constructors (`build`, C92), that is their value
after the first time: a second search from the same list starts from the same expressions. -/
theorem C93_again (cfg : Cfg) (h : Heap) (es : List Start) (hf : ∀ e ∈ es, e.Fine h) (hn : (es.flatMap Start.ids).Nodup) :
    ∃ as h' h'', Objects.makeSimpleKexs cfg (es.map Start.given) h = (.ok as, h') ∧ Objects.makeSimpleKexs cfg (as.map .kex) h' = (.ok as, h'') ∧
      ∀ t, Start.tree t ∈ es → RootAt h'' (addr t) (KE.simplify cfg (KE.simplify cfg t.erase)) ∧
        ∀ w, wf w = true → t.erase = build cfg w → RootAt h'' (addr t) (KE.simplify cfg t.erase) := by
  obtain ⟨ts, h', e1, b1, n1, _, _⟩ := starts_ok cfg es hf hn
  have hts : ∀ t ∈ ts, (Start.tree t).Fine h' := by
    intro t ht
    obtain ⟨i, hi, rfl⟩ := List.mem_iff_getElem.1 ht
    have hb := (List.forall₂_iff_get.1 b1).2 i (by rw [b1.length_eq]; exact hi) hi
    simp only [List.get_eq_getElem] at hb
    refine ⟨(wellLinked_root hb.linked).1, hb.stored, ?_, hb.linked.tree⟩
    obtain ⟨⟨j, h1, h2⟩, _⟩ := hb.linked
    revert h1 h2
    cases ts[i] <;> intro h1 h2
    · cases h1
    · exact h2.2.1
    · exact h2.2.1
  have hids : ∀ ts : List LK, (ts.map Start.tree).flatMap Start.ids = idsL ts := by
    intro ts
    induction ts with
    | nil => rfl
    | cons t ts ih => simp only [List.map_cons, List.flatMap_cons, ih, idsL, Start.ids]
  obtain ⟨ts', h'', e2, b2, _, _, _⟩ := starts_ok cfg (ts.map Start.tree) (h := h') (by
    intro e he
    obtain ⟨t, ht, rfl⟩ := List.mem_map.1 he
    exact hts t ht) (by rw [hids]; exact n1)
  have haddr : ts'.map addr = ts.map addr := by
    have key : ∀ ts ts' : List LK, List.Forall₂ (fun t t' => addr t' = addr t) ts ts' → ts'.map addr = ts.map addr := by
      intro ts ts' hf
      induction hf with
      | nil => rfl
      | cons h _ ih => rw [List.map_cons, List.map_cons, h, ih]
    refine key ts ts' ?_
    rw [List.forall₂_map_left_iff] at b2
    exact b2.imp (fun t t' hb => hb.same t rfl)
  refine ⟨_, h', h'', e1, ?_, ?_⟩
  · rw [← haddr, ← e2, haddr, List.map_map, List.map_map]; rfl
  · intro t ht
    obtain ⟨i, hi, he⟩ := List.mem_iff_getElem.1 ht
    have hi2 : i < ts.length := by rw [← b1.length_eq]; exact hi
    have hi3 : i < ts'.length := by rw [← b2.length_eq, List.length_map]; exact hi2
    have hb := (List.forall₂_iff_get.1 b1).2 i hi hi2
    have hb2 := (List.forall₂_iff_get.1 b2).2 i (by rw [List.length_map]; exact hi2) hi3
    simp only [List.get_eq_getElem, he, List.getElem_map] at hb hb2
    have h1 : RootAt h'' (addr t) (KE.simplify cfg (KE.simplify cfg t.erase)) :=
      ⟨_, (hb2.same _ rfl).trans (hb.same t rfl), hb2.stored, hb2.linked, by rw [hb2.value]; exact congrArg _ hb.value⟩
    refine ⟨h1, fun w hw hv => ?_⟩
    rw [hv, (C92_stable cfg w hw).1, ← hv] at h1
    exact h1

/-- The user's expression is one that is written with constructors. -/
example : (∀ e ∈ [Start.tree userTree], e.Fine userStore) ∧ ([Start.tree userTree].flatMap Start.ids).Nodup ∧
    wf (comm .sum [(.WN, 1)] [comm .prod [] [comm .sum [(.PER, 1), (.LIN, 1)] []]]) = true ∧
    userTree.erase = build .default (comm .sum [(.WN, 1)] [comm .prod [] [comm .sum [(.PER, 1), (.LIN, 1)] []]]) :=
  ⟨by simpa using user_ok.2, by decide, by decide, by rfl⟩

/-- C93: the claim that the caller's expressions stay as they are is false: after the search has prepared it, the user's expression is another one, not `==` to what
it was. -/
theorem C93_given_changed : userCalls [] = (.ok 3, userStore) ∧ ∃ h' v v', Objects.makeSimpleKexs .default [.kex 3] userStore = (.ok [3], h') ∧
    valueAt userStore 3 = some v ∧ valueAt h' 3 = some v' ∧ keq v v' = false := by
  obtain ⟨as, h', e1, f1, _, _⟩ := C93_prepared .default userStore [.tree userTree] (by simpa using user_ok.2) (by decide)
  rcases f1 with _ | ⟨⟨rfl, h1, h2⟩, ⟨⟩⟩
  exact ⟨user_ok.1, h', _, _, e1, h1, valueAt_root h2, by decide⟩

/-- `SumKE(['WN'], [ProductKE(['LIN', 'PER'])])` -/
private def wholeCalls : M Nat := do
  let p ← newList .default .prod [.LIN, .PER] []
  newList .default .sum [.WN] [p]

/-- The store after that: the product (0), the sum (1) with its copy of it (2). -/
private def wholeStore : Heap := [
  .comm none none .prod [(.LIN, 1), (.PER, 1)] [],
  .comm none none .sum [(.WN, 1)] [2],
  .comm (some 2) (some 1) .prod [(.LIN, 1), (.PER, 1)] []]

/-- C93: an expression that is a term of another one cannot be used: it is prepared without complaint, but expanding it raises an `AssertionError`, as it is its own
root and has a parent. -/
theorem C93_part_raises : wholeCalls [] = (.ok 1, wholeStore) ∧ Objects.makeSimpleKexs .default [.kex 2] wholeStore = (.ok [2], wholeStore) ∧
    (Objects.expand .default ⟨[.WN, .C, .LIN, .PER], [.WN, .LIN, .PER]⟩ [.plus_base] 2 wholeStore).1 = .error .assertion :=
  ⟨ends_iff (by decide +kernel), ends_iff (by decide +kernel), raises_iff (by decide +kernel)⟩

end GPyABCD
