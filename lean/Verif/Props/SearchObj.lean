import Verif.Lemmas.SearchObj3
import Verif.Props.Start
import Verif.Props.Search
import Verif.Props.Expand

/-!
# Property C108: a search over objects is a search over values

The search with expressions as objects in a store (`SearchObj.explore`) against the search with expressions as values (`Search.explore`), about which C27 to C34 and
others are proved. `EndsAs` and `Shows` (Spec/SearchObj) say what is the same.
-/

namespace GPyABCD
open Objects Links SearchObj
open KE hiding nodes
open Search (Mod St)

variable {D R ε : Type}

/-- Values for which expansion is right with all rules. -/
private theorem expands_settled (E : SearchObj.Env D R ε) (ho : E.orders.OK E.cfg) :
    Expands E (fun v => settled E.cfg v = true ∧ v.isBase = false ∧ NoSig v) :=
  ⟨fun v hv w hw => C25_step_partial E.cfg E.orders ho E.rules v hv.1 hv.2.1 hv.2.2 w hw,
   fun _ _ h1 h2 h3 => expand_settled E.cfg E.orders ho E.rules h1 h2 h3.1⟩

/-- Values for which expansion is right without `remove_some_term`. -/
private theorem expands_expr (E : SearchObj.Env D R ε) (ho : E.orders.OK E.cfg) (hr : .remove_some_term ∉ E.rules) : Expands E IsExpr :=
  ⟨fun v hv w hw => (C24_shape E.cfg _ (fun rule hrule => C20_builtin_rules E.cfg E.orders ho E.rules rule hrule) v hv w hw).1,
   fun _ _ h1 h2 h3 => expand_ok E.cfg E.orders ho E.rules h1 h2 h3 (fun h => absurd h hr)⟩

/-- What is asked of the given expressions: they are made of nodes as the constructors make them, and if a rule removes terms, they have no sigmoids and no
empty node when simplified. -/
def StartsFine (cfg : Cfg) (rules : List RuleName) (es : List Start) : Prop :=
  ∀ t, .tree t ∈ es → wf t.erase = true ∧ (.remove_some_term ∈ rules → NoSig t.erase ∧ noEmpty (KE.simplify cfg t.erase) = true)

private theorem start_expr {cfg : Cfg} {rules : List RuleName} {h : Heap} {es : List Start} (hf : ∀ e ∈ es, e.Fine h) (hs : StartsFine cfg rules es) :
    ∀ e ∈ es, IsExpr (startValue cfg e) := by
  intro e he
  cases e with
  | tree t => exact ⟨wf_simplify cfg _ (hs t he).1, by rw [startValue, isBase_simplify]; exact erase_not_base (hf _ he).1⟩
  | name b => exact ⟨by cases b <;> rfl, rfl⟩

private theorem start_settled {cfg : Cfg} {rules : List RuleName} {h : Heap} {es : List Start} (hf : ∀ e ∈ es, e.Fine h) (hs : StartsFine cfg rules es)
    (hr : .remove_some_term ∈ rules) : ∀ e ∈ es, settled cfg (startValue cfg e) = true ∧ (startValue cfg e).isBase = false ∧ NoSig (startValue cfg e) := by
  intro e he
  cases e with
  | tree t =>
    obtain ⟨h1, h2⟩ := hs t he
    obtain ⟨h2, h3⟩ := h2 hr
    have hb : t.erase.isBase = false := erase_not_base (hf _ he).1
    exact ⟨settled_iff.2 ⟨wf_simplify cfg _ h1, h3, canon_simplify cfg _ h1, allBelow_simplify cfg _ h1⟩, by rw [startValue, isBase_simplify]; exact hb,
      fun x hx => h2 x ((bases_simplify cfg _ h1).subset hx)⟩
  | name b =>
    have hb : b ∈ baseKerns := hf _ he
    refine ⟨?_, rfl, ?_⟩
    · obtain ⟨x, y, z⟩ := cfg
      simp only [baseKerns, List.mem_cons, List.not_mem_nil, or_false] at hb
      rcases hb with rfl | rfl | rfl | rfl | rfl <;> cases x <;> cases y <;> cases z <;> rfl
    · have : bases (.comm .sum [(b, 1)] []) = [b] := by simp [KE.bases, KE.basesL, Counter.elements]
      intro x hx
      rw [startValue, this, List.mem_singleton] at hx
      subst hx
      simp only [baseKerns, List.mem_cons, List.not_mem_nil, or_false] at hb
      rcases hb with rfl | rfl | rfl | rfl | rfl <;> rfl

/-! ## A search

The start kernels are the user's `SumKE(['WN'], [ProductKE(['LIN', 'PER'])])`, which the store holds, and `'PER'`. -/

private def exStore : Heap := [.comm (some 1) (some 1) .prod [(.LIN, 1), (.PER, 1)] [], .comm none none .sum [(.WN, 1)] [0]]

private def exTree : LK := .comm 1 none none .sum [(.WN, 1)] [.comm 0 (some 1) (some 1) .prod [(.LIN, 1), (.PER, 1)] []]

private def exStarts : List Start := [.tree exTree, .name .PER]

private def exEnv (rules : List RuleName) (cpus : Option Nat) : SearchObj.Env Nat Nat Unit :=
  ⟨.default, ⟨[.WN, .C, .LIN, .PER], [.WN, .LIN, .PER]⟩, rules, Nat.ble, fun d => d % 3, fun n _ => .ok n, cpus⟩

private theorem ex_fine (rules : List RuleName) (cpus : Option Nat) : (exEnv rules cpus).orders.OK (exEnv rules cpus).cfg ∧ (∀ e ∈ exStarts, e.Fine exStore) ∧
    (exStarts.flatMap Start.ids).Nodup ∧ StartsFine (exEnv rules cpus).cfg (exEnv rules cpus).rules exStarts := by
  have ho : Orders.OK .default ⟨[.WN, .C, .LIN, .PER], [.WN, .LIN, .PER]⟩ := ⟨by decide, by decide⟩
  have hne : noEmpty (KE.simplify .default exTree.erase) = true := by decide
  refine ⟨ho, ?_, by decide, ?_⟩
  · intro e he
    simp only [exStarts, List.mem_cons, List.not_mem_nil, or_false] at he
    rcases he with rfl | rfl
    · exact ⟨rfl, by simp [exStore, exTree, Stored, StoredL, addr, LK.id?, LK.isStr], rfl, by decide⟩
    · exact (by decide : Base.PER ∈ baseKerns)
  · intro t ht
    simp only [exStarts, List.mem_cons, Start.tree.injEq, List.not_mem_nil, or_false, reduceCtorEq] at ht
    subst ht
    refine ⟨by decide, fun _ => ⟨?_, hne⟩⟩
    show ∀ x ∈ [Base.WN, .LIN, .PER], _
    decide

/-- What a search came to: the numbers of models by round, the addresses of the first models' expressions and of the first tested expressions. -/
private def exShow : Except (SearchObj.Err Unit) (St Nat Nat Nat) × Heap → Option (List Nat × List Nat × List Nat)
  | (.ok s, _) => some (s.tested.map List.length, (s.tested.headD []).map (·.kex), s.ktested.take 2)
  | _ => none

private def exRun (rules : List RuleName) (cpus : Option Nat) (rounds : Int) : Option (List Nat × List Nat × List Nat) :=
  exShow (SearchObj.explore (exEnv rules cpus) true (exStarts.map Start.given) rounds (.int 1) exStore)

private theorem ex_ok {rules : List RuleName} {cpus : Option Nat} {rounds : Int} (hr : (exRun rules cpus rounds).isSome = true) :
    ∃ s h', SearchObj.explore (exEnv rules cpus) true (exStarts.map Start.given) rounds (.int 1) exStore = (.ok s, h') := by
  have key : ∀ r, (exShow r).isSome = true → ∃ s h', r = (.ok s, h') := by
    rintro ⟨e | s, h'⟩
    · intro h; cases h
    · exact fun _ => ⟨s, h', rfl⟩
  exact key _ hr

-- without processes the user's object 1 is the expression of a model; with processes there are copies; the tested expressions are copies in both
example : exRun [.remove_some_term] none 1 = some ([2, 4], [1, 2], [3, 5]) ∧ exRun [.remove_some_term] (some 2) 1 = some ([2, 4], [3, 5], [6, 8]) := by
  decide +kernel

private theorem endsAs_of_goes {G : KE → Prop} {own kept : List Nat} {lo klo lo' klo' : Nat} (hl : lo ≤ lo') (hkl : klo ≤ klo') {h h1 : Heap} (hfr : Frame (· ∈ own) h h1)
    {m : P ε (St Nat D R)} {x : Except (Search.Err ε) (St KE D R)} (hg : Goes m h1 x (fun t t' h' => Holds G lo' klo' kept h' t t')) : EndsAs own lo klo h (m h1) x := by
  cases x with
  | error e =>
    obtain ⟨h', e1, x1⟩ := hg
    rw [e1]
    exact ⟨fun a ha hn => (x1.2 a (Nat.lt_of_lt_of_le ha hfr.1)).trans (hfr.2 a ha hn), rfl⟩
  | ok s' =>
    obtain ⟨s, h', e1, x1, hs⟩ := hg
    rw [e1]
    exact ⟨fun a ha hn => (x1.2 a (Nat.lt_of_lt_of_le ha hfr.1)).trans (hfr.2 a ha hn), hs.shows, hs.apart.le hl, hs.kapart.le hkl⟩

/-- The search after the start kernels have been prepared. -/
private theorem explore_goes (E : SearchObj.Env D R ε) (ho : E.orders.OK E.cfg) (verbose : Bool) (rounds : Int) (beam : Search.BeamArg) (h : Heap) (es : List Start)
    (hf : ∀ e ∈ es, e.Fine h) (hn : (es.flatMap Start.ids).Nodup) (rules : List RuleName) (hs : StartsFine E.cfg (E.rules ++ rules) es) :
    ∃ as h1 G, SearchObj.explore E verbose (es.map Start.given) rounds beam h = exploreFrom E verbose as rounds beam h1 ∧ Frame (· ∈ es.flatMap Start.ids) h h1 ∧
      (∀ t, .tree t ∈ es → addr t ∈ as) ∧
      (∀ (D' R' ε' : Type) (E' : SearchObj.Env D' R' ε'), E'.cfg = E.cfg → E'.orders.OK E'.cfg → E'.rules = rules → Expands E' G) ∧
      Goes (exploreFrom E verbose as rounds beam) h1
        (Search.explore (keEnv E.cfg E.orders E.rules E.le E.score E.fit) verbose (es.map (startValue E.cfg)) rounds beam)
        (fun t t' h' => Holds G (lowest E h1) h1.length (held E as) h' t t') := by
  obtain ⟨ts, h1, e1, b1, n1, _, r1⟩ := starts_ok E.cfg es hf hn
  have hv : List.Forall₂ (RootAt h1) (ts.map addr) (es.map (startValue E.cfg)) := by
    rw [List.forall₂_map_left_iff, List.forall₂_map_right_iff]
    refine (forall₂_imp_mem b1 (Q := fun e t => RootAt h1 (addr t) (startValue E.cfg e)) ?_).flip
    intro e he t _ hb
    refine ⟨t, rfl, hb.stored, hb.linked, ?_⟩
    rw [hb.value]
    cases e with
    | tree t => rfl
    | name b => exact single_simplify E.cfg b (hf _ he)
  have ha : Apart 0 h1 (ts.map addr) := by
    refine ⟨ts, rfl, ?_, n1, fun _ _ => Nat.zero_le _⟩
    intro t ht
    obtain ⟨i, hi, rfl⟩ := List.mem_iff_getElem.1 ht
    have hb := (List.forall₂_iff_get.1 b1).2 i (by rw [b1.length_eq]; exact hi) hi
    exact ⟨hb.stored, hb.linked⟩
  have hx : SearchObj.explore E verbose (es.map Start.given) rounds beam h = exploreFrom E verbose (ts.map addr) rounds beam h1 := by
    rw [SearchObj.explore]
    simp only [bind, SearchObj.run_ok e1]
  have hmem : ∀ t, .tree t ∈ es → addr t ∈ ts.map addr := by
    intro t ht
    obtain ⟨i, hi, he⟩ := List.mem_iff_getElem.1 ht
    have hi2 : i < ts.length := by rw [← b1.length_eq]; exact hi
    have hb := (List.forall₂_iff_get.1 b1).2 i hi hi2
    simp only [List.get_eq_getElem, he] at hb
    rw [← hb.same t rfl]
    exact List.mem_map_of_mem (List.getElem_mem hi2)
  by_cases hr : .remove_some_term ∈ E.rules ++ rules
  · refine ⟨_, h1, _, hx, r1, hmem, ?_, exploreFrom_goes (expands_settled E ho) verbose rounds beam hv ha ?_⟩
    · rintro _ _ _ E' hc ho' -
      have := expands_settled E' ho'
      rwa [hc] at this
    · intro v hv
      obtain ⟨e, he, rfl⟩ := List.mem_map.1 hv
      exact start_settled hf hs hr e he
  · rw [List.mem_append, not_or] at hr
    refine ⟨_, h1, _, hx, r1, hmem, ?_, exploreFrom_goes (expands_expr E ho hr.1) verbose rounds beam hv ha ?_⟩
    · rintro _ _ _ E' _ ho' rfl
      exact expands_expr E' ho' hr.2
    · intro v hv
      obtain ⟨e, he, rfl⟩ := List.mem_map.1 hv
      exact start_expr hf hs e he

/-- C108 (partial: if a rule removes terms, not for start expressions with sigmoids or with an empty node after simplification). A search over
objects raises what the search over values raises, or ends with the same models and expressions in the same places. The models' expressions are apart from one another,
and, when processes fit them, from all that was there before; so are always the tested expressions. Nothing but the objects of the given expressions is changed. -/
theorem C108_search_partial (E : SearchObj.Env D R ε) (ho : E.orders.OK E.cfg) (verbose : Bool) (rounds : Int) (beam : Search.BeamArg) (h : Heap) (es : List Start)
    (hf : ∀ e ∈ es, e.Fine h) (hn : (es.flatMap Start.ids).Nodup) (hs : StartsFine E.cfg E.rules es) :
    EndsAs (es.flatMap Start.ids) (if E.cpus.isSome then h.length else 0) h.length h (SearchObj.explore E verbose (es.map Start.given) rounds beam h)
      (Search.explore (keEnv E.cfg E.orders E.rules E.le E.score E.fit) verbose (es.map (startValue E.cfg)) rounds beam) := by
  obtain ⟨as, h1, G, hx, hfr, _, _, hg⟩ := explore_goes E ho verbose rounds beam h es hf hn [] (by simpa using hs)
  rw [hx]
  refine endsAs_of_goes ?_ hfr.1 hfr hg
  have := hfr.1
  rw [lowest]
  split <;> omega

example := C108_search_partial _ (ex_fine rulesDefault (some 4)).1 true 3 (.list [3, 2]) _ _ (ex_fine rulesDefault (some 4)).2.1 (ex_fine rulesDefault (some 4)).2.2.1
  (ex_fine rulesDefault (some 4)).2.2.2

/-- C108, continued: `model_search_rounds` from the lists that a search has returned, with other parameters and rules, and whatever has been added to the store in
between, goes as it does over values. -/
theorem C108_continue_partial (E E' : SearchObj.Env D R ε) (ho : E.orders.OK E.cfg) (ho' : E'.orders.OK E'.cfg) (hc : E'.cfg = E.cfg) (verbose verbose' : Bool)
    (rounds rounds' : Int) (beam : Search.BeamArg) (beam' : List Int) (h : Heap) (es : List Start)
    (hf : ∀ e ∈ es, e.Fine h) (hn : (es.flatMap Start.ids).Nodup) (hs : StartsFine E.cfg (E.rules ++ E'.rules) es) (s : St Nat D R) (h' h'' : Heap)
    (he : SearchObj.explore E verbose (es.map Start.given) rounds beam h = (.ok s, h')) (hk : Kept h' h'') (hl : h'.length ≤ h''.length) :
    ∃ s', Search.explore (keEnv E.cfg E.orders E.rules E.le E.score E.fit) verbose (es.map (startValue E.cfg)) rounds beam = .ok s' ∧
      EndsAs [] (if E.cpus.isSome then h.length else 0) h.length h'' (SearchObj.searchRounds E' verbose' rounds' beam' s h'')
        (Search.searchRounds (keEnv E'.cfg E'.orders E'.rules E'.le E'.score E'.fit) verbose' rounds' beam' s') := by
  obtain ⟨as, h1, G, hx, hfr, _, hE, hg⟩ := explore_goes E ho verbose rounds beam h es hf hn E'.rules hs
  rw [hx] at he
  revert hg
  cases Search.explore (keEnv E.cfg E.orders E.rules E.le E.score E.fit) verbose (es.map (startValue E.cfg)) rounds beam with
  | error e =>
    rintro ⟨h2, e2, _⟩
    rw [he] at e2
    cases e2
  | ok s' =>
    rintro ⟨t, h2, e2, _, hH⟩
    rw [he] at e2
    cases e2
    refine ⟨s', rfl, ?_⟩
    have hext : Ext h' h'' := ⟨hl, hk⟩
    have hH' : Holds G (lowest E h1) h1.length (held E as) h'' s s' :=
      ⟨hH.shows.ext hext, hH.good, hH.goodNext, hH.apart.ext hext, hH.kapart.ext hext, Nat.le_trans hH.low hl, Nat.le_trans hH.klow hl, hH.keeps⟩
    refine endsAs_of_goes ?_ hfr.1 (Frame.refl _ _) (searchRounds_goes (hE _ _ _ E' hc ho' rfl) verbose' rounds' beam' hH')
    have := hfr.1
    rw [lowest]
    split <;> omega

-- one round by processes, then more in this process with other rules
example : ∃ s h', SearchObj.explore (exEnv [.remove_some_term] (some 2)) true (exStarts.map Start.given) 1 (.int 1) exStore = (.ok s, h') ∧
    StartsFine .default ([.remove_some_term] ++ (exEnv rulesDefault none).rules) exStarts := by
  obtain ⟨s, h', h1⟩ := ex_ok (rules := [.remove_some_term]) (cpus := some 2) (rounds := 1) (by decide +kernel)
  exact ⟨s, h', h1, (ex_fine ([RuleName.remove_some_term] ++ rulesDefault) none).2.2.2⟩

/-- C108. Without processes every given expression object is itself the expression of a model that the search returns; with processes no model has an object that was there
before the search. -/
theorem C108_owned_partial (E : SearchObj.Env D R ε) (ho : E.orders.OK E.cfg) (verbose : Bool) (rounds : Int) (beam : Search.BeamArg) (h : Heap) (es : List Start)
    (hf : ∀ e ∈ es, e.Fine h) (hn : (es.flatMap Start.ids).Nodup) (hs : StartsFine E.cfg E.rules es) (s : St Nat D R) (h' : Heap)
    (he : SearchObj.explore E verbose (es.map Start.given) rounds beam h = (.ok s, h')) :
    (E.cpus = none → ∀ t, .tree t ∈ es → ∃ m ∈ s.tested.flatten, m.kex = addr t) ∧ (∀ c, E.cpus = some c → ∀ m ∈ s.tested.flatten, h.length ≤ m.kex) ∧
      ∀ a ∈ s.ktested, h.length ≤ a := by
  obtain ⟨as, h1, G, hx, hfr, hmem, _, hg⟩ := explore_goes E ho verbose rounds beam h es hf hn [] (by simpa using hs)
  rw [hx] at he
  have low : ∀ {lo : Nat} {h : Heap} {as : List Nat}, Apart lo h as → ∀ a ∈ as, lo ≤ a := by
    rintro lo h _ ⟨ts, rfl, h2, _, h4⟩ a ha
    obtain ⟨t, ht, rfl⟩ := List.mem_map.1 ha
    exact h4 _ (Objects.mem_idsL.2 ⟨t, ht, addr_mem (wellLinked_root (h2 t ht).2).1⟩)
  revert hg
  cases Search.explore (keEnv E.cfg E.orders E.rules E.le E.score E.fit) verbose (es.map (startValue E.cfg)) rounds beam with
  | error e =>
    rintro ⟨h2, e2, _⟩
    rw [he] at e2
    cases e2
  | ok s' =>
    rintro ⟨t, h2, e2, _, hH⟩
    rw [he] at e2
    cases e2
    refine ⟨fun hc t ht => ?_, fun c hc m hm => ?_, fun a ha => Nat.le_trans hfr.1 (low hH.kapart a ha)⟩
    · have := hH.keeps (addr t) (by rw [held, hc]; exact hmem t ht)
      exact List.mem_map.1 this
    · have := low hH.apart m.kex (List.mem_map_of_mem hm)
      rw [lowest, hc] at this
      exact Nat.le_trans hfr.1 this

-- the searches above
example : (∃ s h', SearchObj.explore (exEnv [.remove_some_term] none) true (exStarts.map Start.given) 1 (.int 1) exStore = (.ok s, h')) ∧
    ∃ s h', SearchObj.explore (exEnv [.remove_some_term] (some 2)) true (exStarts.map Start.given) 1 (.int 1) exStore = (.ok s, h') :=
  ⟨ex_ok (by decide +kernel), ex_ok (by decide +kernel)⟩

/-- C108. If every fit succeeds and the beam argument is one that a search takes, a quiet search over objects raises nothing: no `RecursionError`, `AttributeError` or
assertion from the expressions. -/
theorem C108_succeeds_partial (E : SearchObj.Env D R ε) (ho : E.orders.OK E.cfg) (hfit : ∀ n k, ∃ d, E.fit n k = .ok d) (n : Nat) (beam : Search.BeamArg)
    (hb : beam ≠ .other) (hb' : 0 < n → beam ≠ .list []) (h : Heap) (es : List Start)
    (hf : ∀ e ∈ es, e.Fine h) (hn : (es.flatMap Start.ids).Nodup) (hs : StartsFine E.cfg E.rules es) :
    ∃ s h', SearchObj.explore E false (es.map Start.given) n beam h = (.ok s, h') := by
  have h1 := C108_search_partial E ho false n beam h es hf hn hs
  obtain ⟨s', h2⟩ := C31_succeeds (keEnv E.cfg E.orders E.rules E.le E.score E.fit) hfit (es.map (startValue E.cfg)) n beam hb hb'
  rw [h2] at h1
  revert h1
  rcases SearchObj.explore E false (es.map Start.given) n beam h with ⟨e | s, h'⟩
  · rintro ⟨_, h1⟩
    cases e <;> exact h1.elim
  · intro _
    exact ⟨s, h', rfl⟩

example := C108_succeeds_partial _ (ex_fine rulesDefault none).1 (fun n _ => ⟨n, rfl⟩) 5 (.list [3, 2, 1]) (by decide) (fun _ => by decide) _ _ (ex_fine rulesDefault none).2.1
  (ex_fine rulesDefault none).2.2.1 (ex_fine rulesDefault none).2.2.2

/-- C108. If no two start expressions are equal after simplification, then no two models that the search returns have expressions that `==` holds of. -/
theorem C108_distinct_partial (E : SearchObj.Env D R ε) (ho : E.orders.OK E.cfg) (verbose : Bool) (n : Nat) (beam : Search.BeamArg) (h : Heap) (es : List Start)
    (hf : ∀ e ∈ es, e.Fine h) (hn : (es.flatMap Start.ids).Nodup) (hs : StartsFine E.cfg E.rules es)
    (hd : (es.map (startValue E.cfg)).Pairwise (fun a b => keq a b = false)) (s : St Nat D R) (h' : Heap)
    (he : SearchObj.explore E verbose (es.map Start.given) n beam h = (.ok s, h')) :
    ∀ m ∈ s.sorted, ∀ m' ∈ s.sorted, m.uid ≠ m'.uid → eqO h' m.kex m'.kex = some false := by
  have h1 := C108_search_partial E ho verbose n beam h es hf hn hs
  rw [he] at h1
  revert h1
  cases hx : Search.explore (keEnv E.cfg E.orders E.rules E.le E.score E.fit) verbose (es.map (startValue E.cfg)) n beam with
  | error e => rintro ⟨_, h1⟩; exact h1.elim
  | ok s' =>
    rintro ⟨_, hsh, _⟩ m hm m' hm' hu
    have h2 := (C29_no_refit (keEnv E.cfg E.orders E.rules E.le E.score E.fit) isEqv_keq verbose _ n beam s' hd hx).2
    obtain ⟨x, hx1, hx2⟩ := forall₂_mem_left hsh.sorted hm
    obtain ⟨y, hy1, hy2⟩ := forall₂_mem_left hsh.sorted hm'
    rw [eqO_val (val_root hx2.kex) (val_root hy2.kex)]
    cases hq : keq x.kex y.kex
    · rfl
    · exact absurd (by rw [hx2.uid, hy2.uid, h2 x hx1 y hy1 hq]) hu

example : (exStarts.map (startValue .default)).Pairwise (fun a b => keq a b = false) := by decide

/-- C108. A start kernel that is a string other than the name of a base kernel is a `ValueError` before anything is fitted. -/
theorem C108_unknown (E : SearchObj.Env D R ε) (verbose : Bool) (rounds : Int) (beam : Search.BeamArg) (h : Heap) (es : List Start) (hf : ∀ e ∈ es, e.Fine h)
    (hn : (es.flatMap Start.ids).Nodup) (p : Given) (hp : (∃ s, p = .unknown s) ∨ ∃ b, p = .name b ∧ b ∉ baseKerns) (rest : List Given) :
    ∃ h', SearchObj.explore E verbose (es.map Start.given ++ p :: rest) rounds beam h = (.error (.obj .value), h') := by
  obtain ⟨h', e1, _⟩ := C93_unknown E.cfg h es hf hn p hp rest
  exact ⟨h', by rw [SearchObj.explore]; simp only [bind, SearchObj.run, e1]⟩

example := C108_unknown (exEnv rulesDefault none) true 2 (.int 3) exStore exStarts (ex_fine rulesDefault none).2.1 (ex_fine rulesDefault none).2.2.1 (.unknown "PERIODIC")
  (.inl ⟨_, rfl⟩) [.name .WN]

/-! ## Where it fails -/

/-- A branch with an empty sum in it, put together by hand. -/
private def rawBranch (i : Nat) : LK :=
  .comm i none none .prod [(.PER, 1)] [.comm (i + 1) none none .sum []
    [.comm (i + 2) none none .prod [] [.comm (i + 3) none none .sum [] []], .comm (i + 4) none none .prod [(.LIN, 1), (.PER, 1)] []]]

/-- A sum of two equal change points with such branches. -/
private def rawTree : LK := .comm 0 none none .sum [] [.change 1 none none .CP (rawBranch 2) (.str .LIN), .change 7 none none .CP (rawBranch 8) (.str .LIN)]

/-- Its objects. -/
private def rawStore : Heap := [
  .comm none none .sum [] [1, 7],
  .change none none .CP (.obj 2) (.str .LIN),
  .comm none none .prod [(.PER, 1)] [3],
  .comm none none .sum [] [4, 6],
  .comm none none .prod [] [5],
  .comm none none .sum [] [],
  .comm none none .prod [(.LIN, 1), (.PER, 1)] [],
  .change none none .CP (.obj 8) (.str .LIN),
  .comm none none .prod [(.PER, 1)] [9],
  .comm none none .sum [] [10, 12],
  .comm none none .prod [] [11],
  .comm none none .sum [] [],
  .comm none none .prod [(.LIN, 1), (.PER, 1)] []]

private def testedObj (w : KE) : Except (SearchObj.Err Unit) (St Nat Nat Nat) × Heap → Bool
  | (.ok s, h) => s.ktested.any (fun a => match valueAt h a with | some u => keq u w | none => false)
  | _ => false

private theorem testedObj_iff {w : KE} {r : Except (SearchObj.Err Unit) (St Nat Nat Nat) × Heap} (h : testedObj w r = true) :
    ∃ s h', r = (.ok s, h') ∧ ∃ a ∈ s.ktested, ∃ u, valueAt h' a = some u ∧ keq u w = true := by
  obtain ⟨_ | s, h'⟩ := r
  · cases h
  · refine ⟨s, h', rfl, ?_⟩
    obtain ⟨a, ha, h1⟩ := List.any_eq_true.1 h
    refine ⟨a, ha, ?_⟩
    cases hv : valueAt h' a with
    | none => rw [hv] at h1; cases h1
    | some u => rw [hv] at h1; exact ⟨u, rfl, h1⟩

private def testedVal (w : KE) : Except (Search.Err Unit) (St KE Nat Nat) → Bool
  | .ok s => s.ktested.all (fun v => !keq v w)
  | _ => false

private theorem testedVal_iff {w : KE} {r : Except (Search.Err Unit) (St KE Nat Nat)} (h : testedVal w r = true) :
    ∃ s, r = .ok s ∧ ∀ v ∈ s.ktested, keq v w = false := by
  cases r with
  | error e => cases h
  | ok s => exact ⟨s, rfl, fun v hv => by simpa using List.all_eq_true.1 h v hv⟩

/-- An expression that the objects give. -/
private def extra : KE := .comm .sum [] [.change .CP twinTwice (.base .LIN), twinTwice]

private theorem raw_fine : (∀ e ∈ [Start.tree rawTree], e.Fine rawStore) ∧ ([Start.tree rawTree].flatMap Start.ids).Nodup ∧ wf rawTree.erase = true ∧ NoSig rawTree.erase := by
  refine ⟨?_, by decide, by decide, ?_⟩
  · intro e he
    simp only [List.mem_singleton] at he
    subst he
    exact ⟨rfl, by simp [rawStore, rawTree, rawBranch, Stored, StoredL, addr, LK.id?, LK.isStr, toRef], rfl, by decide⟩
  · show ∀ x ∈ [Base.PER, .LIN, .PER, .LIN, .PER, .LIN, .PER, .LIN], _
    decide

private theorem collect_one {β γ : Type} {f : β → M γ} {x : β} {y : γ} {h h1 : Heap} (e : f x h = (.ok y, h1)) : Objects.collect f [x] h = (.ok [y], h1) := by
  simp only [Objects.collect, bind, e, pure]

private theorem objBind_ok {β γ : Type} {m : M β} {f : β → M γ} {x : β} {h h1 : Heap} (e : m h = (.ok x, h1)) : (m >>= f) h = f x h1 := by
  show (match m h with | (.ok x, h') => f x h' | (.error e, h') => (.error e, h')) = _
  rw [e]

private theorem bind_ok {α β : Type} {m : P ε α} {f : α → P ε β} {x : α} {h h1 : Heap} (e : m h = (.ok x, h1)) : (m >>= f) h = f x h1 := by
  show (match m h with | (.ok x, h') => f x h' | (.error e, h') => (.error e, h')) = _
  rw [e]

private theorem run_ok {α : Type} {m : M α} {x : α} {h h1 : Heap} (e : m h = (.ok x, h1)) : (SearchObj.run m : P ε α) h = (.ok x, h1) := by
  rw [SearchObj.run, e]

private theorem bind_pure {α : Type} {m : P ε α} : (m >>= pure) = m := by
  funext h
  show (match m h with | (.ok x, h') => (pure x : P ε α) h' | (.error e, h') => (.error e, h')) = _
  rcases m h with ⟨_ | x, h'⟩ <;> rfl

/-- What `newKexs` does with what one model's expression expands to. -/
private theorem newKexs_of {E : SearchObj.Env D R ε} {b : Int} {s : St Nat D R} {m : Mod Nat D R} {h h1 : Heap} {us new : List Nat} (hm : Search.slice s.notExpanded b = [m])
    (e : Objects.expand E.cfg E.orders E.rules m.kex h = (.ok us, h1))
    (e1 : (do let vs ← Objects.uniqueM us; Objects.ask (fun h => notIn h s.ktested vs) : M (List Nat)) h1 = (.ok new, h1)) : newKexs E b s h = (.ok new, h1) := by
  rw [newKexs, hm]
  refine (objBind_ok (collect_one e)).trans ?_
  rw [List.flatten_cons, List.flatten_nil, List.append_nil]
  exact e1

/-- The rest of a round. -/
private def rest (E : SearchObj.Env D R ε) (b : Int) (s : St Nat D R) (new : List Nat) : P ε (St Nat D R) := do
  let ms ← fitMods E s.next new
  let tested := s.tested ++ [sortMods E ms]
  let sorted := sortMods E tested.flatten
  let expanded := s.expanded ++ Search.slice s.notExpanded b
  pure { sorted := sorted, tested := tested, ktested := s.ktested ++ new, expanded := expanded,
         notExpanded := Util.diff Search.sameMod sorted expanded, next := s.next + new.length }

private theorem explore_of {E : SearchObj.Env D R ε} {given : List Given} {as new : List Nat} {h h0 h1 h2 : Heap} {s : St Nat D R}
    (e0 : Objects.makeSimpleKexs E.cfg given h = (.ok as, h0)) (e1 : startSt E as h0 = (.ok s, h1)) (e2 : newKexs E 1 s h1 = (.ok new, h2)) :
    SearchObj.explore E false given 1 (.int 1) h = rest E 1 s new h2 := by
  rw [SearchObj.explore]
  refine (bind_ok (run_ok e0)).trans ?_
  rw [exploreFrom]
  refine (bind_ok rfl).trans ?_
  refine (bind_ok e1).trans ?_
  refine (bind_ok (x := [1]) rfl).trans ?_
  refine (bind_ok rfl).trans ?_
  have h3 : searchRounds E false 1 [1] s = roundStep E 1 s >>= fun s' => pure s' := rfl
  have h4 : ∀ m : P ε (St Nat D R), (m >>= fun s' => do
      lift (if false then Search.printEnd [1] s' else .ok ())
      pure s') = m := fun m => bind_pure
  rw [h4, h3]
  refine (congrFun bind_pure _).trans ?_
  rw [roundStep]
  exact bind_ok (run_ok e2)

/-- The objects after `make_simple_kexs`. -/
private def rawInit : Heap := HollowRun.store.take 13

/-- The state before the round. -/
private def rawSt : St Nat Nat Nat := ⟨[⟨0, 0, 0, 0⟩], [[⟨0, 0, 0, 0⟩]], [13], [], [⟨0, 0, 0, 0⟩], 1⟩

deriving instance DecidableEq for Search.Mod
deriving instance DecidableEq for Search.St

/-- Whether the search comes to this state and store. -/
private def comesTo (r : Except (SearchObj.Err Unit) (St Nat Nat Nat) × Heap) (s : St Nat Nat Nat) (h : Heap) : Bool :=
  match r with
  | (.ok t, h') => decide (t = s) && decide (h' = h)
  | _ => false

private theorem comesTo_iff {r : Except (SearchObj.Err Unit) (St Nat Nat Nat) × Heap} {s : St Nat Nat Nat} {h : Heap} (e : comesTo r s h = true) : r = (.ok s, h) := by
  obtain ⟨_ | t, h'⟩ := r
  · cases e
  · simp only [comesTo, Bool.and_eq_true, decide_eq_true_eq] at e
    rw [e.1, e.2]

private theorem raw_made : Objects.makeSimpleKexs (exEnv [.remove_some_term] none).cfg [(Start.tree rawTree).given] rawStore = (.ok [0], rawInit) :=
  HollowRun.ends_iff (by decide +kernel)

private theorem raw_start : startSt (exEnv [.remove_some_term] none) [0] rawInit = (.ok rawSt, HollowRun.store) := comesTo_iff (by decide +kernel)

private theorem raw_new : newKexs (exEnv [.remove_some_term] none) 1 rawSt HollowRun.store = (.ok [51, 82, 94, 120, 132, 169, 181, 195, 219], HollowRun.last) :=
  newKexs_of (m := ⟨0, 0, 0, 0⟩) rfl HollowRun.expand_store (HollowRun.ends_iff (by decide +kernel))

private theorem raw_rest : testedObj extra (rest (exEnv [.remove_some_term] none) 1 rawSt [51, 82, 94, 120, 132, 169, 181, 195, 219] HollowRun.last) = true := by
  decide +kernel

private theorem raw_objects : testedObj extra (SearchObj.explore (exEnv [.remove_some_term] none) false [(Start.tree rawTree).given] 1 (.int 1) rawStore) = true := by
  rw [explore_of raw_made raw_start raw_new]
  exact raw_rest

private theorem raw_values : testedVal extra (Search.explore (keEnv .default (exEnv [.remove_some_term] none).orders [.remove_some_term] Nat.ble (fun d => d % 3)
    (fun n _ => (.ok n : Except Unit Nat))) false [startValue .default (.tree rawTree)] 1 (.int 1)) = true := by
  decide +kernel

/-- Why `StartsFine` asks for no empty nodes: from a start expression that meets every other condition, the search over objects tests an expression that the search over
values does not. -/
theorem C108_hollow :
    (∀ e ∈ [Start.tree rawTree], e.Fine rawStore) ∧ ([Start.tree rawTree].flatMap Start.ids).Nodup ∧ wf rawTree.erase = true ∧ NoSig rawTree.erase ∧
    (∃ s h', SearchObj.explore (exEnv [.remove_some_term] none) false [(Start.tree rawTree).given] 1 (.int 1) rawStore = (.ok s, h') ∧
      ∃ a ∈ s.ktested, ∃ u, valueAt h' a = some u ∧ keq u extra = true) ∧
    ∃ s', Search.explore (keEnv .default (exEnv [.remove_some_term] none).orders [.remove_some_term] Nat.ble (fun d => d % 3) (fun n _ => (.ok n : Except Unit Nat))) false
        [startValue .default (.tree rawTree)] 1 (.int 1) = .ok s' ∧
      ∀ v ∈ s'.ktested, keq v extra = false :=
  ⟨raw_fine.1, raw_fine.2.1, raw_fine.2.2.1, raw_fine.2.2.2, testedObj_iff raw_objects, testedVal_iff raw_values⟩

end GPyABCD
