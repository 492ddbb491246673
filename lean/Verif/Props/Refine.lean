import Verif.Lemmas.Refine14
import Verif.Lemmas.Pieces2
import Verif.Lemmas.HollowRun

/-!
# Property C78: objects in a store do what the model of expressions as values says
-/

namespace GPyABCD
open Objects Links
open KE hiding nodes

/-- An operand: a base kernel, or the root of a well-linked tree. -/
def Operand (h : Heap) (k : LK) : Prop := k.isStr = false → Stored h k ∧ WellLinked k

private theorem Operand.good {h : Heap} {k : LK} (ho : Operand h k) : Good h k := by
  cases k with
  | str b => exact good_str h b
  | comm => exact good_of_wellLinked (ho rfl).1 (ho rfl).2
  | change => exact good_of_wellLinked (ho rfl).1 (ho rfl).2

/-- The call returns objects with these values; what was there before is as it was. -/
def Returning (m : M (List Nat)) (h : Heap) (vs : List KE) : Prop :=
  ∃ as h', m h = (.ok as, h') ∧ Kept h h' ∧ as.map (valueAt h') = vs.map some

private theorem returning_of {m : M (List Nat)} {h : Heap} {vs : List KE} (hm : Gives m h vs) : Returning m h vs := by
  obtain ⟨ks, h', e, x, f, _⟩ := hm
  obtain ⟨v, p⟩ := forall₂_erase (P := fun k => k.isStr = false ∧ Stored h' k ∧ (ids k).Nodup) (f.imp (fun k v hk => ⟨⟨hk.node, hk.good.stored, hk.good.nodup⟩, hk.value⟩))
  exact ⟨_, h', e, x.2, by rw [values_of p, v]⟩

private theorem returning_from {m : M (List Nat)} {h : Heap} {vs : List KE} {s : LK} (hm : GivesFrom s m h vs) : Returning m h vs := by
  obtain ⟨ks, h', e, x, f⟩ := hm
  obtain ⟨v, p⟩ := forall₂_erase (P := fun k => k.isStr = false ∧ Stored h' k ∧ (ids k).Nodup) (f.imp (fun k v hk => ⟨⟨hk.1, hk.2.1.stored, hk.2.1.nodup⟩, hk.2.2.1⟩))
  exact ⟨_, h', e, x.2, by rw [values_of p, v]⟩

/-- A sum of a base kernel, a product and a change point, in a store with two other objects before it. -/
private def exTree : LK :=
  .comm 2 (some 2) none .sum [(.WN, 1)] [.comm 3 (some 2) (some 2) .prod [(.LIN, 1), (.PER, 1)] [],
    .change 4 (some 2) (some 2) .CP (.comm 5 (some 2) (some 4) .prod [(.LIN, 1), (.PER, 2)] []) (.str .C)]

/-- Another tree: a change window. -/
private def exOther : LK := .change 0 (some 0) none .CW (.str .LIN) (.comm 1 (some 0) (some 0) .sum [(.PER, 1), (.WN, 1)] [])

/-- The store of both. -/
private def exStore : Heap := [
  .change (some 0) none .CW (.str .LIN) (.obj 1),
  .comm (some 0) (some 0) .sum [(.PER, 1), (.WN, 1)] [],
  .comm (some 2) none .sum [(.WN, 1)] [3, 4],
  .comm (some 2) (some 2) .prod [(.LIN, 1), (.PER, 1)] [],
  .change (some 2) (some 2) .CP (.obj 5) (.str .C),
  .comm (some 2) (some 4) .prod [(.LIN, 1), (.PER, 2)] []]

private theorem exTree_ok : Stored exStore exTree ∧ WellLinked exTree :=
  ⟨by simp [exStore, exTree, Stored, StoredL, addr, toRef, LK.id?, LK.isStr], ⟨2, rfl, by simp [exTree, Linked, LinkedL, LK.isStr]⟩, by decide⟩

private theorem exOther_ok : Stored exStore exOther ∧ WellLinked exOther :=
  ⟨by simp [exStore, exOther, Stored, addr, toRef, LK.id?, StoredL], ⟨0, rfl, by simp [exOther, Linked, LinkedL]⟩, by decide⟩

private theorem exSeparate : (idsL [exTree, exOther]).Nodup ∧ ∀ a ∈ ids exTree, a ∉ ids exOther := ⟨by decide, by decide⟩

/-! ## Making expressions -/

/-- C78. `SumKE(bts, cts)._initialise()` and `ProductKE(bts, cts)._initialise()` of separate trees: a well-linked tree whose value is the
simplified sum or product of the values. -/
theorem C78_new_comm (cfg : Cfg) (op : Op) (bts : Counter) (h : Heap) (cts : List LK) (hc : ∀ k ∈ cts, Stored h k ∧ WellLinked k) (hn : (idsL cts).Nodup) :
    ∃ a h', (do let k ← newComm cfg op bts (cts.map addr); initialise cfg k : M Nat) h = (.ok a, h') ∧ Kept h h' ∧
      RootAt h' a (KE.simplify cfg (mkC cfg op bts (cts.map LK.erase))) := by
  obtain ⟨k, h1, e1, x1, m1, p1⟩ := newComm_top cfg op bts (fun ct hct => ⟨(wellLinked_root (hc ct hct).2).1, good_of_wellLinked (hc ct hct).1 (hc ct hct).2⟩) hn
  obtain ⟨h2, e2, s2, m2⟩ := initialise_ok cfg m1.node m1.good.stored m1.good.nodup
  refine ⟨_, h2, (run_bind e1).trans e2, (x1.same m2 m1.new).2, _, rfl, s2, C08_well_linked cfg k m1.node (stored_proper k m1.good.stored) p1 m1.good.nodup, ?_⟩
  rw [C08_simplifies, m1.value]

/-- C78, for change points and change windows, of any two branches: strings, separate trees, or one tree twice. -/
theorem C78_new_change (cfg : Cfg) (c : CC) (h : Heap) (l r : LK) (hl : Operand h l) (hr : Operand h r) :
    ∃ a h', (do let k ← newChange cfg c (toRef l) (toRef r); initialise cfg k : M Nat) h = (.ok a, h') ∧ Kept h h' ∧
      RootAt h' a (KE.simplify cfg (mkChange cfg c l.erase r.erase)) := by
  obtain ⟨k, h1, e1, x1, m1, p1⟩ := newChange_top cfg c hl.good hr.good
  obtain ⟨h2, e2, s2, m2⟩ := initialise_ok cfg m1.node m1.good.stored m1.good.nodup
  refine ⟨_, h2, (run_bind e1).trans e2, (x1.same m2 m1.new).2, _, rfl, s2, C08_well_linked cfg k m1.node (stored_proper k m1.good.stored) p1 m1.good.nodup, ?_⟩
  rw [C08_simplifies, m1.value]

example : ∃ a h', (do let k ← newComm .default .prod [(.PER, 1)] [2, 0]; initialise .default k : M Nat) exStore = (.ok a, h') ∧ Kept exStore h' ∧
    RootAt h' a (KE.simplify .default (mkC .default .prod [(.PER, 1)] [exTree.erase, exOther.erase])) :=
  C78_new_comm .default .prod [(.PER, 1)] exStore [exTree, exOther] (by
    intro k hk
    simp only [List.mem_cons, List.not_mem_nil, or_false] at hk
    rcases hk with rfl | rfl
    · exact exTree_ok
    · exact exOther_ok) exSeparate.1

example : ∃ a h', (do let k ← newChange .default .CP (.obj 2) (.obj 2); initialise .default k : M Nat) exStore = (.ok a, h') ∧ Kept exStore h' ∧
    RootAt h' a (KE.simplify .default (mkChange .default .CP exTree.erase exTree.erase)) :=
  C78_new_change .default .CP exStore exTree exTree (fun _ => exTree_ok) (fun _ => exTree_ok)

/-! ## Operators -/

/-- C78. `add` and `multiply` of separate operands give the values the model of values gives. -/
theorem C78_add (cfg : Cfg) (h : Heap) (k1 k2 : LK) (h1 : Operand h k1) (h2 : Operand h k2) (hd : ∀ a ∈ ids k1, a ∉ ids k2) :
    Returning (Objects.add cfg (toRef k1) (toRef k2)) h (KE.add cfg k1.erase k2.erase) ∧
    Returning (Objects.multiply cfg (toRef k1) (toRef k2)) h (KE.multiply cfg k1.erase k2.erase) :=
  ⟨returning_of (add_ok cfg h1.good h2.good hd), returning_of (multiply_ok cfg h1.good h2.good hd)⟩

-- strings, and trees in one store
example : Operand exStore exTree ∧ Operand exStore exOther ∧ Operand exStore (.str .SE) ∧ (∀ a ∈ ids exTree, a ∉ ids exOther) ∧
    (KE.add .default exTree.erase exOther.erase).length = 1 ∧ (KE.multiply .default (.base .PER) exTree.erase).length = 2 :=
  ⟨fun _ => exTree_ok, fun _ => exOther_ok, fun h => (by cases h), exSeparate.2, by decide, by decide⟩

/-- C78, for `one_change` and `both_changes`: here the operands may be one object. -/
theorem C78_changes (cfg : Cfg) (h : Heap) (s : LK) (hs : Operand h s) (s2 : Option LK) (hs2 : ∀ k ∈ s2, Operand h k) (x : CC) :
    Returning (Objects.oneChange cfg (toRef s) x (s2.map toRef)) h (KE.oneChange cfg s.erase x (s2.map LK.erase)) ∧
    Returning (Objects.bothChanges cfg (toRef s) (s2.map toRef)) h (KE.bothChanges cfg s.erase (s2.map LK.erase)) :=
  ⟨returning_of (changesOf_ok cfg x hs.good s2 (fun k hk => (hs2 k hk).good)), returning_of (bothChanges_ok cfg hs.good s2 (fun k hk => (hs2 k hk).good))⟩

/-- C78, for the operators on one node. -/
theorem C78_unary (cfg : Cfg) (h : Heap) (s : LK) (hs : Stored h s) (hw : WellLinked s) (B : Base) :
    Returning (Objects.swapBase cfg (addr s) B) h (KE.swapBase cfg s.erase B) ∧
    Returning (Objects.removeATerm cfg (addr s)) h (KE.removeATerm cfg s.erase) ∧
    Returning (Objects.higherCurves cfg (addr s)) h (KE.higherCurves cfg s.erase) := by
  have hk := (wellLinked_root hw).1
  have hg := good_of_wellLinked hs hw
  exact ⟨returning_of (swapBase_ok cfg B hk hg), returning_from (removeATerm_ok cfg hk hg), returning_of (higherCurves_ok cfg hk hg)⟩

/-- C78. `traverse` gives objects with the values the model of values visits, in the same order. -/
theorem C78_traverse (cfg : Cfg) (h : Heap) (t : LK) (hs : Stored h t) (hw : WellLinked t) :
    Returning (Objects.traverse cfg (addr t)) h ((KE.traverse cfg t.erase).map (fun q => q.2)) := by
  obtain ⟨as, h', e, x, f⟩ := traverse_ok cfg (wellLinked_root hw).1 (good_of_wellLinked hs hw)
  refine ⟨as, h', e, x.2, ?_⟩
  clear e
  revert f
  generalize KE.traverse cfg t.erase = qs
  intro f
  induction f with
  | nil => rfl
  | cons h1 _ ih =>
    obtain ⟨n, s, _, _, rfl, h4, h5, h6⟩ := h1
    simp only [List.map_cons]
    rw [ih, valueAt_ok h4 h5.stored h5.nodup, h6]

example : (KE.swapBase .default exTree.erase .PER).length = 1 ∧ (KE.removeATerm .default exTree.erase).length = 3 ∧ (KE.higherCurves .default exTree.erase).length = 2 ∧
    (KE.traverse .default exTree.erase).length = 5 := by decide

/-! ## Expansion -/

/-- C78 (partial: the full statement has no condition on equal change operators when `remove_some_term` is among the rules): `expand` of a
well-linked tree never raises, gives well-linked trees that share nothing with each other or with anything that was there before, with exactly
the values the model of values gives, in the same order, and leaves what was there before as it was. -/
theorem C78_expand_partial (cfg : Cfg) (o : Orders) (ho : o.OK cfg) (rules : List RuleName) (h : Heap) (t : LK) (hs : Stored h t) (hw : WellLinked t)
    (hi : IsExpr t.erase) (hr : .remove_some_term ∈ rules → NoTwins t.erase) :
    ∃ ts h', Objects.expand cfg o rules (addr t) h = (.ok (ts.map addr), h') ∧ Kept h h' ∧ ts.map LK.erase = KE.expandNamed cfg o rules t.erase ∧
      (∀ t' ∈ ts, Stored h' t' ∧ WellLinked t') ∧ (idsL ts).Nodup ∧ ∀ a ∈ idsL ts, h.length ≤ a := by
  obtain ⟨ts, h', e, x, v, w, n, l⟩ := expand_ok cfg o ho rules hs hw hi hr
  exact ⟨ts, h', e, x.2, v, w, n, l⟩

example : IsExpr exTree.erase ∧ NoTwins exTree.erase ∧ .remove_some_term ∈ rulesDefault ∧ (⟨[.WN, .C, .LIN, .PER], [.WN, .LIN, .PER]⟩ : Orders).OK .default := by
  refine ⟨⟨by decide, rfl⟩, ?_, by decide, by decide, by decide⟩
  simp [exTree, LK.erase, LK.eraseL, NoTwins, NoTwinsL, Objects.isChange]

/-- Objects the search can come to from the object `a0`: expansions of expansions, while other objects are made. -/
inductive Derived (cfg : Cfg) (rules : List RuleName) (h0 : Heap) (a0 : Nat) : Heap → Nat → Prop
  | start : Derived cfg rules h0 a0 h0 a0
  | other {h h' : Heap} {a : Nat} (hd : Derived cfg rules h0 a0 h a) (hk : Kept h h') : Derived cfg rules h0 a0 h' a
  | step {h h' : Heap} {a b : Nat} {o : Orders} {as : List Nat} (ho : o.OK cfg) (hd : Derived cfg rules h0 a0 h a)
      (he : Objects.expand cfg o rules a h = (.ok as, h')) (hb : b ∈ as) : Derived cfg rules h0 a0 h' b

/-- C78, over any number of rounds (partial: without the rule `remove_some_term`): every object that expansion comes to is a well-linked tree
whose value is reachable in the model of values; expanding it never raises and gives the values of the model. -/
theorem C78_rounds_partial (cfg : Cfg) (rules : List RuleName) (hr : .remove_some_term ∉ rules) (h0 : Heap) (a0 : Nat) (v0 : KE) (h1 : RootAt h0 a0 v0)
    (hi : IsExpr v0) (h : Heap) (a : Nat) (hd : Derived cfg rules h0 a0 h a) :
    ∃ v, RootAt h a v ∧ IsExpr v ∧ Reachable cfg [v0] rules v ∧
      ∀ o : Orders, o.OK cfg → Returning (Objects.expand cfg o rules a) h (KE.expandNamed cfg o rules v) := by
  suffices hv : ∃ v, RootAt h a v ∧ IsExpr v ∧ Reachable cfg [v0] rules v by
    obtain ⟨v, hv, hi, hre⟩ := hv
    refine ⟨v, hv, hi, hre, fun o ho => ?_⟩
    obtain ⟨t, rfl, ht, hw, rfl⟩ := hv
    obtain ⟨ts, h', e, k, v, w, _⟩ := C78_expand_partial cfg o ho rules h t ht hw hi (fun hh => absurd hh hr)
    exact ⟨_, h', e, k, by rw [values_of (fun k hk => ⟨(wellLinked_root (w k hk).2).1, (w k hk).1, (w k hk).2.2⟩), v]⟩
  induction hd with
  | start => exact ⟨v0, h1, hi, .start (by simp)⟩
  | other _ hk ih =>
    obtain ⟨v, hv, r⟩ := ih
    exact ⟨v, hv.kept hk, r⟩
  | @step h h' a b o as ho _ he hb ih =>
    obtain ⟨v, ⟨t, rfl, ht, hw, rfl⟩, hi, hre⟩ := ih
    obtain ⟨ts, h'', e, k, v, w, _⟩ := C78_expand_partial cfg o ho rules h t ht hw hi (fun hh => absurd hh hr)
    rw [he] at e
    simp only [Prod.mk.injEq, Except.ok.injEq] at e
    obtain ⟨rfl, rfl⟩ := e
    obtain ⟨t', ht', rfl⟩ := List.mem_map.1 hb
    have hm : t'.erase ∈ KE.expandNamed cfg o rules t.erase := by rw [← v]; exact List.mem_map_of_mem ht'
    exact ⟨t'.erase, ⟨t', rfl, (w t' ht').1, (w t' ht').2, rfl⟩, (C24_shape cfg _ (C20_builtin_rules cfg o ho rules) _ hi _ hm).1, .step ho hre hm⟩

example : RootAt exStore 2 exTree.erase ∧ IsExpr exTree.erase ∧ .remove_some_term ∉ rulesMinimal :=
  ⟨⟨exTree, rfl, exTree_ok.1, exTree_ok.2, rfl⟩, ⟨by decide, rfl⟩, by decide⟩

/-- C78, for simplified trees (partial: not for trees with empty nodes; `C78_twins` and `C78_twins_simplified` show that it fails for trees that are not simplified or have
empty nodes): with **any** rules,
`expand` of a simplified well-linked tree never raises, gives well-linked trees that share nothing with each other or with anything that was there before,
with exactly the values the model of values gives, in the same order, and leaves what was there before as it was. Objects with shared parts come up on the
way (`C73_shared_branch`): each of them has the value of an object before it, so it is not returned. -/
theorem C78_expand_simplified_partial (cfg : Cfg) (o : Orders) (ho : o.OK cfg) (rules : List RuleName) (h : Heap) (t : LK) (hs : Stored h t) (hw : WellLinked t)
    (hi : settled cfg t.erase = true) :
    ∃ ts h', Objects.expand cfg o rules (addr t) h = (.ok (ts.map addr), h') ∧ Kept h h' ∧ ts.map LK.erase = KE.expandNamed cfg o rules t.erase ∧
      (∀ t' ∈ ts, Stored h' t' ∧ WellLinked t') ∧ (idsL ts).Nodup ∧ ∀ a ∈ idsL ts, h.length ≤ a := by
  obtain ⟨ts, h', e, x, v, w, n, l⟩ := expand_settled cfg o ho rules hs hw hi
  exact ⟨ts, h', e, x.2, v, w, n, l⟩

/-- A sum of two equal change points. -/
private def pairTree : LK :=
  .comm 0 (some 0) none .sum [] [.change 1 (some 0) (some 0) .CP (.comm 2 (some 0) (some 1) .prod [(.LIN, 1), (.PER, 1)] []) (.str .LIN),
    .change 3 (some 0) (some 0) .CP (.comm 4 (some 0) (some 3) .prod [(.LIN, 1), (.PER, 1)] []) (.str .LIN)]

/-- Its objects. -/
private def pairStore : Heap := [
  .comm (some 0) none .sum [] [1, 3],
  .change (some 0) (some 0) .CP (.obj 2) (.str .LIN),
  .comm (some 0) (some 1) .prod [(.LIN, 1), (.PER, 1)] [],
  .change (some 0) (some 0) .CP (.obj 4) (.str .LIN),
  .comm (some 0) (some 3) .prod [(.LIN, 1), (.PER, 1)] []]

-- equal change operators side by side, and a rule that gives their branches
example : Stored pairStore pairTree ∧ WellLinked pairTree ∧ settled .default pairTree.erase = true ∧ NoSig pairTree.erase ∧ ¬ NoTwins pairTree.erase ∧
    (KE.expandNamed .default ⟨[.WN, .C, .LIN, .PER], [.WN, .LIN, .PER]⟩ [.remove_some_term] pairTree.erase).length = 5 := by
  refine ⟨?_, ⟨⟨0, rfl, ?_⟩, by decide⟩, by decide, ?_, ?_, by decide +kernel⟩
  · simp [pairStore, pairTree, Stored, StoredL, addr, toRef, LK.id?, LK.isStr]
  · simp [pairTree, Linked, LinkedL, LK.isStr]
  · show ∀ x ∈ [Base.LIN, .PER, .LIN, .LIN, .PER, .LIN], _
    decide
  · simp [pairTree, LK.erase, LK.eraseL, NoTwins, NoTwinsL, Objects.isChange, keq_refl]

/-- C78, over any number of rounds with **any** rules, from a simplified expression without sigmoids (partial as `C78_expand_simplified_partial`): every
object that expansion comes to is a well-linked tree whose value is reachable in the model of values; expanding it never raises and gives the values
of the model. -/
theorem C78_rounds_simplified_partial (cfg : Cfg) (rules : List RuleName) (h0 : Heap) (a0 : Nat) (v0 : KE) (h1 : RootAt h0 a0 v0)
    (hi : settled cfg v0 = true) (hb : v0.isBase = false) (hn : NoSig v0) (h : Heap) (a : Nat) (hd : Derived cfg rules h0 a0 h a) :
    ∃ v, RootAt h a v ∧ settled cfg v = true ∧ Reachable cfg [v0] rules v ∧
      ∀ o : Orders, o.OK cfg → Returning (Objects.expand cfg o rules a) h (KE.expandNamed cfg o rules v) := by
  have hre : ∀ v, Reachable cfg [v0] rules v → noEmpty v = true ∧ settled cfg v = true ∧ v.isBase = false ∧ NoSig v :=
    C25_reachable_partial cfg [v0] rules (by simp only [List.mem_singleton, forall_eq]; exact ⟨hi, hb, hn⟩)
  suffices hv : ∃ v, RootAt h a v ∧ Reachable cfg [v0] rules v by
    obtain ⟨v, hv, hr⟩ := hv
    refine ⟨v, hv, (hre v hr).2.1, hr, fun o ho => ?_⟩
    obtain ⟨t, rfl, ht, hw, rfl⟩ := hv
    obtain ⟨ts, h', e, k, v, w, _⟩ := C78_expand_simplified_partial cfg o ho rules h t ht hw (hre _ hr).2.1
    exact ⟨_, h', e, k, by rw [values_of (fun k hk => ⟨(wellLinked_root (w k hk).2).1, (w k hk).1, (w k hk).2.2⟩), v]⟩
  induction hd with
  | start => exact ⟨v0, h1, .start (by simp)⟩
  | other _ hk ih =>
    obtain ⟨v, hv, r⟩ := ih
    exact ⟨v, hv.kept hk, r⟩
  | @step h h' a b o as ho _ he hb ih =>
    obtain ⟨v, ⟨t, rfl, ht, hw, rfl⟩, hr⟩ := ih
    obtain ⟨ts, h'', e, k, v, w, _⟩ := C78_expand_simplified_partial cfg o ho rules h t ht hw (hre _ hr).2.1
    rw [he] at e
    simp only [Prod.mk.injEq, Except.ok.injEq] at e
    obtain ⟨rfl, rfl⟩ := e
    obtain ⟨t', ht', rfl⟩ := List.mem_map.1 hb
    have hm : t'.erase ∈ KE.expandNamed cfg o rules t.erase := by rw [← v]; exact List.mem_map_of_mem ht'
    exact ⟨t'.erase, ⟨t', rfl, (w t' ht').1, (w t' ht').2, rfl⟩, .step ho hr hm⟩

example : RootAt pairStore 0 pairTree.erase ∧ settled .default pairTree.erase = true ∧ pairTree.erase.isBase = false ∧ .remove_some_term ∈ rulesDefault := by
  refine ⟨⟨pairTree, rfl, ?_, ⟨⟨0, rfl, ?_⟩, by decide⟩, rfl⟩, by decide, rfl, by decide⟩
  · simp [pairStore, pairTree, Stored, StoredL, addr, toRef, LK.id?, LK.isStr]
  · simp [pairTree, Linked, LinkedL, LK.isStr]

/-! ## One object twice -/

/-- `multiply(s, s)[0]._initialise()` for `s = SumKE(['WN'], [ProductKE(['LIN', 'PER'])])` -/
private def timesItself : M Nat := do
  let p ← newList .default .prod [.LIN, .PER] []
  let s ← newList .default .sum [.WN] [p]
  let r ← Objects.multiply .default (.obj s) (.obj s)
  initialise .default (r.headD 0)

/-- The store after that: the product (0), the sum (1) with its copy of it (2), the product (3) with **one** copy of the sum (4) in two places, and
its product (5). -/
private def twiceStore : Heap := [
  .comm none none .prod [(.LIN, 1), (.PER, 1)] [],
  .comm none none .sum [(.WN, 1)] [2],
  .comm (some 2) (some 1) .prod [(.LIN, 1), (.PER, 1)] [],
  .comm (some 3) none .prod [] [4, 4],
  .comm (some 3) (some 3) .sum [(.WN, 1)] [5],
  .comm (some 3) (some 4) .prod [(.LIN, 1), (.PER, 1)] []]

/-- The sum in it, and the sum with its product replaced by a change point. -/
private def oldFactor : KE := .comm .sum [(.WN, 1)] [.comm .prod [(.LIN, 1), (.PER, 1)] []]
private def newFactor : KE := .comm .sum [(.WN, 1)] [.change .CP (.comm .prod [(.LIN, 1), (.PER, 1)] []) (.base .LIN)]

/-- Whether an expansion has the second value and none the first. -/
private def gives (m : M (List Nat)) (h : Heap) (w w' : KE) : Bool :=
  match m h with
  | (.ok as, h') => as.all (fun a => match valueAt h' a with | some u => !keq u w | none => true) &&
      as.any (fun a => match valueAt h' a with | some u => keq u w' | none => false)
  | _ => false

private theorem gives_split {m : M (List Nat)} {h : Heap} {w w' : KE} (h1 : gives m h w w' = true) :
    ∃ as h', m h = (.ok as, h') ∧ (∀ a ∈ as, ∀ u, valueAt h' a = some u → keq u w = false) ∧ ∃ a ∈ as, ∃ u, valueAt h' a = some u ∧ keq u w' = true := by
  rw [gives] at h1
  revert h1
  rcases m h with ⟨_ | as, h'⟩
  · intro h1; cases h1
  · intro h1
    simp only [Bool.and_eq_true, List.all_eq_true, List.any_eq_true] at h1
    obtain ⟨h1, a, ha, h2⟩ := h1
    refine ⟨as, h', rfl, ?_, a, ha, ?_⟩
    · intro a ha u hu
      have := h1 a ha
      rw [hu] at this
      simpa using this
    · cases hu : valueAt h' a with
      | none => rw [hu] at h2; cases h2
      | some u => rw [hu] at h2; exact ⟨u, rfl, h2⟩

/-- Whether a call returns this and leaves this store. -/
private def ends (m : M Nat) (h : Heap) (a : Nat) (h' : Heap) : Bool :=
  match m h with
  | (.ok x, h1) => decide (x = a ∧ h1 = h')
  | _ => false

private theorem ends_iff {m : M Nat} {h h' : Heap} {a : Nat} (h1 : ends m h a h' = true) : m h = (.ok a, h') := by
  rw [ends] at h1
  revert h1
  rcases m h with ⟨_ | x, h⟩
  · intro h1; cases h1
  · intro h1
    obtain ⟨rfl, rfl⟩ := of_decide_eq_true h1
    rfl

/-- Whether an object has this value. -/
private def shows (x : Option KE) (w : KE) : Bool := match x with | some v => keq v w | none => false

private theorem shows_iff {x : Option KE} {w : KE} (h1 : shows x w = true) : ∃ v, x = some v ∧ keq v w = true := by
  cases x with
  | none => cases h1
  | some v => exact ⟨v, rfl, h1⟩

/-- Why C78_add asks for separate operands: given one object twice, `multiply` (and likewise `add`) returns a product that holds one object twice,
because `deepcopy` of the list of terms copies an object once. It prints and compares like the product of two equal factors, but expanding it does
not give what expanding that product gives: where a part of one of the two factors is to be replaced, it is replaced in both. -/
theorem C78_same_object :
    timesItself [] = (.ok 3, twiceStore) ∧ (∃ v, valueAt twiceStore 3 = some v ∧ keq v (KE.comm .prod [] [oldFactor, oldFactor]) = true) ∧
    (∃ w ∈ KE.expandNamed .default someOrders [.change_point_linear] (KE.comm .prod [] [oldFactor, oldFactor]), keq w (KE.comm .prod [] [oldFactor, newFactor]) = true) ∧
    (∃ as h', Objects.expand .default someOrders [.change_point_linear] 3 twiceStore = (.ok as, h') ∧
      (∀ a ∈ as, ∀ u, valueAt h' a = some u → keq u (KE.comm .prod [] [oldFactor, newFactor]) = false) ∧ ∃ a ∈ as, ∃ u, valueAt h' a = some u ∧ keq u (KE.comm .prod [] [newFactor, newFactor]) = true) := by
  refine ⟨ends_iff ?_, shows_iff ?_, List.any_eq_true.1 ?_, gives_split ?_⟩
  · decide +kernel
  · decide +kernel
  · decide +kernel
  · decide +kernel

/-! ## Equal change operators side by side -/

/-- `PER × (LIN × PER)`, with a sum of one product between the two. -/
private def twinBranch (i p : Nat) : LK :=
  .comm i (some 0) (some p) .prod [(.PER, 1)] [.comm (i + 1) (some 0) (some i) .sum [] [.comm (i + 2) (some 0) (some (i + 1)) .prod [(.LIN, 1), (.PER, 1)] []]]

/-- A sum of two equal change points, put together by hand and not simplified. -/
private def twinTree : LK :=
  .comm 0 (some 0) none .sum [] [.change 1 (some 0) (some 0) .CP (twinBranch 2 1) (.str .LIN), .change 5 (some 0) (some 0) .CP (twinBranch 6 5) (.str .LIN)]

/-- Its objects. -/
private def twinStore : Heap := [
  .comm (some 0) none .sum [] [1, 5],
  .change (some 0) (some 0) .CP (.obj 2) (.str .LIN),
  .comm (some 0) (some 1) .prod [(.PER, 1)] [3],
  .comm (some 0) (some 2) .sum [] [4],
  .comm (some 0) (some 3) .prod [(.LIN, 1), (.PER, 1)] [],
  .change (some 0) (some 0) .CP (.obj 6) (.str .LIN),
  .comm (some 0) (some 5) .prod [(.PER, 1)] [7],
  .comm (some 0) (some 6) .sum [] [8],
  .comm (some 0) (some 7) .prod [(.LIN, 1), (.PER, 1)] []]

/-- The branch simplified twice. -/
def twinTwice : KE := .comm .prod [(.PER, 2), (.LIN, 1)] []

/-- Whether one of the objects returned has this value. -/
private def has (m : M (List Nat)) (h : Heap) (w : KE) : Bool :=
  match m h with
  | (.ok as, h') => as.any (fun a => shows (valueAt h' a) w)
  | _ => false

private theorem has_split {m : M (List Nat)} {h : Heap} {w : KE} (h1 : has m h w = true) :
    ∃ as h', m h = (.ok as, h') ∧ ∃ a ∈ as, ∃ u, valueAt h' a = some u ∧ keq u w = true := by
  rw [has] at h1
  revert h1
  rcases m h with ⟨_ | as, h'⟩
  · intro h1; cases h1
  · intro h1
    obtain ⟨a, ha, h2⟩ := List.any_eq_true.1 h1
    exact ⟨as, h', rfl, a, ha, shows_iff h2⟩

/-- Why `C78_expand_partial` and `C78_expand_simplified_partial` have their conditions: `reassign_child` takes out the first term that is equal to the node that is replaced. Of two equal change
operators side by side that may be the other one, and when `remove_some_term` puts a branch of the second in its place, the branch is then held by the sum
and by the change operator that stays. In this (unsimplified) tree it is thereby simplified twice, and `expand` gives an expression that the model of
values does not give. -/
theorem C78_twins :
    Stored twinStore twinTree ∧ WellLinked twinTree ∧ IsExpr twinTree.erase ∧ ¬ NoTwins twinTree.erase ∧
    (∀ v ∈ KE.expandNamed .default someOrders [.remove_some_term] twinTree.erase, keq v (.comm .sum [] [.change .CP twinTwice (.base .LIN), twinTwice]) = false) ∧
    ∃ as h', Objects.expand .default someOrders [.remove_some_term] 0 twinStore = (.ok as, h') ∧
      ∃ a ∈ as, ∃ u, valueAt h' a = some u ∧ keq u (.comm .sum [] [.change .CP twinTwice (.base .LIN), twinTwice]) = true := by
  refine ⟨?_, ⟨⟨0, rfl, ?_⟩, by decide⟩, ⟨by decide, rfl⟩, ?_, ?_, has_split ?_⟩
  · simp [twinStore, twinTree, twinBranch, Stored, StoredL, addr, toRef, LK.id?, LK.isStr]
  · simp [twinTree, twinBranch, Linked, LinkedL, LK.isStr]
  · simp [twinTree, twinBranch, LK.erase, LK.eraseL, NoTwins, NoTwinsL, Objects.isChange, keq_refl]
  · have h1 : (KE.expandNamed .default someOrders [.remove_some_term] twinTree.erase).all
        (fun v => !keq v (.comm .sum [] [.change .CP twinTwice (.base .LIN), twinTwice])) = true := by decide +kernel
    intro v hv
    simpa using List.all_eq_true.1 h1 v hv
  · decide +kernel

/-- A branch that is simplified, with an empty sum in it. -/
def hollowBranch (i p : Nat) : LK :=
  .comm i (some 0) (some p) .prod [(.PER, 1)] [.comm (i + 1) (some 0) (some i) .sum []
    [.comm (i + 3) (some 0) (some (i + 1)) .sum [] [], .comm (i + 4) (some 0) (some (i + 1)) .prod [(.LIN, 1), (.PER, 1)] []]]

/-- A sum of two equal change points with such branches. The store is `HollowRun.store`: as a search finds it, in `C108_hollow`. -/
def hollowTree : LK :=
  .comm 0 (some 0) none .sum [] [.change 1 (some 0) (some 0) .CP (hollowBranch 2 1) (.str .LIN), .change 7 (some 0) (some 0) .CP (hollowBranch 8 7) (.str .LIN)]

/-- What it is the simplification of: objects put together by hand, as constructors simplify what they are given. -/
def hollowWritten : KE :=
  let b : KE := .comm .prod [(.PER, 1)] [.comm .sum [] [.comm .prod [] [.comm .sum [] []], .comm .prod [(.LIN, 1), (.PER, 1)] []]]
  .comm .sum [] [.change .CP b (.base .LIN), .change .CP b (.base .LIN)]

/-- The same with a tree that has been simplified once, if it has an empty node: why `C78_expand_simplified_partial` asks for none. -/
theorem C78_twins_simplified :
    Stored HollowRun.store hollowTree ∧ WellLinked hollowTree ∧ IsExpr hollowWritten ∧ NoSig hollowWritten ∧ hollowTree.erase = KE.simplify .default hollowWritten ∧
    (∀ v ∈ KE.expandNamed .default someOrders [.remove_some_term] hollowTree.erase, keq v (.comm .sum [] [.change .CP twinTwice (.base .LIN), twinTwice]) = false) ∧
    ∃ as h', Objects.expand .default someOrders [.remove_some_term] 0 HollowRun.store = (.ok as, h') ∧
      ∃ a ∈ as, ∃ u, valueAt h' a = some u ∧ keq u (.comm .sum [] [.change .CP twinTwice (.base .LIN), twinTwice]) = true := by
  refine ⟨?_, ⟨⟨0, rfl, ?_⟩, by decide⟩, ⟨by decide, rfl⟩, ?_, by rfl, ?_, _, _, HollowRun.expand_store, 219, by decide, shows_iff ?_⟩
  · simp [HollowRun.store, hollowTree, hollowBranch, Stored, StoredL, addr, toRef, LK.id?, LK.isStr]
  · simp [hollowTree, hollowBranch, Linked, LinkedL, LK.isStr]
  · show ∀ x ∈ [Base.PER, .LIN, .PER, .LIN, .PER, .LIN, .PER, .LIN], _
    decide
  · have h1 : (KE.expandNamed .default someOrders [.remove_some_term] hollowTree.erase).all
        (fun v => !keq v (.comm .sum [] [.change .CP twinTwice (.base .LIN), twinTwice])) = true := by decide +kernel
    intro v hv
    simpa using List.all_eq_true.1 h1 v hv
  · decide +kernel

end GPyABCD
