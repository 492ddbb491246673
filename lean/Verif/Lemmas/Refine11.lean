import Verif.Lemmas.Refine10

/-!
# The store does to trees what the model of trees says: expansion of a node
-/

namespace GPyABCD
namespace Objects
open Links Links.LK
open KE hiding nodes

/-- The call gives nodes (second components) of new trees (first components) with these values, and does not change what was there. -/
def Grows (m : M (List Nat)) (h : Heap) (vs : List (KE × KE)) : Prop :=
  ∃ (ts : List (LK × LK)) (h' : Heap), m h = (.ok (ts.map (fun p => addr p.2)), h') ∧ Ext h h' ∧ (∀ p ∈ ts, Grown h.length h' p.1 p.2 p.1.erase p.2.erase) ∧
    ts.map (fun p => (p.1.erase, p.2.erase)) = vs ∧ (idsL (ts.map (fun p => p.1))).Nodup

theorem mem_idsL {a : Nat} {ks : List LK} : a ∈ idsL ks ↔ ∃ k ∈ ks, a ∈ ids k := by
  induction ks with
  | nil => simp [idsL]
  | cons k ks ih => simp [idsL, ih]

theorem Grown.le {L L' : Nat} {h : Heap} {t m : LK} {vt vm : KE} (hg : Grown L h t m vt vm) (hL : L' ≤ L) : Grown L' h t m vt vm :=
  ⟨hg.stored, hg.linked, hg.value, fun a ha => Nat.le_trans hL (hg.new a ha), hg.node, hg.mstored, hg.mnodup, hg.mroot, hg.mvalue, hg.msub⟩

theorem grows_nil (h : Heap) : Grows (pure []) h [] := ⟨[], h, rfl, Ext.refl h, by simp, rfl, by simp [idsL]⟩

theorem grown_lt {L : Nat} {h : Heap} {ts : List (LK × LK)} (hg : ∀ p ∈ ts, Grown L h p.1 p.2 p.1.erase p.2.erase) :
    ∀ a ∈ idsL (ts.map (fun p => p.1)), L ≤ a ∧ a < h.length := by
  intro a ha
  obtain ⟨k, hk, ha⟩ := mem_idsL.1 ha
  obtain ⟨p, hp, rfl⟩ := List.mem_map.1 hk
  exact ⟨(hg p hp).new a ha, stored_lt _ (hg p hp).stored a ha⟩

theorem grows_append {m m' : M (List Nat)} {h : Heap} {vs vs' : List (KE × KE)} (h1 : Grows m h vs) (h2 : ∀ h', Ext h h' → Grows m' h' vs') :
    Grows (do let x ← m; let y ← m'; pure (x ++ y)) h (vs ++ vs') := by
  obtain ⟨ks, h1, e1, x1, m1, v1, n1⟩ := h1
  obtain ⟨ks', h2, e2, x2, m2, v2, n2⟩ := h2 h1 x1
  refine ⟨ks ++ ks', h2, ?_, x1.trans x2, ?_, by rw [List.map_append, v1, v2], ?_⟩
  · rw [run_bind e1, run_bind e2, List.map_append]; rfl
  · intro p hp
    rcases List.mem_append.1 hp with hp | hp
    · exact (m1 p hp).ext x2
    · exact (m2 p hp).le x1.1
  · rw [List.map_append, idsL_append, List.nodup_append]
    refine ⟨n1, n2, fun a ha b hb e => ?_⟩
    have := (grown_lt m1 a ha).2
    have := (grown_lt m2 b hb).1
    omega

theorem grows_run {m m' : M (List Nat)} {h : Heap} {vs : List (KE × KE)} (hm : Grows m' h vs) (e : m h = m' h) : Grows m h vs := by
  obtain ⟨ts, h', e1, r⟩ := hm
  exact ⟨ts, h', e.trans e1, r⟩

/-- A first call only adds to the store. -/
theorem Grows.after {m : M (List Nat)} {h h1 : Heap} {vs : List (KE × KE)} (he : Ext h h1) (hm : Grows m h1 vs) {m' : M (List Nat)} (e : m' h = m h1) : Grows m' h vs := by
  obtain ⟨ts, h', e1, x1, g1, v1, n1⟩ := hm
  exact ⟨ts, h', e.trans e1, he.trans x1, fun p hp => (g1 p hp).le he.1, v1, n1⟩

theorem grows_flat {β γ : Type} {R : γ → β → Prop} {f : β → M (List Nat)} {g : γ → List (KE × KE)} {qs : List γ} {xs : List β} (hR : List.Forall₂ R qs xs) :
    ∀ {h : Heap}, (∀ q ∈ qs, ∀ x ∈ xs, R q x → ∀ h', Ext h h' → Grows (f x) h' (g q)) → Grows (do let r ← collect f xs; pure r.flatten) h (qs.flatMap g) := by
  induction hR with
  | nil => intro h _; exact grows_run (grows_nil h) rfl
  | @cons q x qs xs hq _ ih =>
    intro h hf
    have h1 := hf q (by simp) x (by simp) hq h (Ext.refl h)
    have h2 : ∀ h', Ext h h' → Grows (do let r ← collect f xs; pure r.flatten) h' (qs.flatMap g) :=
      fun h' he => ih (fun q' hq' x' hx' hr h'' he' => hf q' (by simp [hq']) x' (by simp [hx']) hr h'' (he.trans he'))
    rw [List.flatMap_cons]
    refine grows_run (grows_append h1 h2) ?_
    obtain ⟨ks, h1, e1, x1, _⟩ := h1
    obtain ⟨ks', h2', e2, _⟩ := h2 h1 x1
    have e3 : ∃ r, collect f xs h1 = (.ok r, h2') ∧ r.flatten = ks'.map (fun p => addr p.2) := by
      revert e2
      cases hc : collect f xs h1 with
      | mk a b =>
        cases a with
        | error e => intro e2; simp [bind, hc] at e2
        | ok r =>
          intro e2
          rw [run_bind hc] at e2
          simp only [run_pure, Prod.mk.injEq, Except.ok.injEq] at e2
          exact ⟨r, by rw [e2.2], e2.1⟩
    obtain ⟨r, e3, e4⟩ := e3
    have e5 : collect f (x :: xs) h = (.ok (ks.map (fun p => addr p.2) :: r), h2') := by
      rw [collect, run_bind e1, run_bind e3]; rfl
    rw [run_bind e5, run_bind e1, run_bind e2, run_pure, run_pure, List.flatten_cons, e4]

theorem grows_bases {f : Base → M (List Nat)} {g : Base → List (KE × KE)} (bs : List Base) {h : Heap} (hf : ∀ B ∈ bs, ∀ h', Ext h h' → Grows (f B) h' (g B)) :
    Grows (forBases bs f) h (bs.flatMap g) := by
  refine grows_flat (R := Eq) (List.forall₂_eq_eq_eq ▸ rfl) ?_
  rintro q hq _ _ rfl h' he
  exact hf q hq h' he

/-! ## At one node -/

/-- The node `s` of the traversal of the tree `t`. -/
structure Site (cfg : Cfg) (N : Nat) (h : Heap) (t : LK) (pos : List Step) (s : LK) : Prop where
  linked : WellLinked t
  stored : Stored h t
  lt : ∀ x ∈ ids t, x < N
  le : N ≤ h.length
  visited : ∃ n, N ≤ n ∧ (pos, s) ∈ LK.traverse cfg (fun _ _ => n) t
  node : s.isStr = false
  good : Good h s

theorem Site.ext {cfg : Cfg} {N : Nat} {h h' : Heap} {t s : LK} {pos : List Step} (hs : Site cfg N h t pos s) (he : Ext h h') : Site cfg N h' t pos s :=
  ⟨hs.linked, he.stored hs.stored, hs.lt, Nat.le_trans hs.le he.1, hs.visited, hs.node, hs.good.ext he⟩

/-- The values `deep_apply` gives. -/
def grownOf (t : KE) (pos : List Step) (vs : List KE) : List (KE × KE) := vs.map (fun v => (replaceAt t pos v, v))

theorem grownOf_flatMap {β : Type} (t : KE) (pos : List Step) (g : β → List KE) (bs : List β) :
    grownOf t pos (bs.flatMap g) = bs.flatMap (fun B => grownOf t pos (g B)) := by
  simp only [grownOf, List.map_flatMap]

theorem collect_newTree {cfg : Cfg} {N : Nat} {t s : LK} {pos : List Step} : (ks : List LK) → {h : Heap} → Site cfg N h t pos s →
    (∀ k ∈ ks, k.isStr = false ∧ Good h k ∧ ((∀ x ∈ ids k, x ∉ ids t) ∨ NoTwins t.erase ∧ Branch k s)) →
    Grows (collect (newTree (addr s)) (ks.map addr)) h (grownOf t.erase pos (ks.map LK.erase))
  | [], h, _, _ => grows_nil h
  | k :: ks, h, hs, hk => by
    obtain ⟨hk1, hk2, hk3⟩ := hk k (by simp)
    obtain ⟨n, hn, hv⟩ := hs.visited
    obtain ⟨t', m, h1, e1, x1, g1⟩ := newTree_ok cfg hs.linked hs.stored hs.lt hn hv hs.node hs.good hk1 hk2 hk3
    have g1' : Grown h.length h1 t' m t'.erase m.erase := by rw [g1.value, g1.mvalue]; exact g1
    obtain ⟨ts, h2, e2, x2, g2, v2, n2⟩ := collect_newTree ks (hs.ext x1) (fun k' hk' => ⟨(hk k' (by simp [hk'])).1, (hk k' (by simp [hk'])).2.1.ext x1, (hk k' (by simp [hk'])).2.2⟩)
    refine ⟨(t', m) :: ts, h2, ?_, x1.trans x2, ?_, ?_, ?_⟩
    · rw [List.map_cons, collect, run_bind e1, run_bind e2]; rfl
    · intro p hp
      rcases List.mem_cons.1 hp with rfl | hp
      · exact g1'.ext x2
      · exact (g2 p hp).le x1.1
    · rw [List.map_cons, v2]; simp only [grownOf, List.map_cons, g1.value, g1.mvalue]
    · simp only [List.map_cons, idsL, List.nodup_append]
      refine ⟨g1.linked.2, n2, fun a ha b hb e => ?_⟩
      have := stored_lt _ g1.stored a ha
      have := (grown_lt g2 b hb).1
      omega

theorem forall₂_erase {P : LK → Prop} {ks : List LK} {vs : List KE} (h : List.Forall₂ (fun k v => P k ∧ k.erase = v) ks vs) : ks.map LK.erase = vs ∧ ∀ k ∈ ks, P k := by
  induction h with
  | nil => simp
  | cons h1 _ ih => simp [h1.1, h1.2, ih.1]; exact ih.2

theorem deepApply_from {cfg : Cfg} {N : Nat} {h : Heap} {t s : LK} {pos : List Step} {op : M (List Nat)} {vs : List KE} (hs : Site cfg N h t pos s) (hop : GivesFrom s op h vs)
    (ht : NoTwins t.erase) : Grows (deepApply op (addr s)) h (grownOf t.erase pos vs) := by
  obtain ⟨ks, h1, e1, x1, f1⟩ := hop
  obtain ⟨v1, p1⟩ := forall₂_erase (P := fun k => k.isStr = false ∧ Good h1 k ∧ ((∀ a ∈ ids k, h.length ≤ a) ∨ Branch k s)) (f1.imp (fun k v hk => ⟨⟨hk.1, hk.2.1, hk.2.2.2⟩, hk.2.2.1⟩))
  rw [← v1]
  refine Grows.after x1 (collect_newTree ks (hs.ext x1) ?_) (by rw [deepApply, run_bind e1])
  intro k hk
  obtain ⟨h1, h2, h3⟩ := p1 k hk
  refine ⟨h1, h2, h3.imp (fun hx x hxk hxt => ?_) (fun hb => ⟨ht, hb⟩)⟩
  have := hs.lt x hxt
  have := hx x hxk
  have := hs.le
  omega

theorem deepApply_gives {cfg : Cfg} {N : Nat} {h : Heap} {t s : LK} {pos : List Step} {op : M (List Nat)} {vs : List KE} (hs : Site cfg N h t pos s) (hop : Gives op h vs) :
    Grows (deepApply op (addr s)) h (grownOf t.erase pos vs) := by
  obtain ⟨ks, h1, e1, x1, f1, _⟩ := hop
  obtain ⟨v1, p1⟩ := forall₂_erase (P := fun k => k.isStr = false ∧ Good h1 k ∧ (∀ a ∈ ids k, h.length ≤ a)) (f1.imp (fun k v hk => ⟨⟨hk.node, hk.good, hk.new⟩, hk.value⟩))
  rw [← v1]
  refine Grows.after x1 (collect_newTree ks (hs.ext x1) ?_) (by rw [deepApply, run_bind e1])
  intro k hk
  obtain ⟨h1, h2, h3⟩ := p1 k hk
  refine ⟨h1, h2, .inl (fun x hxk hxt => ?_)⟩
  have := hs.lt x hxt
  have := h3 x hxk
  have := hs.le
  omega

/-! ## Production rules -/

/-- Every production rule does at a node what its operator does to the value of the node. -/
theorem ruleOf_ok {cfg : Cfg} {N : Nat} {h : Heap} {t s : LK} {pos : List Step} (hs : Site cfg N h t pos s) (o : Orders) (r : RuleName) (hr : r = .remove_some_term → NoTwins t.erase) :
    Grows (ruleOf cfg o (addr s) r) h (grownOf t.erase pos (r.rule cfg o s.erase)) := by
  have hstr : ∀ B : Base, ∀ h', Good h' (LK.str B) := fun B h' => good_str h' B
  have href := toRef_obj hs.node
  cases r with
  | plus_base =>
    simp only [RuleName.rule, ruleOf, grownOf_flatMap]
    refine grows_bases _ fun B _ h' he => ?_
    have := add_ok cfg (hs.ext he).good (hstr B h') (by simp [ids])
    rw [href] at this
    exact deepApply_gives (hs.ext he) this
  | times_base =>
    simp only [RuleName.rule, ruleOf, grownOf_flatMap]
    refine grows_bases _ fun B _ h' he => ?_
    have := multiply_ok cfg (hs.ext he).good (hstr B h') (by simp [ids])
    rw [href] at this
    exact deepApply_gives (hs.ext he) this
  | replace_base =>
    simp only [RuleName.rule, ruleOf, grownOf_flatMap]
    refine grows_bases _ fun B _ h' he => ?_
    exact deepApply_gives (hs.ext he) (swapBase_ok cfg B hs.node (hs.ext he).good)
  | change_new_base =>
    simp only [RuleName.rule, ruleOf, grownOf_flatMap]
    refine grows_bases _ fun B _ h' he => ?_
    have := bothChanges_ok cfg (hs.ext he).good (some (LK.str B)) (by simpa using hstr B h')
    rw [href] at this
    exact deepApply_gives (hs.ext he) this
  | change_same =>
    have := bothChanges_ok cfg hs.good none (by simp)
    rw [href] at this
    exact deepApply_gives hs this
  | change_window_constant =>
    have := changesOf_ok cfg .CW hs.good (some (LK.str .C)) (by simpa using hstr .C h)
    rw [href] at this
    exact deepApply_gives hs this
  | change_window_linear =>
    have := changesOf_ok cfg .CW hs.good (some (LK.str .LIN)) (by simpa using hstr .LIN h)
    rw [href] at this
    exact deepApply_gives hs this
  | change_point_linear =>
    have := changesOf_ok cfg .CP hs.good (some (LK.str .LIN)) (by simpa using hstr .LIN h)
    rw [href] at this
    exact deepApply_gives hs this
  | times_shifted_base =>
    simp only [RuleName.rule, ruleOf, grownOf_flatMap]
    refine grows_bases _ fun B _ h' he => ?_
    obtain ⟨k, h1, e1, x1, m1⟩ := newList_nil cfg .sum [B, .C] h'
    have hs1 := (hs.ext he).ext x1
    have := multiply_ok cfg hs1.good m1.good (fun a ha hb => by
      have := stored_lt _ (hs.ext he).good.stored a ha
      have := m1.new a hb
      omega)
    rw [href, toRef_obj m1.node, m1.value] at this
    exact Grows.after x1 (deepApply_gives hs1 this) (run_bind e1)
  | replace_with_singleton =>
    simp only [RuleName.rule, ruleOf, grownOf_flatMap]
    refine grows_bases _ fun B _ h' he => ?_
    obtain ⟨k, h1, e1, x1, m1⟩ := newList_nil cfg .sum [B] h'
    have hs1 := (hs.ext he).ext x1
    have hv : KE.replaceNode cfg s.erase (mkL cfg .sum [B] []) = [k].map LK.erase := by
      rw [← m1.value]
      have := m1.node
      cases k with
      | str => cases this
      | comm => rfl
      | change => rfl
    rw [hv]
    refine Grows.after x1 (collect_newTree [k] hs1 ?_) ((run_bind e1).trans rfl)
    intro k' hk'
    obtain rfl := List.mem_singleton.1 hk'
    refine ⟨m1.node, m1.good, .inl (fun x hx hxt => ?_)⟩
    have := m1.new x hx
    have := stored_lt _ (hs.ext he).stored x hxt
    omega
  | remove_some_term => exact deepApply_from hs (removeATerm_ok cfg hs.node hs.good) (hr rfl)
  | try_higher_curves => exact deepApply_gives hs (higherCurves_ok cfg hs.node hs.good)

/-! ## Without repetitions -/

theorem unique_map {α β : Type} (g : α → β) (eqv : β → β → Bool) : (xs seen : List α) →
    (Util.uniqueGo (fun x y => eqv (g x) (g y)) seen xs).map g = Util.uniqueGo eqv (seen.map g) (xs.map g)
  | [], _ => rfl
  | x :: xs, seen => by
    simp only [Util.uniqueGo, List.map_cons, List.any_map, Function.comp_def]
    split_ifs
    · exact unique_map g eqv xs seen
    · rw [List.map_cons, unique_map g eqv xs (seen ++ [x])]; simp

theorem dropFirst_any {β : Type} {eq : β → Option Bool} {e : β → Bool} : (ys : List β) → (∀ y ∈ ys, eq y = some (e y)) →
    ∃ r, dropFirst eq ys = some r ∧ r.isSome = ys.any e
  | [], _ => ⟨none, rfl, rfl⟩
  | y :: ys, h => by
    obtain ⟨r, e1, e2⟩ := dropFirst_any ys (fun z hz => h z (by simp [hz]))
    have h1 := h y (by simp)
    cases hy : e y with
    | true => exact ⟨some ys, by simp [dropFirst, h1, hy], by simp [hy]⟩
    | false => exact ⟨r.map (y :: ·), by simp [dropFirst, h1, hy, e1], by simp [hy, e2]⟩

theorem uniqueF_ok {α β : Type} {f : α → β} {eq : β → β → Option Bool} {eqv : α → α → Bool} : (xs seen : List α) →
    (∀ x ∈ xs, ∀ y ∈ seen ++ xs, eq (f x) (f y) = some (eqv x y)) → uniqueF eq (seen.map f) (xs.map f) = some ((Util.uniqueGo eqv seen xs).map f)
  | [], _, _ => rfl
  | x :: xs, seen, h => by
    obtain ⟨r, e1, e2⟩ := dropFirst_any (eq := fun z => eq (f x) z) (e := fun z => (eq (f x) z).getD false) (seen.map f) (by
      intro y hy
      obtain ⟨z, hz, rfl⟩ := List.mem_map.1 hy
      rw [h x (by simp) z (by simp [hz])]; rfl)
    have e3 : r.isSome = seen.any (fun z => eqv x z) := by
      rw [e2, List.any_map]
      rw [Bool.eq_iff_iff, List.any_eq_true, List.any_eq_true]
      refine exists_congr fun y => and_congr_right fun hy => ?_
      simp [h x (by simp) y (by simp [hy])]
    simp only [List.map_cons, uniqueF, e1, Util.uniqueGo, ← e3]
    cases r with
    | some r =>
      simp only [Option.isSome_some, if_true]
      exact uniqueF_ok xs seen (fun x' hx' y hy => h x' (by simp [hx']) y (by simp only [List.mem_append, List.mem_cons] at hy ⊢; tauto))
    | none =>
      have := uniqueF_ok (f := f) (eq := eq) (eqv := eqv) xs (seen ++ [x]) (fun x' hx' y hy => h x' (by simp [hx']) y (by simpa using hy))
      rw [List.map_append, List.map_singleton] at this
      simp [this]

/-- `unique` of trees in a store. -/
theorem uniqueM_ok {α : Type} (m : α → LK) (xs : List α) {h : Heap} (hx : ∀ x ∈ xs, (m x).isStr = false ∧ Stored h (m x) ∧ (ids (m x)).Nodup) :
    uniqueM (xs.map (fun x => addr (m x))) h = (.ok ((Util.unique (fun x y => keq (m x).erase (m y).erase) xs).map (fun x => addr (m x))), h) := by
  refine run_ask ?_
  refine uniqueF_ok (f := fun x => addr (m x)) (eq := eqO h) (eqv := fun x y => keq (m x).erase (m y).erase) xs [] ?_
  intro x hx' y hy
  exact eqO_ok (hx x hx').2.1 (hx x hx').2.2 (hx y (by simpa using hy)).2.1 (hx x hx').1 (hx y (by simpa using hy)).1

theorem Grows.unique {m : M (List Nat)} {h : Heap} {vs : List (KE × KE)} (hm : Grows m h vs) :
    Grows (do let r ← m; uniqueM r) h (Util.unique (fun x y => keq x.2 y.2) vs) := by
  obtain ⟨ts, h1, e1, x1, g1, v1, n1⟩ := hm
  have hsub : (Util.unique (fun x y : LK × LK => keq x.2.erase y.2.erase) ts).Sublist ts := Util.uniqueGo_sublist _ _ _
  refine ⟨Util.unique (fun x y : LK × LK => keq x.2.erase y.2.erase) ts, h1, ?_, x1, fun p hp => g1 p (hsub.subset hp), ?_, ?_⟩
  · rw [run_bind e1]
    exact uniqueM_ok (fun p : LK × LK => p.2) ts (fun p hp => ⟨(g1 p hp).node, (g1 p hp).mstored, (g1 p hp).mnodup⟩)
  · rw [← v1]
    exact unique_map (fun p : LK × LK => (p.1.erase, p.2.erase)) (fun x y => keq x.2 y.2) ts []
  · exact n1.sublist (idsL_sub (hsub.map _))

/-- `expand_node` -/
theorem expandNode_ok {cfg : Cfg} {N : Nat} {h : Heap} {t s : LK} {pos : List Step} (hs : Site cfg N h t pos s) (o : Orders) (rules : List RuleName)
    (hr : .remove_some_term ∈ rules → NoTwins t.erase) :
    Grows (expandNode cfg o rules (addr s)) h (grownOf t.erase pos (KE.expandNode (rules.map (RuleName.rule cfg o)) s.erase)) := by
  have h1 : Grows (do let r ← collect (ruleOf cfg o (addr s)) rules; pure r.flatten) h (rules.flatMap (fun r => grownOf t.erase pos (r.rule cfg o s.erase))) := by
    refine grows_flat (R := Eq) (List.forall₂_eq_eq_eq ▸ rfl) ?_
    rintro r hr' _ _ rfl h' he
    exact ruleOf_ok (hs.ext he) o r (fun e => hr (e ▸ hr'))
  rw [← grownOf_flatMap] at h1
  have h2 := h1.unique
  have e : grownOf t.erase pos (KE.expandNode (rules.map (RuleName.rule cfg o)) s.erase) =
      Util.unique (fun x y => keq x.2 y.2) (grownOf t.erase pos (rules.flatMap (fun r => r.rule cfg o s.erase))) := by
    rw [KE.expandNode, List.flatMap_map]
    simp only [grownOf, Util.unique]
    have := unique_map (fun v => (replaceAt t.erase pos v, v)) (fun x y : KE × KE => keq x.2 y.2) (rules.flatMap (fun r => r.rule cfg o s.erase)) []
    exact this
  rw [e]
  refine grows_run h2 ?_
  obtain ⟨ts, h', e1, _⟩ := h1
  rw [run_bind e1, expandNode]
  cases hc : collect (ruleOf cfg o (addr s)) rules h with
  | mk a b =>
    cases a with
    | error e => simp [bind, hc] at e1
    | ok r =>
      rw [run_bind hc] at e1
      simp only [run_pure, Prod.mk.injEq, Except.ok.injEq] at e1
      rw [run_bind hc, e1.1, e1.2]

end Objects
end GPyABCD
