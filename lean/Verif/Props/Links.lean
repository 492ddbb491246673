import Verif.Lemmas.LinksTree

/-!
# Properties C08 and C73: links
-/

namespace GPyABCD
open Links KE

/-! ## C08: `_initialise` -/

/-- C08. After `_initialise`, whatever the links were before: every root link is the node itself, and every parent link below it is the node
that holds it. (Its own parent link is not touched.) -/
theorem C08_links (cfg : Cfg) (k : LK) (i : Nat) (hi : k.id? = some i) (hp : Proper k) :
    (LK.initialise cfg k).id? = some i ∧ Linked i k.parent (LK.initialise cfg k) := by
  constructor
  · rw [LK.initialise, (simplify_id cfg _).1]; simp [hi]
  · rw [linked_iff, LK.initialise, setRoot_eq, hi]
    exact simplify_G cfg _ _ (G_set i k hp)

mutual
private theorem check_iff : (k : LK) → (k.checkAllParents = true ↔ Parents k)
  | .str _ => by simp [LK.checkAllParents, Parents]
  | .comm i r p op bts cts => by rw [LK.checkAllParents, Parents, checkL_iff i cts]
  | .change i r p c l r' => by
    simp only [LK.checkAllParents, Parents, Bool.and_eq_true, Bool.or_eq_true, decide_eq_true_eq, check_iff l, check_iff r']
    have : ∀ k : LK, k.isStr = true → Parents k := by intro k hk; cases k <;> simp [LK.isStr, Parents] at *
    cases hl : l.isStr <;> cases hr : r'.isStr <;> simp [hl, hr, this] <;> tauto
private theorem checkL_iff (i : Nat) : (ks : List LK) → (LK.checkAllParentsL i ks = true ↔ ParentsL i ks)
  | [] => by simp [LK.checkAllParentsL, ParentsL]
  | k :: ks => by
    simp only [LK.checkAllParentsL, ParentsL, Bool.and_eq_true, decide_eq_true_eq, check_iff k, checkL_iff i ks]
    have : k.parent = some i → k.isStr = false := by cases k <;> simp [LK.isStr, LK.parent]
    tauto
end

/-- `_check_all_parents` tells exactly whether the parent links are right. -/
theorem C08_check_iff (k : LK) : k.checkAllParents = true ↔ Parents k := check_iff k

/-- C08, as the code checks it. -/
theorem C08_check (cfg : Cfg) (k : LK) (hk : k.isStr = false) (hp : Proper k) : (LK.initialise cfg k).checkAllParents = true := by
  obtain ⟨i, hi⟩ : ∃ i, k.id? = some i := by cases k <;> simp [LK.isStr, LK.id?] at *
  have := (C08_links cfg k i hi hp).2
  rw [linked_iff] at this
  rw [C08_check_iff, parents_iff]
  exact G_mono (fun _ _ => trivial) (fun _ _ => trivial) this

/-- `_initialise` simplifies and does nothing else. -/
theorem C08_simplifies (cfg : Cfg) (k : LK) : (LK.initialise cfg k).erase = KE.simplify cfg k.erase := by
  rw [LK.initialise, simplify_erase, erase_setAllParents, erase_setRoot]

/-- A tree without a parent becomes a well-linked tree. -/
theorem C08_well_linked (cfg : Cfg) (k : LK) (hk : k.isStr = false) (hp : Proper k) (h0 : k.parent = none) (hn : (ids k).Nodup) :
    WellLinked (LK.initialise cfg k) := by
  obtain ⟨i, hi⟩ : ∃ i, k.id? = some i := by cases k <;> simp [LK.isStr, LK.id?] at *
  obtain ⟨h1, h2⟩ := C08_links cfg k i hi hp
  refine ⟨⟨i, h1, by rw [h0] at h2; exact h2⟩, ?_⟩
  refine nodup_subperm (ids_simplify cfg _) ?_
  rw [ids_setAllParents, ids_setRoot]; exact hn

/-- In a well-linked tree `is_root` never raises and is true of the top node only, also for the temporary nodes of `traverse`. -/
theorem C08_is_root (cfg : Cfg) (k : LK) (h : WellLinked k) (fresh : Nat → Bool → Nat) (hf : ∀ i b, fresh i b ∉ ids k)
    (q : List Step × LK) (hq : q ∈ LK.traverse cfg fresh k) : q.2.isRoot = some (decide (q.1 = [])) := by
  obtain ⟨⟨i, h1, h2⟩, h3⟩ := h
  by_cases hq0 : q.1 = []
  · rw [traverse_top hq hq0]
    cases k with
    | str => cases h1
    | comm => simp only [Linked] at h2; cases h1; simp [LK.isRoot, h2.1, h2.2.1, hq0]
    | change => simp only [Linked] at h2; cases h1; simp [LK.isRoot, h2.1, h2.2.1, hq0]
  · rw [linked_iff] at h2
    obtain ⟨y, _, _, r1, ⟨n, n1, n2, _⟩, _⟩ := update_ok k h2 h3 hf hq hq0
    rw [h1] at n2
    obtain ⟨q1, q2⟩ := q
    cases q2 with
    | str => cases n1
    | comm => simp only [LK.id?, LK.root] at n1 r1; cases n1; subst r1; simp [LK.isRoot, Ne.symm n2]; exact hq0
    | change => simp only [LK.id?, LK.root] at n1 r1; cases n1; subst r1; simp [LK.isRoot, Ne.symm n2]; exact hq0

/-- A product with stale links in a sum in a product. -/
def exampleLinks : LK :=
  .comm 1 (some 7) none .prod [(.LIN, 1)] [.comm 2 none (some 9) .sum [(.PER, 1)] [.change 3 (some 3) none .CP (.str .WN) (.comm 4 none none .prod [(.SE, 2)] [])],
    .comm 5 (some 5) (some 5) .prod [] [.comm 6 none none .sum [(.C, 1), (.SE, 1)] []]]

example : WellLinked (LK.initialise Cfg.default exampleLinks) :=
  C08_well_linked _ _ rfl (by simp [exampleLinks, Proper, ProperL, LK.isStr]) rfl (by decide)

example : (LK.initialise Cfg.default exampleLinks).erase =
    .comm .prod [(.LIN, 1)] [.comm .sum [(.PER, 1)] [.change .CP (.base .WN) (.base .SE)], .comm .sum [(.C, 1), (.SE, 1)] []] := by rfl

example : exampleLinks.checkAllParents = false := by decide

/-! ## C73: construction and expansion -/

/-- C73, constructors: whatever the root links of the arguments and the parent links of the arguments themselves, the new node is the
expression of the model without links, and all parent links in it are right. -/
theorem C73_new_comm (cfg : Cfg) (i : Nat) (f : Nat → Nat) (op : Op) (bts : Counter) (cts : List LK)
    (h : ∀ ct ∈ cts, ct.isStr = false ∧ Parents ct) :
    (LK.newComm cfg i f op bts cts).erase = mkC cfg op bts (cts.map LK.erase) ∧ Parents (LK.newComm cfg i f op bts cts) := by
  constructor
  · rw [LK.newComm, erase_adopt, simplify_erase, LK.erase, eraseL_copy, eraseL_eq]; rfl
  · rw [parents_iff]
    have hc : GL (fun _ => True) (fun _ => True) (LK.copyL f cts) :=
      GL_copy f (T := fun _ => True) (fun _ _ => trivial) cts (GL_iff.2 fun ct hct => ⟨(h ct hct).1, (parents_iff ct).1 (h ct hct).2⟩)
    have hs : ∀ k ∈ LK.simplifyL cfg (LK.copyL f cts), k.isStr = false ∧ G (fun _ => True) (fun _ => True) k := by
      rw [simplifyL_eq']
      intro k hk
      obtain ⟨k', h1, rfl⟩ := List.mem_map.1 hk
      obtain ⟨h2, h3⟩ := GL_iff.1 hc k' h1
      exact ⟨by rw [(simplify_id cfg k').2.1]; exact h2, simplify_G cfg k' _ h3⟩
    obtain ⟨b, c, e, h2⟩ := absorb_G cfg (T' := fun _ => True) (r := none) (q := none) (i := i) op bts _ trivial hs
    rw [LK.newComm, LK.simplify, e]
    exact adopt_G (fun _ _ _ _ _ _ hh => by cases hh; exact h2) (fun _ _ _ _ _ _ hh => by cases hh)

/-- C73, the constructor of change operators. -/
theorem C73_new_change (cfg : Cfg) (i : Nat) (f g : Nat → Nat) (c : CC) (l r : LK) (hl : Parents l) (hr : Parents r) :
    (LK.newChange cfg i f g c l r).erase = mkChange cfg c l.erase r.erase ∧ Parents (LK.newChange cfg i f g c l r) := by
  constructor
  · rw [LK.newChange, erase_adopt, simplify_erase, LK.erase, erase_copy, erase_copy]; rfl
  · rw [parents_iff] at *
    rw [LK.newChange, LK.simplify]
    refine adopt_G (fun _ _ _ _ _ _ hh => by cases hh) (fun _ _ _ _ _ _ hh => ?_)
    cases hh
    exact ⟨extract_G (simplify_G cfg _ _ (G_copy f (T := fun _ => True) (fun _ _ => trivial) l hl)),
      extract_G (simplify_G cfg _ _ (G_copy g (T := fun _ => True) (fun _ _ => trivial) r hr))⟩

/-- No node occurs twice in a new node if the copies are new. -/
theorem C73_new_tree (cfg : Cfg) (i : Nat) (f : Nat → Nat) (op : Op) (bts : Counter) (cts : List LK)
    (hf : Function.Injective f) (hi : ∀ n, f n ≠ i) (hn : (idsL cts).Nodup) : (ids (LK.newComm cfg i f op bts cts)).Nodup := by
  rw [LK.newComm, ids_adopt]
  refine nodup_subperm (ids_simplify cfg _) ?_
  rw [ids, idsL_copy]
  refine List.nodup_cons.2 ⟨?_, hn.map hf⟩
  intro h
  obtain ⟨n, _, e⟩ := List.mem_map.1 h
  exact hi n e

/-- The root links of a new node are wrong, before `_initialise` or being put into a tree: every composite term takes itself for a root
although it has a parent, so that `is_root`, and with it `match_up_fit_parameters`, raises `AssertionError`. -/
theorem C73_new_roots (cfg : Cfg) (i : Nat) (f : Nat → Nat) (op : Op) (bts : Counter) (cts : List LK)
    (h : ∀ ct ∈ cts, ct.isStr = false ∧ Parents ct) :
    ∃ b c, LK.newComm cfg i f op bts cts = .comm i none none op b c ∧ ∀ ct ∈ c, ct.isRoot = none := by
  have h0 : GL (fun _ => True) (fun _ => True) (LK.simplifyL cfg (LK.copyL f cts)) := by
    have hc : GL (fun _ => True) (fun _ => True) (LK.copyL f cts) :=
      GL_copy f (T := fun _ => True) (fun _ _ => trivial) cts (GL_iff.2 fun ct hct => ⟨(h ct hct).1, (parents_iff ct).1 (h ct hct).2⟩)
    rw [simplifyL_eq', GL_iff]
    intro k hk
    obtain ⟨k', h1, rfl⟩ := List.mem_map.1 hk
    obtain ⟨h2, h3⟩ := GL_iff.1 hc k' h1
    exact ⟨by rw [(simplify_id cfg k').2.1]; exact h2, simplify_G cfg k' _ h3⟩
  obtain ⟨b, c, e, h2⟩ := absorb_G cfg (T' := fun _ => True) (r := none) (q := none) (i := i) op bts _ trivial (GL_iff.1 h0)
  refine ⟨b, c.map (fun ct => LK.setRoot none (LK.setParent (some i) ct)), ?_, ?_⟩
  · rw [LK.newComm, LK.simplify, e]; rfl
  · intro ct hct
    obtain ⟨k, hk, rfl⟩ := List.mem_map.1 hct
    have := (h2 k hk).1
    cases k with
    | str => cases this
    | comm => simp [LK.setParent, LK.setRoot, LK.setRootTo, LK.isRoot]
    | change => simp [LK.setParent, LK.setRoot, LK.setRootTo, LK.isRoot]

example : ∃ b c, LK.newComm Cfg.default 9 (fun n => n + 10) .sum [(.LIN, 1)] [.comm 2 none none .prod [(.PER, 1), (.LIN, 1)] []] = .comm 9 none none .sum b c ∧
    c ≠ [] ∧ ∀ ct ∈ c, ct.isRoot = none := by
  exact ⟨_, [.comm 12 (some 12) (some 9) .prod [(.PER, 1), (.LIN, 1)] []], rfl, by simp, by decide⟩

/-- C73. Replacing, through its parent link, a node visited by `traverse` in a well-linked tree with a new node: never raises, is replacing the node
at its position in the model without links, and gives a well-linked tree. -/
theorem C73_replace (cfg : Cfg) (t : LK) (ht : WellLinked t) (fresh : Nat → Bool → Nat) (hf : ∀ i b, fresh i b ∉ ids t)
    (q : List Step × LK) (hq : q ∈ LK.traverse cfg fresh t) (new : LK) (hs : new.isStr = false) (hp : Parents new)
    (hn : (ids new).Nodup) (hd : ∀ n ∈ ids new, n ∉ ids t) :
    ∃ t', LK.newTree t q.2 new = some t' ∧ t'.erase = replaceAt t.erase q.1 new.erase ∧ WellLinked t' := by
  have hroot := C08_is_root cfg t ht fresh hf q hq
  obtain ⟨⟨i, h1, h2⟩, h3⟩ := ht
  by_cases hq0 : q.1 = []
  · simp only [hq0, decide_true] at hroot
    refine ⟨LK.setRoot none (LK.setParent none new), by rw [LK.newTree, hroot], ?_, ?_⟩
    · rw [hq0, erase_setRoot, erase_setParent]; cases t.erase <;> rfl
    · obtain ⟨j, hj⟩ : ∃ j, new.id? = some j := by cases new <;> simp [LK.isStr, LK.id?] at *
      refine ⟨⟨j, by simp [hj], ?_⟩, by simpa using hn⟩
      rw [linked_iff, setRoot_eq]
      simp only [id_setParent, hj, Option.getD_none]
      exact G_setRootTo j _ (G_setParent ((parents_iff new).1 hp) rfl)
  · simp only [hq0, decide_false] at hroot
    rw [linked_iff] at h2
    obtain ⟨y, hy, y1, y2, _, y3⟩ := update_ok t h2 h3 hf hq hq0
    have hnew : G (fun r => r = some i) (fun p => p = some y) (LK.setRoot (some i) (LK.setParent (some y) new)) := by
      obtain ⟨j, hj⟩ : ∃ j, new.id? = some j := by cases new <;> simp [LK.isStr, LK.id?] at *
      rw [setRoot_eq]
      simp only [id_setParent, hj, Option.getD_some]
      exact G_setRootTo i _ (G_setParent ((parents_iff new).1 hp) rfl)
    have H := y3 _ (by simp [hs]) hnew
    refine ⟨_, by rw [LK.newTree, hroot]; simp only [y1, y2], ?_, ⟨⟨i, by rw [H.top.1, h1], (linked_iff _ _ _).2 H.links⟩, ?_⟩⟩
    · rw [H.erase]; simp
    · refine nodup_subperm H.ids ?_
      rw [List.nodup_append]
      refine ⟨h3, by simpa using hn, ?_⟩
      intro a ha b hb e
      subst e
      exact hd a (by simpa using hb) ha

/-- `traverse` visits the nodes that the model without links visits, in the same order. -/
theorem C73_traverse (cfg : Cfg) (fresh : Nat → Bool → Nat) (k : LK) :
    (LK.traverse cfg fresh k).map (fun q => (q.1, q.2.erase)) = KE.traverse cfg k.erase :=
  traverse_erase cfg fresh k

/-- C73, `standardise_singleton_root`: the result is well linked and is that of the model without links. -/
theorem C73_standardise (cfg : Cfg) (j n : Nat) (t t' : LK) (ht : WellLinked t) (h : LK.standardiseF cfg j n t = some t') :
    WellLinked t' ∧ KE.standardiseF cfg n t.erase = some t'.erase := by
  induction n generalizing t with
  | zero => cases h
  | succ n ih =>
    obtain ⟨⟨i, h1, h2⟩, h3⟩ := ht
    rw [linked_iff] at h2
    have hs := simplify_G cfg t _ h2
    have hid := simplify_id cfg t
    have hnd := nodup_subperm (ids_simplify cfg t) h3
    simp only [LK.standardiseF] at h
    simp only [KE.standardiseF, ← simplify_erase]
    split_ifs at h with he
    · cases h
      rw [if_pos he]
      exact ⟨⟨⟨i, by rw [hid.1, h1], (linked_iff _ _ _).2 hs⟩, hnd⟩, rfl⟩
    · rw [if_neg he, ← extract_erase]
      have hx := extract_G hs
      have hxn := (ids_extract (LK.simplify cfg t)).nodup hnd
      revert h hx hxn
      generalize LK.extract (LK.simplify cfg t) = e
      intro h hx hxn
      have fin : ∀ e : LK, e.isStr = false → G (fun r => r = some i) (fun q => q = none) e → (ids e).Nodup →
          WellLinked (LK.setRoot none (LK.setParent none e)) := by
        intro e he hx hxn
        obtain ⟨a, ha⟩ : ∃ a, e.id? = some a := by cases e <;> simp [LK.isStr, LK.id?] at *
        refine ⟨⟨a, by simp [ha], ?_⟩, by simpa using hxn⟩
        rw [linked_iff, setRoot_eq]
        simp only [id_setParent, ha, Option.getD_none]
        exact G_setRootTo a _ (G_setParent hx rfl)
      cases e with
      | str b =>
        simp only [Option.some.injEq] at h
        subst h
        obtain ⟨bts, e1, e2⟩ := newComm_nil cfg j (fun n => n) .sum (Counter.ofList [b])
        rw [e1]
        refine ⟨⟨⟨j, rfl, ?_⟩, by simp [LK.setRoot, LK.setRootTo, ids, LK.setRootToL, idsL]⟩, ?_⟩
        · simp [LK.setRoot, LK.setRootTo, Linked, LK.setRootToL, LinkedL]
        · simp only [LK.erase, erase_setRoot, LK.eraseL]; rw [← e2]; rfl
      | comm =>
        obtain ⟨a, b⟩ := ih _ (fin _ rfl hx hxn) h
        refine ⟨a, ?_⟩
        rw [← b]; simp [LK.erase]
      | change =>
        obtain ⟨a, b⟩ := ih _ (fin _ rfl hx hxn) h
        refine ⟨a, ?_⟩
        rw [← b]; simp [LK.erase]

/-- Replacing the branch of the change operator in the example. -/
example : ∃ t q t', WellLinked t ∧ q ∈ LK.traverse Cfg.default (fun i b => 100 + 2 * i + b.toNat) t ∧ q.1 = [.idx 0, .idx 0, .vleft] ∧
    LK.newTree t q.2 (.comm 50 none none .sum [(.LIN, 1), (.PER, 1)] []) = some t' ∧ WellLinked t' ∧
    t'.erase = .comm .prod [(.LIN, 1)] [.comm .sum [(.PER, 1)] [.change .CP (.base .WN) (.comm .sum [(.LIN, 1), (.PER, 1)] [])], .comm .sum [(.C, 1), (.SE, 1)] []] := by
  have ht := C08_well_linked Cfg.default exampleLinks rfl (by simp [exampleLinks, Proper, ProperL, LK.isStr]) rfl (by decide)
  have hids : ids (LK.initialise Cfg.default exampleLinks) = [1, 2, 3, 6] := by rfl
  have hq : ∃ q ∈ LK.traverse Cfg.default (fun i b => 100 + 2 * i + b.toNat) (LK.initialise Cfg.default exampleLinks), q.1 = [.idx 0, .idx 0, .vleft] :=
    ⟨_, List.mem_cons_of_mem _ (List.mem_cons_of_mem _ (List.mem_cons_of_mem _ List.mem_cons_self)), rfl⟩
  obtain ⟨q, hq, hq1⟩ := hq
  obtain ⟨t', h1, h2, h3⟩ := C73_replace Cfg.default _ ht (fun i b => 100 + 2 * i + b.toNat) (by intro i b; rw [hids]; simp; omega) q hq
    (.comm 50 none none .sum [(.LIN, 1), (.PER, 1)] []) rfl (by simp [Parents, ParentsL]) (by decide) (by rw [hids]; decide)
  refine ⟨_, q, t', ht, hq, hq1, h1, h3, ?_⟩
  rw [h2, hq1]; rfl

/-- A sum of two equal change-points, well linked. -/
def exampleTwins : LK :=
  .comm 0 (some 0) none .sum [] [.change 1 (some 0) (some 0) .CP (.comm 2 (some 0) (some 1) .prod [(.LIN, 1), (.PER, 1)] []) (.str .WN),
    .change 3 (some 0) (some 0) .CP (.comm 4 (some 0) (some 3) .prod [(.LIN, 1), (.PER, 1)] []) (.str .WN)]

/-- Why C73_replace asks for a new node: `remove_a_term` gives the branch itself of a change operator, and `list.remove` takes the first *equal*
term away. Of two equal change-points in a sum the second one stays when its left branch is to replace it; the branch is then in the tree twice
(number 4), and one of the two places must be wrong about its parent link. -/
theorem C73_shared_branch : ∃ t s new, WellLinked t ∧ ([.idx 1], s) ∈ LK.traverse Cfg.default (fun i b => 100 + 2 * i + b.toNat) t ∧
    (∃ i r p c l r', s = .change i r p c l r' ∧ l = new) ∧
    ∃ t', LK.newTree t s new = some t' ∧ (ids t').count 4 = 2 ∧ ¬ WellLinked t' := by
  refine ⟨exampleTwins, .change 3 (some 0) (some 0) .CP (.comm 4 (some 0) (some 3) .prod [(.LIN, 1), (.PER, 1)] []) (.str .WN), _, ?_, ?_,
    ⟨_, _, _, _, _, _, rfl, rfl⟩, _, rfl, ?_, ?_⟩
  · exact ⟨⟨0, rfl, by simp [exampleTwins, Linked, LinkedL, LK.isStr]⟩, by decide⟩
  · refine List.mem_of_getElem? (i := 4) ?_
    rfl
  · rfl
  · rintro ⟨-, h⟩
    revert h; decide

end GPyABCD
