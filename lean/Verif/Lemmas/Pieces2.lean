import Verif.Lemmas.Pieces

/-!
# Expansion where some of the new objects share parts: the roots
-/

namespace GPyABCD

namespace Util

/-- What `unique` keeps has nothing equal before it. -/
theorem uniqueGo_first {α : Type} {eqv : α → α → Bool} (ht : ∀ a b c, eqv a b = true → eqv b c = true → eqv a c = true) : (xs seen : List α) → (y : α) → y ∈ uniqueGo eqv seen xs →
    ∃ pre post, xs = pre ++ y :: post ∧ ∀ z ∈ pre, eqv y z = false
  | [], _, y, hy => by simp [uniqueGo] at hy
  | x :: xs, seen, y, hy => by
    have hseen := uniqueGo_seen eqv seen (x :: xs) y hy
    rw [uniqueGo] at hy
    split at hy
    · next h1 =>
      obtain ⟨z, hz, hxz⟩ := List.any_eq_true.1 h1
      obtain ⟨pre, post, rfl, h2⟩ := uniqueGo_first ht xs seen y hy
      refine ⟨x :: pre, post, rfl, fun w hw => ?_⟩
      rcases List.mem_cons.1 hw with rfl | hw
      · cases e : eqv y w with
        | false => rfl
        | true => have := ht _ _ _ e hxz; rw [hseen z hz] at this; cases this
      · exact h2 w hw
    · rcases List.mem_cons.1 hy with rfl | hy
      · exact ⟨[], xs, rfl, by simp⟩
      · have h3 := uniqueGo_seen eqv _ xs y hy x (by simp)
        obtain ⟨pre, post, rfl, h2⟩ := uniqueGo_first ht xs _ y hy
        refine ⟨x :: pre, post, rfl, fun w hw => ?_⟩
        rcases List.mem_cons.1 hw with rfl | hw
        · exact h3
        · exact h2 w hw

end Util

/-- An entry of a list made from the entries of another. -/
theorem flatMap_split {α β : Type} {g : α → List β} : {l : List α} → {pre post : List β} → {x : β} → l.flatMap g = pre ++ x :: post →
    ∃ l1 a l2 p, l = l1 ++ a :: l2 ∧ x ∈ g a ∧ pre = l1.flatMap g ++ p
  | [], pre, post, x, h => by simp at h
  | a :: l, pre, post, x, h => by
    rw [List.flatMap_cons] at h
    rcases List.append_eq_append_iff.1 h with ⟨c, rfl, h2⟩ | ⟨c, h1, h2⟩
    · obtain ⟨l1, b, l2, p, rfl, hx, rfl⟩ := flatMap_split h2
      exact ⟨a :: l1, b, l2, p, rfl, hx, by simp⟩
    · cases c with
      | nil =>
        simp only [List.nil_append, List.append_nil] at h1 h2
        obtain ⟨l1, b, l2, p, rfl, hx, hp⟩ := flatMap_split (l := l) (pre := []) (post := post) (x := x) h2.symm
        exact ⟨a :: l1, b, l2, p, rfl, hx, by rw [List.flatMap_cons, List.append_assoc, ← hp, List.append_nil, h1]⟩
      | cons y c =>
        simp only [List.cons_append, List.cons.injEq] at h2
        obtain ⟨rfl, _⟩ := h2
        exact ⟨[], a, l, pre, rfl, by rw [h1]; simp, by simp⟩

namespace Objects
open Links Links.LK
open KE hiding nodes

/-! ## The roots -/

/-- A root, its value, whether it may share parts, and the addresses it is stored at. -/
structure Res where
  root : Nat
  val : KE
  shared : Prop
  reg : Nat → Prop

structure Res.Ok (h : Heap) (r : Res) : Prop where
  low : ∀ a, r.reg a → a < h.length
  val : ∀ h', Agree r.reg h h' → Val h' (.obj r.root) r.val
  tree : ¬ r.shared → ∃ t : LK, addr t = r.root ∧ Stored h t ∧ WellLinked t ∧ t.erase = r.val ∧ ∀ a ∈ ids t, r.reg a

theorem Res.Ok.agree {h h' : Heap} {r : Res} (hr : r.Ok h) (ha : Agree r.reg h h') : r.Ok h' := by
  refine ⟨fun a h1 => Nat.lt_of_lt_of_le (hr.low a h1) ha.1, fun h2 h3 => hr.val h2 (ha.trans h3), fun hn => ?_⟩
  obtain ⟨t, h1, h2, h3, h4, h5⟩ := hr.tree hn
  exact ⟨t, h1, stored_congr t (fun a hm => ha.2 a (h5 a hm)) h2, h3, h4, h5⟩

theorem Frame.agree {A B : Nat → Prop} {h h' : Heap} (hf : Frame A h h') (hB : ∀ a, B a → a < h.length ∧ ¬ A a) : Agree B h h' :=
  ⟨hf.1, fun a ha => hf.2 a (hB a ha).1 (hB a ha).2⟩

theorem rootsP {cfg : Cfg} {L : Nat} : (ps : List Piece) → {h : Heap} → (∀ p ∈ ps, p.Ok cfg L h) → ps.Pairwise (fun p q => ∀ a, p.reg a → ¬ q.reg a) →
    ∃ (rs : List Res) (h' : Heap), collect (rootOf cfg) (ps.map Piece.node) h = (.ok (rs.map Res.root), h') ∧ Frame (fun a => ∃ p ∈ ps, p.reg a) h h' ∧
      (∀ r ∈ rs, r.Ok h') ∧ rs.Pairwise (fun p q => ∀ a, p.reg a → ¬ q.reg a) ∧ (∀ r ∈ rs, ∀ a, r.reg a → (∃ p ∈ ps, p.reg a) ∨ h.length ≤ a) ∧
      List.Forall₂ (fun p r => (∃ n, KE.standardiseF cfg n p.vt = some r.val) ∧ p.shared = r.shared) ps rs
  | [], h, _, _ => ⟨[], h, rfl, Frame.refl _ _, by simp, .nil, by simp, .nil⟩
  | p :: ps, h, hp, hn => by
    obtain ⟨r, w, B, h1, e1, f1, v1, i1, s1, t1⟩ := (hp p (by simp)).go h (Agree.refl _ _)
    obtain ⟨n1, n2⟩ := List.pairwise_cons.1 hn
    obtain ⟨rs, h2, e2, f2, s2, m2, i2, v2⟩ := rootsP ps (h := h1) (fun q hq => (hp q (by simp [hq])).agree
      (f1.agree (fun a ha => ⟨((hp q (by simp [hq])).low a ha).2, fun ha' => n1 q hq a ha' ha⟩))) n2
    have hsep : ∀ a, B a → ¬ ∃ p ∈ ps, p.reg a := by
      rintro a ha ⟨q, hq, ha'⟩
      rcases (i1 a ha).1 with h5 | h5
      · exact n1 q hq a h5 ha'
      · have := ((hp q (by simp [hq])).low a ha').2; omega
    have hok : Res.Ok h1 ⟨r, w, p.shared, B⟩ := ⟨fun a ha => (i1 a ha).2, s1, t1⟩
    refine ⟨⟨r, w, p.shared, B⟩ :: rs, h2, ?_, ?_, ?_, .cons ?_ m2, ?_, .cons ⟨v1, rfl⟩ v2⟩
    · rw [List.map_cons, collect, run_bind e1, run_bind e2]; rfl
    · exact (f1.mono (fun a _ ha => ⟨p, by simp, ha⟩)).trans (f2.mono (fun a _ ⟨q, hq, ha⟩ => ⟨q, by simp [hq], ha⟩))
    · intro k hk
      rcases List.mem_cons.1 hk with rfl | hk
      · exact hok.agree (f2.agree fun a ha => ⟨(i1 a ha).2, hsep a ha⟩)
      · exact s2 k hk
    · intro q hq a ha ha'
      rcases i2 q hq a ha' with h5 | h5
      · exact hsep a ha h5
      · have := (i1 a ha).2; omega
    · intro k hk a ha
      rcases List.mem_cons.1 hk with rfl | hk
      · exact (i1 a ha).1.imp (fun h5 => ⟨p, by simp, h5⟩) id
      · exact (i2 k hk a ha).imp (fun ⟨q, hq, h5⟩ => ⟨q, by simp [hq], h5⟩) (Nat.le_trans f1.1)

/-! ## What replaces a change operator by one of its branches -/

theorem branch_erase {k s : LK} (hb : Branch k s) : ∃ c l r, s.erase = .change c l r ∧ (k.erase = l ∨ k.erase = r) := by
  cases s with
  | str => cases hb
  | comm => cases hb
  | change i p r c l q =>
    simp only [Branch] at hb
    refine ⟨c, l.erase, q.erase, by rw [LK.erase], ?_⟩
    rcases hb with h | h
    · exact .inl (by rw [h])
    · exact .inr (by rw [h])

theorem erase_not_base {k : LK} (h : k.isStr = false) : k.erase.isBase = false := by
  cases k with
  | str => cases h
  | comm => rfl
  | change => rfl

theorem sound_replaced {cfg : Cfg} {t : KE} {pos : List Step} {s k : LK} (ht : settled cfg t = true) (hq : (pos, s.erase) ∈ KE.traverse cfg t)
    (hb : Branch k s) (hk : k.isStr = false) : Sound cfg (replaceAt t pos k.erase) := by
  have hw := (settled_iff.1 ht).1
  have hS := traverse_node hw hq
  have hset := hS.2.2 ht
  obtain ⟨c, l, r, e, h1⟩ := branch_erase hb
  have hkb := erase_not_base hk
  have hks : settled cfg k.erase = true ∧ isSingleton k.erase = false := by
    rw [e] at hset
    rcases h1 with h1 | h1 <;> rw [h1]
    · exact (settled_branch hset).1
    · exact (settled_branch hset).2
  have hrep := repl_of_traverse (new := k.erase) hq
  have h2 := repl_settled hrep ht (by rw [e]; rfl) hks.1 hks.2 hkb
  exact (sound_of_settled _ _ (Nat.le_refl _) h2.1).1

/-! ## Expansion -/

/-- What a rule gives at an earlier equal node. -/
theorem expandNode_same {cfg : Cfg} {o : Orders} {rules : List RuleName} {s s0 v : KE} (hs : wf s = true) (hs0 : wf s0 = true) (h : GPyABCD.Same s s0)
    (hv : v ∈ KE.expandNode (rules.map (RuleName.rule cfg o)) s) : ∃ v0 ∈ KE.expandNode (rules.map (RuleName.rule cfg o)) s0, GPyABCD.Same v v0 := by
  obtain ⟨rule, hr, h2⟩ := mem_expandNode hv
  obtain ⟨n, _, rfl⟩ := List.mem_map.1 hr
  obtain ⟨y, hy, h3⟩ := rule_respects cfg o n s s0 hs hs0 h v h2
  have h1 : y ∈ (rules.map (RuleName.rule cfg o)).flatMap (fun r => r s0) := List.mem_flatMap.2 ⟨_, hr, hy⟩
  rcases Util.uniqueGo_repr isEqv_keq [] _ y h1 with ⟨z, hz, _⟩ | ⟨v0, hv0, e⟩
  · simp at hz
  · exact ⟨v0, hv0, h3.trans ((keq_iff _ _).1 (by simpa using List.find?_some e))⟩

/-- Whatever may share parts has an equal value before it. -/
theorem shared_dropped {cfg : Cfg} {o : Orders} {rules : List RuleName} {t : KE} (hi : wf t = true) {pre post : List (KE × KE × Prop)} {x : KE × KE × Prop}
    (h : (KE.traverse cfg t).flatMap (fun q => grownP t q.1 (LateAt t q.1 q.2) (KE.expandNode (rules.map (RuleName.rule cfg o)) q.2)) = pre ++ x :: post) (hx : x.2.2) :
    ∃ y ∈ pre, GPyABCD.Same x.1 y.1 := by
  obtain ⟨l1, q, l2, p, e, h1, rfl⟩ := flatMap_split h
  obtain ⟨v, hv, rfl⟩ := List.mem_map.1 h1
  obtain ⟨p0, s0, hl⟩ := hx
  have hq : q ∈ KE.traverse cfg t := by rw [e]; simp
  have hq' : (q.1, q.2) ∈ KE.traverse cfg t := hq
  have hb := hl.before (cfg := cfg) (traverse_not_base hq') l1 l2 e
  have hm : (p0, s0) ∈ KE.traverse cfg t := by rw [e]; exact List.mem_append_left _ hb
  obtain ⟨v0, hv0, hs⟩ := expandNode_same (traverse_node hi hq').1 (traverse_node hi hm).1 ((keq_iff _ _).1 hl.eq.1) hv
  refine ⟨(replaceAt t p0 v0, v0, LateAt t p0 s0), List.mem_append_left _ (List.mem_flatMap.2 ⟨_, hb, List.mem_map_of_mem hv0⟩), hl.replace hs⟩

/-- The trees of results none of which share parts. -/
theorem trees_of {h : Heap} : (rs : List Res) → (∀ r ∈ rs, r.Ok h ∧ ¬ r.shared) → rs.Pairwise (fun p q => ∀ a, p.reg a → ¬ q.reg a) →
    ∃ ts : List LK, ts.map addr = rs.map Res.root ∧ ts.map LK.erase = rs.map Res.val ∧ (∀ t ∈ ts, Stored h t ∧ WellLinked t) ∧ (idsL ts).Nodup ∧
      ∀ a ∈ idsL ts, ∃ r ∈ rs, r.reg a
  | [], _, _ => ⟨[], rfl, rfl, by simp, by simp [idsL], by simp [idsL]⟩
  | r :: rs, hr, hd => by
    obtain ⟨d1, d2⟩ := List.pairwise_cons.1 hd
    obtain ⟨ts, h1, h2, h3, h4, h5⟩ := trees_of rs (fun q hq => hr q (by simp [hq])) d2
    obtain ⟨t, t1, t2, t3, t4, t5⟩ := (hr r (by simp)).1.tree (hr r (by simp)).2
    refine ⟨t :: ts, by simp [t1, h1], by simp [t4, h2], ?_, ?_, ?_⟩
    · intro u hu
      rcases List.mem_cons.1 hu with rfl | hu
      · exact ⟨t2, t3⟩
      · exact h3 u hu
    · simp only [idsL, List.nodup_append]
      refine ⟨t3.2, h4, ?_⟩
      rintro a ha _ hb rfl
      obtain ⟨q, hq, hb⟩ := h5 a hb
      exact d1 q hq a (t5 a ha) hb
    · intro a ha
      simp only [idsL, List.mem_append] at ha
      rcases ha with ha | ha
      · exact ⟨r, by simp, t5 a ha⟩
      · obtain ⟨q, hq, hb⟩ := h5 a ha
        exact ⟨q, by simp [hq], hb⟩

theorem forall₂_split {α β : Type} {R : α → β → Prop} : {l : List α} → {pre post : List β} → {y : β} → List.Forall₂ R l (pre ++ y :: post) →
    ∃ pre' x post', l = pre' ++ x :: post' ∧ R x y ∧ List.Forall₂ R pre' pre
  | _, [], _, _, h => by cases h with | cons h1 h2 => exact ⟨[], _, _, rfl, h1, .nil⟩
  | _, z :: pre, post, y, h => by
    cases h with
    | cons h1 h2 =>
      obtain ⟨p, x, q, rfl, h3, h4⟩ := forall₂_split h2
      exact ⟨_ :: p, x, q, rfl, h3, .cons h1 h4⟩

theorem forall₂_mem_left {α β : Type} {R : α → β → Prop} {l : List α} {m : List β} (h : List.Forall₂ R l m) {x : α} (hx : x ∈ l) : ∃ y ∈ m, R x y := by
  induction h with
  | nil => cases hx
  | cons h1 _ ih =>
    rcases List.mem_cons.1 hx with rfl | hx
    · exact ⟨_, by simp, h1⟩
    · obtain ⟨y, hy, h2⟩ := ih hx
      exact ⟨y, by simp [hy], h2⟩

/-- The expansion of a simplified tree in a store, with any rules. -/
theorem expand_settled (cfg : Cfg) (o : Orders) (ho : o.OK cfg) (rules : List RuleName) {h : Heap} {t : LK} (hs : Stored h t) (hw : WellLinked t)
    (hi : settled cfg t.erase = true) :
    ∃ rs h', expand cfg o rules (addr t) h = (.ok (rs.map addr), h') ∧ Ext h h' ∧ rs.map LK.erase = KE.expandNamed cfg o rules t.erase ∧
      (∀ r ∈ rs, Stored h' r ∧ WellLinked r) ∧ (idsL rs).Nodup ∧ ∀ a ∈ idsL rs, h.length ≤ a := by
  have hg := good_of_wellLinked hs hw
  have hstr := (wellLinked_root hw).1
  have hwf := (settled_iff.1 hi).1
  obtain ⟨as, h1, e1, x1, v1⟩ := traverse_ok cfg hstr hg
  have hg2 : GrowsP cfg (do let r ← collect (expandNode cfg o rules) as; pure r.flatten) h1
      ((KE.traverse cfg t.erase).flatMap (fun q => grownP t.erase q.1 (LateAt t.erase q.1 q.2) (KE.expandNode (rules.map (RuleName.rule cfg o)) q.2))) := by
    refine growsP_flat v1 ?_
    rintro q hq a _ hv h' he
    obtain ⟨n, s, w1, w2, rfl, w4, w5, w6⟩ := hv
    rw [← w6]
    have hq' : (q.1, s.erase) ∈ KE.traverse cfg t.erase := by rw [w6]; exact hq
    exact expandNode_okP (fun k hb hk => sound_replaced hi hq' hb hk)
      ⟨hw, (x1.trans he).stored hs, stored_lt t hs, Nat.le_trans x1.1 he.1, ⟨n, w1, w2⟩, w4, w5.ext he⟩ o rules
  obtain ⟨ps, h2, e2, x2, g2, v2, n2⟩ := hg2
  obtain ⟨r, e3, e4⟩ := flatten_run e2
  obtain ⟨rs, h3, e5, f5, s5, n5, i5, w5⟩ := rootsP ps g2 n2
  have hnew : ∀ a, (∃ p ∈ ps, p.reg a) → h1.length ≤ a := fun a ⟨p, hp, ha⟩ => ((g2 p hp).low a ha).1
  have x3 : Ext h h3 := x1.trans (Frame.ext x2 f5 hnew)
  have hexpr : ∀ p ∈ ps, IsExpr p.vt := by
    intro p hp
    have hm : (p.vt, p.vm, p.shared) ∈ ps.map (fun p => (p.vt, p.vm, p.shared)) := List.mem_map_of_mem (f := fun p : Piece => (p.vt, p.vm, p.shared)) hp
    rw [v2] at hm
    obtain ⟨q, hq, hm⟩ := List.mem_flatMap.1 hm
    simp only [grownP, List.mem_map, Prod.mk.injEq] at hm
    obtain ⟨v, hv, hv1, _⟩ := hm
    rw [← hv1]
    obtain ⟨rule, hrule, hv⟩ := mem_expandNode hv
    have hq' : (q.1, q.2) ∈ KE.traverse cfg t.erase := hq
    have w := C20_builtin_rules cfg o ho rules rule hrule q.2 (traverse_node hwf hq').1 (traverse_not_base hq') v hv
    exact repl_wf (repl_of_traverse hq') hwf w.1 w.2
  have hst : List.Forall₂ (fun (p : Piece) (r : Res) => r.val = KE.standardise cfg p.vt ∧ p.shared = r.shared ∧ IsExpr p.vt) ps rs := by
    clear e2 e5 v2 n2 g2 i5 f5 e4 hnew x3
    induction w5 with
    | nil => exact .nil
    | cons h1 _ ih =>
      obtain ⟨⟨n, h1⟩, h2⟩ := h1
      refine .cons ⟨standardise_of_fuel (hexpr _ (by simp)) h1, h2, hexpr _ (by simp)⟩ (ih ?_ ?_ ?_)
      · exact fun r hr => s5 r (by simp [hr])
      · exact (List.pairwise_cons.1 n5).2
      · exact fun p hp => hexpr p (by simp [hp])
  have hval : rs.map Res.val = (ps.map Piece.vt).map (KE.standardise cfg) := by
    clear e2 e5 v2 n2 g2 i5 f5 e4 hnew x3 w5 s5 n5 hexpr
    induction hst with
    | nil => rfl
    | cons h1 _ ih => simp only [List.map_cons]; rw [h1.1, ih]
  have hsub : (Util.unique (fun x y : Res => keq x.val y.val) rs).Sublist rs := Util.uniqueGo_sublist _ _ _
  have hkept : ∀ r ∈ Util.unique (fun x y : Res => keq x.val y.val) rs, ¬ r.shared := by
    intro r hr hsh
    obtain ⟨pre, post, rfl, hp⟩ := Util.uniqueGo_first (eqv := fun x y : Res => keq x.val y.val) (fun a b c h1 h2 => isEqv_keq.trans _ _ _ h1 h2) rs [] r hr
    obtain ⟨pre', p, post', rfl, ⟨q1, q2, q3⟩, q4⟩ := forall₂_split hst
    have := v2.symm
    simp only [List.map_append, List.map_cons] at this
    obtain ⟨y, hy, hsame⟩ := shared_dropped hwf this (by rw [q2]; exact hsh)
    obtain ⟨p', hp', rfl⟩ := List.mem_map.1 hy
    obtain ⟨r', hr', q5, _, q7⟩ := forall₂_mem_left q4 hp'
    have h8 := (keq_iff _ _).2 (standardise_same (cfg := cfg) q3.1 q7.1 hsame)
    rw [← q1, ← q5, hp r' hr'] at h8
    cases h8
  obtain ⟨ts, t1, t2, t3, t4, t5⟩ := trees_of _ (fun r hr => ⟨s5 r (hsub.subset hr), hkept r hr⟩) (n5.sublist hsub)
  refine ⟨ts, h3, ?_, x3, ?_, t3, t4, ?_⟩
  · rw [expand]
    refine (run_bind e1).trans ((run_bind e3).trans ?_)
    rw [e4]
    refine (run_bind e5).trans ?_
    rw [t1]
    exact uniqueM_val Res.root Res.val rs (fun r hr => (s5 r hr).val h3 (Agree.refl _ _))
  · rw [t2, KE.expandNamed, KE.expand]
    have h6 : ps.map Piece.vt = (KE.traverse cfg t.erase).flatMap (fun q => (KE.expandNode (rules.map (RuleName.rule cfg o)) q.2).map (replaceAt t.erase q.1)) := by
      have := congrArg (List.map Prod.fst) v2
      simpa [List.map_flatMap, grownP, Function.comp_def] using this
    have h7 := unique_map Res.val keq rs []
    rw [h6, List.map_flatMap] at hval
    simp only [List.map_map, Function.comp_def] at hval
    exact h7.trans (by rw [hval]; rfl)
  · intro a ha
    obtain ⟨r, hr, ha⟩ := t5 a ha
    rcases i5 r (hsub.subset hr) a ha with h8 | h8
    · exact Nat.le_trans x1.1 (hnew a h8)
    · exact Nat.le_trans (x1.trans x2).1 h8

end Objects
end GPyABCD
