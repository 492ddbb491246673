import Verif.Lemmas.Refine11

/-!
# The store does to trees what the model of trees says: expansion
-/

namespace GPyABCD
namespace Objects
open Links Links.LK
open KE hiding nodes

theorem look_root {h : Heap} {m : LK} (hm : m.isStr = false) (hs : Stored h m) : ∃ o, h[addr m]? = some o ∧ o.root = m.root := by
  cases m with
  | str => cases hm
  | comm => simp only [Stored] at hs; exact ⟨_, hs.1, rfl⟩
  | change => simp only [Stored] at hs; exact ⟨_, hs.1, rfl⟩

theorem rootOf_ok (cfg : Cfg) {h : Heap} {t m : LK} (hs : Stored h t) (hw : WellLinked t) (hm : m.isStr = false) (hms : Stored h m) (hr : m.root = some (addr t)) :
    ∃ t' h', rootOf cfg (addr m) h = (.ok (addr t'), h') ∧ Frame (· ∈ ids t) h h' ∧ Stored h' t' ∧ WellLinked t' ∧
      (∀ a ∈ ids t', a ∈ ids t ∨ h.length ≤ a) ∧ ∃ n, KE.standardiseF cfg n t.erase = some t'.erase := by
  obtain ⟨o, h1, h2⟩ := look_root hm hms
  have hl := nodup_length hw.2 (stored_lt t hs)
  obtain ⟨t', h', e, f, s, w, i, v⟩ := standardiseF_ok cfg (h.length + 1) t hs hw (by omega)
  refine ⟨t', h', ?_, f, s, w, i, _, v⟩
  rw [rootOf]
  refine (run_bind (run_look h1)).trans ?_
  rw [h2, hr]
  exact e

/-- The roots of disjoint trees. -/
theorem roots_ok (cfg : Cfg) : (ts : List (LK × LK)) → {h : Heap} →
    (∀ p ∈ ts, Stored h p.1 ∧ WellLinked p.1 ∧ p.2.isStr = false ∧ Stored h p.2 ∧ p.2.root = some (addr p.1) ∧ ∀ a ∈ ids p.2, a ∈ ids p.1) →
    (idsL (ts.map (fun p => p.1))).Nodup →
    ∃ rs h', collect (rootOf cfg) (ts.map (fun p => addr p.2)) h = (.ok (rs.map addr), h') ∧ Frame (· ∈ idsL (ts.map (fun p => p.1))) h h' ∧
      (∀ r ∈ rs, Stored h' r ∧ WellLinked r) ∧ (idsL rs).Nodup ∧ (∀ a ∈ idsL rs, a ∈ idsL (ts.map (fun p => p.1)) ∨ h.length ≤ a) ∧
      List.Forall₂ (fun p r => ∃ n, KE.standardiseF cfg n (LK.erase p.1) = some (LK.erase r)) ts rs
  | [], h, _, _ => ⟨[], h, rfl, Frame.refl _ _, by simp, by simp [idsL], by simp [idsL], .nil⟩
  | p :: ts, h, hp, hn => by
    obtain ⟨p1, p2, p3, p4, p5, p6⟩ := hp p (by simp)
    obtain ⟨r, h1, e1, f1, s1, w1, i1, v1⟩ := rootOf_ok cfg p1 p2 p3 p4 p5
    simp only [List.map_cons, idsL, List.nodup_append] at hn
    obtain ⟨n1, n2, n3⟩ := hn
    have hdis : ∀ q ∈ ts, ∀ a ∈ ids q.1, a ∉ ids p.1 := by
      intro q hq a ha ha'
      exact n3 a ha' a (mem_idsL.2 ⟨q.1, List.mem_map_of_mem hq, ha⟩) rfl
    have hlt : ∀ a ∈ idsL (ts.map (fun p => p.1)), a < h.length := by
      intro a ha
      obtain ⟨k, hk, ha⟩ := mem_idsL.1 ha
      obtain ⟨q, hq, rfl⟩ := List.mem_map.1 hk
      exact stored_lt _ (hp q (by simp [hq])).1 a ha
    obtain ⟨rs, h2, e2, f2, s2, m2, i2, v2⟩ := roots_ok cfg ts (h := h1) (by
      intro q hq
      obtain ⟨q1, q2, q3, q4, q5, q6⟩ := hp q (by simp [hq])
      exact ⟨f1.stored (hdis q hq) q1, q2, q3, f1.stored (fun a ha => hdis q hq a (q6 a ha)) q4, q5, q6⟩) n2
    have hsep : ∀ a ∈ ids r, a ∉ idsL (ts.map (fun p => p.1)) := by
      intro a ha ha'
      rcases i1 a ha with h5 | h5
      · exact n3 a h5 a ha' rfl
      · have := hlt a ha'; omega
    refine ⟨r :: rs, h2, ?_, ?_, ?_, ?_, ?_, .cons v1 v2⟩
    · rw [List.map_cons, collect, run_bind e1, run_bind e2]; rfl
    · simp only [List.map_cons, idsL, List.mem_append]
      exact (f1.mono (fun a _ ha => .inl ha)).trans (f2.mono (fun a _ ha => .inr ha))
    · intro k hk
      rcases List.mem_cons.1 hk with rfl | hk
      · exact ⟨f2.stored hsep s1, w1⟩
      · exact s2 k hk
    · simp only [idsL, List.nodup_append]
      refine ⟨w1.2, m2, ?_⟩
      rintro a ha _ hb rfl
      rcases i2 a hb with h5 | h5
      · exact hsep a ha h5
      · have := stored_lt _ s1 a ha; omega
    · intro a ha
      simp only [List.map_cons, idsL, List.mem_append] at ha ⊢
      rcases ha with ha | ha
      · exact (i1 a ha).imp .inl id
      · exact (i2 a ha).imp .inr (Nat.le_trans f1.1)

theorem standardise_of_fuel {cfg : Cfg} {k r : KE} (hk : IsExpr k) {n : Nat} (h : KE.standardiseF cfg n k = some r) : r = KE.standardise cfg k := by
  obtain ⟨N, hN⟩ := C24_terminates cfg k hk
  have h1 := standardiseF_mono n (max n N) k r (by omega) h
  rw [hN (max n N) (by omega)] at h1
  exact (Option.some.inj h1).symm

theorem forall₂_standardise {cfg : Cfg} {ts : List (LK × LK)} {rs : List LK} (h : List.Forall₂ (fun p r => ∃ n, KE.standardiseF cfg n (LK.erase p.1) = some (LK.erase r)) ts rs)
    (hi : ∀ p ∈ ts, IsExpr (LK.erase p.1)) : rs.map LK.erase = (ts.map (fun p => p.1.erase)).map (KE.standardise cfg) := by
  induction h with
  | nil => rfl
  | cons h1 _ ih =>
    obtain ⟨n, h1⟩ := h1
    simp only [List.map_cons]
    rw [standardise_of_fuel (hi _ (by simp)) h1, ih (fun p hp => hi p (by simp [hp]))]

/-- The expansion of a tree in a store. -/
theorem expand_ok (cfg : Cfg) (o : Orders) (ho : o.OK cfg) (rules : List RuleName) {h : Heap} {t : LK} (hs : Stored h t) (hw : WellLinked t)
    (hi : IsExpr t.erase) (hr : .remove_some_term ∈ rules → NoTwins t.erase) :
    ∃ rs h', expand cfg o rules (addr t) h = (.ok (rs.map addr), h') ∧ Ext h h' ∧ rs.map LK.erase = KE.expandNamed cfg o rules t.erase ∧
      (∀ r ∈ rs, Stored h' r ∧ WellLinked r) ∧ (idsL rs).Nodup ∧ ∀ a ∈ idsL rs, h.length ≤ a := by
  have hg := good_of_wellLinked hs hw
  have hstr := (wellLinked_root hw).1
  obtain ⟨as, h1, e1, x1, v1⟩ := traverse_ok cfg hstr hg
  have hg2 : Grows (do let r ← collect (expandNode cfg o rules) as; pure r.flatten) h1
      ((KE.traverse cfg t.erase).flatMap (fun q => grownOf t.erase q.1 (KE.expandNode (rules.map (RuleName.rule cfg o)) q.2))) := by
    refine grows_flat v1 ?_
    rintro q _ a _ hv h' he
    obtain ⟨n, s, w1, w2, rfl, w4, w5, w6⟩ := hv
    rw [← w6]
    exact expandNode_ok ⟨hw, (x1.trans he).stored hs, stored_lt t hs, Nat.le_trans x1.1 he.1, ⟨n, w1, w2⟩, w4, w5.ext he⟩ o rules hr
  obtain ⟨ts, h2, e2, x2, g2, v2, n2⟩ := hg2
  have e3 : ∃ r, collect (expandNode cfg o rules) as h1 = (.ok r, h2) ∧ r.flatten = ts.map (fun p => addr p.2) := by
    revert e2
    cases hc : collect (expandNode cfg o rules) as h1 with
    | mk a b =>
      cases a with
      | error e => intro e2; simp [bind, hc] at e2
      | ok r =>
        intro e2
        rw [run_bind hc] at e2
        simp only [run_pure, Prod.mk.injEq, Except.ok.injEq] at e2
        exact ⟨r, by rw [e2.2], e2.1⟩
  obtain ⟨r, e3, e4⟩ := e3
  obtain ⟨rs, h3, e5, f5, s5, n5, i5, w5⟩ := roots_ok cfg ts (h := h2)
    (fun p hp => ⟨(g2 p hp).stored, (g2 p hp).linked, (g2 p hp).node, (g2 p hp).mstored, (g2 p hp).mroot, (g2 p hp).msub⟩) n2
  have hnew : ∀ a ∈ idsL (ts.map (fun p => p.1)), h1.length ≤ a := fun a ha => (grown_lt g2 a ha).1
  have x3 : Ext h h3 := x1.trans (Frame.ext x2 f5 hnew)
  have hexpr : ∀ p ∈ ts, IsExpr (LK.erase p.1) := by
    intro p hp
    have hm : (p.1.erase, p.2.erase) ∈ ts.map (fun p => (p.1.erase, p.2.erase)) := List.mem_map_of_mem (f := fun p : LK × LK => (p.1.erase, p.2.erase)) hp
    rw [v2] at hm
    obtain ⟨q, hq, hm⟩ := List.mem_flatMap.1 hm
    simp only [grownOf, List.mem_map, Prod.mk.injEq] at hm
    obtain ⟨v, hv, hv1, _⟩ := hm
    rw [← hv1]
    obtain ⟨rule, hrule, hv⟩ := mem_expandNode hv
    have hq' : (q.1, q.2) ∈ KE.traverse cfg t.erase := hq
    have w := C20_builtin_rules cfg o ho rules rule hrule q.2 (traverse_node hi.1 hq').1 (traverse_not_base hq') v hv
    exact repl_wf (repl_of_traverse hq') hi.1 w.1 w.2
  have hval := forall₂_standardise w5 hexpr
  have hsub : (Util.unique (fun x y : LK => keq x.erase y.erase) rs).Sublist rs := Util.uniqueGo_sublist _ _ _
  refine ⟨Util.unique (fun x y : LK => keq x.erase y.erase) rs, h3, ?_, x3, ?_, fun k hk => s5 k (hsub.subset hk), n5.sublist (idsL_sub hsub), ?_⟩
  · rw [expand]
    refine (run_bind e1).trans ((run_bind e3).trans ?_)
    rw [e4]
    refine (run_bind e5).trans ?_
    exact uniqueM_ok (fun k : LK => k) rs (fun k hk => ⟨(wellLinked_root (s5 k hk).2).1, (s5 k hk).1, (s5 k hk).2.2⟩)
  · rw [KE.expandNamed, KE.expand]
    have h6 : ts.map (fun p => p.1.erase) = (KE.traverse cfg t.erase).flatMap (fun q => (KE.expandNode (rules.map (RuleName.rule cfg o)) q.2).map (replaceAt t.erase q.1)) := by
      have := congrArg (List.map Prod.fst) v2
      simpa [List.map_flatMap, grownOf, Function.comp_def] using this
    have h7 := unique_map LK.erase keq rs []
    rw [h6, List.map_flatMap] at hval
    simp only [List.map_map, Function.comp_def] at hval
    exact h7.trans (by rw [hval]; rfl)
  · intro a ha
    rcases i5 a ((idsL_sub hsub).subset ha) with h8 | h8
    · exact Nat.le_trans x1.1 (hnew a h8)
    · exact Nat.le_trans (x1.trans x2).1 h8

end Objects
end GPyABCD
