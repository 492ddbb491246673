import Verif.Lemmas.Refine6

/-!
# The store does to trees what the model of trees says: traversal
-/

namespace GPyABCD
namespace Objects
open Links Links.LK KE

/-- The address `a` holds the node `q` of the traversal of `t`; nodes made for string branches are at addresses from `N` on. -/
def Visited (cfg : Cfg) (N : Nat) (h : Heap) (t : LK) (q : List Step × KE) (a : Nat) : Prop :=
  ∃ n s, N ≤ n ∧ (q.1, s) ∈ LK.traverse cfg (fun _ _ => n) t ∧ addr s = a ∧ s.isStr = false ∧ Good h s ∧ s.erase = q.2

/-- As `Visited`, for composite terms. -/
def VisitedL (cfg : Cfg) (N : Nat) (h : Heap) (j : Nat) (ts : List LK) (q : List Step × KE) (a : Nat) : Prop :=
  ∃ n s, N ≤ n ∧ (q.1, s) ∈ LK.traverseL cfg (fun _ _ => n) j ts ∧ addr s = a ∧ s.isStr = false ∧ Good h s ∧ s.erase = q.2

theorem Visited.ext {cfg : Cfg} {N : Nat} {h h' : Heap} {t : LK} {q : List Step × KE} {a : Nat} (hv : Visited cfg N h t q a) (he : Ext h h') : Visited cfg N h' t q a := by
  obtain ⟨n, s, h1, h2, h3, h4, h5, h6⟩ := hv
  exact ⟨n, s, h1, h2, h3, h4, h5.ext he, h6⟩

theorem forall₂_map_left {α β γ : Type} {R : α → β → Prop} {S : γ → β → Prop} {f : α → γ} {xs : List α} {ys : List β} (h : List.Forall₂ R xs ys)
    (hf : ∀ x y, R x y → S (f x) y) : List.Forall₂ S (xs.map f) ys := by
  induction h with
  | nil => exact .nil
  | cons h1 _ ih => exact .cons (hf _ _ h1) ih

theorem forall₂_append {α β : Type} {R : α → β → Prop} {xs xs' : List α} {ys ys' : List β} (h : List.Forall₂ R xs ys) (h' : List.Forall₂ R xs' ys') :
    List.Forall₂ R (xs ++ xs') (ys ++ ys') := by
  induction h with
  | nil => exact h'
  | cons h1 _ ih => exact .cons h1 ih

theorem collect_visits {cfg : Cfg} {N : Nat} {f : Nat → M (List Nat)} : (ks : List LK) → (j : Nat) → {h : Heap} →
    (∀ k ∈ ks, ∀ h', Ext h h' → ∃ as h'', f (addr k) h' = (.ok as, h'') ∧ Ext h' h'' ∧ List.Forall₂ (Visited cfg N h'' k) (KE.traverse cfg k.erase) as) →
    ∃ ass h', collect f (ks.map addr) h = (.ok ass, h') ∧ Ext h h' ∧ List.Forall₂ (VisitedL cfg N h' j ks) (KE.traverseL cfg j (eraseL ks)) ass.flatten
  | [], j, h, _ => ⟨[], h, rfl, Ext.refl _, by simp only [eraseL, KE.traverseL, List.flatten_nil]; exact .nil⟩
  | k :: ks, j, h, hf => by
    obtain ⟨as, h1, e1, x1, f1⟩ := hf k (by simp) h (Ext.refl _)
    obtain ⟨ass, h2, e2, x2, f2⟩ := collect_visits (cfg := cfg) (N := N) (f := f) ks (j + 1) (h := h1) (fun k' hk' h' x' => hf k' (by simp [hk']) h' (x1.trans x'))
    refine ⟨as :: ass, h2, ?_, x1.trans x2, ?_⟩
    · rw [List.map_cons, collect, run_bind e1, run_bind e2]; rfl
    · simp only [eraseL, KE.traverseL, List.flatten_cons]
      refine forall₂_append (forall₂_map_left f1 ?_) (f2.imp ?_)
      · rintro q a ⟨n, s, g1, g2, g3, g4, g5, g6⟩
        refine ⟨n, s, g1, ?_, g3, g4, g5.ext x2, g6⟩
        simp only [LK.traverseL, List.mem_append, List.mem_map]
        exact .inl ⟨_, g2, rfl⟩
      · rintro q a ⟨n, s, g1, g2, g3, g4, g5, g6⟩
        refine ⟨n, s, g1, ?_, g3, g4, g5, g6⟩
        simp only [LK.traverseL, List.mem_append]
        exact .inr g2

/-- What `traverse` does with a branch. -/
def branchVisits (cfg : Cfg) (v s : Step) : KE → List (List Step × KE)
  | .base b => [([v], mkL cfg .sum [b] [])]
  | k => (KE.traverse cfg k).map (fun p => (s :: p.1, p.2))

theorem traverse_branches (cfg : Cfg) (c : CC) (l r : KE) :
    KE.traverse cfg (.change c l r) = ([], .change c l r) :: (branchVisits cfg .vleft .left l ++ branchVisits cfg .vright .right r) := by
  cases l <;> cases r <;> simp only [KE.traverse, branchVisits]

/-- The node made for a string branch. -/
theorem temp_ok (cfg : Cfg) {h : Heap} {i : Nat} {rt : Option Nat} (b : Base) (hi : Cl h i) (hr : ∀ x ∈ rt, Cl h x) :
    ∃ n h', (do
      let t ← newList cfg .sum [b] []
      setRoot t rt
      setParent t (some i)
      pure [t] : M (List Nat)) h = (.ok [n], h') ∧ Ext h h' ∧ h.length ≤ n ∧ Good h' (temp cfg i rt n b) := by
  obtain ⟨k, h1, e1, x1, m1, p1⟩ := newComm_top cfg .sum (Counter.ofList [b]) (h := h) (cts := []) (by simp) (by simp [idsL])
  obtain ⟨bts, _, t2⟩ := newComm_nil cfg 0 (fun n => n) .sum (Counter.ofList [b])
  have hv : k.erase = .comm .sum bts [] := m1.value.trans t2
  obtain ⟨n, r, rfl⟩ : ∃ n r, k = .comm n r none .sum bts [] := by
    cases k with
    | str => cases m1.node
    | comm j r p o b' c =>
      simp only [erase, KE.comm.injEq] at hv
      obtain ⟨rfl, rfl, h3⟩ := hv
      have : c = [] := by cases c <;> simp_all [eraseL]
      subst this
      obtain rfl : p = none := p1
      exact ⟨j, r, rfl⟩
    | change => simp [erase] at hv
  have t1 : LK.newComm cfg n (fun n => n) .sum (Counter.ofList [b]) [] = .comm n none none .sum bts [] := by
    obtain ⟨b', t1, t2'⟩ := newComm_nil cfg n (fun n => n) .sum (Counter.ofList [b])
    rw [t2] at t2'
    rw [t1]
    simp only [KE.comm.injEq] at t2'
    rw [t2'.2.1]
  have hn : addr (.comm n r none .sum bts []) = n := rfl
  obtain ⟨h2, e2, s2, m2⟩ := setRoot_ok rt rfl m1.good.stored m1.good.nodup
  have hk2 : LK.setRoot rt (.comm n r none .sum bts []) = .comm n (some (rt.getD n)) none .sum bts [] := rfl
  rw [hk2] at s2
  obtain ⟨h3, e3, s3, m3⟩ := setParent_ok (some i) (k := .comm n (some (rt.getD n)) none .sum bts []) rfl s2 (by simp [ids, idsL])
  have hk3 : temp cfg i rt n b = LK.setParent (some i) (.comm n (some (rt.getD n)) none .sum bts []) := by rw [temp, t1]; rfl
  have hnew : h.length ≤ n := m1.new n (by simp [ids])
  have x3 : Ext h h3 := (x1.same m2 (by simp [ids, idsL, hnew])).same m3 (by rintro a rfl; exact hnew)
  refine ⟨n, h3, ?_, x3, hnew, ?_⟩
  · rw [newList, List.map_nil] at *
    rw [run_bind e1, run_bind e2]
    exact (run_bind e3).trans rfl
  · rw [hk3]
    refine ⟨s3, by simp [ids, LK.setParent, idsL], by simp [LK.setParent, Parents, ParentsL], ?_⟩
    intro a ha
    obtain rfl : a = n := by simpa [ids, LK.setParent, idsL] using ha
    refine ⟨fun x => Cl h x ∨ x = a, ?_, .inr rfl⟩
    rintro x (hx | rfl)
    · obtain ⟨o, ho, hxs⟩ := closed_cl h x hx
      exact ⟨o, by rw [x3.2 x (List.getElem?_eq_some_iff.1 ho).1]; exact ho, fun y hy => .inl (hxs y hy)⟩
    · simp only [LK.setParent, Stored] at s3
      refine ⟨_, s3.1, fun y hy => ?_⟩
      simp only [Obj.refs, Option.toList_some, List.map_nil, List.append_nil, List.mem_append, List.mem_cons, List.not_mem_nil, or_false] at hy
      rcases hy with rfl | rfl
      · cases rt with
        | none => exact .inr rfl
        | some z => exact .inl (hr z rfl)
      · exact .inl hi

theorem traverseF_ok (cfg : Cfg) {N : Nat} : (n : Nat) → (k : LK) → {h : Heap} → N ≤ h.length → k.isStr = false → Good h k → depth k < n + 1 →
    ∃ as h', traverseF cfg n (addr k) h = (.ok as, h') ∧ Ext h h' ∧ List.Forall₂ (Visited cfg N h' k) (KE.traverse cfg k.erase) as
  | 0, k, h, _, hk, _, hd => by cases k <;> simp [depth, LK.isStr] at hd hk
  | n + 1, .str _, h, _, hk, _, _ => by cases hk
  | n + 1, .comm i r p op b c, h, hN, hk, hg, hd => by
    obtain ⟨ass, h1, e1, x1, f1⟩ := collect_visits (cfg := cfg) (N := N) (f := traverseF cfg n) c 0 (h := h) (by
      intro k hk h' x'
      obtain ⟨g1, g2⟩ := hg.child.1 k hk
      refine traverseF_ok cfg n k (Nat.le_trans hN x'.1) g1 (g2.ext x') ?_
      have := depth_lt_of_mem hk
      simp only [depth] at hd
      omega)
    refine ⟨i :: ass.flatten, h1, ?_, x1, ?_⟩
    · rw [traverseF]
      exact (run_bind (look_comm hg)).trans ((run_bind e1).trans rfl)
    · simp only [erase, KE.traverse]
      refine .cons ⟨N, .comm i r p op b c, Nat.le_refl _, by simp [LK.traverse], rfl, rfl, hg.ext x1, rfl⟩ (f1.imp ?_)
      rintro q a ⟨n, s, g1, g2, g3, g4, g5, g6⟩
      refine ⟨n, s, g1, ?_, g3, g4, g5, g6⟩
      simp only [LK.traverse, List.mem_cons]
      exact .inr g2
  | n + 1, .change i rt p c l r, h, hN, hk, hg, hd => by
    have hi : Cl h i := hg.closed i (by simp [ids])
    have hr : ∀ x ∈ rt, Cl h x := by
      intro x hx
      have hs := hg.stored
      simp only [Stored] at hs
      obtain ⟨o, ho, hxs⟩ := closed_cl h i hi
      rw [hs.1] at ho
      obtain rfl := Option.some.inj ho
      refine hxs x ?_
      simp only [Obj.refs, List.mem_append, Option.mem_toList]
      exact .inl (.inl (.inl hx))
    have side : ∀ (v st : Step) (k : LK) (h' : Heap), Ext h h' → Good h' k → depth k < n + 1 →
        (∀ m b, k = .str b → ([v], temp cfg i rt m b) ∈ LK.traverse cfg (fun _ _ => m) (.change i rt p c l r)) →
        (∀ m q, q ∈ LK.traverse cfg (fun _ _ => m) k → (st :: q.1, q.2) ∈ LK.traverse cfg (fun _ _ => m) (.change i rt p c l r)) →
        ∃ as h'', traverseRef cfg i rt (traverseF cfg n) (toRef k) h' = (.ok as, h'') ∧ Ext h' h'' ∧
          List.Forall₂ (Visited cfg N h'' (.change i rt p c l r)) (branchVisits cfg v st k.erase) as := by
      intro v st k h' x' hgk hdk hm hm'
      cases hks : k.isStr with
      | true =>
        cases k with
        | str b =>
          obtain ⟨t, h'', e, x, ht, hgt⟩ := temp_ok cfg b (x'.cl hi) (fun y hy => x'.cl (hr y hy))
          obtain ⟨bts, t1, t2⟩ := temp_eq cfg i rt t b
          refine ⟨[t], h'', e, x, .cons ⟨t, _, Nat.le_trans hN (Nat.le_trans x'.1 ht), hm t b rfl, by rw [t1]; rfl, by rw [t1]; rfl, hgt, t2⟩ .nil⟩
        | comm => cases hks
        | change => cases hks
      | false =>
        obtain ⟨as, h'', e, x, f⟩ := traverseF_ok cfg (N := N) n k (Nat.le_trans hN x'.1) hks hgk hdk
        refine ⟨as, h'', by rw [toRef_obj hks]; exact e, x, ?_⟩
        have : branchVisits cfg v st k.erase = (KE.traverse cfg k.erase).map (fun p => (st :: p.1, p.2)) := by
          cases k <;> simp_all [LK.isStr, erase, branchVisits]
        rw [this]
        refine forall₂_map_left f ?_
        rintro q a ⟨m, s, g1, g2, g3, g4, g5, g6⟩
        exact ⟨m, s, g1, hm' m (q.1, s) g2, g3, g4, g5, g6⟩
    simp only [depth] at hd
    obtain ⟨xs, h1, e1, x1, f1⟩ := side .vleft .left l h (Ext.refl _) hg.branches.1 (by omega)
      (by rintro m b rfl; simp only [LK.traverse, temps]; simp [temp])
      (by intro m q hq; simp only [LK.traverse, List.mem_cons, List.mem_append, List.mem_map]; exact .inr (.inl (.inr ⟨q, hq, rfl⟩)))
    obtain ⟨ys, h2, e2, x2, f2⟩ := side .vright .right r h1 x1 (hg.ext x1).branches.2 (by omega)
      (by rintro m b rfl; simp only [LK.traverse, temps]; simp [temp])
      (by intro m q hq; simp only [LK.traverse, List.mem_cons, List.mem_append, List.mem_map]; exact .inr (.inr (.inr ⟨q, hq, rfl⟩)))
    refine ⟨i :: (xs ++ ys), h2, ?_, x1.trans x2, ?_⟩
    · rw [traverseF]
      exact (run_bind (look_change hg)).trans ((run_bind e1).trans ((run_bind e2).trans rfl))
    · rw [erase, traverse_branches]
      exact .cons ⟨N, .change i rt p c l r, Nat.le_refl _, by simp [LK.traverse], rfl, rfl, hg.ext (x1.trans x2), rfl⟩
        (forall₂_append (f1.imp fun _ _ hv => hv.ext x2) f2)

/-- `traverse` -/
theorem traverse_ok (cfg : Cfg) {h : Heap} {k : LK} (hk : k.isStr = false) (hg : Good h k) :
    ∃ as h', traverse cfg (addr k) h = (.ok as, h') ∧ Ext h h' ∧ List.Forall₂ (Visited cfg h.length h' k) (KE.traverse cfg k.erase) as :=
  traverseF_ok cfg (h.length + 1) k (Nat.le_refl _) hk hg (by have := depth_bound hg.stored hg.nodup; omega)

end Objects
end GPyABCD
