import Verif.Lemmas.Refine7
import Verif.Props.Links

/-!
# The store does to trees what the model of trees says: `new_tree_with_self_replaced`
-/

namespace GPyABCD
namespace Links
open KE LK Objects

theorem wellLinked_root {k : LK} (h : WellLinked k) : k.isStr = false ∧ k.root = some (addr k) := by
  obtain ⟨⟨i, h1, h2⟩, _⟩ := h
  cases k with
  | str => cases h1
  | comm => simp only [Linked] at h2; cases h1; exact ⟨rfl, h2.1⟩
  | change => simp only [Linked] at h2; cases h1; exact ⟨rfl, h2.1⟩

theorem root_setRoot (x : Option Nat) {k : LK} (h : k.isStr = false) : (LK.setRoot x k).root = some (x.getD (addr k)) := by
  cases k with
  | str => cases h
  | comm => rfl
  | change => rfl

/-- A tree of its own. -/
theorem wellLinked_top {new : LK} (hs : new.isStr = false) (hp : Parents new) (hn : (ids new).Nodup) : WellLinked (LK.setRoot none (LK.setParent none new)) := by
  obtain ⟨j, hj⟩ : ∃ j, new.id? = some j := by cases new <;> simp [LK.isStr, LK.id?] at *
  refine ⟨⟨j, by simp [hj], ?_⟩, by simpa using hn⟩
  rw [linked_iff, setRoot_eq]
  simp only [id_setParent, hj, Option.getD_none]
  exact G_setRootTo j _ (G_setParent ((parents_iff new).1 hp) rfl)

theorem ids_reassign (s new u : LK) : ∀ a ∈ ids (reassign s new u), a ∈ ids u ∨ a ∈ ids new := by
  intro a ha
  cases u with
  | str b => exact .inl ha
  | comm i r p o b c =>
    simp only [reassign, ids, List.mem_cons, idsL_append, List.mem_append, idsL, List.append_nil] at ha ⊢
    rcases ha with ha | ha | ha
    · exact .inl (.inl ha)
    · exact .inl (.inr ((idsL_sub (removeFirst_sub _ _)).subset ha))
    · exact .inr (by simpa using ha)
  | change i rt p c l r =>
    simp only [reassign] at ha
    split_ifs at ha <;> simp only [ids, List.mem_cons, List.mem_append] at ha ⊢ <;> tauto

theorem ids_reassign_new (s new : LK) {u : LK} (hu : u.isStr = false) : ∀ a ∈ ids new, a ∈ ids (reassign s new u) := by
  intro a ha
  cases u with
  | str b => cases hu
  | comm i r p o b c => simp only [reassign, ids, List.mem_cons, idsL_append, List.mem_append, idsL, List.append_nil]; simp [ha]
  | change i rt p c l r =>
    simp only [reassign]
    split_ifs <;> simp only [ids, List.mem_cons, List.mem_append] <;> simp [ha]

theorem addr_reassign (s new u : LK) : addr (reassign s new u) = addr u ∧ (reassign s new u).isStr = u.isStr := by
  cases u with
  | str b => exact ⟨rfl, rfl⟩
  | comm => exact ⟨rfl, rfl⟩
  | change => simp only [reassign]; split_ifs <;> exact ⟨rfl, rfl⟩

/-- Changing a node below another one, then that one. -/
theorem update_update {g g' adj : LK → LK} {u : LK} {y : Nat} (hy : y ∈ ids u) (hyu : y ≠ addr u) (hg : g (update y adj u) = g' u) : (k : LK) →
    (ids k).Nodup → u ∈ nodes k → update (addr u) g (update y adj k) = update (addr u) g' k
  | .str _, _, h => by simp [nodes] at h
  | .comm i r p op b c, hn, hu => by
    by_cases hi : i = addr u
    · have : u = .comm i r p op b c := nodes_inj _ hn u hu _ (self_mem_nodes rfl) (by rw [← hi]; rfl)
      have hiy : ¬ i = y := by rintro rfl; exact hyu hi
      rw [this] at hg
      rw [update, if_neg hiy] at hg
      rw [update, if_neg hiy, update, if_pos hi, update, if_pos hi]
      exact hg
    · simp only [ids, List.nodup_cons] at hn
      simp only [nodes, List.mem_cons] at hu
      have hu : u ∈ nodesL c := by
        rcases hu with rfl | hu
        · exact absurd rfl hi
        · exact hu
      obtain ⟨hu1, hu2⟩ := nodesL_ids c u hu
      obtain ⟨k, hk, hu⟩ := mem_nodesL.1 hu
      obtain ⟨m, hlt, rfl⟩ := List.getElem_of_mem hk
      obtain ⟨_, hu3⟩ := nodes_ids _ u hu
      have hiy : ¬ i = y := by rintro rfl; exact hn.1 (hu2 _ hy)
      have ih := update_update hy hyu hg c[m] (nodup_get hn.2 hlt) hu
      have key : ∀ ks : List LK, ∀ m (hlt : m < ks.length), (idsL ks).Nodup → (∀ a ∈ ids u, a ∈ ids ks[m]) →
          update (addr u) g (update y adj ks[m]) = update (addr u) g' ks[m] → updateL (addr u) g (updateL y adj ks) = updateL (addr u) g' ks := by
        intro ks
        induction ks with
        | nil => intro m hlt; simp at hlt
        | cons k ks ihk =>
          intro m hlt hnk hu3 e
          simp only [idsL, List.nodup_append] at hnk
          cases m with
          | zero =>
            simp only [List.getElem_cons_zero] at hu3 e
            have h1 : y ∉ idsL ks := fun hh => hnk.2.2 _ (hu3 _ hy) _ hh rfl
            have h2 : addr u ∉ idsL ks := fun hh => hnk.2.2 _ (hu3 _ (addr_mem hu1)) _ hh rfl
            rw [updateL, updateL, updateL, e, updateL_of_not_mem y adj ks h1, updateL_of_not_mem _ g ks h2, updateL_of_not_mem _ g' ks h2]
          | succ m =>
            simp only [List.getElem_cons_succ] at hu3 e
            have hm : m < ks.length := by simpa using hlt
            have hsub : ∀ a ∈ ids u, a ∈ idsL ks := fun a ha => mem_idsL.2 ⟨_, List.getElem_mem hm, hu3 a ha⟩
            have h1 : y ∉ ids k := fun hh => hnk.2.2 _ hh _ (hsub _ hy) rfl
            have h2 : addr u ∉ ids k := fun hh => hnk.2.2 _ hh _ (hsub _ (addr_mem hu1)) rfl
            rw [updateL, updateL, updateL, update_of_not_mem y adj k h1, update_of_not_mem _ g k h2, update_of_not_mem _ g' k h2, ihk m hm hnk.2.1 hu3 e]
      rw [update, if_neg hiy, update, if_neg hi, update, if_neg hi, key c m hlt hn.2 hu3 ih]
  | .change i rt p c l r, hn, hu => by
    by_cases hi : i = addr u
    · have : u = .change i rt p c l r := nodes_inj _ hn u hu _ (self_mem_nodes rfl) (by rw [← hi]; rfl)
      have hiy : ¬ i = y := by rintro rfl; exact hyu hi
      rw [this] at hg
      rw [update, if_neg hiy] at hg
      rw [update, if_neg hiy, update, if_pos hi, update, if_pos hi]
      exact hg
    · simp only [ids, List.nodup_cons, List.mem_append, not_or, List.nodup_append] at hn
      simp only [nodes, List.mem_cons, List.mem_append] at hu
      rcases hu with rfl | hu | hu
      · exact absurd rfl hi
      · obtain ⟨hu1, hu2⟩ := nodes_ids l u hu
        have hiy : ¬ i = y := by rintro rfl; exact hn.1.1 (hu2 _ hy)
        have h1 : y ∉ ids r := fun hh => hn.2.2.2 _ (hu2 _ hy) _ hh rfl
        have h2 : addr u ∉ ids r := fun hh => hn.2.2.2 _ (hu2 _ (addr_mem hu1)) _ hh rfl
        rw [update, if_neg hiy, update, if_neg hi, update, if_neg hi, update_update hy hyu hg l hn.2.1 hu, update_of_not_mem y adj r h1,
          update_of_not_mem _ g r h2, update_of_not_mem _ g' r h2]
      · obtain ⟨hu1, hu2⟩ := nodes_ids r u hu
        have hiy : ¬ i = y := by rintro rfl; exact hn.1.2 (hu2 _ hy)
        have h1 : y ∉ ids l := fun hh => hn.2.2.2 _ hh _ (hu2 _ hy) rfl
        have h2 : addr u ∉ ids l := fun hh => hn.2.2.2 _ hh _ (hu2 _ (addr_mem hu1)) rfl
        rw [update, if_neg hiy, update, if_neg hi, update, if_neg hi, update_update hy hyu hg r hn.2.2.1 hu, update_of_not_mem y adj l h1,
          update_of_not_mem _ g l h2, update_of_not_mem _ g' l h2]
termination_by k => sizeOf k
decreasing_by
  all_goals simp_wf
  · have := List.sizeOf_lt_of_mem (List.getElem_mem hlt); omega
  · omega
  · omega

/-- A node above the changed one is still there, changed below. -/
theorem mem_update {adj : LK → LK} {u : LK} {y : Nat} (hy : y ∈ ids u) (hyu : y ≠ addr u) : (k : LK) →
    (ids k).Nodup → u ∈ nodes k → update y adj u ∈ nodes (update y adj k)
  | .str _, _, h => by simp [nodes] at h
  | .comm i r p op b c, hn, hu => by
    by_cases hi : i = addr u
    · have : u = .comm i r p op b c := nodes_inj _ hn u hu _ (self_mem_nodes rfl) (by rw [← hi]; rfl)
      have hiy : ¬ i = y := by rintro rfl; exact hyu hi
      rw [this, update, if_neg hiy]
      exact self_mem_nodes rfl
    · simp only [ids, List.nodup_cons] at hn
      simp only [nodes, List.mem_cons] at hu
      have hu : u ∈ nodesL c := by
        rcases hu with rfl | hu
        · exact absurd rfl hi
        · exact hu
      obtain ⟨hu1, hu2⟩ := nodesL_ids c u hu
      obtain ⟨k, hk, hu⟩ := mem_nodesL.1 hu
      obtain ⟨m, hlt, rfl⟩ := List.getElem_of_mem hk
      obtain ⟨_, hu3⟩ := nodes_ids _ u hu
      have hiy : ¬ i = y := by rintro rfl; exact hn.1 (hu2 _ hy)
      have ih := mem_update (adj := adj) hy hyu c[m] (nodup_get hn.2 hlt) hu
      rw [update, if_neg hiy, updateL_at y adj c hn.2 hlt (hu3 _ hy), nodes]
      exact List.mem_cons_of_mem _ (mem_nodesL.2 ⟨_, List.mem_set hlt _, ih⟩)
  | .change i rt p c l r, hn, hu => by
    by_cases hi : i = addr u
    · have : u = .change i rt p c l r := nodes_inj _ hn u hu _ (self_mem_nodes rfl) (by rw [← hi]; rfl)
      have hiy : ¬ i = y := by rintro rfl; exact hyu hi
      rw [this, update, if_neg hiy]
      exact self_mem_nodes rfl
    · simp only [ids, List.nodup_cons, List.mem_append, not_or, List.nodup_append] at hn
      simp only [nodes, List.mem_cons, List.mem_append] at hu
      rcases hu with rfl | hu | hu
      · exact absurd rfl hi
      · obtain ⟨hu1, hu2⟩ := nodes_ids l u hu
        have hiy : ¬ i = y := by rintro rfl; exact hn.1.1 (hu2 _ hy)
        rw [update, if_neg hiy, nodes]
        exact List.mem_cons_of_mem _ (List.mem_append_left _ (mem_update hy hyu l hn.2.1 hu))
      · obtain ⟨hu1, hu2⟩ := nodes_ids r u hu
        have hiy : ¬ i = y := by rintro rfl; exact hn.1.2 (hu2 _ hy)
        rw [update, if_neg hiy, nodes]
        exact List.mem_cons_of_mem _ (List.mem_append_right _ (mem_update hy hyu r hn.2.2.1 hu))
termination_by k => sizeOf k
decreasing_by
  all_goals simp_wf
  · have := List.sizeOf_lt_of_mem (List.getElem_mem hlt); omega
  · omega
  · omega

end Links

namespace Objects
open Links Links.LK KE

theorem obj_of_node {h : Heap} {k : LK} (hk : k.isStr = false) (hs : Stored h k) : ∃ o, h[addr k]? = some o ∧ o.root = k.root ∧ o.parent = k.parent := by
  cases k with
  | str => cases hk
  | comm => simp only [Stored] at hs; exact ⟨_, hs.1, rfl, rfl⟩
  | change => simp only [Stored] at hs; exact ⟨_, hs.1, rfl, rfl⟩

theorem isRoot_ok {h : Heap} {k : LK} (hk : k.isStr = false) (hs : Stored h k) {b : Bool} (hb : k.isRoot = some b) : isRoot (addr k) h = (.ok b, h) := by
  obtain ⟨o, h1, h2, h3⟩ := obj_of_node hk hs
  have : (if o.root = some (addr k) then (if o.parent = none then some true else none) else some false) = some b := by
    rw [h2, h3, ← hb]
    cases k with
    | str => cases hk
    | comm => rfl
    | change => rfl
  rw [isRoot, run_bind (run_look h1)]
  split_ifs at this ⊢ with c1 c2
  · cases this; rfl
  · cases this; rfl

/-- `reassign_child` -/
theorem reassign_ok {h : Heap} {u s new : LK} (hu : u.isStr = false) (hsu : Stored h u) (hnu : (ids u).Nodup) (hs : s.isStr = false)
    (hc : ∀ {i r p o b c}, u = .comm i r p o b c → s ∈ c) (hw : new.isStr = false) (hsw : Stored h new) (hd : addr u ∉ ids new) :
    ∃ h', reassignChild (addr u) (addr s) (addr new) h = (.ok (addr new), h') ∧ Stored h' (reassign s new u) ∧ Same (· = addr u) h h' := by
  cases u with
  | str => cases hu
  | comm i r p o b c =>
    have hsc := hc rfl
    have hsu' := hsu
    rw [stored_comm] at hsu
    simp only [ids, List.nodup_cons] at hnu
    obtain ⟨m, hm, hsm⟩ := List.getElem_of_mem hsc
    have hns : (ids s).Nodup := hsm ▸ nodup_get hnu.2 hm
    have hdrop := dropFirst_ok (p := fun y => eqO h (addr s) y) (q := fun y => keq s.erase y.erase) (g := addr) c (fun y hy =>
      eqO_ok (storedL_iff.1 hsu.2 s hsc).2 hns (storedL_iff.1 hsu.2 y hy).2 hs (storedL_iff.1 hsu.2 y hy).1)
    obtain ⟨c', hc'⟩ : ∃ c', removeFirst (fun y : LK => keq s.erase y.erase) c = some c' := by
      cases hr : removeFirst (fun y : LK => keq s.erase y.erase) c with
      | some c' => exact ⟨c', rfl⟩
      | none => have := removeFirst_eq_none.1 hr s hsc; rw [keq_refl] at this; cases this
    rw [hc', Option.map_some] at hdrop
    have hsub := removeFirst_mem hc'
    refine ⟨_, ?_, ?_, same_set h i (.comm r p o b (c'.map addr ++ [addr new]))⟩
    · rw [reassignChild]
      refine (run_bind (run_look hsu.1)).trans ?_
      refine (run_bind (run_ask hdrop)).trans ?_
      exact (run_bind (run_edit hsu.1)).trans rfl
    · simp only [reassign, hc', Option.getD_some]
      rw [stored_comm, List.map_append, storedL_append]
      have hm := same_set h i (.comm r p o b (c'.map addr ++ [addr new]))
      refine ⟨get_set_self hsu.1, hm.storedL ?_ (storedL_iff.2 fun k hk => storedL_iff.1 hsu.2 k (hsub k hk)), ?_⟩
      · rintro a ha rfl
        obtain ⟨k, hk, hak⟩ := mem_idsL.1 ha
        exact hnu.1 (mem_idsL.2 ⟨k, hsub k hk, hak⟩)
      · simp only [StoredL, and_true]
        exact ⟨hw, hm.stored (by rintro a ha rfl; exact hd ha) hsw⟩
  | change i rt p c l r =>
    simp only [Stored] at hsu
    simp only [ids, List.nodup_cons, List.mem_append, not_or, List.nodup_append] at hnu
    have hiff : toRef l = .obj (addr s) ↔ (l.id? = s.id? ∧ l.id? ≠ none) := by
      rw [id_addr hs]
      cases l with
      | str => simp [toRef, LK.id?]
      | comm => simp [toRef, LK.id?, addr]
      | change => simp [toRef, LK.id?, addr]
    by_cases hl : toRef l = .obj (addr s)
    · have hm := same_set h i (.change rt p c (.obj (addr new)) (toRef r))
      refine ⟨_, ?_, ?_, hm⟩
      · rw [reassignChild]
        refine (run_bind (run_look hsu.1)).trans ?_
        simp only [hl, if_true]
        exact (run_bind (run_edit hsu.1)).trans rfl
      · rw [reassign, if_pos (hiff.1 hl)]
        simp only [Stored, toRef_obj hw]
        exact ⟨get_set_self hsu.1, hm.stored (by rintro a ha rfl; exact hd ha) hsw, hm.stored (by rintro a ha rfl; exact hnu.1.2 ha) hsu.2.2⟩
    · have hm := same_set h i (.change rt p c (toRef l) (.obj (addr new)))
      refine ⟨_, ?_, ?_, hm⟩
      · rw [reassignChild]
        refine (run_bind (run_look hsu.1)).trans ?_
        simp only [hl, if_false]
        exact (run_bind (run_edit hsu.1)).trans rfl
      · rw [reassign, if_neg (fun hh => hl (hiff.2 hh))]
        simp only [Stored, toRef_obj hw]
        exact ⟨get_set_self hsu.1, hm.stored (by rintro a ha rfl; exact hnu.1.1 ha) hsu.2.1, hm.stored (by rintro a ha rfl; exact hd ha) hsw⟩

end Objects
end GPyABCD
