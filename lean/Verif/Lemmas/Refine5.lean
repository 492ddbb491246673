import Verif.Lemmas.Refine4

/-!
# The store does to trees what the model of trees says: replacing a node
-/

namespace GPyABCD
namespace Links
open KE LK Objects

/-! ## Nodes of trees -/

mutual
theorem nodes_ids : (k : LK) → ∀ u ∈ nodes k, u.isStr = false ∧ (∀ a ∈ ids u, a ∈ ids k)
  | .str _, u, h => by simp [nodes] at h
  | .comm i r p op b c, u, h => by
    simp only [nodes, List.mem_cons] at h
    rcases h with rfl | h
    · exact ⟨rfl, fun _ h => h⟩
    · obtain ⟨h1, h2⟩ := nodesL_ids c u h
      exact ⟨h1, fun a ha => by simp only [ids]; exact List.mem_cons_of_mem _ (h2 a ha)⟩
  | .change i rt p c l r, u, h => by
    simp only [nodes, List.mem_cons, List.mem_append] at h
    rcases h with rfl | h | h
    · exact ⟨rfl, fun _ h => h⟩
    · obtain ⟨h1, h2⟩ := nodes_ids l u h
      exact ⟨h1, fun a ha => by simp only [ids]; simp [h2 a ha]⟩
    · obtain ⟨h1, h2⟩ := nodes_ids r u h
      exact ⟨h1, fun a ha => by simp only [ids]; simp [h2 a ha]⟩
theorem nodesL_ids : (ks : List LK) → ∀ u ∈ nodesL ks, u.isStr = false ∧ (∀ a ∈ ids u, a ∈ idsL ks)
  | [], u, h => by simp [nodesL] at h
  | k :: ks, u, h => by
    simp only [nodesL, List.mem_append] at h
    rcases h with h | h
    · obtain ⟨h1, h2⟩ := nodes_ids k u h
      exact ⟨h1, fun a ha => by simp only [idsL]; simp [h2 a ha]⟩
    · obtain ⟨h1, h2⟩ := nodesL_ids ks u h
      exact ⟨h1, fun a ha => by simp only [idsL]; simp [h2 a ha]⟩
end

theorem mem_nodesL {ks : List LK} {u : LK} : u ∈ nodesL ks ↔ ∃ k ∈ ks, u ∈ nodes k := by
  induction ks with
  | nil => simp [nodesL]
  | cons k ks ih => simp [nodesL, ih]

theorem self_mem_nodes {k : LK} (h : k.isStr = false) : k ∈ nodes k := by
  cases k <;> simp_all [nodes, LK.isStr]

mutual
/-- A node is known by its address. -/
theorem nodes_inj : (k : LK) → (ids k).Nodup → ∀ u ∈ nodes k, ∀ v ∈ nodes k, addr u = addr v → u = v
  | .str _, _, u, h, _, _, _ => by simp [nodes] at h
  | .comm i r p op b c, hn, u, hu, v, hv, e => by
    simp only [ids, List.nodup_cons] at hn
    simp only [nodes, List.mem_cons] at hu hv
    rcases hu with rfl | hu <;> rcases hv with rfl | hv
    · rfl
    · obtain ⟨h1, h2⟩ := nodesL_ids c v hv
      exact absurd (h2 _ (addr_mem h1)) (by rw [← e]; exact hn.1)
    · obtain ⟨h1, h2⟩ := nodesL_ids c u hu
      exact absurd (h2 _ (addr_mem h1)) (by rw [e]; exact hn.1)
    · exact nodesL_inj c hn.2 u hu v hv e
  | .change i rt p c l r, hn, u, hu, v, hv, e => by
    simp only [ids, List.nodup_cons, List.mem_append, not_or, List.nodup_append] at hn
    simp only [nodes, List.mem_cons, List.mem_append] at hu hv
    have top : ∀ w : LK, (w ∈ nodes l ∨ w ∈ nodes r) → addr w ≠ i := by
      rintro w (hw | hw) hi
      · obtain ⟨h1, h2⟩ := nodes_ids l w hw
        exact hn.1.1 (hi ▸ h2 _ (addr_mem h1))
      · obtain ⟨h1, h2⟩ := nodes_ids r w hw
        exact hn.1.2 (hi ▸ h2 _ (addr_mem h1))
    have both : ∀ u v : LK, u ∈ nodes l → v ∈ nodes r → addr u ≠ addr v := by
      intro u v hu hv e
      obtain ⟨h1, h2⟩ := nodes_ids l u hu
      obtain ⟨h3, h4⟩ := nodes_ids r v hv
      exact hn.2.2.2 _ (h2 _ (addr_mem h1)) _ (h4 _ (addr_mem h3)) e
    rcases hu with rfl | hu
    · rcases hv with rfl | hv
      · rfl
      · exact absurd e.symm (top v hv)
    · rcases hv with rfl | hv
      · exact absurd e (top u hu)
      · rcases hu with hu | hu <;> rcases hv with hv | hv
        · exact nodes_inj l hn.2.1 u hu v hv e
        · exact absurd e (both u v hu hv)
        · exact absurd e.symm (both v u hv hu)
        · exact nodes_inj r hn.2.2.1 u hu v hv e
theorem nodesL_inj : (ks : List LK) → (idsL ks).Nodup → ∀ u ∈ nodesL ks, ∀ v ∈ nodesL ks, addr u = addr v → u = v
  | [], _, u, h, _, _, _ => by simp [nodesL] at h
  | k :: ks, hn, u, hu, v, hv, e => by
    simp only [idsL, List.nodup_append] at hn
    simp only [nodesL, List.mem_append] at hu hv
    have both : ∀ u v : LK, u ∈ nodes k → v ∈ nodesL ks → addr u ≠ addr v := by
      intro u v hu hv e
      obtain ⟨h1, h2⟩ := nodes_ids k u hu
      obtain ⟨h3, h4⟩ := nodesL_ids ks v hv
      exact hn.2.2 _ (h2 _ (addr_mem h1)) _ (h4 _ (addr_mem h3)) e
    rcases hu with hu | hu <;> rcases hv with hv | hv
    · exact nodes_inj k hn.1 u hu v hv e
    · exact absurd e (both u v hu hv)
    · exact absurd e.symm (both v u hv hu)
    · exact nodesL_inj ks hn.2.1 u hu v hv e
end

theorem nodes_nodup : (k : LK) → (ids k).Nodup → ∀ u ∈ nodes k, (ids u).Nodup
  | .str _, _, u, h => by simp [nodes] at h
  | .comm i r p op b c, hn, u, h => by
    have hn' := hn
    simp only [ids, List.nodup_cons] at hn
    simp only [nodes, List.mem_cons] at h
    rcases h with rfl | h
    · exact hn'
    · obtain ⟨k, hk, hu⟩ := mem_nodesL.1 h
      obtain ⟨m, hm, rfl⟩ := List.getElem_of_mem hk
      exact nodes_nodup _ (nodup_get hn.2 hm) u hu
  | .change i rt p c l r, hn, u, h => by
    have hn' := hn
    simp only [ids, List.nodup_cons, List.nodup_append] at hn
    simp only [nodes, List.mem_cons, List.mem_append] at h
    rcases h with rfl | h | h
    · exact hn'
    · exact nodes_nodup l hn.2.1 u h
    · exact nodes_nodup r hn.2.2.1 u h
termination_by k => sizeOf k
decreasing_by
  all_goals simp_wf
  · have := List.sizeOf_lt_of_mem hk; omega
  · omega
  · omega

theorem stored_nodes {h : Heap} : (k : LK) → Stored h k → ∀ u ∈ nodes k, Stored h u
  | .str _, _, u, hu => by simp [nodes] at hu
  | .comm i r p op b c, hs, u, hu => by
    simp only [nodes, List.mem_cons] at hu
    rcases hu with rfl | hu
    · exact hs
    · rw [stored_comm] at hs
      obtain ⟨k, hk, hu⟩ := mem_nodesL.1 hu
      exact stored_nodes k (storedL_iff.1 hs.2 k hk).2 u hu
  | .change i rt p c l r, hs, u, hu => by
    simp only [nodes, List.mem_cons, List.mem_append] at hu
    rcases hu with rfl | hu | hu
    · exact hs
    · simp only [Stored] at hs; exact stored_nodes l hs.2.1 u hu
    · simp only [Stored] at hs; exact stored_nodes r hs.2.2 u hu
termination_by k => sizeOf k
decreasing_by
  all_goals simp_wf
  · have := List.sizeOf_lt_of_mem hk; omega
  · omega
  · omega

/-! ## Changing one node -/

theorem addr_update {y : Nat} {g : LK → LK} {u : LK} (ha : addr (g u) = addr u) (hg : (g u).isStr = false) : (k : LK) →
    (ids k).Nodup → u ∈ nodes k → y = addr u → addr (update y g k) = addr k ∧ (update y g k).isStr = k.isStr
  | .str _, _, h, _ => by simp [nodes] at h
  | .comm i r p op b c, hn, hu, hy => by
    rw [update]
    split_ifs with hi
    · have : u = .comm i r p op b c := nodes_inj _ hn u hu _ (self_mem_nodes rfl) (by rw [← hy, ← hi]; rfl)
      subst this
      exact ⟨ha, hg⟩
    · exact ⟨rfl, rfl⟩
  | .change i rt p c l r, hn, hu, hy => by
    rw [update]
    split_ifs with hi
    · have : u = .change i rt p c l r := nodes_inj _ hn u hu _ (self_mem_nodes rfl) (by rw [← hy, ← hi]; rfl)
      subst this
      exact ⟨ha, hg⟩
    · exact ⟨rfl, rfl⟩

/-- The store after a change below and at one node of a tree. -/
theorem stored_update {h h' : Heap} {A : Nat → Prop} {g : LK → LK} {u : LK} (hm : Objects.Same A h h') (hs' : Stored h' (g u)) (ha : addr (g u) = addr u)
    (hg : (g u).isStr = false) : (k : LK) → Stored h k → (ids k).Nodup → u ∈ nodes k → (∀ a ∈ ids k, A a → a ∈ ids u) → Stored h' (update (addr u) g k)
  | .str _, _, _, h, _ => by simp [nodes] at h
  | .comm i r p op b c, hs, hn, hu, hA => by
    rw [update]
    split_ifs with hi
    · have : u = .comm i r p op b c := nodes_inj _ hn u hu _ (self_mem_nodes rfl) (by rw [← hi]; rfl)
      subst this
      exact hs'
    · rw [stored_comm] at hs
      simp only [ids, List.nodup_cons] at hn
      simp only [nodes, List.mem_cons] at hu
      have hu : u ∈ nodesL c := by
        rcases hu with rfl | hu
        · exact absurd rfl hi
        · exact hu
      obtain ⟨hu1, hu2⟩ := nodesL_ids c u hu
      obtain ⟨k, hk, hu⟩ := mem_nodesL.1 hu
      obtain ⟨m, hlt, rfl⟩ := List.getElem_of_mem hk
      obtain ⟨_, hu3⟩ := nodes_ids _ u hu
      have hAk : ∀ k ∈ c, ∀ a ∈ ids k, A a → a ∈ ids u := fun k hk a hak hAa => hA a (by simp only [ids]; exact List.mem_cons_of_mem _ (mem_idsL.2 ⟨k, hk, hak⟩)) hAa
      rw [updateL_at _ g c hn.2 hlt (hu3 _ (addr_mem hu1)), stored_comm]
      have hadr := addr_update (y := addr u) ha hg _ (nodup_get hn.2 hlt) hu rfl
      have hspl := hn.2
      rw [idsL_split c hlt, List.nodup_append, List.nodup_append] at hspl
      constructor
      · rw [hm.2 i (fun hh => hn.1 (hu2 _ (hA i (by simp [ids]) hh))), hs.1, List.map_set, hadr.1]
        congr 2
        rw [show addr c[m] = (c.map addr)[m]'(by simpa using hlt) by simp, List.set_getElem_self]
      · rw [List.set_eq_take_append_cons_drop, if_pos hlt, storedL_append]
        have hs2 := hs.2
        have hc : c = c.take m ++ c[m] :: c.drop (m + 1) := by rw [List.getElem_cons_drop]; exact (List.take_append_drop m c).symm
        rw [hc, storedL_append, StoredL] at hs2
        refine ⟨hm.storedL (fun a ha hAa => ?_) hs2.1, ⟨by rw [hadr.2]; exact hs2.2.1.1, stored_update hm hs' ha hg _ hs2.2.1.2 (nodup_get hn.2 hlt) hu (hAk _ hk)⟩,
          hm.storedL (fun a ha hAa => ?_) hs2.2.2⟩
        · obtain ⟨k, hk', hak⟩ := mem_idsL.1 ha
          exact hspl.2.2 a ha a (List.mem_append_left _ (hu3 a (hAk k (List.mem_of_mem_take hk') a hak hAa))) rfl
        · obtain ⟨k, hk', hak⟩ := mem_idsL.1 ha
          exact hspl.2.1.2.2 a (hu3 a (hAk k (List.mem_of_mem_drop hk') a hak hAa)) a ha rfl
  | .change i rt p c l r, hs, hn, hu, hA => by
    rw [update]
    split_ifs with hi
    · have : u = .change i rt p c l r := nodes_inj _ hn u hu _ (self_mem_nodes rfl) (by rw [← hi]; rfl)
      subst this
      exact hs'
    · simp only [Stored] at hs
      simp only [ids, List.nodup_cons, List.mem_append, not_or, List.nodup_append] at hn
      simp only [nodes, List.mem_cons, List.mem_append] at hu
      have hAl : ∀ a ∈ ids l, A a → a ∈ ids u := fun a h1 h2 => hA a (by simp only [ids]; simp [h1]) h2
      have hAr : ∀ a ∈ ids r, A a → a ∈ ids u := fun a h1 h2 => hA a (by simp only [ids]; simp [h1]) h2
      have refs : ∀ k : LK, (ids k).Nodup → u ∈ nodes k → toRef (update (addr u) g k) = toRef k := by
        intro k hk hu
        have := addr_update (y := addr u) ha hg k hk hu rfl
        cases hks : k.isStr with
        | true => cases k <;> simp_all [LK.isStr, nodes]
        | false => rw [toRef_obj hks, toRef_obj (this.2.trans hks), this.1]
      rcases hu with rfl | hu | hu
      · exact absurd rfl hi
      · obtain ⟨hu1, hu2⟩ := nodes_ids l u hu
        have hur : addr u ∉ ids r := fun hh => hn.2.2.2 _ (hu2 _ (addr_mem hu1)) _ hh rfl
        rw [update_of_not_mem _ g r hur]
        simp only [Stored]
        refine ⟨?_, stored_update hm hs' ha hg l hs.2.1 hn.2.1 hu hAl, hm.stored (fun a h1 h2 => hn.2.2.2 a (hu2 a (hAr a h1 h2)) a h1 rfl) hs.2.2⟩
        rw [hm.2 i (fun hh => hn.1.1 (hu2 _ (hA i (by simp [ids]) hh))), hs.1, refs l hn.2.1 hu]
      · obtain ⟨hu1, hu2⟩ := nodes_ids r u hu
        have hur : addr u ∉ ids l := fun hh => hn.2.2.2 _ hh _ (hu2 _ (addr_mem hu1)) rfl
        rw [update_of_not_mem _ g l hur]
        simp only [Stored]
        refine ⟨?_, hm.stored (fun a h1 h2 => hn.2.2.2 a h1 a (hu2 a (hAl a h1 h2)) rfl) hs.2.1, stored_update hm hs' ha hg r hs.2.2 hn.2.2.1 hu hAr⟩
        rw [hm.2 i (fun hh => hn.1.2 (hu2 _ (hA i (by simp [ids]) hh))), hs.1, refs r hn.2.2.1 hu]
termination_by k => sizeOf k
decreasing_by
  all_goals simp_wf
  · have := List.sizeOf_lt_of_mem (List.getElem_mem hlt); omega
  · omega
  · omega

end Links
end GPyABCD
