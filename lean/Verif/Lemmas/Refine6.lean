import Verif.Lemmas.Refine5

/-!
# The store does to trees what the model of trees says: replacing a node, continued
-/

namespace GPyABCD
namespace Links
open KE LK Objects

/-- The node `s`, as `traverse` gives it, belongs to the node `u`. -/
def Held (cfg : Cfg) (fresh : Nat → Bool → Nat) (s : LK) : LK → Prop
  | .str _ => False
  | .comm _ _ _ _ _ c => s ∈ c
  | .change i rt _ _ l r => s = l ∨ s = r ∨ ∃ b x, s = temp cfg i rt (fresh i x) b

/-- The parent link of a node below the top leads to the node that holds it. -/
theorem parent_holds {cfg : Cfg} {fresh : Nat → Bool → Nat} {R : Option Nat → Prop} : (k : LK) → {T : Option Nat → Prop} → {q : List Step × LK} →
    G R T k → q ∈ LK.traverse cfg fresh k → q.1 ≠ [] → ∃ u ∈ nodes k, q.2.isStr = false ∧ q.2.parent = some (addr u) ∧ Held cfg fresh q.2 u
  | .str _, _, _, _, h, _ => by simp [LK.traverse] at h
  | .comm i r p op bts cts, T, q, hG, h, hq => by
    simp only [LK.traverse, List.mem_cons] at h
    rcases h with rfl | h
    · exact absurd rfl hq
    obtain ⟨m, hm, q', h1, rfl⟩ := mem_traverseL h
    simp only [G] at hG
    obtain ⟨c1, c2⟩ := GL_get hG.2.2 hm
    by_cases hq' : q'.1 = []
    · have e := traverse_top h1 hq'
      refine ⟨.comm i r p op bts cts, by simp [nodes], by rw [e]; exact c1, by rw [e]; exact (G_top.1 c2).2 c1, ?_⟩
      rw [Held, e]; exact List.getElem_mem hm
    · obtain ⟨u, hu, h2⟩ := parent_holds cts[m] c2 h1 hq'
      exact ⟨u, by simp only [nodes]; exact List.mem_cons_of_mem _ (mem_nodesL.2 ⟨_, List.getElem_mem hm, hu⟩), h2⟩
  | .change i rt p c l r, T, q, hG, h, hq => by
    simp only [G] at hG
    rcases traverse_change h with rfl | ⟨b, rfl, rfl⟩ | ⟨q', h1, rfl⟩ | ⟨b, rfl, rfl⟩ | ⟨q', h1, rfl⟩
    · exact absurd rfl hq
    · obtain ⟨bts, t1, t2⟩ := temp_eq cfg i rt (fresh i false) b
      exact ⟨.change i rt p c (.str b) r, by simp only [nodes]; exact List.mem_cons_self, by rw [t1]; rfl, by rw [t1]; rfl, .inr (.inr ⟨b, false, rfl⟩)⟩
    · have hl := traverse_nonstr cfg fresh l h1
      by_cases hq' : q'.1 = []
      · have e := traverse_top h1 hq'
        exact ⟨.change i rt p c l r, by simp only [nodes]; exact List.mem_cons_self, by rw [e]; exact hl, by rw [e]; exact (G_top.1 hG.2.2.1).2 hl, .inl e⟩
      · obtain ⟨u, hu, h2⟩ := parent_holds l hG.2.2.1 h1 hq'
        exact ⟨u, by simp only [nodes]; exact List.mem_cons_of_mem _ (List.mem_append_left _ hu), h2⟩
    · obtain ⟨bts, t1, t2⟩ := temp_eq cfg i rt (fresh i true) b
      exact ⟨.change i rt p c l (.str b), by simp only [nodes]; exact List.mem_cons_self, by rw [t1]; rfl, by rw [t1]; rfl, .inr (.inr ⟨b, true, rfl⟩)⟩
    · have hl := traverse_nonstr cfg fresh r h1
      by_cases hq' : q'.1 = []
      · have e := traverse_top h1 hq'
        exact ⟨.change i rt p c l r, by simp only [nodes]; exact List.mem_cons_self, by rw [e]; exact hl, by rw [e]; exact (G_top.1 hG.2.2.2).2 hl, .inr (.inl e)⟩
      · obtain ⟨u, hu, h2⟩ := parent_holds r hG.2.2.2 h1 hq'
        exact ⟨u, by simp only [nodes]; exact List.mem_cons_of_mem _ (List.mem_append_right _ hu), h2⟩
termination_by k => sizeOf k
decreasing_by
  all_goals simp_wf
  · have := List.sizeOf_lt_of_mem (List.getElem_mem hm); omega
  · omega
  · omega

/-- What changing one node does to the identities in a tree. -/
theorem update_perm {g : LK → LK} {u : LK} : (k : LK) → (ids k).Nodup → u ∈ nodes k → (ids (update (addr u) g k) ++ ids u).Perm (ids k ++ ids (g u))
  | .str _, _, h => by simp [nodes] at h
  | .comm i r p op b c, hn, hu => by
    rw [update]
    split_ifs with hi
    · have : u = .comm i r p op b c := nodes_inj _ hn u hu _ (self_mem_nodes rfl) (by rw [← hi]; rfl)
      subst this
      exact List.perm_append_comm
    · simp only [ids, List.nodup_cons] at hn
      simp only [nodes, List.mem_cons] at hu
      have hu : u ∈ nodesL c := by
        rcases hu with rfl | hu
        · exact absurd rfl hi
        · exact hu
      obtain ⟨hu1, hu2⟩ := nodesL_ids c u hu
      obtain ⟨k, hk, hu⟩ := mem_nodesL.1 hu
      obtain ⟨m, hlt, rfl⟩ := List.getElem_of_mem hk
      obtain ⟨_, hu3⟩ := nodes_ids _ u hu
      have ih := update_perm (g := g) c[m] (nodup_get hn.2 hlt) hu
      rw [updateL_at _ g c hn.2 hlt (hu3 _ (addr_mem hu1))]
      simp only [ids, idsL_set hlt, idsL_split c hlt]
      rw [List.perm_iff_count] at ih ⊢
      intro a
      have := ih a
      simp only [List.count_append, List.count_cons] at this ⊢
      omega
  | .change i rt p c l r, hn, hu => by
    rw [update]
    split_ifs with hi
    · have : u = .change i rt p c l r := nodes_inj _ hn u hu _ (self_mem_nodes rfl) (by rw [← hi]; rfl)
      subst this
      exact List.perm_append_comm
    · simp only [ids, List.nodup_cons, List.mem_append, not_or, List.nodup_append] at hn
      simp only [nodes, List.mem_cons, List.mem_append] at hu
      rcases hu with rfl | hu | hu
      · exact absurd rfl hi
      · obtain ⟨hu1, hu2⟩ := nodes_ids l u hu
        rw [update_of_not_mem _ g r (fun hh => hn.2.2.2 _ (hu2 _ (addr_mem hu1)) _ hh rfl)]
        have ih := update_perm (g := g) l hn.2.1 hu
        rw [List.perm_iff_count] at ih ⊢
        intro a
        have := ih a
        simp only [ids, List.count_append, List.count_cons] at this ⊢
        omega
      · obtain ⟨hu1, hu2⟩ := nodes_ids r u hu
        rw [update_of_not_mem _ g l (fun hh => hn.2.2.2 _ hh _ (hu2 _ (addr_mem hu1)) rfl)]
        have ih := update_perm (g := g) r hn.2.2.1 hu
        rw [List.perm_iff_count] at ih ⊢
        intro a
        have := ih a
        simp only [ids, List.count_append, List.count_cons] at this ⊢
        omega
termination_by k => sizeOf k
decreasing_by
  all_goals simp_wf
  · have := List.sizeOf_lt_of_mem (List.getElem_mem hlt); omega
  · omega
  · omega

/-- Changing a node without changing its value. -/
theorem update_erase {g : LK → LK} {u : LK} (hv : (g u).erase = u.erase) : (k : LK) → (ids k).Nodup → u ∈ nodes k → (update (addr u) g k).erase = k.erase
  | .str _, _, h => by simp [nodes] at h
  | .comm i r p op b c, hn, hu => by
    rw [update]
    split_ifs with hi
    · have : u = .comm i r p op b c := nodes_inj _ hn u hu _ (self_mem_nodes rfl) (by rw [← hi]; rfl)
      subst this
      exact hv
    · simp only [ids, List.nodup_cons] at hn
      simp only [nodes, List.mem_cons] at hu
      have hu : u ∈ nodesL c := by
        rcases hu with rfl | hu
        · exact absurd rfl hi
        · exact hu
      obtain ⟨hu1, hu2⟩ := nodesL_ids c u hu
      obtain ⟨k, hk, hu⟩ := mem_nodesL.1 hu
      obtain ⟨m, hlt, rfl⟩ := List.getElem_of_mem hk
      obtain ⟨_, hu3⟩ := nodes_ids _ u hu
      have ih := update_erase (g := g) hv c[m] (nodup_get hn.2 hlt) hu
      rw [updateL_at _ g c hn.2 hlt (hu3 _ (addr_mem hu1)), erase, erase, eraseL_set, ih]
      congr 1
      apply List.ext_getElem?
      intro j
      rw [List.getElem?_set]
      split_ifs with h1 h2
      · subst h1; rw [eraseL_get hlt]
      · subst h1; rw [eraseL_eq] at h2 ⊢; simp at h2; omega
      · rfl
  | .change i rt p c l r, hn, hu => by
    rw [update]
    split_ifs with hi
    · have : u = .change i rt p c l r := nodes_inj _ hn u hu _ (self_mem_nodes rfl) (by rw [← hi]; rfl)
      subst this
      exact hv
    · simp only [ids, List.nodup_cons, List.mem_append, not_or, List.nodup_append] at hn
      simp only [nodes, List.mem_cons, List.mem_append] at hu
      rcases hu with rfl | hu | hu
      · exact absurd rfl hi
      · obtain ⟨hu1, hu2⟩ := nodes_ids l u hu
        rw [update_of_not_mem _ g r (fun hh => hn.2.2.2 _ (hu2 _ (addr_mem hu1)) _ hh rfl), erase, erase, update_erase hv l hn.2.1 hu]
      · obtain ⟨hu1, hu2⟩ := nodes_ids r u hu
        rw [update_of_not_mem _ g l (fun hh => hn.2.2.2 _ hh _ (hu2 _ (addr_mem hu1)) rfl), erase, erase, update_erase hv r hn.2.2.1 hu]
termination_by k => sizeOf k
decreasing_by
  all_goals simp_wf
  · have := List.sizeOf_lt_of_mem (List.getElem_mem hlt); omega
  · omega
  · omega

/-! ## Copies -/

theorem copy_temp (cfg : Cfg) (f : Nat → Nat) (i : Nat) (rt : Option Nat) (n : Nat) (b : Base) :
    copy f (temp cfg i rt n b) = temp cfg (f i) (rt.map f) (f n) b := by
  cases rt <;> rfl

theorem copy_temps (cfg : Cfg) (f : Nat → Nat) (i : Nat) (rt : Option Nat) (n : Nat) (st : Step) (k : LK) :
    temps cfg (f i) (rt.map f) (f n) st (copy f k) = (temps cfg i rt n st k).map (fun q => (q.1, copy f q.2)) := by
  cases k with
  | str b => simp only [copy, temps, List.map_cons, List.map_nil]; rw [← temp, ← copy_temp]; rfl
  | comm => rfl
  | change => rfl

mutual
theorem traverse_copy (cfg : Cfg) (f : Nat → Nat) (n : Nat) : (k : LK) →
    LK.traverse cfg (fun _ _ => f n) (copy f k) = (LK.traverse cfg (fun _ _ => n) k).map (fun q => (q.1, copy f q.2))
  | .str _ => rfl
  | .comm i r p op b c => by
    rw [copy, LK.traverse, traverseL_copy cfg f n 0 c, LK.traverse]; rfl
  | .change i rt p c l r => by
    rw [copy, LK.traverse, copy_temps, copy_temps, traverse_copy cfg f n l, traverse_copy cfg f n r, LK.traverse]
    simp only [List.map_cons, List.map_append, List.map_map, copy]
    rfl
theorem traverseL_copy (cfg : Cfg) (f : Nat → Nat) (n j : Nat) : (ks : List LK) →
    LK.traverseL cfg (fun _ _ => f n) j (copyL f ks) = (LK.traverseL cfg (fun _ _ => n) j ks).map (fun q => (q.1, copy f q.2))
  | [] => rfl
  | k :: ks => by
    rw [copyL, LK.traverseL, traverse_copy cfg f n k, traverseL_copy cfg f n (j + 1) ks, LK.traverseL]
    simp only [List.map_append, List.map_map]
    rfl
end

mutual
theorem linked_copy (f : Nat → Nat) {x : Nat} : (k : LK) → {p : Option Nat} → Linked x p k → Linked (f x) (p.map f) (copy f k)
  | .str _, _, _ => trivial
  | .comm i r q op b c, p, h => by
    simp only [Linked] at h
    simp only [copy, Linked]
    exact ⟨by rw [h.1]; rfl, by rw [h.2.1], linkedL_copy f c h.2.2⟩
  | .change i r q c l r', p, h => by
    simp only [Linked] at h
    simp only [copy, Linked]
    exact ⟨by rw [h.1]; rfl, by rw [h.2.1], linked_copy f l h.2.2.1, linked_copy f r' h.2.2.2⟩
theorem linkedL_copy (f : Nat → Nat) {x i : Nat} : (ks : List LK) → LinkedL x i ks → LinkedL (f x) (f i) (copyL f ks)
  | [], _ => trivial
  | k :: ks, h => by
    simp only [LinkedL] at h
    simp only [copyL, LinkedL]
    exact ⟨⟨by rw [isStr_copy]; exact h.1.1, linked_copy f k h.1.2⟩, linkedL_copy f ks h.2⟩
end

theorem wellLinked_copy {f : Nat → Nat} {k : LK} (h : WellLinked k) (hf : ∀ a ∈ ids k, ∀ b, f a = f b → a = b) : WellLinked (copy f k) := by
  obtain ⟨⟨i, h1, h2⟩, h3⟩ := h
  refine ⟨⟨f i, ?_, ?_⟩, ?_⟩
  · cases k <;> simp_all [id?, copy]
  · exact linked_copy f k h2
  · rw [ids_copy]; exact nodup_map h3 (fun a ha b _ e => hf a ha b e)

mutual
theorem nodes_copy (f : Nat → Nat) : (k : LK) → nodes (copy f k) = (nodes k).map (copy f)
  | .str _ => rfl
  | .comm i r p op b c => by simp only [copy, nodes, List.map_cons, nodesL_copy f c]
  | .change i r p c l r' => by simp only [copy, nodes, List.map_cons, List.map_append, nodes_copy f l, nodes_copy f r']
theorem nodesL_copy (f : Nat → Nat) : (ks : List LK) → nodesL (copyL f ks) = (nodesL ks).map (copy f)
  | [] => rfl
  | k :: ks => by simp only [copyL, nodesL, List.map_append, nodes_copy f k, nodesL_copy f ks]
end

end Links
end GPyABCD
