import Verif.Lemmas.Links

/-!
# Lemmas on replacing a node by following links
-/

namespace GPyABCD
namespace Links
open KE LK

theorem mem_idsL {ks : List LK} {n : Nat} : n ∈ idsL ks ↔ ∃ k ∈ ks, n ∈ ids k := by
  rw [idsL_eq]; simp

theorem id_mem {k : LK} {i : Nat} (h : k.id? = some i) : i ∈ ids k := by
  cases k <;> simp_all [id?, ids]

mutual
theorem update_of_not_mem (x : Nat) (f : LK → LK) : (k : LK) → x ∉ ids k → update x f k = k
  | .str _, _ => by simp [update]
  | .comm i r p op bts cts, h => by
    simp only [ids, List.mem_cons, not_or] at h
    rw [update, if_neg (fun e => h.1 e.symm), updateL_of_not_mem x f cts h.2]
  | .change i r p c l r', h => by
    simp only [ids, List.mem_cons, List.mem_append, not_or] at h
    rw [update, if_neg (fun e => h.1 e.symm), update_of_not_mem x f l h.2.1, update_of_not_mem x f r' h.2.2]
theorem updateL_of_not_mem (x : Nat) (f : LK → LK) : (ks : List LK) → x ∉ idsL ks → updateL x f ks = ks
  | [], _ => rfl
  | k :: ks, h => by
    simp only [idsL, List.mem_append, not_or] at h
    rw [updateL, update_of_not_mem x f k h.1, updateL_of_not_mem x f ks h.2]
end

/-- The temporary node for a string. -/
def temp (cfg : Cfg) (i : Nat) (rt : Option Nat) (n : Nat) (b : Base) : LK :=
  setParent (some i) (setRoot rt (newComm cfg n (fun n => n) .sum (Counter.ofList [b]) []))

theorem newComm_nil (cfg : Cfg) (n : Nat) (f : Nat → Nat) (op : Op) (bts : Counter) :
    ∃ b, newComm cfg n f op bts [] = .comm n none none op b [] ∧ KE.simplify cfg (.comm op bts []) = .comm op b [] :=
  ⟨_, rfl, rfl⟩

theorem temp_eq (cfg : Cfg) (i : Nat) (rt : Option Nat) (n : Nat) (b : Base) :
    ∃ bts, temp cfg i rt n b = .comm n (some (rt.getD n)) (some i) .sum bts [] ∧ (temp cfg i rt n b).erase = mkL cfg .sum [b] [] := by
  obtain ⟨bts, h1, h2⟩ := newComm_nil cfg n (fun n => n) .sum (Counter.ofList [b])
  refine ⟨bts, ?_, ?_⟩
  · rw [temp, h1]; rfl
  · rw [temp, h1]; simp only [erase_setParent, erase_setRoot, erase, eraseL]; rw [← h2]; rfl

theorem traverse_nonstr (cfg : Cfg) (fresh : Nat → Bool → Nat) {q : List Step × LK} :
    (k : LK) → q ∈ LK.traverse cfg fresh k → k.isStr = false
  | .str _, h => by simp [LK.traverse] at h
  | .comm .., _ => rfl
  | .change .., _ => rfl

theorem mem_traverseL {cfg : Cfg} {fresh : Nat → Bool → Nat} {q : List Step × LK} : {ks : List LK} → {j : Nat} → q ∈ LK.traverseL cfg fresh j ks →
    ∃ m, ∃ h : m < ks.length, ∃ q' ∈ LK.traverse cfg fresh ks[m], q = (.idx (j + m) :: q'.1, q'.2)
  | [], _, h => by simp [LK.traverseL] at h
  | k :: ks, j, h => by
    simp only [LK.traverseL, List.mem_append, List.mem_map] at h
    rcases h with ⟨q', h1, rfl⟩ | h
    · exact ⟨0, by simp, q', h1, rfl⟩
    · obtain ⟨m, hm, q', h1, h2⟩ := mem_traverseL h
      exact ⟨m + 1, by simpa using hm, q', by simpa using h1, by rw [h2]; congr 3; omega⟩

theorem traverse_change {cfg : Cfg} {fresh : Nat → Bool → Nat} {i : Nat} {rt p : Option Nat} {c : CC} {l r : LK} {q : List Step × LK}
    (h : q ∈ LK.traverse cfg fresh (.change i rt p c l r)) :
    q = ([], .change i rt p c l r) ∨
      (∃ b, l = .str b ∧ q = ([.vleft], temp cfg i rt (fresh i false) b)) ∨ (∃ q' ∈ LK.traverse cfg fresh l, q = (.left :: q'.1, q'.2)) ∨
      (∃ b, r = .str b ∧ q = ([.vright], temp cfg i rt (fresh i true) b)) ∨ ∃ q' ∈ LK.traverse cfg fresh r, q = (.right :: q'.1, q'.2) := by
  simp only [LK.traverse, List.mem_cons, List.mem_append] at h
  have ht : ∀ {n : Nat} {st : Step} {k : LK}, q ∈ temps cfg i rt n st k → ∃ b, k = .str b ∧ q = ([st], temp cfg i rt n b) := by
    intro n st k hh
    cases k <;> simp [temps] at hh
    exact ⟨_, rfl, hh⟩
  have hm : ∀ {st : Step} {k : LK}, q ∈ (LK.traverse cfg fresh k).map (fun q => (st :: q.1, q.2)) →
      ∃ q' ∈ LK.traverse cfg fresh k, q = (st :: q'.1, q'.2) := by
    intro st k hh
    obtain ⟨q', h1, h2⟩ := List.mem_map.1 hh
    exact ⟨q', h1, h2.symm⟩
  rcases h with h | (h | h) | (h | h)
  · exact Or.inl h
  · exact Or.inr (Or.inl (ht h))
  · exact Or.inr (Or.inr (Or.inl (hm h)))
  · exact Or.inr (Or.inr (Or.inr (Or.inl (ht h))))
  · exact Or.inr (Or.inr (Or.inr (Or.inr (hm h))))

/-- At the top position is the node itself. -/
theorem traverse_top {cfg : Cfg} {fresh : Nat → Bool → Nat} {k : LK} {q : List Step × LK} (h : q ∈ LK.traverse cfg fresh k) (hq : q.1 = []) :
    q.2 = k := by
  cases k with
  | str => simp [LK.traverse] at h
  | comm i r p op bts cts =>
    simp only [LK.traverse, List.mem_cons] at h
    rcases h with rfl | h
    · rfl
    · obtain ⟨m, _, q', _, rfl⟩ := mem_traverseL h; cases hq
  | change i rt p c l r =>
    rcases traverse_change h with rfl | ⟨b, _, rfl⟩ | ⟨q', _, rfl⟩ | ⟨b, _, rfl⟩ | ⟨q', _, rfl⟩
    · rfl
    all_goals cases hq

theorem GL_get {R T : Option Nat → Prop} {ks : List LK} (h : GL R T ks) {m : Nat} (hm : m < ks.length) : ks[m].isStr = false ∧ G R T ks[m] :=
  GL_iff.1 h _ (List.getElem_mem hm)

theorem idsL_split (ks : List LK) {m : Nat} (hm : m < ks.length) :
    idsL ks = idsL (ks.take m) ++ (ids ks[m] ++ idsL (ks.drop (m + 1))) := by
  have e : ks = ks.take m ++ ks[m] :: ks.drop (m + 1) := by rw [List.getElem_cons_drop]; exact (List.take_append_drop m ks).symm
  simp only [idsL_eq]
  conv_lhs => rw [e]
  rw [List.flatMap_append, List.flatMap_cons]

theorem updateL_at (x : Nat) (f : LK → LK) (ks : List LK) (hn : (idsL ks).Nodup) {m : Nat} (hm : m < ks.length) (hx : x ∈ ids ks[m]) :
    updateL x f ks = ks.set m (update x f ks[m]) := by
  induction ks generalizing m with
  | nil => simp at hm
  | cons k ks ih =>
    simp only [idsL, List.nodup_append] at hn
    cases m with
    | zero =>
      simp only [List.getElem_cons_zero] at hx
      rw [updateL, updateL_of_not_mem x f ks (fun h => hn.2.2 x hx x h rfl)]
      rfl
    | succ m =>
      simp only [List.getElem_cons_succ] at hx
      have hm' : m < ks.length := by simpa using hm
      have : x ∈ idsL ks := mem_idsL.2 ⟨_, List.getElem_mem hm', hx⟩
      rw [updateL, update_of_not_mem x f k (fun h => hn.2.2 x h x this rfl), ih hn.2.1 hm' hx]
      rfl

theorem nodup_get {ks : List LK} (h : (idsL ks).Nodup) {m : Nat} (hm : m < ks.length) : (ids ks[m]).Nodup := by
  rw [idsL_split ks hm] at h
  exact (List.nodup_append.1 (List.nodup_append.1 h).2.1).1

theorem GL_set {R T : Option Nat → Prop} {ks : List LK} (h : GL R T ks) {m : Nat} {k : LK} (hk : k.isStr = false ∧ G R T k) : GL R T (ks.set m k) := by
  rw [GL_iff] at *
  intro k' hk'
  rcases List.mem_or_eq_of_mem_set hk' with h1 | rfl
  · exact h k' h1
  · exact hk

theorem idsL_append (a b : List LK) : idsL (a ++ b) = idsL a ++ idsL b := by
  simp [idsL_eq]

theorem idsL_set {ks : List LK} {m : Nat} (hm : m < ks.length) (k : LK) :
    (idsL (ks.set m k)) = idsL (ks.take m) ++ (ids k ++ idsL (ks.drop (m + 1))) := by
  rw [List.set_eq_take_append_cons_drop, if_pos hm, idsL_append, idsL]

theorem eraseL_set (ks : List LK) (m : Nat) (k : LK) : eraseL (ks.set m k) = (eraseL ks).set m k.erase := by
  rw [eraseL_eq, eraseL_eq, List.map_set]

/-- What replacing the node at a position below the top does. -/
structure Replaced (R T : Option Nat → Prop) (k : LK) (pos : List Step) (new k' : LK) : Prop where
  top : k'.id? = k.id? ∧ k'.isStr = k.isStr
  links : G R T k'
  ids : (ids k').Subperm (ids k ++ ids new)
  erase : k'.erase = replaceAt k.erase pos new.erase

theorem idsL_sub {a b : List LK} (h : a.Sublist b) : (idsL a).Sublist (idsL b) := by
  induction h with
  | slnil => simp
  | cons a _ ih => rw [idsL]; exact ih.trans (List.sublist_append_right _ _)
  | cons_cons a _ ih => rw [idsL, idsL]; exact List.Sublist.append (List.Sublist.refl _) ih

theorem eraseL_get {ks : List LK} {m : Nat} (hm : m < ks.length) : (eraseL ks)[m]? = some ks[m].erase := by
  rw [eraseL_eq]; simp [hm]

theorem eraseL_append (a b : List LK) : eraseL (a ++ b) = eraseL a ++ eraseL b := by simp [eraseL_eq]

/-- Following the parent link of a node below the top leads to the node that holds it, and replacing it there is replacing it at its position. -/
theorem update_ok {cfg : Cfg} {fresh : Nat → Bool → Nat} {x : Nat} : (k : LK) → {T : Option Nat → Prop} → {q : List Step × LK} →
    G (fun r => r = some x) T k → (ids k).Nodup → (∀ i b, fresh i b ∉ ids k) → q ∈ LK.traverse cfg fresh k → q.1 ≠ [] →
    ∃ y ∈ ids k, q.2.parent = some y ∧ q.2.root = some x ∧ (∃ n, q.2.id? = some n ∧ some n ≠ k.id? ∧ (n ∈ ids k ∨ ∃ i b, n = fresh i b)) ∧
      ∀ new, new.isStr = false → G (fun r => r = some x) (fun p => p = some y) new →
        Replaced (fun r => r = some x) T k q.1 new (update y (reassign q.2 new) k)
  | .str _, _, _, _, _, _, h, _ => by simp [LK.traverse] at h
  | .comm i r p op bts cts, T, q, hG, hn, hf, h, hq => by
    simp only [LK.traverse, List.mem_cons] at h
    rcases h with rfl | h
    · exact absurd rfl hq
    obtain ⟨m, hm, q', h1, rfl⟩ := mem_traverseL h
    simp only [G] at hG
    simp only [ids, List.nodup_cons] at hn
    obtain ⟨c1, c2⟩ := GL_get hG.2.2 hm
    have hmem : ∀ n ∈ ids cts[m], n ∈ idsL cts := fun n hn => mem_idsL.2 ⟨_, List.getElem_mem hm, hn⟩
    have hget : cts[m]? = some cts[m] := List.getElem?_eq_getElem hm
    simp only [Nat.zero_add]
    by_cases hq' : q'.1 = []
    · have e := traverse_top h1 hq'
      obtain ⟨q1, q2⟩ := q'
      simp only at hq' e
      subst hq' e
      have hc2 := (G_top.1 c2).2 c1
      refine ⟨i, by simp [ids], hc2, ?_, ?_, ?_⟩
      · cases hk : cts[m] with
        | str => rw [hk] at c1; cases c1
        | comm => rw [hk] at c2; simp only [G] at c2; exact c2.1
        | change => rw [hk] at c2; simp only [G] at c2; exact c2.1
      · cases hid : cts[m].id? with
        | none => cases hk : cts[m] <;> rw [hk] at c1 hid <;> simp [isStr, id?] at c1 hid
        | some n =>
          refine ⟨n, rfl, ?_, Or.inl ?_⟩
          · intro e
            simp only [id?] at e; cases e
            exact hn.1 (hmem _ (id_mem hid))
          · simp only [ids]; exact List.mem_cons_of_mem _ (hmem _ (id_mem hid))
      · intro new hns hnew
        rw [update, if_pos rfl]
        refine ⟨⟨rfl, rfl⟩, ?_, ?_, ?_⟩
        · simp only [reassign, G]
          refine ⟨hG.1, hG.2.1, GL_iff.2 ?_⟩
          intro k hk
          rcases List.mem_append.1 hk with hk | hk
          · exact GL_iff.1 hG.2.2 k ((removeFirst_sub _ _).subset hk)
          · simp at hk; subst hk; exact ⟨hns, hnew⟩
        · simp only [reassign, ids, idsL_append, List.cons_append, idsL]
          refine (List.subperm_cons i).2 ?_
          simp only [List.append_nil]
          exact List.Subperm.append ((idsL_sub (removeFirst_sub _ _)).subperm) (List.Subperm.refl _)
        · simp only [reassign, erase, eraseL_append, replaceAt, eraseL_get hm]
          congr 2
          have := removeFirst_map erase (fun y => keq cts[m].erase y) cts
          rw [eraseL_eq, eraseL_eq, ← this]
          cases removeFirst (fun y => keq cts[m].erase y.erase) cts <;> simp
    · obtain ⟨y, y1, y2, y3, ⟨n, n1, n2, n3⟩, y4⟩ := update_ok cts[m] c2 (nodup_get hn.2 hm) (fun i b hh => hf i b (by simp only [ids]; exact List.mem_cons_of_mem _ (hmem _ hh))) h1 hq'
      refine ⟨y, by simp only [ids]; exact List.mem_cons_of_mem _ (hmem _ y1), y2, y3, ⟨n, n1, ?_, n3.imp (fun hh => by simp only [ids]; exact List.mem_cons_of_mem _ (hmem _ hh)) id⟩, ?_⟩
      · intro e
        simp only [id?] at e; cases e
        rcases n3 with hh | ⟨a, b, hh⟩
        · exact hn.1 (hmem _ hh)
        · exact hf a b (by rw [← hh]; simp [ids])
      · intro new hns hnew
        have H := y4 new hns hnew
        have hyi : ¬ i = y := by rintro rfl; exact hn.1 (hmem _ y1)
        rw [update, if_neg hyi, updateL_at y _ cts hn.2 hm y1]
        refine ⟨⟨rfl, rfl⟩, ?_, ?_, ?_⟩
        · simp only [G]
          exact ⟨hG.1, hG.2.1, GL_set hG.2.2 ⟨by rw [H.top.2]; exact c1, H.links⟩⟩
        · simp only [ids, List.cons_append]
          refine (List.subperm_cons i).2 ?_
          rw [idsL_set hm, idsL_split cts hm]
          have : (idsL (cts.take m) ++ (ids (update y (reassign q'.2 new) cts[m]) ++ idsL (cts.drop (m + 1)))).Subperm
              (idsL (cts.take m) ++ ((ids cts[m] ++ ids new) ++ idsL (cts.drop (m + 1)))) :=
            List.Subperm.append (List.Subperm.refl _) (List.Subperm.append H.ids (List.Subperm.refl _))
          refine this.trans (List.Perm.subperm ?_)
          rw [List.perm_iff_count]; intro a; simp only [List.count_append]; omega
        · simp only [erase, eraseL_set, H.erase]
          obtain ⟨q1, q2⟩ := q'
          cases q1 with
          | nil => exact absurd rfl hq'
          | cons s ss => simp only [replaceAt, eraseL_get hm]
  | .change i rt p c l r, T, q, hG, hn, hf, h, hq => by
    simp only [G] at hG
    simp only [ids, List.nodup_cons, List.mem_append, not_or, List.nodup_append] at hn
    have hrt := hG.1
    rcases traverse_change h with rfl | ⟨b, rfl, rfl⟩ | ⟨q', h1, rfl⟩ | ⟨b, rfl, rfl⟩ | ⟨q', h1, rfl⟩
    · exact absurd rfl hq
    · obtain ⟨bts, t1, t2⟩ := temp_eq cfg i rt (fresh i false) b
      refine ⟨i, by simp [ids], by rw [t1]; rfl, by rw [t1, hrt]; rfl, ⟨_, by rw [t1]; rfl, ?_, Or.inr ⟨i, false, rfl⟩⟩, ?_⟩
      · simp only [id?]; intro e; exact hf i false (by simp only [ids]; rw [Option.some.inj e]; simp)
      · intro new hns hnew
        rw [update, if_pos rfl, t1]
        refine ⟨⟨by simp [reassign, id?], by simp [reassign, isStr, id?]⟩, ?_, ?_, ?_⟩
        · simp only [reassign, id?, G]; simp [G, hG.1, hG.2.1, hnew]
        · simp only [reassign, id?]
          simp only [ids, List.nil_append, List.cons_append]
          simp only [reduceCtorEq, false_and, if_false, ids, List.nil_append]
          exact (List.subperm_cons i).2 (List.sublist_append_right _ _).subperm
        · simp [reassign, id?, erase, replaceAt]
    · have hl := traverse_nonstr cfg fresh l h1
      by_cases hq' : q'.1 = []
      · have e := traverse_top h1 hq'
        obtain ⟨q1, q2⟩ := q'
        simp only at hq' e
        subst hq' e
        refine ⟨i, by simp [ids], (G_top.1 hG.2.2.1).2 hl, ?_, ?_, ?_⟩
        · cases q2 with
          | str => cases hl
          | comm => have := hG.2.2.1; simp only [G] at this; exact this.1
          | change => have := hG.2.2.1; simp only [G] at this; exact this.1
        · cases hid : q2.id? with
          | none => cases q2 <;> simp [isStr, id?] at hl hid
          | some n =>
            refine ⟨n, rfl, ?_, Or.inl ?_⟩
            · intro e; simp only [id?] at e; cases e; exact hn.1.1 (id_mem hid)
            · simp only [ids]; simp [id_mem hid]
        · intro new hns hnew
          have hid : q2.id? ≠ none := by cases q2 <;> simp [isStr, id?] at hl ⊢
          rw [update, if_pos rfl]
          refine ⟨⟨by simp only [reassign, hid, ne_eq, not_false_eq_true, and_self, if_true]; rfl, by simp only [reassign, hid, ne_eq, not_false_eq_true, and_self, if_true]; rfl⟩, ?_, ?_, ?_⟩
          · simp only [reassign, hid, ne_eq, not_false_eq_true, and_self, if_true, G]; exact ⟨hG.1, hG.2.1, hnew, hG.2.2.2⟩
          · simp only [reassign, hid, ne_eq, not_false_eq_true, and_self, if_true, ids, List.cons_append]
            refine (List.subperm_cons i).2 ?_
            refine (List.Perm.subperm List.perm_append_comm).trans ?_
            rw [List.append_assoc]
            exact (List.sublist_append_right _ _).subperm
          · simp [reassign, hid, erase, replaceAt]
      · obtain ⟨y, y1, y2, y3, ⟨n, n1, n2, n3⟩, y4⟩ := update_ok l hG.2.2.1 hn.2.1 (fun a b hh => hf a b (by simp only [ids]; simp [hh])) h1 hq'
        refine ⟨y, by simp only [ids]; simp [y1], y2, y3, ⟨n, n1, ?_, n3.imp (fun hh => by simp only [ids]; simp [hh]) id⟩, ?_⟩
        · intro e
          simp only [id?] at e; cases e
          rcases n3 with hh | ⟨a, b, hh⟩
          · exact hn.1.1 hh
          · exact hf a b (by rw [← hh]; simp [ids])
        · intro new hns hnew
          have H := y4 new hns hnew
          have hyi : ¬ i = y := by rintro rfl; exact hn.1.1 y1
          rw [update, if_neg hyi, update_of_not_mem y _ r (fun hh => hn.2.2.2 y y1 y hh rfl)]
          refine ⟨⟨rfl, rfl⟩, ?_, ?_, ?_⟩
          · simp only [G]; exact ⟨hG.1, hG.2.1, H.links, hG.2.2.2⟩
          · simp only [ids, List.cons_append]
            refine (List.subperm_cons i).2 ?_
            refine (List.Subperm.append H.ids (List.Subperm.refl _)).trans (List.Perm.subperm ?_)
            rw [List.perm_iff_count]; intro a; simp only [List.count_append]; omega
          · simp only [erase, H.erase]
            obtain ⟨q1, q2⟩ := q'
            simp only [replaceAt]
    · obtain ⟨bts, t1, t2⟩ := temp_eq cfg i rt (fresh i true) b
      refine ⟨i, by simp [ids], by rw [t1]; rfl, by rw [t1, hrt]; rfl, ⟨_, by rw [t1]; rfl, ?_, Or.inr ⟨i, true, rfl⟩⟩, ?_⟩
      · simp only [id?]; intro e; exact hf i true (by simp only [ids]; rw [Option.some.inj e]; simp)
      · intro new hns hnew
        have hne : ¬ (l.id? = some (fresh i true) ∧ l.id? ≠ none) := by
          rintro ⟨e, _⟩
          exact hf i true (by simp only [ids]; simp [id_mem e])
        have he : reassign (temp cfg i rt (fresh i true) b) new (.change i rt p c l (.str b)) = .change i rt p c l new := by
          rw [t1]; exact if_neg hne
        rw [update, if_pos rfl, he]
        refine ⟨⟨rfl, rfl⟩, ?_, ?_, ?_⟩
        · simp only [G]; exact ⟨hG.1, hG.2.1, hG.2.2.1, hnew⟩
        · simpa [ids] using List.Subperm.refl _
        · simp [erase, replaceAt]
    · have hl := traverse_nonstr cfg fresh r h1
      by_cases hq' : q'.1 = []
      · have e := traverse_top h1 hq'
        obtain ⟨q1, q2⟩ := q'
        simp only at hq' e
        subst hq' e
        refine ⟨i, by simp [ids], (G_top.1 hG.2.2.2).2 hl, ?_, ?_, ?_⟩
        · cases q2 with
          | str => cases hl
          | comm => have := hG.2.2.2; simp only [G] at this; exact this.1
          | change => have := hG.2.2.2; simp only [G] at this; exact this.1
        · cases hid : q2.id? with
          | none => cases q2 <;> simp [isStr, id?] at hl hid
          | some n =>
            refine ⟨n, rfl, ?_, Or.inl ?_⟩
            · intro e; simp only [id?] at e; cases e; exact hn.1.2 (id_mem hid)
            · simp only [ids]; simp [id_mem hid]
        · intro new hns hnew
          have hne : ¬ (l.id? = q2.id? ∧ l.id? ≠ none) := by
            rintro ⟨e, e2⟩
            obtain ⟨n, hn'⟩ := Option.ne_none_iff_exists'.1 e2
            exact hn.2.2.2 n (id_mem hn') n (id_mem (by rw [← e, hn'])) rfl
          rw [update, if_pos rfl]
          simp only [reassign, if_neg hne]
          refine ⟨⟨rfl, rfl⟩, ?_, ?_, ?_⟩
          · simp only [G]; exact ⟨hG.1, hG.2.1, hG.2.2.1, hnew⟩
          · simp only [ids, List.cons_append]
            refine (List.subperm_cons i).2 ?_
            rw [List.append_assoc]
            exact List.Subperm.append (List.Subperm.refl _) (List.sublist_append_right _ _).subperm
          · simp [erase, replaceAt]
      · obtain ⟨y, y1, y2, y3, ⟨n, n1, n2, n3⟩, y4⟩ := update_ok r hG.2.2.2 hn.2.2.1 (fun a b hh => hf a b (by simp only [ids]; simp [hh])) h1 hq'
        refine ⟨y, by simp only [ids]; simp [y1], y2, y3, ⟨n, n1, ?_, n3.imp (fun hh => by simp only [ids]; simp [hh]) id⟩, ?_⟩
        · intro e
          simp only [id?] at e; cases e
          rcases n3 with hh | ⟨a, b, hh⟩
          · exact hn.1.2 hh
          · exact hf a b (by rw [← hh]; simp [ids])
        · intro new hns hnew
          have H := y4 new hns hnew
          have hyi : ¬ i = y := by rintro rfl; exact hn.1.2 y1
          rw [update, if_neg hyi, update_of_not_mem y _ l (fun hh => hn.2.2.2 y hh y y1 rfl)]
          refine ⟨⟨rfl, rfl⟩, ?_, ?_, ?_⟩
          · simp only [G]; exact ⟨hG.1, hG.2.1, hG.2.2.1, H.links⟩
          · simp only [ids, List.cons_append]
            refine (List.subperm_cons i).2 ?_
            rw [List.append_assoc]
            exact List.Subperm.append (List.Subperm.refl _) H.ids
          · simp only [erase, H.erase]
            obtain ⟨q1, q2⟩ := q'
            simp only [replaceAt]
termination_by k => sizeOf k
decreasing_by
  all_goals simp_wf
  · have := List.sizeOf_lt_of_mem (List.getElem_mem hm); omega
  · omega
  · omega

mutual
/-- The nodes visited, without links, are those of the model without links. -/
theorem traverse_erase (cfg : Cfg) (fresh : Nat → Bool → Nat) : (k : LK) →
    (LK.traverse cfg fresh k).map (fun q => (q.1, q.2.erase)) = KE.traverse cfg k.erase
  | .str _ => rfl
  | .comm i r p op bts cts => by
    simp only [LK.traverse, List.map_cons, KE.traverse, erase, traverseL_erase cfg fresh 0 cts]
  | .change i rt p c l r => by
    have side : ∀ (k : LK) (n : Nat) (vs st : Step), (LK.traverse cfg fresh k).map (fun q => (q.1, q.2.erase)) = KE.traverse cfg k.erase →
        (temps cfg i rt n vs k ++ (LK.traverse cfg fresh k).map (fun q => (st :: q.1, q.2))).map (fun q => (q.1, q.2.erase)) =
          match k.erase with
          | .base b => [([vs], mkL cfg .sum [b] [])]
          | k => (KE.traverse cfg k).map (fun p => (st :: p.1, p.2)) := by
      intro k n vs st h
      cases k with
      | str b =>
        obtain ⟨_, _, t2⟩ := temp_eq cfg i rt n b
        simp only [erase, temps, LK.traverse, List.map_nil, List.append_nil, List.map_cons, ← t2]; rfl
      | comm => simp only [erase, temps, List.nil_append] at h ⊢; rw [← h, List.map_map, List.map_map]; rfl
      | change => simp only [erase, temps, List.nil_append] at h ⊢; rw [← h, List.map_map, List.map_map]; rfl
    have hl := side l (fresh i false) .vleft .left (traverse_erase cfg fresh l)
    have hr := side r (fresh i true) .vright .right (traverse_erase cfg fresh r)
    rw [LK.traverse, List.map_cons, List.map_append, hl, hr]
    simp only [erase]
    generalize l.erase = a
    generalize r.erase = b
    cases a <;> cases b <;> simp [KE.traverse]
theorem traverseL_erase (cfg : Cfg) (fresh : Nat → Bool → Nat) (j : Nat) : (ks : List LK) →
    (LK.traverseL cfg fresh j ks).map (fun q => (q.1, q.2.erase)) = KE.traverseL cfg j (eraseL ks)
  | [] => rfl
  | k :: ks => by
    simp only [LK.traverseL, List.map_append, eraseL, KE.traverseL, traverseL_erase cfg fresh (j + 1) ks, ← traverse_erase cfg fresh k, List.map_map]
    rfl
end

/-! ## Constructors -/

theorem adopt_G {k : LK} (h : ∀ i r p op bts cts, k = .comm i r p op bts cts → ∀ ct ∈ cts, ct.isStr = false ∧ G (fun _ => True) (fun _ => True) ct)
    (h' : ∀ i rt p c l r, k = .change i rt p c l r → G (fun _ => True) (fun _ => True) l ∧ G (fun _ => True) (fun _ => True) r) :
    G (fun _ => True) (fun _ => True) k.adopt := by
  have set : ∀ (r : Option Nat) (i : Nat) (ct : LK), G (fun _ => True) (fun _ => True) ct →
      G (fun _ => True) (fun q => q = some i) (LK.setRoot r (LK.setParent (some i) ct)) := by
    intro r i ct hct
    have : G (fun _ => True) (fun q => q = some i) (LK.setParent (some i) ct) := G_setParent hct rfl
    rw [setRoot_eq]; split
    · exact this
    · exact G_mono (fun _ _ => trivial) (fun _ h => h) (G_setRootTo _ _ this)
  cases k with
  | str => trivial
  | comm i r p op bts cts =>
    simp only [LK.adopt, G]
    refine ⟨trivial, trivial, GL_iff.2 ?_⟩
    intro k hk
    obtain ⟨ct, h1, rfl⟩ := List.mem_map.1 hk
    obtain ⟨h2, h3⟩ := h _ _ _ _ _ _ rfl ct h1
    exact ⟨by simp [h2], set r i ct h3⟩
  | change i rt p c l r =>
    obtain ⟨h1, h2⟩ := h' _ _ _ _ _ _ rfl
    simp only [LK.adopt, G]
    exact ⟨trivial, trivial, set rt i l h1, set rt i r h2⟩

theorem erase_adopt (k : LK) : k.adopt.erase = k.erase := by
  cases k with
  | str => rfl
  | comm i r p op bts cts =>
    simp only [LK.adopt, LK.erase, eraseL_eq, List.map_map]
    congr 2; funext ct; simp
  | change => simp [LK.adopt, LK.erase]

theorem ids_adopt (k : LK) : ids k.adopt = ids k := by
  cases k with
  | str => rfl
  | comm i r p op bts cts =>
    simp only [LK.adopt, ids, idsL_eq, List.flatMap_map]
    congr 2; funext ct; simp
  | change => simp [LK.adopt, ids]

end Links
end GPyABCD
