import Verif.Lemmas.Refine2
import Verif.Props.Links

/-!
# The store does to trees what the model of trees says: copies and constructors
-/

namespace GPyABCD
namespace Objects
open Links KE

/-! ## Copies -/

/-- Objects that refer to each other only. -/
def ClosedSet (h : Heap) (A : Nat → Prop) : Prop := ∀ a, A a → ∃ o, h[a]? = some o ∧ ∀ x ∈ o.refs, A x

/-- What is in such a set. -/
def Cl (h : Heap) (a : Nat) : Prop := ∃ A, ClosedSet h A ∧ A a

theorem closed_cl (h : Heap) : ClosedSet h (Cl h) := by
  rintro a ⟨A, hA, ha⟩
  obtain ⟨o, ho, hx⟩ := hA a ha
  exact ⟨o, ho, fun x hx' => ⟨A, hA, hx x hx'⟩⟩

/-- How many references an object has. -/
def weight (h : Heap) (a : Nat) : Nat := (h[a]?.map (fun o => o.refs.length)).getD 0

/-- The references of the objects not yet done. -/
def restWeight (h : Heap) (done : List Nat) : Nat := ((List.range h.length).map (fun b => if b ∈ done then 0 else weight h b)).sum

theorem sum_drop {g g' : Nat → Nat} {a w : Nat} (h1 : ∀ b, g' b ≤ g b) (h2 : g' a + w ≤ g a) : ∀ (l : List Nat), a ∈ l → (l.map g').sum + w ≤ (l.map g).sum
  | [], h => by cases h
  | b :: l, h => by
    simp only [List.map_cons, List.sum_cons]
    have hle : ∀ l : List Nat, (l.map g').sum ≤ (l.map g).sum := by
      intro l
      induction l with
      | nil => simp
      | cons c l ih => have := h1 c; simp only [List.map_cons, List.sum_cons]; omega
    rcases List.mem_cons.1 h with rfl | h
    · have := hle l; omega
    · have := sum_drop h1 h2 l h; have := h1 b; omega

theorem restWeight_step {h : Heap} {done : List Nat} {a : Nat} {o : Obj} (ho : h[a]? = some o) (ha : a ∉ done) :
    restWeight h (done ++ [a]) + o.refs.length ≤ restWeight h done := by
  refine sum_drop (a := a) ?_ ?_ _ (List.mem_range.2 (List.getElem?_eq_some_iff.1 ho).1)
  · intro b
    by_cases hb : b ∈ done
    · simp [hb]
    · by_cases e : b = a <;> simp [hb, e]
  · simp [ha, weight, ho]

theorem map_range_get {α : Type} (g : α → Nat) (l : List α) : (List.range l.length).map (fun b => (l[b]?.map g).getD 0) = l.map g := by
  apply List.ext_getElem?
  intro i
  simp only [List.getElem?_map]
  by_cases hi : i < l.length
  · simp [hi]
  · rw [List.getElem?_eq_none (by simpa using hi), List.getElem?_eq_none (by simpa using hi)]; rfl

theorem restWeight_nil (h : Heap) : restWeight h [] = (h.map (fun o => o.refs.length)).sum := by
  rw [← map_range_get (fun o : Obj => o.refs.length) h]
  simp [restWeight, weight]

theorem reachable_ok {h : Heap} {A : Nat → Prop} (hA : ClosedSet h A) : ∀ (n : Nat) (todo done : List Nat), (∀ a ∈ todo, A a) → (∀ a ∈ done, A a) →
    done.Nodup → (∀ a ∈ done, ∀ o, h[a]? = some o → ∀ x ∈ o.refs, x ∈ done ∨ x ∈ todo) → todo.length + restWeight h done ≤ n →
    ∃ l, reachable h n todo done = some l ∧ (∀ a ∈ l, A a) ∧ l.Nodup ∧ (∀ a ∈ done, a ∈ l) ∧ (∀ a ∈ todo, a ∈ l) ∧
      ∀ a ∈ l, ∀ o, h[a]? = some o → ∀ x ∈ o.refs, x ∈ l := by
  intro n
  induction n with
  | zero =>
    intro todo done ht hd hn hc hw
    cases todo with
    | nil => exact ⟨done, rfl, hd, hn, fun _ h => h, by simp, fun a ha o ho x hx => (hc a ha o ho x hx).resolve_right (by simp)⟩
    | cons a todo => simp at hw
  | succ n ih =>
    intro todo done ht hd hn hc hw
    cases todo with
    | nil => exact ⟨done, by simp [reachable], hd, hn, fun _ h => h, by simp, fun a ha o ho x hx => (hc a ha o ho x hx).resolve_right (by simp)⟩
    | cons a todo =>
      rw [reachable]
      by_cases hm : a ∈ done
      · rw [if_pos hm]
        obtain ⟨l, h1, h2, h3, h4, h5, h6⟩ := ih todo done (fun x hx => ht x (by simp [hx])) hd hn
          (fun b hb o ho x hx => by
            rcases hc b hb o ho x hx with h | h
            · exact .inl h
            · rcases List.mem_cons.1 h with rfl | h
              · exact .inl hm
              · exact .inr h) (by simp only [List.length_cons] at hw; omega)
        refine ⟨l, h1, h2, h3, h4, fun x hx => ?_, h6⟩
        rcases List.mem_cons.1 hx with rfl | hx
        · exact h4 _ hm
        · exact h5 _ hx
      · rw [if_neg hm]
        obtain ⟨o, ho, hr⟩ := hA a (ht a (by simp))
        rw [ho]
        simp only
        have hst := restWeight_step ho hm
        obtain ⟨l, h1, h2, h3, h4, h5, h6⟩ := ih (o.refs ++ todo) (done ++ [a])
          (fun x hx => by
            rcases List.mem_append.1 hx with h | h
            · exact hr x h
            · exact ht x (by simp [h]))
          (fun x hx => by
            rcases List.mem_append.1 hx with h | h
            · exact hd x h
            · simp at h; rw [h]; exact ht a (by simp))
          (by
            rw [List.nodup_append]
            refine ⟨hn, by simp, ?_⟩
            intro x hx y hy e
            simp at hy
            exact hm (by rw [← hy, ← e]; exact hx))
          (fun b hb o' ho' x hx => by
            rcases List.mem_append.1 hb with h | h
            · rcases hc b h o' ho' x hx with h | h
              · exact .inl (by simp [h])
              · rcases List.mem_cons.1 h with rfl | h
                · exact .inl (by simp)
                · exact .inr (by simp [h])
            · simp at h
              subst h
              rw [ho] at ho'
              cases ho'
              exact .inr (by simp [hx]))
          (by simp only [List.length_cons, List.length_append] at hw ⊢; omega)
        refine ⟨l, h1, h2, h3, fun x hx => h4 x (by simp [hx]), fun x hx => ?_, h6⟩
        rcases List.mem_cons.1 hx with rfl | hx
        · exact h4 _ (by simp)
        · exact h5 _ (by simp [hx])

/-- What `deepcopy` does: everything in `l`, which is closed, is copied behind the store. -/
structure Copied (h h' : Heap) (f : Nat → Nat) (l : List Nat) : Prop where
  old : h.length ≤ h'.length ∧ ∀ a, a < h.length → h'[a]? = h[a]?
  closed : ∀ a ∈ l, ∃ o, h[a]? = some o ∧ (∀ x ∈ o.refs, x ∈ l) ∧ h'[f a]? = some (o.copy f)
  new : ∀ a ∈ l, h.length ≤ f a
  inj : ∀ a ∈ l, ∀ b, f a = f b → a = b

theorem filterMap_total {α β : Type} {g : α → Option β} : (l : List α) → (∀ a ∈ l, ∃ b, g a = some b) → (i : Nat) → (l.filterMap g)[i]? = l[i]?.bind g
  | [], _, i => by simp
  | a :: l, h, i => by
    obtain ⟨b, hb⟩ := h a (by simp)
    rw [List.filterMap_cons, hb]
    cases i with
    | zero => simp [hb]
    | succ i => simpa using filterMap_total l (fun x hx => h x (by simp [hx])) i

theorem deepcopy_ok {h : Heap} {roots : List Nat} (hr : ∀ a ∈ roots, Cl h a) :
    ∃ f l h', deepcopy roots h = (.ok f, h') ∧ Copied h h' f l ∧ (∀ a ∈ roots, a ∈ l) := by
  obtain ⟨l, h1, h2, h3, _, h5, h6⟩ := reachable_ok (closed_cl h) (roots.length + (h.map (fun o => o.refs.length)).sum) roots [] hr (by simp) (by simp) (by simp)
    (by rw [restWeight_nil]; exact Nat.le_refl _)
  refine ⟨fun a => h.length + l.idxOf a, l, h ++ l.filterMap (fun a => h[a]?.map (Obj.copy (fun a => h.length + l.idxOf a))), ?_, ⟨⟨?_, ?_⟩, ?_, ?_, ?_⟩, h5⟩
  · rw [deepcopy, h1]
  · simp
  · intro a ha; rw [List.getElem?_append_left ha]
  · intro a ha
    obtain ⟨o, ho, _⟩ := closed_cl h a (h2 a ha)
    refine ⟨o, ho, h6 a ha o ho, ?_⟩
    rw [List.getElem?_append_right (by omega), Nat.add_sub_cancel_left, filterMap_total]
    · rw [List.getElem?_eq_getElem (List.idxOf_lt_length_of_mem ha)]
      simp [ho]
    · intro b hb
      obtain ⟨o', ho', _⟩ := closed_cl h b (h2 b hb)
      exact ⟨_, by rw [ho']; rfl⟩
  · intro a _; omega
  · intro a ha b e
    exact (List.idxOf_inj ha).1 (by omega)

/-- The parts of a tree are in what is copied with it. -/
theorem ids_copied {h h' : Heap} {f : Nat → Nat} {l : List Nat} (hc : Copied h h' f l) : (k : LK) → Stored h k → (k.isStr = false → addr k ∈ l) → ∀ a ∈ ids k, a ∈ l
  | .str _, _, _, a, ha => by simp [ids] at ha
  | .comm i r p op b c, hs, hk, a, ha => by
    rw [stored_comm] at hs
    have hi : i ∈ l := hk rfl
    obtain ⟨o, ho, hr, _⟩ := hc.closed i hi
    rw [hs.1] at ho
    cases ho
    simp only [ids, List.mem_cons] at ha
    rcases ha with rfl | ha
    · exact hi
    · obtain ⟨ct, hct, ha⟩ := mem_idsL.1 ha
      have h1 := storedL_iff.1 hs.2 ct hct
      exact ids_copied hc ct h1.2 (fun _ => hr _ (by simp only [Obj.refs, List.mem_append]; exact .inr (List.mem_map_of_mem hct))) a ha
  | .change i r p c lk rk, hs, hk, a, ha => by
    simp only [Stored] at hs
    have hi : i ∈ l := hk rfl
    obtain ⟨o, ho, hr, _⟩ := hc.closed i hi
    rw [hs.1] at ho
    cases ho
    simp only [ids, List.mem_cons, List.mem_append] at ha
    rcases ha with rfl | ha | ha
    · exact hi
    · exact ids_copied hc lk hs.2.1 (fun h => hr _ (by rw [toRef_obj h]; simp [Obj.refs, Ref.addrs])) a ha
    · exact ids_copied hc rk hs.2.2 (fun h => hr _ (by rw [toRef_obj h]; simp [Obj.refs, Ref.addrs])) a ha

theorem isStr_copy (f : Nat → Nat) (k : LK) : (LK.copy f k).isStr = k.isStr := by cases k <;> rfl

theorem addr_copy (f : Nat → Nat) {k : LK} (h : k.isStr = false) : addr (LK.copy f k) = f (addr k) := by
  cases k with
  | str => cases h
  | comm => rfl
  | change => rfl

theorem copyL_eq (f : Nat → Nat) (ks : List LK) : LK.copyL f ks = ks.map (LK.copy f) := by
  induction ks with
  | nil => rfl
  | cons k ks ih => rw [LK.copyL, ih]; rfl

theorem toRef_copy (f : Nat → Nat) (k : LK) : toRef (LK.copy f k) = (toRef k).copy f := by
  cases k <;> rfl

theorem map_addr_copy (f : Nat → Nat) {h : Heap} {ks : List LK} (hs : StoredL h ks) : (LK.copyL f ks).map addr = (ks.map addr).map f := by
  rw [copyL_eq, List.map_map, List.map_map]
  exact List.map_congr_left fun k hk => addr_copy f (storedL_iff.1 hs k hk).1

/-- The copy of a tree. -/
theorem stored_copy {h h' : Heap} {f : Nat → Nat} {l : List Nat} (hc : Copied h h' f l) : (k : LK) → Stored h k → (∀ a ∈ ids k, a ∈ l) → Stored h' (LK.copy f k)
  | .str _, _, _ => trivial
  | .comm i r p op b c, hs, hk => by
    rw [stored_comm] at hs
    obtain ⟨o, ho, _, hcp⟩ := hc.closed i (hk i (by simp [ids]))
    rw [hs.1] at ho
    cases ho
    rw [LK.copy, stored_comm, map_addr_copy f hs.2]
    refine ⟨hcp, storedL_iff.2 fun k hk' => ?_⟩
    rw [copyL_eq] at hk'
    obtain ⟨ct, hct, rfl⟩ := List.mem_map.1 hk'
    have h1 := storedL_iff.1 hs.2 ct hct
    exact ⟨by rw [isStr_copy]; exact h1.1, stored_copy hc ct h1.2 (fun a ha => hk a (by simp only [ids]; exact List.mem_cons_of_mem _ (mem_idsL.2 ⟨ct, hct, ha⟩)))⟩
  | .change i r p c lk rk, hs, hk => by
    simp only [Stored] at hs
    obtain ⟨o, ho, _, hcp⟩ := hc.closed i (hk i (by simp [ids]))
    rw [hs.1] at ho
    cases ho
    simp only [LK.copy, Stored, toRef_copy]
    exact ⟨hcp, stored_copy hc lk hs.2.1 (fun a ha => hk a (by simp [ids, ha])), stored_copy hc rk hs.2.2 (fun a ha => hk a (by simp [ids, ha]))⟩

theorem nodup_map {f : Nat → Nat} {l : List Nat} (hn : l.Nodup) (hf : ∀ a ∈ l, ∀ b ∈ l, f a = f b → a = b) : (l.map f).Nodup :=
  List.Nodup.map_on (fun a ha b hb e => hf a ha b hb e) hn

/-! ## A growing store -/

/-- Everything that was there is still there. -/
def Ext (h h' : Heap) : Prop := h.length ≤ h'.length ∧ ∀ a, a < h.length → h'[a]? = h[a]?

theorem Ext.refl (h : Heap) : Ext h h := ⟨Nat.le_refl _, fun _ _ => rfl⟩

theorem Ext.trans {h h' h'' : Heap} (h1 : Ext h h') (h2 : Ext h' h'') : Ext h h'' :=
  ⟨Nat.le_trans h1.1 h2.1, fun a ha => (h2.2 a (by have := h1.1; omega)).trans (h1.2 a ha)⟩

theorem Ext.same {A : Nat → Prop} {h h' h'' : Heap} (h1 : Ext h h') (h2 : Same A h' h'') (hA : ∀ a, A a → h.length ≤ a) : Ext h h'' :=
  ⟨by have := h1.1; have := h2.1; omega, fun a ha => (h2.2 a (fun hh => by have := hA a hh; omega)).trans (h1.2 a ha)⟩

theorem Ext.stored {h h' : Heap} (h1 : Ext h h') {k : LK} (hs : Stored h k) : Stored h' k :=
  stored_congr k (fun a ha => h1.2 a (stored_lt k hs a ha)) hs

theorem Ext.cl {h h' : Heap} (h1 : Ext h h') {a : Nat} (ha : Cl h a) : Cl h' a := by
  refine ⟨Cl h, fun b hb => ?_, ha⟩
  obtain ⟨o, ho, hx⟩ := closed_cl h b hb
  exact ⟨o, by rw [h1.2 b (List.getElem?_eq_some_iff.1 ho).1]; exact ho, hx⟩

/-- A tree in the store that can be given to a constructor. -/
structure Good (h : Heap) (k : LK) : Prop where
  stored : Stored h k
  nodup : (ids k).Nodup
  parents : Parents k
  closed : ∀ a ∈ ids k, Cl h a

theorem Good.ext {h h' : Heap} {k : LK} (hg : Good h k) (he : Ext h h') : Good h' k :=
  ⟨he.stored hg.stored, hg.nodup, hg.parents, fun a ha => he.cl (hg.closed a ha)⟩

theorem good_str (h : Heap) (b : Base) : Good h (.str b) := ⟨trivial, by simp [ids], trivial, by simp [ids]⟩

/-- All links of the tree lead into `A`. -/
def LinksIn (A : Nat → Prop) (k : LK) : Prop := G (fun r => ∀ x ∈ r, A x) (fun p => ∀ x ∈ p, A x) k

mutual
theorem refs_in {h : Heap} {A : Nat → Prop} {T : Option Nat → Prop} (hT : ∀ p, T p → ∀ x ∈ p, A x) : (k : LK) → Stored h k → G (fun r => ∀ x ∈ r, A x) T k →
    (∀ a ∈ ids k, A a) → ∀ a ∈ ids k, ∃ o, h[a]? = some o ∧ ∀ x ∈ o.refs, A x
  | .str _, _, _, _, a, ha => by simp [ids] at ha
  | .comm i r p op b c, hs, hG, hA, a, ha => by
    rw [stored_comm] at hs
    simp only [G] at hG
    simp only [ids, List.mem_cons] at ha hA
    rcases ha with rfl | ha
    · refine ⟨_, hs.1, fun x hx => ?_⟩
      simp only [Obj.refs, List.mem_append, Option.mem_toList] at hx
      rcases hx with (hx | hx) | hx
      · exact hG.1 x hx
      · exact hT p hG.2.1 x hx
      · obtain ⟨ct, hct, rfl⟩ := List.mem_map.1 hx
        exact hA _ (.inr (mem_idsL.2 ⟨ct, hct, addr_mem (storedL_iff.1 hs.2 ct hct).1⟩))
    · exact refsL_in (fun q hq x hx => by subst hq; simp at hx; rw [← hx]; exact hA _ (.inl rfl)) c hs.2 hG.2.2 (fun a ha => hA a (.inr ha)) a ha
  | .change i r p c lk rk, hs, hG, hA, a, ha => by
    simp only [Stored] at hs
    simp only [G] at hG
    simp only [ids, List.mem_cons, List.mem_append] at ha hA
    have hT' : ∀ q, q = some i → ∀ x ∈ q, A x := fun q hq x hx => by subst hq; simp at hx; rw [← hx]; exact hA _ (.inl rfl)
    have branch : ∀ k : LK, ∀ x ∈ (toRef k).addrs, x ∈ ids k := by
      intro k x hx
      cases k with
      | str => simp [toRef, Ref.addrs] at hx
      | comm => simp [toRef, Ref.addrs, addr, LK.id?] at hx; simp [ids, hx]
      | change => simp [toRef, Ref.addrs, addr, LK.id?] at hx; simp [ids, hx]
    rcases ha with rfl | ha | ha
    · refine ⟨_, hs.1, fun x hx => ?_⟩
      simp only [Obj.refs, List.mem_append, Option.mem_toList] at hx
      rcases hx with ((hx | hx) | hx) | hx
      · exact hG.1 x hx
      · exact hT p hG.2.1 x hx
      · exact hA _ (.inr (.inl (branch _ x hx)))
      · exact hA _ (.inr (.inr (branch _ x hx)))
    · exact refs_in hT' lk hs.2.1 hG.2.2.1 (fun a ha => hA a (.inr (.inl ha))) a ha
    · exact refs_in hT' rk hs.2.2 hG.2.2.2 (fun a ha => hA a (.inr (.inr ha))) a ha
theorem refsL_in {h : Heap} {A : Nat → Prop} {T : Option Nat → Prop} (hT : ∀ p, T p → ∀ x ∈ p, A x) : (ks : List LK) → StoredL h ks → GL (fun r => ∀ x ∈ r, A x) T ks →
    (∀ a ∈ idsL ks, A a) → ∀ a ∈ idsL ks, ∃ o, h[a]? = some o ∧ ∀ x ∈ o.refs, A x
  | [], _, _, _, a, ha => by simp [idsL] at ha
  | k :: ks, hs, hG, hA, a, ha => by
    simp only [StoredL] at hs
    simp only [GL] at hG
    simp only [idsL, List.mem_append] at ha hA
    rcases ha with ha | ha
    · exact refs_in hT k hs.1.2 hG.1.2 (fun a ha => hA a (.inl ha)) a ha
    · exact refsL_in hT ks hs.2 hG.2 (fun a ha => hA a (.inr ha)) a ha
end

/-- A tree whose links lead into itself is closed. -/
theorem closed_of_links {h : Heap} {k : LK} (hs : Stored h k) (hG : LinksIn (· ∈ ids k) k) : ∀ a ∈ ids k, Cl h a :=
  fun _ ha => ⟨(· ∈ ids k), fun a ha => refs_in (fun _ hp => hp) k hs hG (fun _ h => h) a ha, ha⟩

/-- A well-linked tree in the store. -/
theorem good_of_wellLinked {h : Heap} {k : LK} (hs : Stored h k) (hw : WellLinked k) : Good h k := by
  obtain ⟨⟨i, h1, h2⟩, h3⟩ := hw
  rw [linked_iff] at h2
  refine ⟨hs, h3, (parents_iff k).2 (G_mono (fun _ _ => trivial) (fun _ _ => trivial) h2), closed_of_links hs ?_⟩
  refine G_mono (fun r hr x hx => ?_) (fun p hp x hx => ?_) h2
  · subst hr; simp at hx; subst hx; exact id_mem h1
  · subst hp; simp at hx

/-! ## Constructors -/

/-- A loop over disjoint trees, with something that stays true when they change. -/
theorem each_inv {f : Nat → M Unit} {g : LK → LK} {I : Heap → Prop} {h : Heap} (ks : List LK)
    (hf : ∀ k ∈ ks, ∀ h, I h → k.isStr = false → Stored h k → (ids k).Nodup → ∃ h', f (addr k) h = (.ok (), h') ∧ Stored h' (g k) ∧ Same (· ∈ ids k) h h')
    (hI : ∀ k ∈ ks, ∀ h h', Same (· ∈ ids k) h h' → I h → I h')
    (hg : ∀ k ∈ ks, (g k).isStr = k.isStr ∧ ∀ a ∈ ids (g k), a ∈ ids k) (hi : I h) (hs : StoredL h ks) (hn : (idsL ks).Nodup) :
    ∃ h', each f (ks.map addr) h = (.ok (), h') ∧ StoredL h' (ks.map g) ∧ Same (· ∈ idsL ks) h h' := by
  induction ks generalizing h with
  | nil => exact ⟨h, rfl, trivial, Same.refl _ _⟩
  | cons k ks ih =>
    simp only [StoredL] at hs
    simp only [idsL, List.nodup_append] at hn
    obtain ⟨h1, e1, s1, m1⟩ := hf k (by simp) h hi hs.1.1 hs.1.2 hn.1
    have hs1 : StoredL h1 ks := m1.storedL (fun a ha hh => hn.2.2 a hh a ha rfl) hs.2
    obtain ⟨h2, e2, s2, m2⟩ := ih (fun k' hk' => hf k' (by simp [hk'])) (fun k' hk' => hI k' (by simp [hk'])) (fun k' hk' => hg k' (by simp [hk']))
      (hI k (by simp) h h1 m1 hi) hs1 hn.2.1
    refine ⟨h2, ?_, ?_, ?_⟩
    · rw [List.map_cons, each, run_bind e1, e2]
    · simp only [List.map_cons, StoredL]
      refine ⟨⟨by rw [(hg k (by simp)).1]; exact hs.1.1, ?_⟩, s2⟩
      exact m2.stored (fun a ha hh => hn.2.2 a ((hg k (by simp)).2 a ha) a hh rfl) s1
    · exact (m1.mono (fun a ha => by simp [idsL, ha])).trans (m2.mono (fun a ha => by simp [idsL, ha]))

/-- `ct.set_parent(self).set_root(self.root)` -/
theorem adopt_ok {h : Heap} {a : Nat} {k : LK} {o : Obj} (ho : h[a]? = some o) (hk : k.isStr = false) (hs : Stored h k) (hn : (ids k).Nodup) (ha : a ∉ ids k) :
    ∃ h', (do setParent (addr k) (some a); let s ← look a; setRoot (addr k) s.root : M Unit) h = (.ok (), h') ∧
      Stored h' (LK.setRoot o.root (LK.setParent (some a) k)) ∧ Same (· ∈ ids k) h h' := by
  obtain ⟨h1, e1, s1, m1⟩ := setParent_ok (some a) hk hs hn
  obtain ⟨h2, e2, s2, m2⟩ := setRoot_ok o.root (by simpa using hk) s1 (by simpa using hn)
  rw [addr_setParent] at e2
  simp only [ids_setParent] at m2
  have g1 : h1[a]? = some o := by rw [m1.2 a (fun e => ha (e ▸ addr_mem hk))]; exact ho
  refine ⟨h2, ?_, s2, (m1.mono (fun x hx => by rw [hx]; exact addr_mem hk)).trans m2⟩
  rw [run_bind e1, run_bind (run_look g1)]
  exact e2

/-- What a constructor gives: a new tree with the given value. -/
structure Made (N : Nat) (h : Heap) (k : LK) (v : KE) : Prop where
  node : k.isStr = false
  good : Good h k
  value : k.erase = v
  new : ∀ a ∈ ids k, N ≤ a

theorem Made.ext {N : Nat} {h h' : Heap} {k : LK} {v : KE} (hm : Made N h k v) (he : Ext h h') : Made N h' k v := ⟨hm.node, hm.good.ext he, hm.value, hm.new⟩

theorem Made.le {N N' : Nat} {h : Heap} {k : LK} {v : KE} (hm : Made N h k v) (hN : N' ≤ N) : Made N' h k v :=
  ⟨hm.node, hm.good, hm.value, fun a ha => Nat.le_trans hN (hm.new a ha)⟩

theorem nodup_copyL {h h' : Heap} {f : Nat → Nat} {l : List Nat} (hc : Copied h h' f l) {ks : List LK} (hn : (idsL ks).Nodup) (hk : ∀ a ∈ idsL ks, a ∈ l) :
    (idsL (LK.copyL f ks)).Nodup := by
  rw [idsL_copy]; exact nodup_map hn (fun a ha b hb e => hc.inj a (hk a ha) b e)

theorem getElem?_snoc (h : Heap) (o : Obj) : (h ++ [o])[h.length]? = some o := by simp

theorem ext_snoc (h : Heap) (o : Obj) : Ext h (h ++ [o]) := ⟨by simp, fun a ha => List.getElem?_append_left ha⟩

theorem withRoot_links {k : LK} {i : Nat} (hi : G (fun _ => True) (fun _ => True) k) (hk : k.isStr = false) :
    G (fun r => r = some (addr k)) (fun p => p = some i) (LK.setRoot none (LK.setParent (some i) k)) := by
  have : G (fun _ => True) (fun q => q = some i) (LK.setParent (some i) k) := G_setParent hi rfl
  rw [setRoot_eq, id_setParent, id_addr hk]
  exact G_setRootTo _ _ this

theorem setRoot_str {x : Option Nat} {k : LK} (h : k.isStr = true) : LK.setRoot x k = k := by cases k <;> simp_all [LK.isStr, LK.setRoot]

theorem setParent_str {x : Option Nat} {k : LK} (h : k.isStr = true) : LK.setParent x k = k := by cases k <;> simp_all [LK.isStr, LK.setParent]

/-- `SumKE(bts, cts)`, `ProductKE(bts, cts)` -/
theorem newComm_top (cfg : Cfg) (op : Op) (bts : Counter) {h : Heap} {cts : List LK} (hg : ∀ ct ∈ cts, ct.isStr = false ∧ Good h ct) (hn : (idsL cts).Nodup) :
    ∃ k h', newComm cfg op bts (cts.map addr) h = (.ok (addr k), h') ∧ Ext h h' ∧ Made h.length h' k (mkC cfg op bts (cts.map LK.erase)) ∧ k.parent = none := by
  have x1 := ext_snoc h (.comm none none op bts [])
  generalize eh1 : h ++ [Obj.comm none none op bts []] = h1 at x1
  have g1 : h1[h.length]? = some (.comm none none op bts []) := by rw [← eh1]; exact getElem?_snoc _ _
  have hg1 : ∀ ct ∈ cts, ct.isStr = false ∧ Good h1 ct := fun ct hct => ⟨(hg ct hct).1, (hg ct hct).2.ext x1⟩
  obtain ⟨f, l, h2, e2, c2, r2⟩ := deepcopy_ok (h := h1) (roots := cts.map addr) (by
    intro a ha
    obtain ⟨ct, hct, rfl⟩ := List.mem_map.1 ha
    exact (hg1 ct hct).2.closed _ (addr_mem (hg1 ct hct).1))
  have hl1 : h1.length = h.length + 1 := by rw [← eh1]; simp
  have hsub : ∀ a ∈ idsL cts, a ∈ l := by
    intro a ha
    obtain ⟨ct, hct, ha⟩ := mem_idsL.1 ha
    exact ids_copied c2 ct (hg1 ct hct).2.stored (fun _ => r2 _ (List.mem_map_of_mem hct)) a ha
  have s2 : StoredL h2 (LK.copyL f cts) := storedL_iff.2 fun k hk => by
    rw [copyL_eq] at hk
    obtain ⟨ct, hct, rfl⟩ := List.mem_map.1 hk
    exact ⟨by rw [isStr_copy]; exact (hg1 ct hct).1, stored_copy c2 ct (hg1 ct hct).2.stored (fun a ha => hsub a (mem_idsL.2 ⟨ct, hct, ha⟩))⟩
  have nc := nodup_copyL c2 hn hsub
  have ge : ∀ a ∈ idsL (LK.copyL f cts), h.length < a := by
    intro a ha
    rw [idsL_copy] at ha
    obtain ⟨b, hb, rfl⟩ := List.mem_map.1 ha
    have := c2.new b (hsub b hb)
    omega
  have x2 : Ext h1 h2 := c2.old
  have g2 : h2[h.length]? = some (.comm none none op bts []) := by rw [x2.2 _ (by omega)]; exact g1
  have adr : (cts.map addr).map f = (LK.copyL f cts).map addr := by
    rw [map_addr_copy f (h := h1) (storedL_iff.2 fun k hk => ⟨(hg1 k hk).1, (hg1 k hk).2.stored⟩)]
  have m3 := same_set h2 h.length (.comm none none op bts ((LK.copyL f cts).map addr))
  generalize eh3 : h2.set h.length (.comm none none op bts ((LK.copyL f cts).map addr)) = h3 at m3
  have s3 : Stored h3 (.comm h.length none none op bts (LK.copyL f cts)) := by
    rw [stored_comm]
    refine ⟨by rw [← eh3]; exact get_set_self g2, m3.storedL (fun a ha e => ?_) s2⟩
    have := ge a ha; omega
  have n3 : (ids (.comm h.length none none op bts (LK.copyL f cts))).Nodup := by
    simp only [ids, List.nodup_cons]
    exact ⟨fun hh => by have := ge _ hh; omega, nc⟩
  obtain ⟨h4, e4, s4, m4⟩ := simplify_ok cfg (k := .comm h.length none none op bts (LK.copyL f cts)) rfl s3 n3
  have n4 := nodup_subperm (ids_simplify cfg (.comm h.length none none op bts (LK.copyL f cts))) n3
  have hC := C73_new_comm cfg h.length f op bts cts (fun ct hct => ⟨(hg ct hct).1, (hg ct hct).2.parents⟩)
  -- links inside of the composite terms before they are adopted
  have hGL : ∀ ct ∈ LK.simplifyL cfg (LK.copyL f cts), ct.isStr = false ∧ G (fun _ => True) (fun _ => True) ct := by
    have hc := GL_iff.1 (GL_copy f (T := fun _ => True) (T' := fun _ => True) (fun _ _ => trivial) cts
      (GL_iff.2 fun ct hct => ⟨(hg ct hct).1, (parents_iff ct).1 (hg ct hct).2.parents⟩))
    intro k hk
    rw [simplifyL_eq'] at hk
    obtain ⟨k', hk', rfl⟩ := List.mem_map.1 hk
    exact ⟨by rw [(simplify_id cfg k').2.1]; exact (hc k' hk').1, simplify_G cfg k' _ (hc k' hk').2⟩
  obtain ⟨b, c, eb, hb⟩ := absorb_G cfg (T' := fun _ => True) (r := none) (q := none) (i := h.length) op bts _ trivial hGL
  have es : LK.simplify cfg (.comm h.length none none op bts (LK.copyL f cts)) = .comm h.length none none op b c := by rw [LK.simplify]; exact eb
  have sub4 : ∀ a ∈ ids (LK.simplify cfg (.comm h.length none none op bts (LK.copyL f cts))), a = h.length ∨ h.length < a := by
    intro a ha
    have := ids_simplify_sub cfg _ a ha
    simp only [ids, List.mem_cons] at this
    exact this.imp id (ge a)
  rw [es] at s4 n4 sub4
  have s4' := s4
  rw [stored_comm] at s4'
  simp only [ids, List.nodup_cons] at n4
  obtain ⟨h5, e5, s5, m5⟩ := each_inv (I := fun hh => hh[h.length]? = some (.comm none none op b (c.map addr)))
    (f := fun ct => do setParent ct (some h.length); let s ← look h.length; setRoot ct s.root) (g := fun ct => LK.setRoot none (LK.setParent (some h.length) ct)) c
    (fun k hk hh hi hstr hs hn => adopt_ok hi hstr hs hn (fun hh => n4.1 (mem_idsL.2 ⟨k, hk, hh⟩)))
    (fun k hk hh hh' hm hi => by rw [hm.2 _ (fun hx => n4.1 (mem_idsL.2 ⟨k, hk, hx⟩))]; exact hi)
    (fun k _ => ⟨by simp, fun a ha => by simpa using ha⟩) s4'.1 s4'.2 n4.2
  have en : LK.newComm cfg h.length f op bts cts = .comm h.length none none op b (c.map (fun ct => LK.setRoot none (LK.setParent (some h.length) ct))) := by
    rw [LK.newComm, es]; rfl
  have idsn : ids (LK.newComm cfg h.length f op bts cts) = h.length :: idsL c := by
    rw [en, ids, idsL_map (by simp)]
  have st : Stored h5 (LK.newComm cfg h.length f op bts cts) := by
    rw [en, stored_comm]
    refine ⟨?_, s5⟩
    rw [m5.2 _ n4.1, s4'.1, List.map_map]
    congr 2
    refine List.map_congr_left fun k _ => ?_
    simp [addr]
  have hnew : ∀ a ∈ ids (LK.newComm cfg h.length f op bts cts), h.length ≤ a := by
    intro a ha
    rw [idsn] at ha
    rcases sub4 a (by simpa only [ids] using ha) with h | h <;> omega
  have x5 : Ext h h5 := by
    refine ((((x1.trans x2).same m3 ?_).same m4 ?_).same m5 ?_)
    · intro a ha; omega
    · intro a ha
      simp only [ids, List.mem_cons] at ha
      rcases ha with ha | ha
      · omega
      · have := ge a ha; omega
    · intro a ha; exact hnew a (by rw [idsn]; simp [ha])
  refine ⟨LK.newComm cfg h.length f op bts cts, h5, ?_, x5, ⟨by rw [en]; rfl, ⟨st, by rw [idsn]; simpa using n4, hC.2, closed_of_links st ?_⟩, hC.1, hnew⟩, by rw [en]; rfl⟩
  · rw [newComm, run_bind (show alloc (.comm none none op bts []) h = (.ok h.length, h1) by rw [alloc, eh1]), run_bind e2, run_bind (run_edit g2)]
    simp only [Obj.withCts, adr]
    rw [eh3, run_bind (show simplify cfg h.length h3 = (.ok (), h4) from e4), run_bind (run_look s4'.1)]
    simp only [Obj.cts]
    rw [run_bind e5, en]
    rfl
  · rw [LinksIn, idsn, en, G]
    refine ⟨by simp, by simp, GL_iff.2 fun k hk => ?_⟩
    obtain ⟨ct, hct, rfl⟩ := List.mem_map.1 hk
    refine ⟨by simpa using (hb ct hct).1, ?_⟩
    refine G_mono (fun r hr x hx => ?_) (fun p hp => hp) (withRoot_links (i := h.length) (G_mono (fun _ h => h) (fun _ _ => trivial) (hb ct hct).2) (hb ct hct).1)
    subst hr
    simp at hx
    subst hx
    exact List.mem_cons_of_mem _ (mem_idsL.2 ⟨ct, hct, addr_mem (hb ct hct).1⟩)

theorem newComm_ok (cfg : Cfg) (op : Op) (bts : Counter) {h : Heap} {cts : List LK} (hg : ∀ ct ∈ cts, ct.isStr = false ∧ Good h ct) (hn : (idsL cts).Nodup) :
    ∃ k h', newComm cfg op bts (cts.map addr) h = (.ok (addr k), h') ∧ Ext h h' ∧ Made h.length h' k (mkC cfg op bts (cts.map LK.erase)) := by
  obtain ⟨k, h', e, x, m, _⟩ := newComm_top cfg op bts hg hn
  exact ⟨k, h', e, x, m⟩

/-- `ChangeKE(c, l, r)` -/
theorem newChange_top (cfg : Cfg) (c : CC) {h : Heap} {l r : LK} (hl : Good h l) (hr : Good h r) :
    ∃ k h', newChange cfg c (toRef l) (toRef r) h = (.ok (addr k), h') ∧ Ext h h' ∧ Made h.length h' k (mkChange cfg c l.erase r.erase) ∧ k.parent = none := by
  have x1 := ext_snoc h (.change none none c (.str .C) (.str .C))
  generalize eh1 : h ++ [Obj.change none none c (.str .C) (.str .C)] = h1 at x1
  have g1 : h1[h.length]? = some (.change none none c (.str .C) (.str .C)) := by rw [← eh1]; exact getElem?_snoc _ _
  have hl1 : h1.length = h.length + 1 := by rw [← eh1]; simp
  -- the copy of one branch
  have copyBranch : ∀ (k : LK) (h : Heap), Good h k → ∃ f h', deepcopy (toRef k).addrs h = (.ok f, h') ∧ Ext h h' ∧ Stored h' (LK.copy f k) ∧
      (ids (LK.copy f k)).Nodup ∧ ∀ a ∈ ids (LK.copy f k), h.length ≤ a := by
    intro k h hg
    obtain ⟨f, l, h', e, c, r⟩ := deepcopy_ok (h := h) (roots := (toRef k).addrs) (by
      intro a ha
      cases k with
      | str => simp [toRef, Ref.addrs] at ha
      | comm => simp [toRef, Ref.addrs] at ha; subst ha; exact hg.closed _ (addr_mem rfl)
      | change => simp [toRef, Ref.addrs] at ha; subst ha; exact hg.closed _ (addr_mem rfl))
    have hsub := ids_copied c k hg.stored (fun hk => r _ (by rw [toRef_obj hk]; simp [Ref.addrs]))
    refine ⟨f, h', e, c.old, stored_copy c k hg.stored hsub, ?_, ?_⟩
    · rw [ids_copy]; exact nodup_map hg.nodup (fun a ha b hb e => c.inj a (hsub a ha) b e)
    · intro a ha
      rw [ids_copy] at ha
      obtain ⟨b, hb, rfl⟩ := List.mem_map.1 ha
      exact c.new b (hsub b hb)
  obtain ⟨f, h2, e2, x2, s2, n2, ge2⟩ := copyBranch l h1 (hl.ext x1)
  have g2 : h2[h.length]? = some (.change none none c (.str .C) (.str .C)) := by rw [x2.2 _ (by omega)]; exact g1
  have m3 := same_set h2 h.length (.change none none c (toRef (LK.copy f l)) (.str .C))
  generalize eh3 : h2.set h.length (.change none none c (toRef (LK.copy f l)) (.str .C)) = h3 at m3
  have g3 : h3[h.length]? = some (.change none none c (toRef (LK.copy f l)) (.str .C)) := by rw [← eh3]; exact get_set_self g2
  have s3 : Stored h3 (LK.copy f l) := m3.stored (fun a ha e => by have := ge2 a ha; omega) s2
  have x3 : Ext h h3 := (x1.trans x2).same m3 (fun a ha => by omega)
  have hl2 := x2.1
  have hl3 := m3.1
  obtain ⟨g, h4, e4, x4, s4, n4, ge4⟩ := copyBranch r h3 (hr.ext x3)
  have g4 : h4[h.length]? = some (.change none none c (toRef (LK.copy f l)) (.str .C)) := by rw [x4.2 _ (by omega)]; exact g3
  have m5 := same_set h4 h.length (.change none none c (toRef (LK.copy f l)) (toRef (LK.copy g r)))
  generalize eh5 : h4.set h.length (.change none none c (toRef (LK.copy f l)) (toRef (LK.copy g r))) = h5 at m5
  have lt2 : ∀ a ∈ ids (LK.copy f l), a < h3.length := fun a ha => stored_lt _ s3 a ha
  have s5 : Stored h5 (.change h.length none none c (LK.copy f l) (LK.copy g r)) := by
    simp only [Stored]
    refine ⟨by rw [← eh5]; exact get_set_self g4, m5.stored (fun a ha e => ?_) (x4.stored s3), m5.stored (fun a ha e => ?_) s4⟩
    · have := ge2 a ha; omega
    · have := ge4 a ha; omega
  have n5 : (ids (.change h.length none none c (LK.copy f l) (LK.copy g r))).Nodup := by
    simp only [ids, List.nodup_cons, List.mem_append, not_or, List.nodup_append]
    refine ⟨⟨fun hh => by have := ge2 _ hh; omega, fun hh => by have := ge4 _ hh; omega⟩, n2, n4, ?_⟩
    intro a ha b hb e
    have := lt2 a ha; have := ge4 b hb; omega
  have ge5 : ∀ a ∈ ids (.change h.length none none c (LK.copy f l) (LK.copy g r)), h.length ≤ a := by
    intro a ha
    simp only [ids, List.mem_cons, List.mem_append] at ha
    rcases ha with ha | ha | ha
    · omega
    · have := ge2 a ha; omega
    · have := ge4 a ha; omega
  obtain ⟨h6, e6, s6, m6⟩ := simplify_ok cfg (k := .change h.length none none c (LK.copy f l) (LK.copy g r)) rfl s5 n5
  have n6 := nodup_subperm (ids_simplify cfg (.change h.length none none c (LK.copy f l) (LK.copy g r))) n5
  have hC := C73_new_change cfg h.length f g c l r hl.parents hr.parents
  have sub6 := ids_simplify_sub cfg (.change h.length none none c (LK.copy f l) (LK.copy g r))
  rw [LK.simplify] at s6 n6 sub6
  have Gl : G (fun _ => True) (fun _ => True) (LK.extract (LK.simplify cfg (LK.copy f l))) :=
    extract_G (simplify_G cfg _ _ (G_copy f (T := fun _ => True) (fun _ _ => trivial) l ((parents_iff l).1 hl.parents)))
  have Gr : G (fun _ => True) (fun _ => True) (LK.extract (LK.simplify cfg (LK.copy g r))) :=
    extract_G (simplify_G cfg _ _ (G_copy g (T := fun _ => True) (fun _ _ => trivial) r ((parents_iff r).1 hr.parents)))
  have en : LK.newChange cfg h.length f g c l r = .change h.length none none c
      (LK.setRoot none (LK.setParent (some h.length) (LK.extract (LK.simplify cfg (LK.copy f l)))))
      (LK.setRoot none (LK.setParent (some h.length) (LK.extract (LK.simplify cfg (LK.copy g r))))) := by
    rw [LK.newChange, LK.simplify]; rfl
  generalize LK.extract (LK.simplify cfg (LK.copy f l)) = L at *
  generalize LK.extract (LK.simplify cfg (LK.copy g r)) = R at *
  have s6' := s6
  simp only [Stored] at s6'
  simp only [ids, List.nodup_cons, List.mem_append, not_or, List.nodup_append] at n6
  -- one branch is adopted
  have side : ∀ (k : LK) (hh : Heap), hh[h.length]? = some (.change none none c (toRef L) (toRef R)) → Stored hh k → (ids k).Nodup → h.length ∉ ids k →
      ∃ h', onRef (fun ct => do setParent ct (some h.length); let s ← look h.length; setRoot ct s.root) (toRef k) hh = (.ok (), h') ∧
        Stored h' (LK.setRoot none (LK.setParent (some h.length) k)) ∧ Same (· ∈ ids k) hh h' := by
    intro k hh hi hs hn hni
    cases hk : k.isStr with
    | true =>
      cases k with
      | str b => exact ⟨hh, rfl, trivial, Same.refl _ _⟩
      | comm => cases hk
      | change => cases hk
    | false =>
      obtain ⟨h', e, s, m⟩ := adopt_ok hi hk hs hn hni
      exact ⟨h', by rw [toRef_obj hk]; exact e, s, m⟩
  obtain ⟨h7, e7, s7, m7⟩ := side L h6 s6'.1 s6'.2.1 n6.2.1 n6.1.1
  have g7 : h7[h.length]? = some (.change none none c (toRef L) (toRef R)) := by rw [m7.2 _ n6.1.1]; exact s6'.1
  obtain ⟨h8, e8, s8, m8⟩ := side R h7 g7 (m7.stored (fun a ha hh => n6.2.2.2 a hh a ha rfl) s6'.2.2) n6.2.2.1 n6.1.2
  have idsn : ids (LK.newChange cfg h.length f g c l r) = h.length :: (ids L ++ ids R) := by rw [en, ids]; simp
  have hnew : ∀ a ∈ ids (LK.newChange cfg h.length f g c l r), h.length ≤ a := by
    intro a ha
    rw [idsn] at ha
    exact ge5 a (sub6 a (by simpa only [ids] using ha))
  have refs : ∀ k : LK, toRef (LK.setRoot none (LK.setParent (some h.length) k)) = toRef k := by
    intro k
    cases hk : k.isStr with
    | true => rw [setParent_str hk, setRoot_str hk]
    | false => exact toRef_congr (by simp) (by simpa using hk) hk
  have st : Stored h8 (LK.newChange cfg h.length f g c l r) := by
    rw [en]
    simp only [Stored]
    refine ⟨?_, m8.stored (fun a ha hh => ?_) s7, s8⟩
    · rw [m8.2 _ n6.1.2, g7, refs, refs]
    · simp only [ids_setRoot, ids_setParent] at ha
      exact n6.2.2.2 a ha a hh rfl
  have x8 : Ext h h8 := by
    refine ((((x3.trans x4).same m5 ?_).same m6 ?_).same m7 ?_).same m8 ?_
    · intro a ha; omega
    · exact ge5
    · intro a ha; exact hnew a (by rw [idsn]; simp [ha])
    · intro a ha; exact hnew a (by rw [idsn]; simp [ha])
  refine ⟨LK.newChange cfg h.length f g c l r, h8, ?_, x8, ⟨by rw [en]; rfl, ⟨st, ?_, hC.2, closed_of_links st ?_⟩, hC.1, hnew⟩, by rw [en]; rfl⟩
  · rw [newChange, run_bind (show alloc (.change none none c (.str .C) (.str .C)) h = (.ok h.length, h1) by rw [alloc, eh1]), run_bind e2, run_bind (run_edit g2)]
    simp only [Obj.withLeft, ← toRef_copy]
    rw [eh3, run_bind e4, run_bind (run_edit g4)]
    simp only [Obj.withRight]
    rw [eh5, run_bind (show simplify cfg h.length h5 = (.ok (), h6) from e6), run_bind (run_look s6'.1)]
    simp only
    rw [run_bind e7, run_bind e8, en]
    rfl
  · rw [idsn]
    simp only [List.nodup_cons, List.mem_append, not_or, List.nodup_append]
    exact n6
  · rw [LinksIn, idsn, en, G]
    have branch : ∀ k : LK, G (fun _ => True) (fun _ => True) k → (∀ a ∈ ids k, a ∈ h.length :: (ids L ++ ids R)) →
        G (fun r => ∀ x ∈ r, x ∈ h.length :: (ids L ++ ids R)) (fun p => p = some h.length) (LK.setRoot none (LK.setParent (some h.length) k)) := by
      intro k hG hA
      cases hk : k.isStr with
      | true =>
        rw [setParent_str hk, setRoot_str hk]
        cases k with
        | str => trivial
        | comm => cases hk
        | change => cases hk
      | false =>
        refine G_mono (fun r hr x hx => ?_) (fun p hp => hp) (withRoot_links (i := h.length) hG hk)
        subst hr
        simp at hx
        subst hx
        exact hA _ (addr_mem hk)
    exact ⟨by simp, by simp, branch L Gl (fun a ha => by simp [ha]), branch R Gr (fun a ha => by simp [ha])⟩

theorem newChange_ok (cfg : Cfg) (c : CC) {h : Heap} {l r : LK} (hl : Good h l) (hr : Good h r) :
    ∃ k h', newChange cfg c (toRef l) (toRef r) h = (.ok (addr k), h') ∧ Ext h h' ∧ Made h.length h' k (mkChange cfg c l.erase r.erase) := by
  obtain ⟨k, h', e, x, m, _⟩ := newChange_top cfg c hl hr
  exact ⟨k, h', e, x, m⟩

end Objects
end GPyABCD
