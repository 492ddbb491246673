import Verif.Spec.Refine
import Verif.Lemmas.LinksTree
import Verif.Lemmas.Eq
import Mathlib.Tactic.SplitIfs

/-!
# The store does to trees what the model of trees says: methods
-/

namespace GPyABCD
namespace Objects
open Links KE

/-! ## Trees in a store -/

theorem storedL_iff {h : Heap} {ks : List LK} : StoredL h ks ↔ ∀ k ∈ ks, k.isStr = false ∧ Stored h k := by
  induction ks with
  | nil => simp [StoredL]
  | cons k ks ih => simp [StoredL, ih]

theorem toRef_obj {k : LK} (h : k.isStr = false) : toRef k = .obj (addr k) := by
  cases k <;> simp_all [LK.isStr, toRef]

theorem addr_mem {k : LK} (h : k.isStr = false) : addr k ∈ ids k := by
  cases k <;> simp_all [LK.isStr, addr, LK.id?, ids]

theorem id_addr {k : LK} (h : k.isStr = false) : k.id? = some (addr k) := by
  cases k <;> simp_all [LK.isStr, addr, LK.id?]

mutual
theorem stored_congr {h h' : Heap} : (k : LK) → (∀ a ∈ ids k, h'[a]? = h[a]?) → Stored h k → Stored h' k
  | .str _, _, _ => trivial
  | .comm i r p op bts cts, he, hs => by
    simp only [Stored] at hs ⊢
    exact ⟨by rw [he i (by simp [ids])]; exact hs.1, storedL_congr cts (fun a ha => he a (by simp [ids, ha])) hs.2⟩
  | .change i r p c l r', he, hs => by
    simp only [Stored] at hs ⊢
    exact ⟨by rw [he i (by simp [ids])]; exact hs.1, stored_congr l (fun a ha => he a (by simp [ids, ha])) hs.2.1,
      stored_congr r' (fun a ha => he a (by simp [ids, ha])) hs.2.2⟩
theorem storedL_congr {h h' : Heap} : (ks : List LK) → (∀ a ∈ idsL ks, h'[a]? = h[a]?) → StoredL h ks → StoredL h' ks
  | [], _, _ => trivial
  | k :: ks, he, hs => by
    simp only [StoredL] at hs ⊢
    exact ⟨⟨hs.1.1, stored_congr k (fun a ha => he a (by simp [idsL, ha])) hs.1.2⟩, storedL_congr ks (fun a ha => he a (by simp [idsL, ha])) hs.2⟩
end

mutual
theorem stored_lt {h : Heap} : (k : LK) → Stored h k → ∀ a ∈ ids k, a < h.length
  | .str _, _, a, ha => by simp [ids] at ha
  | .comm i r p op bts cts, hs, a, ha => by
    simp only [Stored] at hs
    simp only [ids, List.mem_cons] at ha
    rcases ha with rfl | ha
    · exact (List.getElem?_eq_some_iff.1 hs.1).1
    · exact storedL_lt cts hs.2 a ha
  | .change i r p c l r', hs, a, ha => by
    simp only [Stored] at hs
    simp only [ids, List.mem_cons, List.mem_append] at ha
    rcases ha with rfl | ha | ha
    · exact (List.getElem?_eq_some_iff.1 hs.1).1
    · exact stored_lt l hs.2.1 a ha
    · exact stored_lt r' hs.2.2 a ha
theorem storedL_lt {h : Heap} : (ks : List LK) → StoredL h ks → ∀ a ∈ idsL ks, a < h.length
  | [], _, a, ha => by simp [idsL] at ha
  | k :: ks, hs, a, ha => by
    simp only [StoredL] at hs
    simp only [idsL, List.mem_append] at ha
    rcases ha with ha | ha
    · exact stored_lt k hs.1.2 a ha
    · exact storedL_lt ks hs.2 a ha
end

mutual
/-- Levels of a tree. -/
def depth : LK → Nat
  | .str _ => 0
  | .comm _ _ _ _ _ cts => depthL cts + 1
  | .change _ _ _ _ l r => max (depth l) (depth r) + 1
/-- In a list. -/
def depthL : List LK → Nat
  | [] => 0
  | k :: ks => max (depth k) (depthL ks)
end

mutual
theorem depth_le : (k : LK) → depth k ≤ (ids k).length
  | .str _ => by simp [depth]
  | .comm _ _ _ _ _ cts => by have := depthL_le cts; simp only [depth, ids, List.length_cons]; omega
  | .change _ _ _ _ l r => by
    have := depth_le l; have := depth_le r
    simp only [depth, ids, List.length_cons, List.length_append]; omega
theorem depthL_le : (ks : List LK) → depthL ks ≤ (idsL ks).length
  | [] => by simp [depthL]
  | k :: ks => by
    have := depth_le k; have := depthL_le ks
    simp only [depthL, idsL, List.length_append]; omega
end

theorem depth_lt_of_mem {ks : List LK} {k : LK} (h : k ∈ ks) : depth k ≤ depthL ks := by
  induction ks with
  | nil => cases h
  | cons k' ks ih =>
    simp only [depthL]
    rcases List.mem_cons.1 h with rfl | h
    · omega
    · have := ih h; omega

theorem nodup_length {l : List Nat} {n : Nat} (hn : l.Nodup) (h : ∀ a ∈ l, a < n) : l.length ≤ n := by
  have := (List.subperm_of_subset hn (l₂ := List.range n) (fun a ha => List.mem_range.2 (h a ha))).length_le
  simpa using this

/-- The recursion never gets to its bound in a tree. -/
theorem depth_bound {h : Heap} {k : LK} (hs : Stored h k) (hn : (ids k).Nodup) : depth k < h.length + 1 := by
  have h1 := nodup_length hn (stored_lt k hs)
  have h2 := depth_le k
  omega

/-- At most the objects in `A` have changed. -/
def Same (A : Nat → Prop) (h h' : Heap) : Prop := h'.length = h.length ∧ ∀ a, ¬ A a → h'[a]? = h[a]?

theorem Same.refl (A : Nat → Prop) (h : Heap) : Same A h h := ⟨rfl, fun _ _ => rfl⟩

theorem Same.trans {A : Nat → Prop} {h h' h'' : Heap} (h1 : Same A h h') (h2 : Same A h' h'') : Same A h h'' :=
  ⟨h2.1.trans h1.1, fun a ha => (h2.2 a ha).trans (h1.2 a ha)⟩

theorem Same.mono {A B : Nat → Prop} {h h' : Heap} (h1 : Same A h h') (hAB : ∀ a, A a → B a) : Same B h h' :=
  ⟨h1.1, fun a ha => h1.2 a (fun hh => ha (hAB a hh))⟩

theorem Same.stored {A : Nat → Prop} {h h' : Heap} (h1 : Same A h h') {k : LK} (hd : ∀ a ∈ ids k, ¬ A a) (hs : Stored h k) : Stored h' k :=
  stored_congr k (fun a ha => h1.2 a (hd a ha)) hs

theorem Same.storedL {A : Nat → Prop} {h h' : Heap} (h1 : Same A h h') {ks : List LK} (hd : ∀ a ∈ idsL ks, ¬ A a) (hs : StoredL h ks) : StoredL h' ks :=
  storedL_congr ks (fun a ha => h1.2 a (hd a ha)) hs

/-! ## Steps -/

theorem run_bind {α β : Type} {m : M α} {f : α → M β} {h h1 : Heap} {x : α} (h0 : m h = (.ok x, h1)) : (m >>= f) h = f x h1 := by
  simp only [bind, h0]

theorem run_pure {α : Type} (x : α) (h : Heap) : (pure x : M α) h = (.ok x, h) := rfl

theorem run_look {h : Heap} {a : Nat} {o : Obj} (h0 : h[a]? = some o) : look a h = (.ok o, h) := by simp only [look, h0]

theorem run_edit {h : Heap} {a : Nat} {o : Obj} {f : Obj → Obj} (h0 : h[a]? = some o) : edit a f h = (.ok (), h.set a (f o)) := by
  simp only [edit, h0]

theorem run_ask {α : Type} {f : Heap → Option α} {h : Heap} {x : α} (h0 : f h = some x) : ask f h = (.ok x, h) := by simp only [ask, h0]

theorem get_set_self {h : Heap} {a : Nat} {o o' : Obj} (h0 : h[a]? = some o) : (h.set a o')[a]? = some o' := by
  have := (List.getElem?_eq_some_iff.1 h0).1
  simp [this]

theorem same_set (h : Heap) (a : Nat) (o : Obj) : Same (· = a) h (h.set a o) :=
  ⟨by simp, fun b hb => List.getElem?_set_ne (fun e => hb e.symm)⟩

/-- An object of a node. -/
theorem run_lookNode {h : Heap} {k : LK} (hs : Stored h k) (hk : k.isStr = false) : ∃ o, h[addr k]? = some o := by
  cases k with
  | str => cases hk
  | comm => simp only [Stored] at hs; exact ⟨_, hs.1⟩
  | change => simp only [Stored] at hs; exact ⟨_, hs.1⟩

theorem addr_setParent (p : Option Nat) (k : LK) : addr (LK.setParent p k) = addr k := by simp [addr]

theorem toRef_congr {k k' : LK} (h : k.id? = k'.id?) (hb : k.isStr = false) (hb' : k'.isStr = false) : toRef k = toRef k' := by
  rw [toRef_obj hb, toRef_obj hb', addr, addr, h]

/-- `set_parent` -/
theorem setParent_ok {h : Heap} {k : LK} (p : Option Nat) (hk : k.isStr = false) (hs : Stored h k) (hn : (ids k).Nodup) :
    ∃ h', setParent (addr k) p h = (.ok (), h') ∧ Stored h' (LK.setParent p k) ∧ Same (· = addr k) h h' := by
  cases k with
  | str => cases hk
  | comm i r q op bts cts =>
    simp only [Stored] at hs
    simp only [ids, List.nodup_cons] at hn
    refine ⟨_, run_edit hs.1, ?_, same_set _ _ _⟩
    simp only [LK.setParent, Stored]
    exact ⟨get_set_self hs.1, (same_set _ _ _).storedL (fun a ha e => hn.1 ((show _ = i from e) ▸ ha)) hs.2⟩
  | change i r q c l r' =>
    simp only [Stored] at hs
    simp only [ids, List.nodup_cons, List.mem_append, not_or] at hn
    refine ⟨_, run_edit hs.1, ?_, same_set _ _ _⟩
    simp only [LK.setParent, Stored]
    exact ⟨get_set_self hs.1, (same_set _ _ _).stored (fun a ha e => hn.1.1 ((show _ = i from e) ▸ ha)) hs.2.1,
      (same_set _ _ _).stored (fun a ha e => hn.1.2 ((show _ = i from e) ▸ ha)) hs.2.2⟩

/-- A loop that treats disjoint trees one after the other. -/
theorem each_ok {f : Nat → M Unit} {g : LK → LK} {h : Heap} (ks : List LK)
    (hf : ∀ k ∈ ks, ∀ h, Stored h k → (ids k).Nodup → ∃ h', f (addr k) h = (.ok (), h') ∧ Stored h' (g k) ∧ Same (· ∈ ids k) h h')
    (hg : ∀ k ∈ ks, (g k).isStr = k.isStr ∧ ∀ a ∈ ids (g k), a ∈ ids k) (hs : StoredL h ks) (hn : (idsL ks).Nodup) :
    ∃ h', each f (ks.map addr) h = (.ok (), h') ∧ StoredL h' (ks.map g) ∧ Same (· ∈ idsL ks) h h' := by
  induction ks generalizing h with
  | nil => exact ⟨h, rfl, trivial, Same.refl _ _⟩
  | cons k ks ih =>
    simp only [StoredL] at hs
    simp only [idsL, List.nodup_append] at hn
    obtain ⟨h1, e1, s1, m1⟩ := hf k (by simp) h hs.1.2 hn.1
    have hs1 : StoredL h1 ks := m1.storedL (fun a ha hh => hn.2.2 a hh a ha rfl) hs.2
    obtain ⟨h2, e2, s2, m2⟩ := ih (fun k' hk' => hf k' (by simp [hk'])) (fun k' hk' => hg k' (by simp [hk'])) hs1 hn.2.1
    refine ⟨h2, ?_, ?_, ?_⟩
    · rw [List.map_cons, each, run_bind e1, e2]
    · simp only [List.map_cons, StoredL]
      refine ⟨⟨by rw [(hg k (by simp)).1]; exact hs.1.1, ?_⟩, s2⟩
      exact m2.stored (fun a ha hh => hn.2.2 a ((hg k (by simp)).2 a ha) a hh rfl) s1
    · exact (m1.mono (fun a ha => by simp [idsL, ha])).trans (m2.mono (fun a ha => by simp [idsL, ha]))

/-- A branch. -/
theorem onRef_ok {f : Nat → M Unit} {g : LK → LK} {h : Heap} (k : LK) (hstr : ∀ b, g (.str b) = .str b)
    (hf : k.isStr = false → ∀ h, Stored h k → (ids k).Nodup → ∃ h', f (addr k) h = (.ok (), h') ∧ Stored h' (g k) ∧ Same (· ∈ ids k) h h')
    (hs : Stored h k) (hn : (ids k).Nodup) : ∃ h', onRef f (toRef k) h = (.ok (), h') ∧ Stored h' (g k) ∧ Same (· ∈ ids k) h h' := by
  cases hk : k.isStr with
  | true =>
    cases k with
    | str b => exact ⟨h, rfl, by rw [hstr]; trivial, Same.refl _ _⟩
    | comm => cases hk
    | change => cases hk
  | false =>
    obtain ⟨h1, e1, s1, m1⟩ := hf hk h hs hn
    exact ⟨h1, by rw [toRef_obj hk]; exact e1, s1, m1⟩

theorem addr_setRootTo (x : Nat) (k : LK) : addr (LK.setRootTo x k) = addr k := by simp [addr]

theorem toRef_setRootTo (x : Nat) (k : LK) : toRef (LK.setRootTo x k) = toRef k := by
  cases k <;> simp [LK.setRootTo, toRef, addr, LK.id?]

theorem setRootToL_eq (x : Nat) (ks : List LK) : LK.setRootToL x ks = ks.map (LK.setRootTo x) := by
  induction ks with
  | nil => rfl
  | cons k ks ih => rw [LK.setRootToL, ih]; rfl

/-- `set_root` -/
theorem setRootTo_ok (x : Nat) : (n : Nat) → (k : LK) → {h : Heap} → k.isStr = false → Stored h k → (ids k).Nodup → depth k < n + 1 →
    ∃ h', setRootTo x n (addr k) h = (.ok (), h') ∧ Stored h' (LK.setRootTo x k) ∧ Same (· ∈ ids k) h h'
  | 0, k, h, hk, _, _, hd => by cases k <;> simp [depth, LK.isStr] at hd hk
  | n + 1, .str _, h, hk, _, _, _ => by cases hk
  | n + 1, .comm i r p op bts cts, h, hk, hs, hn, hd => by
    simp only [Stored] at hs
    simp only [ids, List.nodup_cons] at hn
    simp only [depth] at hd
    have hs1 : StoredL (h.set i (.comm (some x) p op bts (cts.map addr))) cts := (same_set _ _ _).storedL (fun a ha e => hn.1 (e ▸ ha)) hs.2
    obtain ⟨h2, e2, s2, m2⟩ := each_ok (f := setRootTo x n) (g := LK.setRootTo x) cts
      (fun k hk h hs hn => setRootTo_ok x n k (storedL_iff.1 hs1 k hk).1 hs hn (by have := depth_lt_of_mem hk; omega))
      (fun k _ => ⟨by simp, fun a ha => by rwa [ids_setRootTo] at ha⟩) hs1 hn.2
    refine ⟨h2, ?_, ?_, ?_⟩
    · simp only [setRootTo, addr, LK.id?, Option.getD_some]
      rw [run_bind (run_edit hs.1), run_bind (run_look (get_set_self hs.1))]
      exact e2
    · simp only [LK.setRootTo, Stored]
      refine ⟨?_, by rw [setRootToL_eq]; exact s2⟩
      rw [m2.2 i hn.1, setRootToL_eq, List.map_map]
      have : (addr ∘ LK.setRootTo x) = addr := by funext k; exact addr_setRootTo x k
      rw [this]
      exact get_set_self hs.1
    · exact ((same_set _ _ _).mono (fun a ha => by simp [ids, ha])).trans (m2.mono (fun a ha => by simp [ids, ha]))
  | n + 1, .change i r p c l r', h, hk, hs, hn, hd => by
    simp only [Stored] at hs
    simp only [ids, List.nodup_cons, List.mem_append, not_or, List.nodup_append] at hn
    simp only [depth] at hd
    have m0 := same_set h i (.change (some x) p c (toRef l) (toRef r'))
    have hl : Stored (h.set i (.change (some x) p c (toRef l) (toRef r'))) l := m0.stored (fun a ha e => hn.1.1 (e ▸ ha)) hs.2.1
    have hr : Stored (h.set i (.change (some x) p c (toRef l) (toRef r'))) r' := m0.stored (fun a ha e => hn.1.2 (e ▸ ha)) hs.2.2
    obtain ⟨h2, e2, s2, m2⟩ := onRef_ok (f := setRootTo x n) (g := LK.setRootTo x) l (fun _ => rfl)
      (fun hk h hs hn => setRootTo_ok x n l hk hs hn (by omega)) hl hn.2.1
    obtain ⟨h3, e3, s3, m3⟩ := onRef_ok (f := setRootTo x n) (g := LK.setRootTo x) r' (fun _ => rfl)
      (fun hk h hs hn => setRootTo_ok x n r' hk hs hn (by omega)) (m2.stored (fun a ha hh => hn.2.2.2 a hh a ha rfl) hr) hn.2.2.1
    refine ⟨h3, ?_, ?_, ?_⟩
    · simp only [setRootTo, addr, LK.id?, Option.getD_some]
      rw [run_bind (run_edit hs.1), run_bind (run_look (get_set_self hs.1))]
      simp only [Obj.withRoot]
      rw [run_bind e2]
      exact e3
    · simp only [LK.setRootTo, Stored]
      refine ⟨?_, m3.stored (fun a ha hh => hn.2.2.2 a (by rwa [ids_setRootTo] at ha) a hh rfl) s2, s3⟩
      rw [m3.2 i hn.1.2, m2.2 i hn.1.1, toRef_setRootTo, toRef_setRootTo]
      exact get_set_self hs.1
    · exact ((m0.mono (fun a ha => by simp [ids, ha])).trans (m2.mono (fun a ha => by simp [ids, ha]))).trans (m3.mono (fun a ha => by simp [ids, ha]))
termination_by _ k => sizeOf k
decreasing_by
  all_goals simp_wf
  · have := List.sizeOf_lt_of_mem hk; omega
  · omega
  · omega

theorem setRoot_ok {h : Heap} {k : LK} (x : Option Nat) (hk : k.isStr = false) (hs : Stored h k) (hn : (ids k).Nodup) :
    ∃ h', setRoot (addr k) x h = (.ok (), h') ∧ Stored h' (LK.setRoot x k) ∧ Same (· ∈ ids k) h h' := by
  obtain ⟨h', e, s, m⟩ := setRootTo_ok (x.getD (addr k)) (h.length + 1) k hk hs hn (by have := depth_bound hs hn; omega)
  refine ⟨h', e, ?_, m⟩
  rw [setRoot_eq, id_addr hk]
  exact s

end Objects
end GPyABCD
