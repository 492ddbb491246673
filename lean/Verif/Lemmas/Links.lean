import Verif.Spec.Links
import Verif.Lemmas.Absorb
import Mathlib.Data.List.Perm.Subperm

/-!
# Lemmas on links
-/

namespace GPyABCD
namespace Links
open KE LK

theorem eraseL_eq (ks : List LK) : eraseL ks = ks.map erase := by
  induction ks with
  | nil => rfl
  | cons k ks ih => rw [eraseL, ih]; rfl

theorem idsL_eq (ks : List LK) : idsL ks = ks.flatMap ids := by
  induction ks with
  | nil => rfl
  | cons k ks ih => rw [idsL, ih]; rfl

theorem simplifyL_eq' (cfg : Cfg) (ks : List LK) : LK.simplifyL cfg ks = ks.map (LK.simplify cfg) := by
  induction ks with
  | nil => rfl
  | cons k ks ih => rw [LK.simplifyL, ih]; rfl

@[simp] theorem erase_setParent (p : Option Nat) (k : LK) : (setParent p k).erase = k.erase := by
  cases k <;> simp [setParent, erase]

@[simp] theorem ids_setParent (p : Option Nat) (k : LK) : ids (setParent p k) = ids k := by
  cases k <;> simp [setParent, ids]

@[simp] theorem id_setParent (p : Option Nat) (k : LK) : (setParent p k).id? = k.id? := by
  cases k <;> simp [setParent, id?]

@[simp] theorem isStr_setParent (p : Option Nat) (k : LK) : (setParent p k).isStr = k.isStr := by
  cases k <;> simp [setParent, isStr]

mutual
theorem erase_setRootTo (x : Nat) : (k : LK) → (setRootTo x k).erase = k.erase
  | .str _ => by simp [setRootTo]
  | .comm i r p op bts cts => by simp [setRootTo, erase, eraseL_setRootTo x cts]
  | .change i r p c l r' => by simp [setRootTo, erase, erase_setRootTo x l, erase_setRootTo x r']
theorem eraseL_setRootTo (x : Nat) : (ks : List LK) → eraseL (setRootToL x ks) = eraseL ks
  | [] => rfl
  | k :: ks => by simp [setRootToL, eraseL, erase_setRootTo x k, eraseL_setRootTo x ks]
end

mutual
theorem ids_setRootTo (x : Nat) : (k : LK) → ids (setRootTo x k) = ids k
  | .str _ => by simp [setRootTo]
  | .comm i r p op bts cts => by simp [setRootTo, ids, idsL_setRootTo x cts]
  | .change i r p c l r' => by simp [setRootTo, ids, ids_setRootTo x l, ids_setRootTo x r']
theorem idsL_setRootTo (x : Nat) : (ks : List LK) → idsL (setRootToL x ks) = idsL ks
  | [] => rfl
  | k :: ks => by simp [setRootToL, idsL, ids_setRootTo x k, idsL_setRootTo x ks]
end

@[simp] theorem id_setRootTo (x : Nat) (k : LK) : (setRootTo x k).id? = k.id? := by
  cases k <;> simp [setRootTo, id?]

@[simp] theorem parent_setRootTo (x : Nat) (k : LK) : (setRootTo x k).parent = k.parent := by
  cases k <;> simp [setRootTo, LK.parent]

@[simp] theorem isStr_setRootTo (x : Nat) (k : LK) : (setRootTo x k).isStr = k.isStr := by
  cases k <;> simp [setRootTo, isStr]

theorem setRoot_eq (x : Option Nat) (k : LK) : setRoot x k = match k.id? with
    | none => k
    | some i => setRootTo (x.getD i) k := by
  cases k <;> simp [setRoot, id?]

@[simp] theorem erase_setRoot (x : Option Nat) (k : LK) : (setRoot x k).erase = k.erase := by
  rw [setRoot_eq]; split
  · rfl
  · exact erase_setRootTo _ k

@[simp] theorem ids_setRoot (x : Option Nat) (k : LK) : ids (setRoot x k) = ids k := by
  rw [setRoot_eq]; split
  · rfl
  · exact ids_setRootTo _ k

@[simp] theorem id_setRoot (x : Option Nat) (k : LK) : (setRoot x k).id? = k.id? := by
  rw [setRoot_eq]; split
  · rfl
  · simp

@[simp] theorem parent_setRoot (x : Option Nat) (k : LK) : (setRoot x k).parent = k.parent := by
  rw [setRoot_eq]; split
  · rfl
  · simp

@[simp] theorem isStr_setRoot (x : Option Nat) (k : LK) : (setRoot x k).isStr = k.isStr := by
  rw [setRoot_eq]; split
  · rfl
  · simp

mutual
theorem erase_setAllParents : (k : LK) → (setAllParents k).erase = k.erase
  | .str _ => by simp [setAllParents]
  | .comm i r p op bts cts => by simp [setAllParents, erase, eraseL_setAllParents i cts]
  | .change i r p c l r' => by simp [setAllParents, erase, erase_setAllParents l, erase_setAllParents r']
theorem eraseL_setAllParents (i : Nat) : (ks : List LK) → eraseL (setAllParentsL i ks) = eraseL ks
  | [] => rfl
  | k :: ks => by simp [setAllParentsL, eraseL, erase_setAllParents k, eraseL_setAllParents i ks]
end

mutual
theorem ids_setAllParents : (k : LK) → ids (setAllParents k) = ids k
  | .str _ => by simp [setAllParents]
  | .comm i r p op bts cts => by simp [setAllParents, ids, idsL_setAllParents i cts]
  | .change i r p c l r' => by simp [setAllParents, ids, ids_setAllParents l, ids_setAllParents r']
theorem idsL_setAllParents (i : Nat) : (ks : List LK) → idsL (setAllParentsL i ks) = idsL ks
  | [] => rfl
  | k :: ks => by simp [setAllParentsL, idsL, ids_setAllParents k, idsL_setAllParents i ks]
end

@[simp] theorem isStr_setAllParents (k : LK) : (setAllParents k).isStr = k.isStr := by
  cases k <;> simp [setAllParents, isStr]

@[simp] theorem id_setAllParents (k : LK) : (setAllParents k).id? = k.id? := by
  cases k <;> simp [setAllParents, id?]

@[simp] theorem parent_setAllParents (k : LK) : (setAllParents k).parent = k.parent := by
  cases k <;> simp [setAllParents, LK.parent]

theorem isStr_iff {k : LK} : k.isStr = k.erase.isBase := by
  cases k <;> simp [isStr, erase, isBase]

theorem isComm_erase (op : Op) (k : LK) : LK.isComm op k = KE.isComm op k.erase := by
  cases k <;> simp [LK.isComm, erase, KE.isComm]

/-! ### A common generalisation of the invariants -/

mutual
/-- Root links satisfy `R`, the parent link of the top node satisfies `T`, all other parent links are right. -/
def G (R : Option Nat → Prop) (T : Option Nat → Prop) : LK → Prop
  | .str _ => True
  | .comm i r q _ _ cts => R r ∧ T q ∧ GL R (fun q => q = some i) cts
  | .change i r q _ l r' => R r ∧ T q ∧ G R (fun q => q = some i) l ∧ G R (fun q => q = some i) r'
/-- In a list. -/
def GL (R : Option Nat → Prop) (T : Option Nat → Prop) : List LK → Prop
  | [] => True
  | k :: ks => (k.isStr = false ∧ G R T k) ∧ GL R T ks
end

theorem GL_iff {R T : Option Nat → Prop} {ks : List LK} : GL R T ks ↔ ∀ k ∈ ks, k.isStr = false ∧ G R T k := by
  induction ks with
  | nil => simp [GL]
  | cons k ks ih => simp [GL, ih]

mutual
theorem linked_iff (x : Nat) (p : Option Nat) : (k : LK) → (Linked x p k ↔ G (fun r => r = some x) (fun q => q = p) k)
  | .str _ => by simp [Linked, G]
  | .comm i r q op bts cts => by simp only [Linked, G, linkedL_iff x i cts]
  | .change i r q c l r' => by simp only [Linked, G, linked_iff x (some i) l, linked_iff x (some i) r']
theorem linkedL_iff (x i : Nat) : (ks : List LK) → (LinkedL x i ks ↔ GL (fun r => r = some x) (fun q => q = some i) ks)
  | [] => by simp [LinkedL, GL]
  | k :: ks => by simp only [LinkedL, GL, linked_iff x (some i) k, linkedL_iff x i ks]
end

theorem G_top {R T : Option Nat → Prop} {k : LK} : G R T k ↔ G R (fun _ => True) k ∧ (k.isStr = false → T k.parent) := by
  cases k <;> simp [G, isStr, LK.parent] <;> tauto

mutual
theorem parents_iff : (k : LK) → (Parents k ↔ G (fun _ => True) (fun _ => True) k)
  | .str _ => by simp [Parents, G]
  | .comm i r q op bts cts => by simp only [Parents, G, parentsL_iff i cts, true_and]
  | .change i r q c l r' => by
    simp only [Parents, G, true_and]
    rw [G_top (k := l), G_top (k := r'), parents_iff l, parents_iff r']
    tauto
theorem parentsL_iff (i : Nat) : (ks : List LK) → (ParentsL i ks ↔ GL (fun _ => True) (fun q => q = some i) ks)
  | [] => by simp [ParentsL, GL]
  | k :: ks => by
    simp only [ParentsL, GL, parentsL_iff i ks]
    rw [G_top (k := k), parents_iff k]
    tauto
end

theorem G_setParent {R T T' : Option Nat → Prop} {k : LK} {p : Option Nat} (h : G R T k) (hp : T' p) : G R T' (setParent p k) := by
  cases k with
  | str => trivial
  | comm => simp only [G, setParent] at *; exact ⟨h.1, hp, h.2.2⟩
  | change => simp only [G, setParent] at *; exact ⟨h.1, hp, h.2.2⟩

theorem G_mono {R R' T T' : Option Nat → Prop} (hR : ∀ r, R r → R' r) (hT : ∀ r, T r → T' r) {k : LK} : G R T k → G R' T' k := by
  have main : ∀ k : LK, ∀ T T' : Option Nat → Prop, (∀ r, T r → T' r) → G R T k → G R' T' k := by
    intro k
    induction k using LK.rec (motive_2 := fun ks => ∀ T T' : Option Nat → Prop, (∀ r, T r → T' r) → GL R T ks → GL R' T' ks) with
    | str => intros; trivial
    | comm i r q op bts cts ih => intro T T' hT h; simp only [G] at *; exact ⟨hR _ h.1, hT _ h.2.1, ih _ _ (fun _ h => h) h.2.2⟩
    | change i r q c l r' ih1 ih2 =>
      intro T T' hT h; simp only [G] at *
      exact ⟨hR _ h.1, hT _ h.2.1, ih1 _ _ (fun _ h => h) h.2.2.1, ih2 _ _ (fun _ h => h) h.2.2.2⟩
    | nil => intros; trivial
    | cons k ks ih1 ih2 T T' hT h => simp only [GL] at *; exact ⟨⟨h.1.1, ih1 _ _ hT h.1.2⟩, ih2 _ _ hT h.2⟩
  exact main k T T' hT

mutual
theorem G_setRootTo {R T : Option Nat → Prop} (x : Nat) : (k : LK) → G R T k → G (fun r => r = some x) T (setRootTo x k)
  | .str _, _ => trivial
  | .comm i r q op bts cts, h => by
    simp only [G, setRootTo] at *; exact ⟨trivial, h.2.1, GL_setRootTo x cts h.2.2⟩
  | .change i r q c l r', h => by
    simp only [G, setRootTo] at *; exact ⟨trivial, h.2.1, G_setRootTo x l h.2.2.1, G_setRootTo x r' h.2.2.2⟩
theorem GL_setRootTo {R T : Option Nat → Prop} (x : Nat) : (ks : List LK) → GL R T ks → GL (fun r => r = some x) T (setRootToL x ks)
  | [], _ => trivial
  | k :: ks, h => by
    simp only [GL, setRootToL] at *
    exact ⟨⟨by simp [h.1.1], G_setRootTo x k h.1.2⟩, GL_setRootTo x ks h.2⟩
end

/-- What `set_root` and `_set_all_parents` achieve, whatever the links were. -/
theorem G_set (x : Nat) (k : LK) (hp : Proper k) : G (fun r => r = some x) (fun q => q = k.parent) (setAllParents (setRootTo x k)) := by
  have main : ∀ k : LK, Proper k → G (fun r => r = some x) (fun _ => True) (setAllParents (setRootTo x k)) := by
    intro k
    induction k using LK.rec (motive_2 := fun ks => ∀ i, ProperL ks → GL (fun r => r = some x) (fun q => q = some i) (setAllParentsL i (setRootToL x ks))) with
    | str => intros; trivial
    | comm i r q op bts cts ih => intro h; simp only [Proper] at h; simp only [setRootTo, setAllParents, G]; exact ⟨trivial, trivial, ih i h⟩
    | change i r q c l r' ih1 ih2 =>
      intro h; simp only [Proper] at h
      simp only [setRootTo, setAllParents, G]
      exact ⟨trivial, trivial, G_setParent (ih1 h.1) rfl, G_setParent (ih2 h.2) rfl⟩
    | nil => intros; trivial
    | cons k ks ih1 ih2 i h =>
      simp only [ProperL] at h
      simp only [setRootToL, setAllParentsL, GL]
      exact ⟨⟨by simp [h.1.1], G_setParent (ih1 h.1.2) rfl⟩, ih2 i h.2⟩
  rw [G_top]
  refine ⟨main k hp, fun _ => by simp⟩

/-! ### Simplification -/

/-- What the elements of a list of composite terms satisfy is kept by absorbing. -/
theorem G_children {R T : Option Nat → Prop} {i : Nat} {r q : Option Nat} {op : Op} {bts : Counter} {cts : List LK}
    (h : G R T (.comm i r q op bts cts)) : ∀ k ∈ cts, k.isStr = false ∧ G R (fun q => q = some i) k := by
  simp only [G] at h; exact GL_iff.1 h.2.2

theorem removeFirst_sub {α : Type} (p : α → Bool) (l : List α) : List.Sublist ((removeFirst p l).getD l) l := by
  induction l with
  | nil => simp [removeFirst]
  | cons y ys ih =>
    simp only [removeFirst]
    split
    · simp
    · cases h : removeFirst p ys with
      | none => simp
      | some z => rw [h] at ih; simpa using ih

theorem removeFirst_map {α β : Type} (f : α → β) (p : β → Bool) (l : List α) :
    (removeFirst (fun y => p (f y)) l).map (List.map f) = removeFirst p (l.map f) := by
  induction l with
  | nil => rfl
  | cons y ys ih =>
    simp only [removeFirst, List.map_cons]
    split
    · rfl
    · rw [← ih]; cases removeFirst (fun y => p (f y)) ys <;> simp

theorem absorbStep_G {R T : Option Nat → Prop} (cfg : Cfg) (op : Op) {i : Nat} (hT : T (some i)) (s : Counter × List LK) (hc : LK)
    (hs : ∀ k ∈ s.2, k.isStr = false ∧ G R T k) (hh : ∃ T', G R T' hc) : ∀ k ∈ (LK.absorbStep cfg op i s hc).2, k.isStr = false ∧ G R T k := by
  cases hc with
  | str => exact hs
  | change => exact hs
  | comm j r q o hb hcts =>
    obtain ⟨T', hh⟩ := hh
    intro k hk
    simp only [LK.absorbStep] at hk
    have := (removeFirst_sub _ _).subset hk
    rcases List.mem_append.1 this with h | h
    · exact hs k h
    · obtain ⟨k', h1, rfl⟩ := List.mem_map.1 h
      obtain ⟨h2, h3⟩ := G_children hh k' h1
      exact ⟨by simp [h2], G_setParent h3 hT⟩

theorem absorbHomogeneous_G {R T : Option Nat → Prop} (cfg : Cfg) (op : Op) {i : Nat} (hT : T (some i)) (bts : Counter) (cts : List LK)
    (hs : ∀ k ∈ cts, k.isStr = false ∧ G R T k) : ∀ k ∈ (LK.absorbHomogeneous cfg op i bts cts).2, k.isStr = false ∧ G R T k := by
  unfold LK.absorbHomogeneous
  have : ∀ (l : List LK), (∀ k ∈ l, ∃ T', G R T' k) → ∀ s : Counter × List LK, (∀ k ∈ s.2, k.isStr = false ∧ G R T k) →
      ∀ k ∈ (l.foldl (LK.absorbStep cfg op i) s).2, k.isStr = false ∧ G R T k := by
    intro l
    induction l with
    | nil => intro _ s hs; exact hs
    | cons k ks ih =>
      intro hl s hs
      exact ih (fun k hk => hl k (by simp [hk])) _ (absorbStep_G cfg op hT s k hs (hl k (by simp)))
  exact this _ (fun k hk => ⟨T, (hs k (List.mem_filter.1 hk).1).2⟩) _ hs

theorem extract_G {R T : Option Nat → Prop} {k : LK} (h : G R T k) : G R T (LK.extract k) := by
  cases k with
  | str => exact h
  | change => exact h
  | comm i r q op bts cts =>
    simp only [LK.extract]
    split
    · split <;> trivial
    · next ct =>
      split
      · obtain ⟨_, h2⟩ := G_children h ct (by simp)
        simp only [G] at h
        exact G_setParent h2 h.2.1
      · exact h
    · exact h

theorem absorb_G {R T' : Option Nat → Prop} (cfg : Cfg) {i : Nat} {r q : Option Nat} (op : Op) (bts : Counter) (cts : List LK) (hT' : T' (some i))
    (hs : ∀ k ∈ cts, k.isStr = false ∧ G R T' k) :
    ∃ b c, LK.absorb cfg i r q op bts cts = .comm i r q op b c ∧ ∀ k ∈ c, k.isStr = false ∧ G R T' k := by
  refine ⟨_, _, rfl, ?_⟩
  intro k hk
  simp only [List.mem_filter] at hk
  obtain ⟨k', h1, rfl⟩ := List.mem_map.1 hk.1
  exact ⟨by simpa using hk.2, extract_G (absorbHomogeneous_G cfg op hT' bts cts hs k' h1).2⟩

theorem simplify_id (cfg : Cfg) (k : LK) : (LK.simplify cfg k).id? = k.id? ∧ (LK.simplify cfg k).isStr = k.isStr ∧
    (LK.simplify cfg k).parent = k.parent ∧ (LK.simplify cfg k).root = k.root := by
  cases k <;> simp [LK.simplify, id?, isStr, LK.parent, LK.root, LK.absorb]

/-- Simplification keeps all links right. -/
theorem simplify_G {R : Option Nat → Prop} (cfg : Cfg) : ∀ (k : LK) (T : Option Nat → Prop), G R T k → G R T (LK.simplify cfg k) := by
  intro k
  induction k using LK.rec (motive_2 := fun ks => ∀ T, GL R T ks → GL R T (LK.simplifyL cfg ks)) with
  | str => intro T h; exact h
  | comm i r q op bts cts ih =>
    intro T h
    have hc := GL_iff.1 (ih _ (by simp only [G] at h; exact h.2.2))
    obtain ⟨b, c, e, h2⟩ := absorb_G cfg (T' := fun q => q = some i) (r := r) (q := q) op bts _ rfl hc
    simp only [LK.simplify]
    rw [e]
    simp only [G] at h ⊢
    exact ⟨h.1, h.2.1, GL_iff.2 h2⟩
  | change i r q c l r' ih1 ih2 =>
    intro T h
    simp only [G, LK.simplify] at *
    exact ⟨h.1, h.2.1, extract_G (ih1 _ h.2.2.1), extract_G (ih2 _ h.2.2.2)⟩
  | nil => intros; trivial
  | cons k ks ih1 ih2 T h =>
    simp only [GL, LK.simplifyL] at *
    exact ⟨⟨by rw [(simplify_id cfg k).2.1]; exact h.1.1, ih1 T h.1.2⟩, ih2 T h.2⟩

/-! ### Forgetting links -/

theorem extract_erase (k : LK) : (LK.extract k).erase = KE.extract k.erase := by
  cases k with
  | str => rfl
  | change => rfl
  | comm i r q op bts cts =>
    cases cts with
    | nil =>
      cases h : bts.elements with
      | nil => simp [LK.extract, KE.extract, erase, eraseL, h]
      | cons b bs => simp only [LK.extract, KE.extract, erase, eraseL, h]; split <;> simp [erase, eraseL]
    | cons c cs =>
      cases cs with
      | nil =>
        cases h : bts.elements with
        | nil => simp only [LK.extract, KE.extract, erase, eraseL, h]; split <;> simp [erase, eraseL]
        | cons b bs => simp only [LK.extract, KE.extract, erase, eraseL, h]; split <;> simp [erase, eraseL]
      | cons d ds => simp [LK.extract, KE.extract, erase, eraseL]

theorem absorbStep_erase (cfg : Cfg) (op : Op) (i : Nat) (s : Counter × List LK) (hc : LK) :
    (fun t : Counter × List LK => (t.1, t.2.map erase)) (LK.absorbStep cfg op i s hc) = KE.absorbStep cfg op (s.1, s.2.map erase) hc.erase := by
  cases hc with
  | str => rfl
  | change => rfl
  | comm j r q o hb hcts =>
    simp only [LK.absorbStep, KE.absorbStep, erase, eraseL_eq, List.length_map]
    congr 1
    have := removeFirst_map erase (fun y => keq (.comm o hb (hcts.map erase)) y) (s.2 ++ hcts.map (setParent (some i)))
    rw [List.map_append, List.map_map] at this
    have e : (erase ∘ setParent (some i)) = erase := by funext k; simp
    rw [e] at this
    rw [← this]
    cases removeFirst (fun y => keq (.comm o hb (hcts.map erase)) y.erase) (s.2 ++ hcts.map (setParent (some i))) with
    | none => simp
    | some z => simp

theorem filter_erase (op : Op) (cts : List LK) : (cts.map erase).filter (KE.isComm op) = (cts.filter (LK.isComm op)).map erase := by
  rw [List.filter_map]
  congr 1
  apply List.filter_congr
  intro k _
  simp [isComm_erase]

theorem absorbHomogeneous_erase (cfg : Cfg) (op : Op) (i : Nat) (bts : Counter) (cts : List LK) :
    (fun t : Counter × List LK => (t.1, t.2.map erase)) (LK.absorbHomogeneous cfg op i bts cts) = KE.absorbHomogeneous cfg op bts (cts.map erase) := by
  unfold LK.absorbHomogeneous KE.absorbHomogeneous
  rw [filter_erase, List.foldl_map]
  have : ∀ (l : List LK) (s : Counter × List LK), (fun t : Counter × List LK => (t.1, t.2.map erase)) (l.foldl (LK.absorbStep cfg op i) s) =
      l.foldl (fun x y => KE.absorbStep cfg op x y.erase) (s.1, s.2.map erase) := by
    intro l
    induction l with
    | nil => intro s; rfl
    | cons k ks ih => intro s; rw [List.foldl_cons, List.foldl_cons, ih, ← absorbStep_erase cfg op i]
  exact this _ _

theorem absorbSingletons_erase (cfg : Cfg) (op : Op) (bts : Counter) (cts : List LK) :
    (fun t : Counter × List LK => (t.1, t.2.map erase)) (LK.absorbSingletons cfg op bts cts) = KE.absorbSingletons cfg op bts (cts.map erase) := by
  simp only [LK.absorbSingletons, KE.absorbSingletons]
  have e1 : (cts.map erase).map KE.extract = (cts.map LK.extract).map erase := by
    simp only [List.map_map]; congr 1; funext k; simp [extract_erase]
  rw [e1]
  generalize cts.map LK.extract = es
  have e2 : (es.map erase).filter (fun k => !k.isBase) = (es.filter (fun k => !k.isStr)).map erase := by
    rw [List.filter_map]; congr 1; apply List.filter_congr; intro k _; simp [isStr_iff]
  have e3 : ∀ (f : KE → Option Base) (g : LK → Option Base), (∀ k, f k.erase = g k) → (es.map erase).filterMap f = es.filterMap g := by
    intro f g h
    rw [List.filterMap_map]; congr 1; funext k; exact h k
  rw [e2, e3 _ (fun k => match k with | .str b => some b | _ => none) (fun k => by cases k <;> simp [erase])]
  simp only [List.length_map]
  rfl

theorem absorb_erase (cfg : Cfg) (i : Nat) (r q : Option Nat) (op : Op) (bts : Counter) (cts : List LK) :
    (LK.absorb cfg i r q op bts cts).erase = KE.absorb cfg op bts (cts.map erase) := by
  simp only [LK.absorb, KE.absorb, erase, eraseL_eq]
  rw [← absorbHomogeneous_erase cfg op i]
  simp only
  rw [← absorbSingletons_erase]
  simp

/-- Simplification with links is simplification. -/
theorem simplify_erase (cfg : Cfg) : ∀ k : LK, (LK.simplify cfg k).erase = KE.simplify cfg k.erase := by
  intro k
  induction k using LK.rec (motive_2 := fun ks => (LK.simplifyL cfg ks).map erase = KE.simplifyL cfg (eraseL ks)) with
  | str => rfl
  | comm i r q op bts cts ih => rw [LK.simplify, absorb_erase, ih]; rfl
  | change i r q c l r' ih1 ih2 => simp only [LK.simplify, erase, KE.simplify, extract_erase, ih1, ih2]
  | nil => rfl
  | cons k ks ih1 ih2 => simp only [LK.simplifyL, List.map_cons, eraseL, KE.simplifyL, ih1, ih2]

/-! ### No node occurs twice -/

theorem ids_extract (k : LK) : (ids (LK.extract k)).Sublist (ids k) := by
  cases k with
  | str => simp [LK.extract]
  | change => simp [LK.extract]
  | comm i r q op bts cts =>
    simp only [LK.extract]
    split
    · split
      · simp [ids]
      · simp
    · next ct =>
      split
      · simp [ids, idsL]
      · simp
    · simp

/-- One step of the loop removes exactly the processed term. -/
theorem removeFirst_self' {op : Op} {hc : LK} (h : LK.isComm op hc = true) {pre post : List LK} (hpre : ∀ k ∈ pre, LK.isComm op k = false) :
    removeFirst (fun y => keq hc.erase y.erase) (pre ++ hc :: post) = some (pre ++ post) := by
  induction pre with
  | nil => simp [removeFirst, keq_refl]
  | cons x xs ih =>
    have hx : keq hc.erase x.erase = false := by
      by_contra hne
      have := keq_comm_isComm (op := op) (by rw [← isComm_erase]; exact h) (by simpa using hne)
      rw [← isComm_erase, hpre x (by simp)] at this
      cases this
    simp only [List.cons_append, removeFirst, hx]
    rw [ih (fun k hk => hpre k (by simp [hk]))]
    simp

theorem ids_loop (cfg : Cfg) (op : Op) (i : Nat) (todo : List LK) : ∀ (b : Counter) (pre post : List LK), (∀ k ∈ pre, LK.isComm op k = false) →
    (idsL (((todo.filter (LK.isComm op)).foldl (LK.absorbStep cfg op i) (b, pre ++ todo ++ post)).2)).Subperm (idsL (pre ++ todo ++ post)) := by
  induction todo with
  | nil => intro b pre post _; simpa using List.Subperm.refl _
  | cons k ks ih =>
    intro b pre post hpre
    by_cases hk : LK.isComm op k = true
    · cases k with
      | str => cases hk
      | change => cases hk
      | comm j r q o hb hcts =>
        rw [List.filter_cons_of_pos hk, List.foldl_cons]
        have hstep : LK.absorbStep cfg op i (b, pre ++ LK.comm j r q o hb hcts :: ks ++ post) (.comm j r q o hb hcts) =
            (simplifyBase cfg op (b.updateMap hb) (pre ++ LK.comm j r q o hb hcts :: ks ++ post).length,
              pre ++ ks ++ (post ++ hcts.map (setParent (some i)))) := by
          simp only [LK.absorbStep]
          have : (pre ++ LK.comm j r q o hb hcts :: ks ++ post) ++ hcts.map (setParent (some i)) =
              pre ++ LK.comm j r q o hb hcts :: (ks ++ post ++ hcts.map (setParent (some i))) := by simp
          rw [this, removeFirst_self' hk hpre]; simp
        rw [hstep]
        refine (ih _ pre (post ++ hcts.map (setParent (some i))) hpre).trans ?_
        have e : idsL (hcts.map (setParent (some i))) = idsL hcts := by
          simp only [idsL_eq, List.flatMap_map]
          congr 1; funext k; simp
        simp only [idsL_eq, List.flatMap_append, List.flatMap_cons, ids] at e ⊢
        rw [e]
        have : (pre.flatMap ids ++ ks.flatMap ids ++ (post.flatMap ids ++ hcts.flatMap ids)).Perm
            (pre.flatMap ids ++ (hcts.flatMap ids ++ ks.flatMap ids) ++ post.flatMap ids) := by
          rw [List.perm_iff_count]; intro a; simp only [List.count_append]; omega
        refine this.subperm.trans ?_
        apply List.Sublist.subperm
        simp only [List.append_assoc, List.cons_append]
        exact List.Sublist.append_left (List.sublist_cons_self _ _) _
    · have hk' : LK.isComm op k = false := by simpa using hk
      rw [List.filter_cons_of_neg hk]
      have := ih b (pre ++ [k]) post (by
        intro x hx
        rcases List.mem_append.1 hx with h | h
        · exact hpre x h
        · simp at h; rw [h]; exact hk')
      simpa using this

theorem ids_absorbHomogeneous (cfg : Cfg) (op : Op) (i : Nat) (b : Counter) (cts : List LK) :
    (idsL (LK.absorbHomogeneous cfg op i b cts).2).Subperm (idsL cts) := by
  have := ids_loop cfg op i cts b [] [] (by simp)
  simpa [LK.absorbHomogeneous] using this

theorem ids_absorbSingletons (cfg : Cfg) (op : Op) (b : Counter) (cts : List LK) :
    (idsL (LK.absorbSingletons cfg op b cts).2).Sublist (idsL cts) := by
  simp only [LK.absorbSingletons, idsL_eq]
  induction cts with
  | nil => simp
  | cons k ks ih =>
    simp only [List.map_cons, List.flatMap_cons]
    by_cases h : (LK.extract k).isStr = true
    · rw [List.filter_cons_of_neg (by simp [h])]
      exact ih.trans (List.sublist_append_right _ _)
    · rw [List.filter_cons_of_pos (by simp [h]), List.flatMap_cons]
      exact List.Sublist.append (ids_extract k) ih

theorem ids_absorb (cfg : Cfg) (i : Nat) (r q : Option Nat) (op : Op) (b : Counter) (cts : List LK) :
    (ids (LK.absorb cfg i r q op b cts)).Subperm (i :: idsL cts) := by
  simp only [LK.absorb, ids]
  refine (List.subperm_cons i).2 ?_
  exact (ids_absorbSingletons cfg op _ _).subperm.trans (ids_absorbHomogeneous cfg op i b cts)

/-- Simplification only drops nodes. -/
theorem ids_simplify (cfg : Cfg) : ∀ k : LK, (ids (LK.simplify cfg k)).Subperm (ids k) := by
  intro k
  induction k using LK.rec (motive_2 := fun ks => (idsL (LK.simplifyL cfg ks)).Subperm (idsL ks)) with
  | str => exact List.Subperm.refl _
  | comm i r q op bts cts ih =>
    rw [LK.simplify, ids]
    exact (ids_absorb cfg i r q op bts _).trans ((List.subperm_cons i).2 ih)
  | change i r q c l r' ih1 ih2 =>
    simp only [LK.simplify, ids]
    exact (List.subperm_cons i).2 (List.Subperm.append ((ids_extract _).subperm.trans ih1) ((ids_extract _).subperm.trans ih2))
  | nil => exact List.Subperm.refl _
  | cons k ks ih1 ih2 =>
    simp only [LK.simplifyL, idsL]
    exact List.Subperm.append ih1 ih2

theorem nodup_subperm {α : Type} {l m : List α} (h : l.Subperm m) (hm : m.Nodup) : l.Nodup := by
  obtain ⟨z, h1, h2⟩ := h
  exact h1.nodup_iff.1 (h2.nodup hm)

/-! ### Copies -/

mutual
theorem erase_copy (f : Nat → Nat) : (k : LK) → (copy f k).erase = k.erase
  | .str _ => by simp [copy]
  | .comm i r p op bts cts => by simp [copy, erase, eraseL_copy f cts]
  | .change i r p c l r' => by simp [copy, erase, erase_copy f l, erase_copy f r']
theorem eraseL_copy (f : Nat → Nat) : (ks : List LK) → eraseL (copyL f ks) = eraseL ks
  | [] => rfl
  | k :: ks => by simp [copyL, eraseL, erase_copy f k, eraseL_copy f ks]
end

@[simp] theorem isStr_copy (f : Nat → Nat) (k : LK) : (copy f k).isStr = k.isStr := by cases k <;> simp [copy, isStr]

mutual
theorem G_copy (f : Nat → Nat) {T T' : Option Nat → Prop} (hT : ∀ q, T q → T' (q.map f)) : (k : LK) → G (fun _ => True) T k → G (fun _ => True) T' (copy f k)
  | .str _, _ => trivial
  | .comm i r q op bts cts, h => by
    simp only [G, copy] at *; exact ⟨trivial, hT _ h.2.1, GL_copy f (by rintro q rfl; rfl) cts h.2.2⟩
  | .change i r q c l r', h => by
    simp only [G, copy] at *
    exact ⟨trivial, hT _ h.2.1, G_copy f (by rintro q rfl; rfl) l h.2.2.1, G_copy f (by rintro q rfl; rfl) r' h.2.2.2⟩
theorem GL_copy (f : Nat → Nat) {T T' : Option Nat → Prop} (hT : ∀ q, T q → T' (q.map f)) : (ks : List LK) → GL (fun _ => True) T ks → GL (fun _ => True) T' (copyL f ks)
  | [], _ => trivial
  | k :: ks, h => by
    simp only [GL, copyL] at *
    exact ⟨⟨by simp [h.1.1], G_copy f hT k h.1.2⟩, GL_copy f hT ks h.2⟩
end

mutual
theorem ids_copy (f : Nat → Nat) : (k : LK) → ids (copy f k) = (ids k).map f
  | .str _ => by simp [copy, ids]
  | .comm i r p op bts cts => by simp [copy, ids, idsL_copy f cts]
  | .change i r p c l r' => by simp [copy, ids, ids_copy f l, ids_copy f r']
theorem idsL_copy (f : Nat → Nat) : (ks : List LK) → idsL (copyL f ks) = (idsL ks).map f
  | [] => rfl
  | k :: ks => by simp [copyL, idsL, ids_copy f k, idsL_copy f ks]
end

end Links
end GPyABCD
