import Verif.Lemmas.Inside
import Verif.Lemmas.Refine14

/-!
# Values of objects in a store, with shared parts
-/

namespace GPyABCD
namespace Objects
open Links Links.LK
open KE hiding nodes

mutual
/-- Levels of sums, products and change operators. -/
def kdepth : KE → Nat
  | .base _ => 0
  | .comm _ _ cs => kdepthL cs + 1
  | .change _ l r => max (kdepth l) (kdepth r) + 1
/-- For a list: the most. -/
def kdepthL : List KE → Nat
  | [] => 0
  | k :: ks => max (kdepth k) (kdepthL ks)
end

theorem kdepth_mem {cs : List KE} {k : KE} (h : k ∈ cs) : kdepth k ≤ kdepthL cs := by
  induction cs with
  | nil => cases h
  | cons x xs ih =>
    simp only [kdepthL]
    rcases List.mem_cons.1 h with rfl | h
    · omega
    · have := ih h; omega

/-- The object or string has this value. -/
def Val (h : Heap) (x : Ref) (v : KE) : Prop := ∃ n, read h n x = some v

theorem mapM_iff {α β : Type} {f : α → Option β} {xs : List α} {ys : List β} : xs.mapM f = some ys ↔ List.Forall₂ (fun x y => f x = some y) xs ys := by
  induction xs generalizing ys with
  | nil =>
    simp only [List.mapM_nil, Option.pure_def, Option.some.injEq, List.forall₂_nil_left_iff]
    exact eq_comm
  | cons x xs ih =>
    rw [List.mapM_cons]
    cases hx : f x with
    | none =>
      refine ⟨fun h => (by simp at h), fun h => ?_⟩
      cases h with
      | cons h1 _ => rw [hx] at h1; cases h1
    | some y =>
      cases hxs : xs.mapM f with
      | none =>
        refine ⟨fun h => (by simp at h), fun h => ?_⟩
        cases h with
        | cons _ h2 => rw [ih.2 h2] at hxs; cases hxs
      | some ys' =>
        have h2 := ih.1 hxs
        refine ⟨fun h => ?_, fun h => ?_⟩
        · simp only [Option.bind_eq_bind, Option.bind_some, Option.pure_def, Option.some.injEq] at h
          subst h
          exact .cons hx h2
        · cases h with
          | cons h1 h3 =>
            rw [hx] at h1; cases h1
            rw [ih.2 h3] at hxs; cases hxs
            rfl

theorem read_mono {h : Heap} : (n m : Nat) → (x : Ref) → (v : KE) → n ≤ m → read h n x = some v → read h m x = some v
  | n, m, .str b, v, _, hr => by cases n <;> cases m <;> simpa [read] using hr
  | 0, _, .obj a, v, _, hr => by simp [read] at hr
  | n + 1, 0, .obj a, v, hn, _ => by omega
  | n + 1, m + 1, .obj a, v, hn, hr => by
    rw [read] at hr ⊢
    split at hr
    · rename_i e
      simp only [Option.map_eq_some_iff] at hr ⊢
      obtain ⟨vs, hv, rfl⟩ := hr
      exact ⟨vs, mapM_iff.2 ((mapM_iff.1 hv).imp (fun x y hxy => read_mono n m _ _ (by omega) hxy)), rfl⟩
    · rename_i e
      simp only [Option.bind_eq_some_iff, Option.map_eq_some_iff] at hr ⊢
      obtain ⟨x, hx, y, hy, rfl⟩ := hr
      exact ⟨x, read_mono n m _ _ (by omega) hx, y, read_mono n m _ _ (by omega) hy, rfl⟩
    · cases hr

theorem val_unique {h : Heap} {x : Ref} {v w : KE} (h1 : Val h x v) (h2 : Val h x w) : v = w := by
  obtain ⟨n, h1⟩ := h1
  obtain ⟨m, h2⟩ := h2
  have h3 := read_mono n (max n m) x v (by omega) h1
  have h4 := read_mono m (max n m) x w (by omega) h2
  rw [h3] at h4
  exact Option.some.inj h4

theorem val_str {h : Heap} {b : Base} {v : KE} : Val h (.str b) v ↔ v = .base b := by
  refine ⟨fun ⟨n, hn⟩ => ?_, fun e => ⟨0, by rw [e]; rfl⟩⟩
  cases n <;> simpa [read, eq_comm] using hn

/-- Values of several objects. -/
def Vals (h : Heap) (cs : List Nat) (vs : List KE) : Prop := List.Forall₂ (fun c v => Val h (.obj c) v) cs vs

theorem vals_read {h : Heap} {cs : List Nat} {vs : List KE} (hv : Vals h cs vs) : ∃ n, List.Forall₂ (fun c v => read h n (.obj c) = some v) cs vs := by
  induction hv with
  | nil => exact ⟨0, .nil⟩
  | cons h1 _ ih =>
    obtain ⟨n, h1⟩ := h1
    obtain ⟨m, h2⟩ := ih
    exact ⟨max n m, .cons (read_mono n _ _ _ (by omega) h1) (h2.imp (fun _ _ hx => read_mono m _ _ _ (by omega) hx))⟩

theorem val_comm {h : Heap} {a : Nat} {rt p : Option Nat} {op : Op} {b : Counter} {cs : List Nat} (ho : h[a]? = some (.comm rt p op b cs)) {v : KE} :
    Val h (.obj a) v ↔ ∃ vs, v = .comm op b vs ∧ Vals h cs vs := by
  constructor
  · rintro ⟨n, hn⟩
    cases n with
    | zero => simp [read] at hn
    | succ n =>
      rw [read, ho] at hn
      simp only [Option.map_eq_some_iff] at hn
      obtain ⟨vs, hv, rfl⟩ := hn
      exact ⟨vs, rfl, (mapM_iff.1 hv).imp (fun _ _ hx => ⟨n, hx⟩)⟩
  · rintro ⟨vs, rfl, hv⟩
    obtain ⟨n, hn⟩ := vals_read hv
    refine ⟨n + 1, ?_⟩
    rw [read, ho]
    simp only [mapM_iff.2 hn, Option.map_some]

theorem val_change {h : Heap} {a : Nat} {rt p : Option Nat} {c : CC} {l r : Ref} (ho : h[a]? = some (.change rt p c l r)) {v : KE} :
    Val h (.obj a) v ↔ ∃ x y, v = .change c x y ∧ Val h l x ∧ Val h r y := by
  constructor
  · rintro ⟨n, hn⟩
    cases n with
    | zero => simp [read] at hn
    | succ n =>
      rw [read, ho] at hn
      simp only [Option.bind_eq_some_iff, Option.map_eq_some_iff] at hn
      obtain ⟨x, hx, y, hy, rfl⟩ := hn
      exact ⟨x, y, rfl, ⟨n, hx⟩, ⟨n, hy⟩⟩
  · rintro ⟨x, y, rfl, ⟨n, hx⟩, ⟨m, hy⟩⟩
    refine ⟨max n m + 1, ?_⟩
    rw [read, ho]
    simp only [read_mono n (max n m) _ _ (by omega) hx, read_mono m (max n m) _ _ (by omega) hy, Option.bind_some, Option.map_some]

theorem val_obj {h : Heap} {a : Nat} {v : KE} (hv : Val h (.obj a) v) : ∃ o, h[a]? = some o := by
  obtain ⟨n, hn⟩ := hv
  cases n with
  | zero => simp [read] at hn
  | succ n =>
    rw [read] at hn
    split at hn
    · exact ⟨_, ‹_›⟩
    · exact ⟨_, ‹_›⟩
    · cases hn

theorem Vals.mem {h : Heap} {cs : List Nat} {vs : List KE} (hv : Vals h cs vs) {c : Nat} (hc : c ∈ cs) : ∃ v ∈ vs, Val h (.obj c) v := by
  induction hv with
  | nil => cases hc
  | cons h1 _ ih =>
    rcases List.mem_cons.1 hc with rfl | hc
    · exact ⟨_, by simp, h1⟩
    · obtain ⟨v, hv, h2⟩ := ih hc
      exact ⟨v, by simp [hv], h2⟩

/-- A stored tree, possibly with repetitions. -/
theorem val_stored {h : Heap} {k : LK} (hs : Stored h k) : Val h (toRef k) k.erase := ⟨_, read_ok _ k hs (Nat.le_refl _)⟩

theorem stored_of_read {h : Heap} : (n : Nat) → (x : Ref) → (v : KE) → read h n x = some v → ∃ k, toRef k = x ∧ Stored h k ∧ k.erase = v
  | n, .str b, v, hr => ⟨.str b, rfl, trivial, by rw [val_str.1 ⟨n, hr⟩]; rfl⟩
  | 0, .obj a, v, hr => by simp [read] at hr
  | n + 1, .obj a, v, hr => by
    rw [read] at hr
    split at hr
    · rename_i rt p op b cs e
      simp only [Option.map_eq_some_iff] at hr
      obtain ⟨vs, hv, rfl⟩ := hr
      replace hv := mapM_iff.1 hv
      have : ∃ ks : List LK, ks.map addr = cs ∧ StoredL h ks ∧ ks.map LK.erase = vs := by
        clear e
        induction hv with
        | nil => exact ⟨[], rfl, trivial, rfl⟩
        | cons h1 _ ih =>
          obtain ⟨k, h2, h3, h4⟩ := stored_of_read n _ _ h1
          obtain ⟨ks, h5, h6, h7⟩ := ih
          have hk : k.isStr = false ∧ Ref.obj (addr k) = toRef k := by
            cases k with
            | str => cases h2
            | comm => exact ⟨rfl, rfl⟩
            | change => exact ⟨rfl, rfl⟩
          exact ⟨k :: ks, by rw [List.map_cons, h5, Ref.obj.inj (hk.2.trans h2)], ⟨⟨hk.1, h3⟩, h6⟩, by rw [List.map_cons, h4, h7]⟩
      obtain ⟨ks, rfl, h2, rfl⟩ := this
      exact ⟨.comm a rt p op b ks, rfl, by rw [stored_comm]; exact ⟨e, h2⟩, by rw [LK.erase, eraseL_eq]⟩
    · rename_i rt p c l r e
      simp only [Option.bind_eq_some_iff, Option.map_eq_some_iff] at hr
      obtain ⟨x, hx, y, hy, rfl⟩ := hr
      obtain ⟨k, rfl, h3, rfl⟩ := stored_of_read n _ _ hx
      obtain ⟨k', rfl, h3', rfl⟩ := stored_of_read n _ _ hy
      exact ⟨.change a rt p c k k', rfl, by simp only [Stored]; exact ⟨e, h3, h3'⟩, rfl⟩
    · cases hr

mutual
theorem kdepth_erase : (k : LK) → kdepth k.erase = depth k
  | .str _ => rfl
  | .comm _ _ _ _ _ cs => by rw [LK.erase, kdepth, kdepthL_erase cs, depth]
  | .change _ _ _ _ l r => by rw [LK.erase, kdepth, kdepth_erase l, kdepth_erase r, depth]
theorem kdepthL_erase : (ks : List LK) → kdepthL (LK.eraseL ks) = depthL ks
  | [] => rfl
  | k :: ks => by rw [LK.eraseL, kdepthL, kdepth_erase k, kdepthL_erase ks, depthL]
end

/-- Values of every smaller depth are below. -/
theorem val_depths {h : Heap} : (n : Nat) → (v : KE) → (x : Ref) → kdepth v ≤ n → Val h x v → ∀ i, 0 < i → i ≤ kdepth v → ∃ (a : Nat) (w : KE), Val h (.obj a) w ∧ kdepth w = i
  | n, v, .str b, _, hv, i, hi, hd => by
    rw [val_str] at hv; subst hv; simp [kdepth] at hd; omega
  | 0, v, .obj a, hn, hv, i, hi, hd => by omega
  | n + 1, v, .obj a, hn, hv, i, hi, hd => by
    by_cases he : i = kdepth v
    · exact ⟨a, v, hv, he.symm⟩
    obtain ⟨o, ho⟩ := val_obj hv
    cases o with
    | comm rt p op b cs =>
      obtain ⟨vs, rfl, hvs⟩ := (val_comm ho).1 hv
      simp only [kdepth] at hd he hn
      have : ∃ v ∈ vs, i ≤ kdepth v ∧ ∃ c, Val h (.obj c) v := by
        have hi2 : i ≤ kdepthL vs := by omega
        clear hd he hv ho hn
        induction hvs with
        | nil => simp [kdepthL] at hi2; omega
        | @cons c v cs vs h1 _ ih =>
          simp only [kdepthL] at hi2
          by_cases h2 : i ≤ kdepth v
          · exact ⟨v, by simp, h2, c, h1⟩
          · obtain ⟨v', h3, h4⟩ := ih (by omega)
            exact ⟨v', by simp [h3], h4⟩
      obtain ⟨v', hm, h2, c, hc⟩ := this
      exact val_depths n v' (.obj c) (by have := kdepth_mem hm; omega) hc i hi h2
    | change rt p c l r =>
      obtain ⟨y, z, rfl, hl, hr⟩ := (val_change ho).1 hv
      simp only [kdepth] at hd he hn
      by_cases h2 : i ≤ kdepth y
      · exact val_depths n y l (by omega) hl i hi h2
      · exact val_depths n z r (by omega) hr i hi (by omega)

/-- A value has no more levels than there are objects. -/
theorem val_bound {h : Heap} {x : Ref} {v : KE} (hv : Val h x v) : kdepth v ≤ h.length := by
  have hd := val_depths _ v x (Nat.le_refl _) hv
  choose! f w hf hw using hd
  have h1 : ((List.range (kdepth v)).map (fun i => f (i + 1))).Nodup := by
    refine List.Nodup.map_on ?_ List.nodup_range
    intro i hi j hj e
    have hi := List.mem_range.1 hi
    have hj := List.mem_range.1 hj
    have h2 := hf (i + 1) (by omega) (by omega)
    have h3 := hf (j + 1) (by omega) (by omega)
    rw [e] at h2
    have h4 := val_unique h2 h3
    have := hw (i + 1) (by omega) (by omega)
    have := hw (j + 1) (by omega) (by omega)
    rw [h4] at *
    omega
  have h2 := nodup_length (n := h.length) h1 (by
    intro a ha
    obtain ⟨i, hi, rfl⟩ := List.mem_map.1 ha
    have hi := List.mem_range.1 hi
    obtain ⟨o, ho⟩ := val_obj (hf (i + 1) (by omega) (by omega))
    exact (List.getElem?_eq_some_iff.1 ho).1)
  simpa using h2

theorem eqO_val {h : Heap} {a b : Nat} {v w : KE} (ha : Val h (.obj a) v) (hb : Val h (.obj b) w) : eqO h a b = some (keq v w) := by
  have hd := val_bound ha
  obtain ⟨n, hn⟩ := ha
  obtain ⟨m, hm⟩ := hb
  obtain ⟨k, h1, h2, rfl⟩ := stored_of_read n _ _ hn
  obtain ⟨k', h3, h4, rfl⟩ := stored_of_read m _ _ hm
  rw [eqO, ← h1, ← h3]
  rw [kdepth_erase] at hd
  exact eqF_ok _ k k' h2 h4 (by omega)

theorem valueAt_val {h : Heap} {a : Nat} {v : KE} (ha : Val h (.obj a) v) : valueAt h a = some v := by
  have hd := val_bound ha
  obtain ⟨n, hn⟩ := ha
  obtain ⟨k, h1, h2, rfl⟩ := stored_of_read n _ _ hn
  rw [kdepth_erase] at hd
  rw [valueAt, ← h1]
  exact read_ok _ k h2 (by omega)

end Objects
end GPyABCD
