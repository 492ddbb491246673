import Verif.Model.SearchObj
import Verif.Spec.SearchObj
import Verif.Lemmas.Pieces2
import Verif.Lemmas.Start
import Verif.Lemmas.Search

/-!
# Lemmas: a search over objects is a search over values
-/

namespace GPyABCD
namespace SearchObj
open Objects Links
open Search (Mod St slice sameMod)

variable {D R ε : Type}

/-! ## Lists in step -/

theorem forall₂_imp_mem {α β : Type} {P Q : α → β → Prop} : {xs : List α} → {ys : List β} → List.Forall₂ P xs ys → (∀ x ∈ xs, ∀ y ∈ ys, P x y → Q x y) → List.Forall₂ Q xs ys
  | _, _, .nil, _ => .nil
  | _, _, .cons h hs, hi => .cons (hi _ (by simp) _ (by simp) h) (forall₂_imp_mem hs (fun x hx y hy => hi x (by simp [hx]) y (by simp [hy])))

theorem forall₂_append {α β : Type} {P : α → β → Prop} {xs xs' : List α} {ys ys' : List β} (h : List.Forall₂ P xs ys) (h' : List.Forall₂ P xs' ys') :
    List.Forall₂ P (xs ++ xs') (ys ++ ys') := by
  induction h with
  | nil => exact h'
  | cons h _ ih => exact .cons h ih

theorem forall₂_flatten {α β : Type} {P : α → β → Prop} {xs : List (List α)} {ys : List (List β)} (h : List.Forall₂ (List.Forall₂ P) xs ys) :
    List.Forall₂ P xs.flatten ys.flatten := by
  induction h with
  | nil => exact .nil
  | cons h _ ih => exact forall₂_append h ih

theorem forall₂_take {α β : Type} {P : α → β → Prop} (n : Nat) {xs : List α} {ys : List β} (h : List.Forall₂ P xs ys) : List.Forall₂ P (xs.take n) (ys.take n) := by
  induction h generalizing n with
  | nil => simp
  | cons h _ ih =>
    cases n with
    | zero => simp
    | succ n => exact .cons h (ih n)

theorem forall₂_drop {α β : Type} {P : α → β → Prop} (n : Nat) {xs : List α} {ys : List β} (h : List.Forall₂ P xs ys) : List.Forall₂ P (xs.drop n) (ys.drop n) := by
  induction h generalizing n with
  | nil => simp
  | cons h hs ih =>
    cases n with
    | zero => exact .cons h hs
    | succ n => exact ih n

theorem forall₂_slice {α β : Type} {P : α → β → Prop} (b : Int) {xs : List α} {ys : List β} (h : List.Forall₂ P xs ys) : List.Forall₂ P (slice xs b) (slice ys b) := by
  rw [slice, slice]
  split
  · exact forall₂_take _ h
  · rw [h.length_eq]; exact forall₂_take _ h

theorem forall₂_insert {α β : Type} {P : α → β → Prop} {r : α → α → Prop} {r' : β → β → Prop} [DecidableRel r] [DecidableRel r']
    (hr : ∀ a b a' b', P a b → P a' b' → (r a a' ↔ r' b b')) {x : α} {y : β} (hxy : P x y) {xs : List α} {ys : List β} (h : List.Forall₂ P xs ys) :
    List.Forall₂ P (xs.orderedInsert r x) (ys.orderedInsert r' y) := by
  induction h with
  | nil => exact .cons hxy .nil
  | @cons a b as bs h hs ih =>
    rw [List.orderedInsert, List.orderedInsert]
    by_cases hc : r x a
    · rw [if_pos hc, if_pos ((hr _ _ _ _ hxy h).1 hc)]; exact .cons hxy (.cons h hs)
    · rw [if_neg hc, if_neg (fun hc' => hc ((hr _ _ _ _ hxy h).2 hc'))]; exact .cons h ih

theorem forall₂_sort {α β : Type} {P : α → β → Prop} {r : α → α → Prop} {r' : β → β → Prop} [DecidableRel r] [DecidableRel r']
    (hr : ∀ a b a' b', P a b → P a' b' → (r a a' ↔ r' b b')) {xs : List α} {ys : List β} (h : List.Forall₂ P xs ys) :
    List.Forall₂ P (xs.insertionSort r) (ys.insertionSort r') := by
  induction h with
  | nil => exact .nil
  | cons h _ ih => exact forall₂_insert hr h ih

theorem forall₂_remove {α β : Type} {P : α → β → Prop} {e : α → α → Bool} {e' : β → β → Bool} (he : ∀ a b a' b', P a b → P a' b' → e a a' = e' b b')
    {x : α} {y : β} (hxy : P x y) {xs : List α} {ys : List β} (h : List.Forall₂ P xs ys) :
    (Util.remove e x xs = none ∧ Util.remove e' y ys = none) ∨ ∃ zs ws, Util.remove e x xs = some zs ∧ Util.remove e' y ys = some ws ∧ List.Forall₂ P zs ws := by
  induction h with
  | nil => exact .inl ⟨rfl, rfl⟩
  | cons h hs ih =>
    rw [Util.remove, Util.remove, he _ _ _ _ hxy h]
    split
    · exact .inr ⟨_, _, rfl, rfl, hs⟩
    · rcases ih with ⟨h1, h2⟩ | ⟨zs, ws, h1, h2, h3⟩
      · exact .inl ⟨by rw [h1]; rfl, by rw [h2]; rfl⟩
      · exact .inr ⟨_, _, by rw [h1]; rfl, by rw [h2]; rfl, .cons h h3⟩

theorem forall₂_diff {α β : Type} {P : α → β → Prop} {e : α → α → Bool} {e' : β → β → Bool} (he : ∀ a b a' b', P a b → P a' b' → e a a' = e' b b')
    {us : List α} {vs : List β} (hu : List.Forall₂ P us vs) {xs : List α} {ys : List β} (h : List.Forall₂ P xs ys) : List.Forall₂ P (Util.diff e xs us) (Util.diff e' ys vs) := by
  induction hu generalizing xs ys with
  | nil => exact h
  | cons h1 _ ih =>
    rw [Util.diff, Util.diff]
    rcases forall₂_remove he h1 h with ⟨h2, h3⟩ | ⟨zs, ws, h2, h3, h4⟩
    · rw [h2, h3]; exact h
    · rw [h2, h3]; exact ih h4

theorem forall₂_map_fst {α β : Type} {P : α → β → Prop} {xs : List α} {ys : List β} (h : List.Forall₂ P xs ys) :
    ∃ zs : List (α × β), zs.map Prod.fst = xs ∧ zs.map Prod.snd = ys ∧ ∀ z ∈ zs, P z.1 z.2 := by
  induction h with
  | nil => exact ⟨[], rfl, rfl, by simp⟩
  | @cons a b as bs h _ ih =>
    obtain ⟨zs, rfl, rfl, h3⟩ := ih
    exact ⟨(a, b) :: zs, rfl, rfl, by simpa [h] using h3⟩

theorem forall₂_of_zip {α β : Type} {P : α → β → Prop} (zs : List (α × β)) (h : ∀ z ∈ zs, P z.1 z.2) : List.Forall₂ P (zs.map Prod.fst) (zs.map Prod.snd) := by
  induction zs with
  | nil => exact .nil
  | cons z zs ih => exact .cons (h z (by simp)) (ih (fun z' hz' => h z' (by simp [hz'])))

theorem flatten_eq {α : Type} (xs : List (List α)) : Util.flatten xs = xs.flatten := by simp [Util.flatten]

/-! ## Objects in a store -/

theorem rootAt_ext {h h' : Heap} (he : Ext h h') {a : Nat} {v : KE} (hr : RootAt h a v) : RootAt h' a v := by
  obtain ⟨t, h1, h2, h3, h4⟩ := hr
  exact ⟨t, h1, he.stored h2, h3, h4⟩

theorem roots_ext {h h' : Heap} (he : Ext h h') {as : List Nat} {vs : List KE} (hr : List.Forall₂ (RootAt h) as vs) : List.Forall₂ (RootAt h') as vs :=
  hr.imp (fun _ _ h1 => rootAt_ext he h1)

theorem ShowsMod.ext {h h' : Heap} (he : Ext h h') {m : Mod Nat D R} {m' : Mod KE D R} (hm : ShowsMod h m m') : ShowsMod h' m m' :=
  ⟨hm.uid, rootAt_ext he hm.kex, hm.data, hm.cached⟩

theorem mods_ext {h h' : Heap} (he : Ext h h') {ms : List (Mod Nat D R)} {ms' : List (Mod KE D R)} (hm : List.Forall₂ (ShowsMod h) ms ms') :
    List.Forall₂ (ShowsMod h') ms ms' := hm.imp (fun _ _ h1 => h1.ext he)

theorem val_root {h : Heap} {a : Nat} {v : KE} (hr : RootAt h a v) : Val h (.obj a) v := by
  obtain ⟨t, rfl, h1, h2, rfl⟩ := hr
  have := val_stored h1
  rwa [toRef_obj (wellLinked_root h2).1] at this

theorem idsL_sublist {ts us : List LK} (hs : ts.Sublist us) : (idsL ts).Sublist (idsL us) := by
  induction hs with
  | slnil => exact .slnil
  | cons t _ ih => rw [idsL]; exact ih.trans (List.sublist_append_right ..)
  | cons_cons t _ ih => rw [idsL, idsL]; exact (List.Sublist.refl _).append ih

theorem idsL_perm {ts us : List LK} (hp : ts.Perm us) : (idsL ts).Perm (idsL us) := by
  induction hp with
  | nil => exact .nil
  | cons t _ ih => rw [idsL, idsL]; exact ih.append_left _
  | swap t u ts =>
    simp only [idsL, ← List.append_assoc]
    exact List.perm_append_comm.append_right _
  | trans _ _ h1 h2 => exact h1.trans h2

theorem perm_lift {α β : Type} {f : α → β} {as bs : List β} (hp : as.Perm bs) : ∀ ts : List α, ts.map f = as → ∃ us : List α, ts.Perm us ∧ us.map f = bs := by
  induction hp with
  | nil => intro ts h; exact ⟨ts, .refl _, h⟩
  | cons a _ ih =>
    intro ts h
    obtain ⟨t, ts, rfl, rfl, rfl⟩ := List.map_eq_cons_iff.1 h
    obtain ⟨us, h1, rfl⟩ := ih ts rfl
    exact ⟨t :: us, h1.cons t, rfl⟩
  | swap a b l =>
    intro ts h
    obtain ⟨t, ts, rfl, rfl, h1⟩ := List.map_eq_cons_iff.1 h
    obtain ⟨u, ts, rfl, rfl, rfl⟩ := List.map_eq_cons_iff.1 h1
    exact ⟨u :: t :: ts, .swap .., rfl⟩
  | trans _ _ ih1 ih2 =>
    intro ts h
    obtain ⟨us, h1, h2⟩ := ih1 ts h
    obtain ⟨vs, h3, h4⟩ := ih2 us h2
    exact ⟨vs, h1.trans h3, h4⟩

theorem Apart.ext {lo : Nat} {h h' : Heap} (he : Ext h h') {as : List Nat} (ha : Apart lo h as) : Apart lo h' as := by
  obtain ⟨ts, h1, h2, h3⟩ := ha
  exact ⟨ts, h1, fun t ht => ⟨he.stored (h2 t ht).1, (h2 t ht).2⟩, h3⟩

theorem Apart.le {lo lo' : Nat} (hl : lo' ≤ lo) {h : Heap} {as : List Nat} (ha : Apart lo h as) : Apart lo' h as := by
  obtain ⟨ts, h1, h2, h3, h4⟩ := ha
  exact ⟨ts, h1, h2, h3, fun a ha => Nat.le_trans hl (h4 a ha)⟩

theorem Apart.sublist {lo : Nat} {h : Heap} {as bs : List Nat} (ha : Apart lo h as) (hs : bs.Sublist as) : Apart lo h bs := by
  obtain ⟨ts, rfl, h2, h3, h4⟩ := ha
  obtain ⟨ts', h5, rfl⟩ := List.sublist_map_iff.1 hs
  have hsub : (idsL ts').Sublist (idsL ts) := idsL_sublist h5
  exact ⟨ts', rfl, fun t ht => h2 t (h5.subset ht), h3.sublist hsub, fun a ha => h4 a (hsub.subset ha)⟩

theorem Apart.perm {lo : Nat} {h : Heap} {as bs : List Nat} (ha : Apart lo h as) (hp : as.Perm bs) : Apart lo h bs := by
  obtain ⟨ts, rfl, h2, h3, h4⟩ := ha
  obtain ⟨us, h5, h6⟩ := perm_lift hp ts rfl
  have h7 := idsL_perm h5
  exact ⟨us, h6, fun t ht => h2 t (h5.symm.subset ht), h7.nodup_iff.1 h3, fun a ha => h4 a (h7.symm.subset ha)⟩

theorem Apart.append {lo : Nat} {h h' : Heap} {as bs : List Nat} (ha : Apart lo h as) (he : Ext h h') (hb : Apart h.length h' bs) (hl : lo ≤ h.length) : Apart lo h' (as ++ bs) := by
  obtain ⟨ts, rfl, h2, h3, h4⟩ := ha
  obtain ⟨us, rfl, g2, g3, g4⟩ := hb
  refine ⟨ts ++ us, by simp, ?_, ?_, ?_⟩
  · intro t ht
    rcases List.mem_append.1 ht with ht | ht
    · exact ⟨he.stored (h2 t ht).1, (h2 t ht).2⟩
    · exact g2 t ht
  · rw [idsL_append, List.nodup_append]
    refine ⟨h3, g3, fun a ha b hb e => ?_⟩
    obtain ⟨t, ht, ha⟩ := Objects.mem_idsL.1 ha
    have := stored_lt t (h2 t ht).1 a ha
    have := g4 b hb
    omega
  · intro a ha
    rw [idsL_append, List.mem_append] at ha
    rcases ha with ha | ha
    · exact h4 a ha
    · exact Nat.le_trans hl (g4 a ha)

theorem Apart.nil (lo : Nat) (h : Heap) : Apart lo h [] := ⟨[], rfl, by simp, by simp [idsL], by simp [idsL]⟩

/-- A copy of objects apart. -/
theorem deepcopy_apart {lo : Nat} {h : Heap} {as : List Nat} (ha : Apart lo h as) :
    ∃ f h', deepcopy as h = (.ok f, h') ∧ Ext h h' ∧ Apart h.length h' (as.map f) ∧ ∀ a ∈ as, ∀ v, RootAt h a v → RootAt h' (f a) v := by
  obtain ⟨ts, rfl, h2, h3, h4⟩ := ha
  have hcl : ∀ a ∈ ts.map addr, Cl h a := by
    intro a ha
    obtain ⟨t, ht, rfl⟩ := List.mem_map.1 ha
    exact (good_of_wellLinked (h2 t ht).1 (h2 t ht).2).closed _ (addr_mem (wellLinked_root (h2 t ht).2).1)
  obtain ⟨f, l, h', e, hc, hl⟩ := deepcopy_ok hcl
  have hids : ∀ t, Stored h t → addr t ∈ l → ∀ a ∈ ids t, a ∈ l := fun t ht hx => ids_copied hc t ht (fun _ => hx)
  have hall : ∀ t ∈ ts, ∀ a ∈ ids t, a ∈ l := fun t ht => hids t (h2 t ht).1 (hl _ (List.mem_map_of_mem ht))
  have hmem : ∀ a ∈ idsL ts, a ∈ l := by
    intro a ha
    obtain ⟨t, ht, ha⟩ := Objects.mem_idsL.1 ha
    exact hall t ht a ha
  refine ⟨f, h', e, hc.old, ⟨LK.copyL f ts, ?_, ?_, nodup_copyL hc h3 hmem, ?_⟩, ?_⟩
  · rw [copyL_eq, List.map_map, List.map_map]
    exact List.map_congr_left (fun t ht => addr_copy f (wellLinked_root (h2 t ht).2).1)
  · intro t ht
    rw [copyL_eq, List.mem_map] at ht
    obtain ⟨t, ht, rfl⟩ := ht
    exact ⟨stored_copy hc t (h2 t ht).1 (hall t ht), wellLinked_copy (h2 t ht).2 (fun a ha b => hc.inj a (hall t ht a ha) b)⟩
  · intro a ha
    rw [idsL_copy, List.mem_map] at ha
    obtain ⟨a, ha, rfl⟩ := ha
    exact hc.new a (hmem a ha)
  · rintro a ha v ⟨t, rfl, g1, g2, rfl⟩
    have hi := hids t g1 (hl _ ha)
    exact ⟨LK.copy f t, addr_copy f (wellLinked_root g2).1, stored_copy hc t g1 hi, wellLinked_copy g2 (fun a ha b => hc.inj a (hi a ha) b), Links.erase_copy f t⟩

end SearchObj
end GPyABCD
