import Verif.Model.Util
import Mathlib.Data.List.Forall2
import Mathlib.Data.List.Perm.Basic
import Mathlib.Data.List.Nodup

namespace GPyABCD
namespace Util

variable {α β γ : Type}

/-- Python `==` on the elements is an equivalence. -/
structure IsEqv (eqv : α → α → Bool) : Prop where
  refl : ∀ a, eqv a a = true
  symm : ∀ a b, eqv a b = true → eqv b a = true
  trans : ∀ a b c, eqv a b = true → eqv b c = true → eqv a c = true

theorem uniqueGo_sublist (eqv : α → α → Bool) (seen xs : List α) : (uniqueGo eqv seen xs).Sublist xs := by
  induction xs generalizing seen with
  | nil => exact List.Sublist.refl _
  | cons x xs ih =>
    simp only [uniqueGo]
    split
    · exact (ih _).cons _
    · exact (ih _).cons_cons _

theorem uniqueGo_seen (eqv : α → α → Bool) (seen xs : List α) :
    ∀ y ∈ uniqueGo eqv seen xs, ∀ z ∈ seen, eqv y z = false := by
  induction xs generalizing seen with
  | nil => simp [uniqueGo]
  | cons x xs ih =>
    simp only [uniqueGo]
    split
    · exact ih _
    · rename_i h
      simp only [List.any_eq_true, not_exists, not_and, Bool.not_eq_true] at h
      intro y hy z hz
      rcases List.mem_cons.1 hy with rfl | hy
      · exact h z hz
      · exact ih _ y hy z (List.mem_append_left _ hz)

theorem uniqueGo_pairwise {eqv : α → α → Bool} (hs : ∀ a b, eqv a b = true → eqv b a = true) (seen xs : List α) :
    (uniqueGo eqv seen xs).Pairwise (fun a b => eqv a b = false) := by
  induction xs generalizing seen with
  | nil => simp [uniqueGo]
  | cons x xs ih =>
    simp only [uniqueGo]
    split
    · exact ih _
    · refine List.Pairwise.cons ?_ (ih _)
      intro y hy
      have := uniqueGo_seen eqv _ _ y hy x (by simp)
      by_contra h
      simp only [Bool.not_eq_false] at h
      rw [hs _ _ h] at this
      exact absurd this (by simp)

theorem uniqueGo_repr {eqv : α → α → Bool} (h : IsEqv eqv) (seen xs : List α) (x : α) (hx : x ∈ xs) :
    (∃ z ∈ seen, eqv x z = true) ∨ ∃ y ∈ uniqueGo eqv seen xs, xs.find? (fun z => eqv x z) = some y := by
  induction xs generalizing seen with
  | nil => simp at hx
  | cons a xs ih =>
    by_cases hxa : eqv x a = true
    · simp only [uniqueGo]
      split
      · rename_i hs
        simp only [List.any_eq_true] at hs
        obtain ⟨z, hz, e⟩ := hs
        exact Or.inl ⟨z, hz, h.trans _ _ _ hxa e⟩
      · exact Or.inr ⟨a, by simp, by simp [hxa]⟩
    · have hx' : x ∈ xs := by
        rcases List.mem_cons.1 hx with rfl | hx
        · exact absurd (h.refl x) hxa
        · exact hx
      simp only [uniqueGo]
      have hf : (a :: xs).find? (fun z => eqv x z) = xs.find? (fun z => eqv x z) := by simp [hxa]
      rw [hf]
      split
      · exact ih seen hx'
      · rcases ih (seen ++ [a]) hx' with ⟨z, hz, e⟩ | ⟨y, hy, e⟩
        · rcases List.mem_append.1 hz with hz | hz
          · exact Or.inl ⟨z, hz, e⟩
          · simp at hz; subst hz; exact absurd e hxa
        · exact Or.inr ⟨y, List.mem_cons_of_mem _ hy, e⟩

theorem remove_some {eqv : α → α → Bool} {x : α} {ys r : List α} (h : remove eqv x ys = some r) :
    ∃ l1 y l2, ys = l1 ++ y :: l2 ∧ eqv x y = true ∧ r = l1 ++ l2 ∧ ∀ z ∈ l1, eqv x z = false := by
  induction ys generalizing r with
  | nil => simp [remove] at h
  | cons y ys ih =>
    simp only [remove] at h
    split at h
    · rename_i hy
      simp only [Option.some.injEq] at h
      exact ⟨[], y, ys, rfl, hy, h.symm, by simp⟩
    · rename_i hy
      simp only [Option.map_eq_some_iff] at h
      obtain ⟨r', e, rfl⟩ := h
      obtain ⟨l1, y', l2, rfl, h2, rfl, h4⟩ := ih e
      refine ⟨y :: l1, y', l2, rfl, h2, rfl, ?_⟩
      intro z hz
      rcases List.mem_cons.1 hz with rfl | hz
      · simpa using hy
      · exact h4 z hz

theorem remove_none {eqv : α → α → Bool} {x : α} {ys : List α} :
    remove eqv x ys = none ↔ ∀ y ∈ ys, eqv x y = false := by
  induction ys with
  | nil => simp [remove]
  | cons y ys ih =>
    simp only [remove]
    split
    · rename_i h; simp [h]
    · rename_i h; simp [h, ih]

theorem forall₂_perm_left' {R : α → β → Prop} {l₁ l₂ : List α} (hp : l₁.Perm l₂) :
    ∀ {u : List β}, List.Forall₂ R l₂ u → ∃ v, List.Forall₂ R l₁ v ∧ v.Perm u := by
  induction hp with
  | nil => intro u h; exact ⟨u, h, List.Perm.refl _⟩
  | cons x _ ih =>
    intro u h
    cases h with
    | cons hx ht => obtain ⟨v, hv, hpv⟩ := ih ht; exact ⟨_ :: v, List.Forall₂.cons hx hv, hpv.cons _⟩
  | swap x y l =>
    intro u h
    cases h with
    | cons hx ht => cases ht with
      | cons hy ht => exact ⟨_, List.Forall₂.cons hy (List.Forall₂.cons hx ht), List.Perm.swap _ _ _⟩
  | trans _ _ ih1 ih2 =>
    intro u h
    obtain ⟨v, hv, hpv⟩ := ih2 h
    obtain ⟨w, hw, hpw⟩ := ih1 hv
    exact ⟨w, hw, hpw.trans hpv⟩

/-- Swap the partner of the head for another element equal to it. -/
theorem match_swap {eqv : α → α → Bool} (h : IsEqv eqv) {x y : α} {xs zs l : List α}
    (hz : List.Forall₂ (fun a b => eqv a b = true) (x :: xs) zs) (hy : eqv x y = true) (hp : zs.Perm (y :: l)) :
    ∃ ws, List.Forall₂ (fun a b => eqv a b = true) xs ws ∧ ws.Perm l := by
  cases hz with
  | @cons _ z _ zs' hxz ht =>
    by_cases hmem : ∃ s t, zs' = s ++ y :: t
    · obtain ⟨s, t, rfl⟩ := hmem
      -- replace y by z in the tail
      refine ⟨s ++ z :: t, ?_, ?_⟩
      · have : ∀ {xs : List α} {s : List α}, List.Forall₂ (fun a b => eqv a b = true) xs (s ++ y :: t) →
            List.Forall₂ (fun a b => eqv a b = true) xs (s ++ z :: t) := by
          intro xs s
          induction s generalizing xs with
          | nil =>
            intro hf
            cases hf with
            | cons h1 h2 => exact List.Forall₂.cons (h.trans _ _ _ h1 (h.trans _ _ _ (h.symm _ _ hy) hxz)) h2
          | cons a s ih =>
            intro hf
            cases hf with
            | cons h1 h2 => exact List.Forall₂.cons h1 (ih h2)
        exact this ht
      · have h1 : (z :: (s ++ y :: t)).Perm (y :: (s ++ z :: t)) := by
          refine (List.Perm.cons z List.perm_middle).trans ((List.Perm.swap _ _ _).trans (List.Perm.cons y List.perm_middle.symm))
        exact (List.perm_cons y).1 (h1.symm.trans hp)
    · have hyz : y = z := by
        have : y ∈ z :: zs' := hp.symm.subset (by simp)
        rcases List.mem_cons.1 this with e | hm
        · exact e
        · exact absurd (List.append_of_mem hm) hmem
      subst hyz
      exact ⟨zs', ht, (List.perm_cons y).1 hp⟩

theorem eqElems_iff {eqv : α → α → Bool} (h : IsEqv eqv) (xs ys : List α) :
    eqElems eqv xs ys = true ↔ ∃ zs, List.Forall₂ (fun a b => eqv a b = true) xs zs ∧ zs.Perm ys := by
  induction xs generalizing ys with
  | nil =>
    simp only [eqElems, List.isEmpty_iff, List.forall₂_nil_left_iff]
    constructor
    · rintro rfl; exact ⟨[], rfl, List.Perm.refl _⟩
    · rintro ⟨zs, rfl, hp⟩; exact hp.nil_eq.symm
  | cons x xs ih =>
    simp only [eqElems]
    cases hr : remove eqv x ys with
    | none =>
      simp only [Bool.false_eq_true, false_iff]
      rintro ⟨zs, hf, hp⟩
      cases hf with
      | cons h1 h2 =>
        have := (remove_none.1 hr) _ (hp.subset (List.mem_cons_self ..))
        rw [h1] at this; exact absurd this (by simp)
    | some r =>
      obtain ⟨l1, y, l2, rfl, hy, rfl, _⟩ := remove_some hr
      simp only [ih]
      constructor
      · rintro ⟨zs, hf, hp⟩
        exact ⟨y :: zs, List.Forall₂.cons hy hf, (List.Perm.cons y hp).trans List.perm_middle.symm⟩
      · rintro ⟨zs, hf, hp⟩
        exact match_swap h hf hy (hp.trans List.perm_middle)

theorem diff_spec (eqv : α → α → Bool) (xs ys : List α) :
    ∃ p q zs, ys = p ++ q ∧ List.Forall₂ (fun a b => eqv a b = true) p zs ∧ xs.Perm (zs ++ diff eqv xs ys) ∧
      (diff eqv xs ys).Sublist xs ∧ (q = [] ∨ ∃ y q', q = y :: q' ∧ ∀ x ∈ diff eqv xs ys, eqv y x = false) := by
  induction ys generalizing xs with
  | nil => exact ⟨[], [], [], rfl, List.Forall₂.nil, List.Perm.refl _, List.Sublist.refl _, Or.inl rfl⟩
  | cons y ys ih =>
    simp only [diff]
    cases hr : remove eqv y xs with
    | none =>
      exact ⟨[], y :: ys, [], rfl, List.Forall₂.nil, List.Perm.refl _, List.Sublist.refl _,
        Or.inr ⟨y, ys, rfl, remove_none.1 hr⟩⟩
    | some r =>
      obtain ⟨l1, x, l2, rfl, hy, rfl, _⟩ := remove_some hr
      obtain ⟨p, q, zs, rfl, hf, hp, hs, hq⟩ := ih (l1 ++ l2)
      refine ⟨y :: p, q, x :: zs, rfl, List.Forall₂.cons hy hf, ?_, ?_, hq⟩
      · exact List.perm_middle.trans (List.Perm.cons x hp)
      · exact hs.trans (List.Sublist.append (List.Sublist.refl _) (List.sublist_cons_self _ _))

theorem firstSat_some {c : α → Bool} {xs : List α} {x : α} {r : List α} (h : firstSat c xs = some (x, r)) :
    ∃ l1 l2, xs = l1 ++ x :: l2 ∧ r = l1 ++ l2 ∧ c x = true ∧ ∀ z ∈ l1, c z = false := by
  induction xs generalizing r with
  | nil => simp [firstSat] at h
  | cons y ys ih =>
    simp only [firstSat] at h
    split at h
    · rename_i hy
      simp only [Option.some.injEq, Prod.mk.injEq] at h
      obtain ⟨rfl, rfl⟩ := h
      exact ⟨[], ys, rfl, rfl, hy, by simp⟩
    · rename_i hy
      simp only [Option.map_eq_some_iff, Prod.mk.injEq] at h
      obtain ⟨⟨x', r'⟩, e, rfl, rfl⟩ := h
      obtain ⟨l1, l2, rfl, h2, h3, h4⟩ := ih e
      refine ⟨y :: l1, l2, rfl, by simp [h2], h3, ?_⟩
      intro z hz
      rcases List.mem_cons.1 hz with rfl | hz
      · simpa using hy
      · exact h4 z hz

theorem firstSat_none {c : α → Bool} {xs : List α} : firstSat c xs = none ↔ ∀ x ∈ xs, c x = false := by
  induction xs with
  | nil => simp [firstSat]
  | cons y ys ih =>
    simp only [firstSat]
    split
    · rename_i h; simp [h]
    · rename_i h; simp [h, ih]

/-- The loop of `foldq` ends when the update never adds elements. -/
theorem foldqF_total {f : β → α → β} {g : β → α → List α → List α} {c : α → Bool}
    (hg : ∀ acc x xs, (g acc x xs).length ≤ xs.length) :
    ∀ (n : Nat) (xs : List α) (acc : β), xs.length < n → ∃ r, foldqF f g c n xs acc = some r := by
  intro n
  induction n with
  | zero => intro xs acc h; omega
  | succ n ih =>
    intro xs acc h
    simp only [foldqF]
    split
    · exact ⟨_, rfl⟩
    · cases hf : firstSat c xs with
      | none => exact ⟨_, rfl⟩
      | some p =>
        obtain ⟨x, rest⟩ := p
        obtain ⟨l1, l2, rfl, rfl, _, _⟩ := firstSat_some hf
        apply ih
        have := hg acc x (l1 ++ l2)
        simp only [List.length_append, List.length_cons] at *
        omega

/-- What is left satisfies the condition nowhere. -/
theorem foldqF_left {f : β → α → β} {g : β → α → List α → List α} {c : α → Bool} :
    ∀ (n : Nat) (xs : List α) (acc : β) (r : β × List α), foldqF f g c n xs acc = some r → ∀ x ∈ r.2, c x = false := by
  intro n
  induction n with
  | zero => intro xs acc r h; simp [foldqF] at h
  | succ n ih =>
    intro xs acc r h
    simp only [foldqF] at h
    split at h
    · rename_i he
      simp only [Option.some.injEq] at h; subst h
      simp only [List.isEmpty_iff] at he; subst he; simp
    · split at h
      · rename_i hf
        simp only [Option.some.injEq] at h; subst h
        exact firstSat_none.1 hf
      · exact ih _ _ _ h

theorem foldqF_fold {f : β → α → β} : ∀ (xs : List α) (n : Nat) (acc : β), xs.length < n →
    foldqF f (fun _ _ xs => xs) (fun _ => true) n xs acc = some (xs.foldl f acc, []) := by
  intro xs
  induction xs with
  | nil => intro n acc h; cases n with
    | zero => omega
    | succ n => simp [foldqF]
  | cons x xs ih =>
    intro n acc h
    cases n with
    | zero => omega
    | succ n =>
      simp only [foldqF, List.isEmpty_cons, firstSat]
      simp only [List.length_cons] at h
      simpa using ih n (f acc x) (by omega)

theorem topo_step [DecidableEq α] : ∀ (n : Nat) (xs : List (α × List α)) (acc : List α) (r : List α × List (α × List α)),
    (xs.map Prod.fst).Nodup →
    foldqF (fun acc x => acc ++ [x.1]) (fun _ x xs => xs.map (fun p => (p.1, p.2.filter (fun d => decide (d ≠ x.1)))))
      (fun x : α × List α => x.2.isEmpty) n xs acc = some r →
    ∃ ms, r.1 = acc ++ ms ∧ (ms ++ r.2.map Prod.fst).Perm (xs.map Prod.fst) ∧
      (∀ p ∈ xs, ∀ l1 l2, ms = l1 ++ p.1 :: l2 → ∀ d ∈ p.2, d ∈ l1) ∧
      (∀ q ∈ r.2, ∃ p ∈ xs, p.1 = q.1 ∧ q.2 = p.2.filter (fun d => decide (d ∉ ms))) := by
  intro n
  induction n with
  | zero => intro xs acc r _ h; simp [foldqF] at h
  | succ n ih =>
    intro xs acc r hnd h
    simp only [foldqF] at h
    split at h
    · rename_i he
      simp only [Option.some.injEq] at h; subst h
      simp only [List.isEmpty_iff] at he; subst he
      exact ⟨[], by simp, by simp, by simp, by simp⟩
    · split at h
      · simp only [Option.some.injEq] at h; subst h
        refine ⟨[], by simp, by simp, by simp, ?_⟩
        intro q hq
        exact ⟨q, hq, rfl, by simp⟩
      · rename_i x rest hf
        obtain ⟨l1, l2, rfl, rfl, hx, _⟩ := firstSat_some hf
        have hmapfst : ((l1 ++ l2).map (fun p => (p.1, p.2.filter (fun d => decide (d ≠ x.1))))).map Prod.fst =
            (l1 ++ l2).map Prod.fst := by simp [List.map_map, Function.comp_def]
        have hpx : ((l1 ++ x :: l2).map Prod.fst).Perm (x.1 :: (l1 ++ l2).map Prod.fst) := by
          have := (List.perm_middle (a := x) (l₁ := l1) (l₂ := l2)).map Prod.fst
          simpa using this
        have hnd' : (x.1 :: (l1 ++ l2).map Prod.fst).Nodup := hpx.nodup_iff.1 hnd
        obtain ⟨ms, e1, e2, e3, e4⟩ := ih _ _ _ (by rw [hmapfst]; exact (List.nodup_cons.1 hnd').2) h
        have hxms : x.1 ∉ ms := by
          intro hm
          have := e2.subset (List.mem_append_left _ hm)
          rw [hmapfst] at this
          exact (List.nodup_cons.1 hnd').1 this
        refine ⟨x.1 :: ms, by simp [e1], ?_, ?_, ?_⟩
        · rw [hmapfst] at e2
          exact (List.Perm.cons x.1 e2).trans hpx.symm
        · intro p hp k1 k2 hk d hd
          have hp' : p = x ∨ p ∈ l1 ++ l2 := by
            simp only [List.mem_append, List.mem_cons] at hp ⊢; tauto
          rcases hp' with rfl | hp'
          · simp only [List.isEmpty_iff] at hx
            rw [hx] at hd; simp at hd
          · have hne : p.1 ≠ x.1 := by
              intro e
              exact (List.nodup_cons.1 hnd').1 (e ▸ List.mem_map.2 ⟨p, hp', rfl⟩)
            cases k1 with
            | nil => simp only [List.nil_append, List.cons.injEq] at hk; exact absurd hk.1.symm hne
            | cons a k1 =>
              simp only [List.cons_append, List.cons.injEq] at hk
              obtain ⟨rfl, hk⟩ := hk
              by_cases hdx : d = x.1
              · simp [hdx]
              · refine List.mem_cons_of_mem _ (e3 (p.1, p.2.filter (fun d => decide (d ≠ x.1))) ?_ k1 k2 hk d ?_)
                · exact List.mem_map.2 ⟨p, hp', rfl⟩
                · simp [hd, hdx]
        · intro q hq
          obtain ⟨p', hp', e5, e6⟩ := e4 q hq
          obtain ⟨p, hp, rfl⟩ := List.mem_map.1 hp'
          refine ⟨p, ?_, e5, ?_⟩
          · simp only [List.mem_append, List.mem_cons] at hp ⊢; tauto
          · rw [e6, List.filter_filter]
            apply List.filter_congr
            intro d _
            simp only [List.mem_cons, not_or, Bool.decide_and]
            rw [Bool.and_comm]

theorem partition_eq (p : α → Bool) (xs : List α) : partition p xs = (xs.filter p, xs.filter (fun x => !p x)) := by
  have : ∀ (xs a b : List α), xs.foldl (fun acc x => if p x then (acc.1 ++ [x], acc.2) else (acc.1, acc.2 ++ [x])) (a, b) =
      (a ++ xs.filter p, b ++ xs.filter (fun x => !p x)) := by
    intro xs
    induction xs with
    | nil => simp
    | cons x xs ih =>
      intro a b
      simp only [List.foldl_cons]
      by_cases h : p x = true
      · simp [h, ih]
      · simp only [Bool.not_eq_true] at h
        simp [h, ih]
  exact (this xs [] []).trans (by simp)

theorem lookup_insert [DecidableEq β] (k k' : β) (v : γ) (d : List (β × γ)) :
    lookup k' (insert k v d) = if k = k' then some v else lookup k' d := by
  induction d with
  | nil => simp [insert, lookup]
  | cons p r ih =>
    obtain ⟨a, w⟩ := p
    simp only [insert]
    split
    · rename_i h
      subst h
      simp only [lookup]
      split
      · rename_i h; simp [h]
      · rename_i h; simp [h]
    · rename_i h
      simp only [lookup, ih]
      split
      · rename_i h2; subst h2; simp [Ne.symm h]
      · rfl

theorem keys_insert [DecidableEq β] (k : β) (v : γ) (d : List (β × γ)) :
    (insert k v d).map Prod.fst = if k ∈ d.map Prod.fst then d.map Prod.fst else d.map Prod.fst ++ [k] := by
  induction d with
  | nil => simp [insert]
  | cons p r ih =>
    obtain ⟨a, w⟩ := p
    simp only [insert]
    split
    · rename_i h; simp [h]
    · rename_i h
      simp only [List.map_cons, ih, List.mem_cons, Ne.symm h, false_or]
      split <;> simp

theorem nodup_insert [DecidableEq β] (k : β) (v : γ) (d : List (β × γ)) (h : (d.map Prod.fst).Nodup) :
    ((insert k v d).map Prod.fst).Nodup := by
  rw [keys_insert]
  split
  · exact h
  · rename_i hk
    rw [List.nodup_append]
    refine ⟨h, by simp, ?_⟩
    intro a ha b hb
    simp at hb; subst hb
    rintro rfl; exact hk ha

theorem lookup_none_iff [DecidableEq β] (k : β) (d : List (β × γ)) : lookup k d = none ↔ k ∉ d.map Prod.fst := by
  induction d with
  | nil => simp [lookup]
  | cons p r ih =>
    obtain ⟨a, w⟩ := p
    simp only [lookup]
    split
    · rename_i h; simp [h]
    · rename_i h; simp [ih, Ne.symm h]

/-- The value under every key of `group_by`. -/
theorem lookup_groupBy [DecidableEq β] (f : α → β) (xs : List α) (k : β) :
    lookup k (groupBy f xs) = if k ∈ xs.map f then some (xs.filter (fun x => decide (f x = k))) else none := by
  have : ∀ (xs : List α) (acc : List (β × List α)) (done : List α),
      (∀ k, lookup k acc = if k ∈ done.map f then some (done.filter (fun x => decide (f x = k))) else none) →
      lookup k (xs.foldl (fun acc x => insert (f x) (((lookup (f x) acc).getD []) ++ [x]) acc) acc) =
        if k ∈ (done ++ xs).map f then some ((done ++ xs).filter (fun x => decide (f x = k))) else none := by
    intro xs
    induction xs with
    | nil => intro acc done h; simpa using h k
    | cons x xs ih =>
      intro acc done h
      rw [List.foldl_cons]
      rw [ih _ (done ++ [x])]
      · simp only [List.append_assoc, List.singleton_append]
      · intro k'
        rw [lookup_insert]
        by_cases hk : f x = k'
        · subst hk
          have hm : f x ∈ (done ++ [x]).map f := by simp
          rw [if_pos rfl, if_pos hm, h (f x)]
          by_cases hd : f x ∈ done.map f
          · rw [if_pos hd]; simp
          · rw [if_neg hd]
            have : done.filter (fun y => decide (f y = f x)) = [] := by
              rw [List.filter_eq_nil_iff]
              intro y hy
              simp only [decide_eq_true_eq]
              intro e; exact hd (List.mem_map.2 ⟨y, hy, e⟩)
            simp [this]
        · rw [if_neg hk, h k']
          have e1 : (k' ∈ (done ++ [x]).map f) ↔ k' ∈ done.map f := by
            simp only [List.map_append, List.map_cons, List.map_nil, List.mem_append, List.mem_singleton]
            exact ⟨fun h => h.resolve_right (Ne.symm hk), Or.inl⟩
          simp only [e1, List.filter_append]
          have e2 : [x].filter (fun x => decide (f x = k')) = [] := by simp [hk]
          rw [e2, List.append_nil]
  have := this xs [] [] (by intro k; simp [lookup])
  simpa [groupBy] using this

theorem nodup_groupBy [DecidableEq β] (f : α → β) (xs : List α) : ((groupBy f xs).map Prod.fst).Nodup := by
  have : ∀ (xs : List α) (acc : List (β × List α)), (acc.map Prod.fst).Nodup →
      ((xs.foldl (fun acc x => insert (f x) (((lookup (f x) acc).getD []) ++ [x]) acc) acc).map Prod.fst).Nodup := by
    intro xs
    induction xs with
    | nil => intro acc h; exact h
    | cons x xs ih => intro acc h; exact ih _ (nodup_insert _ _ _ h)
  exact this xs [] (by simp)

theorem lookup_updateDictWith [DecidableEq β] (f : γ → γ → γ) (d0 d1 : List (β × γ)) (h : (d1.map Prod.fst).Nodup) (k : β) :
    lookup k (updateDictWith f d0 d1) =
      match lookup k d0, lookup k d1 with
      | some v, some w => some (f v w)
      | some v, none => some v
      | none, w => w := by
  induction d1 generalizing d0 with
  | nil => simp only [updateDictWith, List.foldl_nil, lookup]; cases lookup k d0 <;> rfl
  | cons p r ih =>
    obtain ⟨a, w⟩ := p
    simp only [List.map_cons, List.nodup_cons] at h
    have := ih (insert a (match lookup a d0 with | some v => f v w | none => w) d0) h.2
    simp only [updateDictWith, List.foldl_cons] at this ⊢
    refine this.trans ?_
    rw [lookup_insert]
    simp only [lookup]
    by_cases hk : a = k
    · subst hk
      have hn : lookup a r = none := (lookup_none_iff _ _).2 h.1
      simp only [if_true, hn]
      cases lookup a d0 <;> rfl
    · simp only [hk, if_false]

theorem flatten_chunk (xs : List α) (n : Nat) : ∀ m, xs.length ≤ m * n →
    ((List.range m).map (fun j => (xs.drop (j * n)).take n)).flatten = xs := by
  intro m
  induction m generalizing xs with
  | zero => intro h; simp only [Nat.zero_mul, Nat.le_zero, List.length_eq_zero_iff] at h; simp [h]
  | succ m ih =>
    intro h
    rw [List.range_succ_eq_map]
    simp only [List.map_cons, List.map_map, List.flatten_cons, Nat.zero_mul, List.drop_zero]
    have := ih (xs.drop n) (by rw [List.length_drop]; rw [Nat.succ_mul] at h; omega)
    have e : ((fun j => (xs.drop (j * n)).take n) ∘ Nat.succ) = fun j => ((xs.drop n).drop (j * n)).take n := by
      funext j
      simp only [Function.comp_apply, List.drop_drop, Nat.succ_mul, Nat.add_comm]
    rw [e, this, List.take_append_drop]

end Util
end GPyABCD
