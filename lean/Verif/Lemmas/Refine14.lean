import Verif.Lemmas.Refine13

/-!
# Values of objects in a store
-/

namespace GPyABCD
namespace Objects
open Links Links.LK
open KE hiding nodes

theorem mapM_some {α β : Type} {f : α → Option β} {g : α → β} : (xs : List α) → (∀ x ∈ xs, f x = some (g x)) → xs.mapM f = some (xs.map g)
  | [], _ => rfl
  | x :: xs, h => by
    rw [List.mapM_cons, h x (by simp), mapM_some xs (fun y hy => h y (by simp [hy]))]
    rfl

/-- A stored tree has the value the store shows. -/
theorem read_ok {h : Heap} : (n : Nat) → (k : LK) → Stored h k → depth k ≤ n → read h n (toRef k) = some k.erase
  | n, .str b, _, _ => by cases n <;> rfl
  | 0, .comm .., _, hd => by simp [depth] at hd
  | 0, .change .., _, hd => by simp [depth] at hd
  | n + 1, .comm i r p op b c, hs, hd => by
    simp only [Stored] at hs
    simp only [depth] at hd
    simp only [toRef, addr, LK.id?, Option.getD_some, read, hs.1]
    have : (c.map addr).mapM (fun x => read h n (.obj x)) = some (c.map LK.erase) := by
      rw [List.mapM_map]
      refine mapM_some c ?_
      intro k hk
      have hk1 := storedL_iff.1 hs.2 k hk
      rw [Function.comp_apply, ← toRef_obj hk1.1]
      exact read_ok n k hk1.2 (by have := depth_lt_of_mem hk; omega)
    rw [this]
    simp [LK.erase, eraseL_eq]
  | n + 1, .change i rt p c l r, hs, hd => by
    simp only [Stored] at hs
    simp only [depth] at hd
    show read h (n + 1) (.obj i) = _
    simp only [read, hs.1]
    rw [read_ok n l hs.2.1 (by omega), read_ok n r hs.2.2 (by omega)]
    rfl

theorem valueAt_ok {h : Heap} {k : LK} (hk : k.isStr = false) (hs : Stored h k) (hn : (ids k).Nodup) : valueAt h (addr k) = some k.erase := by
  rw [valueAt, ← toRef_obj hk]
  exact read_ok _ k hs (by have := depth_bound hs hn; omega)

theorem valueAt_root {h : Heap} {a : Nat} {v : KE} (hr : RootAt h a v) : valueAt h a = some v := by
  obtain ⟨t, rfl, h1, h2, rfl⟩ := hr
  exact valueAt_ok (wellLinked_root h2).1 h1 h2.2

theorem values_of {h : Heap} {ks : List LK} (hk : ∀ k ∈ ks, k.isStr = false ∧ Stored h k ∧ (ids k).Nodup) :
    (ks.map addr).map (valueAt h) = (ks.map LK.erase).map some := by
  rw [List.map_map, List.map_map]
  refine List.map_congr_left ?_
  intro k hk'
  exact valueAt_ok (hk k hk').1 (hk k hk').2.1 (hk k hk').2.2

theorem RootAt.kept {h h' : Heap} {a : Nat} {v : KE} (hr : RootAt h a v) (hk : Kept h h') : RootAt h' a v := by
  obtain ⟨t, h0, h1, h2, h3⟩ := hr
  exact ⟨t, h0, stored_congr t (fun x hx => hk x (stored_lt t h1 x hx)) h1, h2, h3⟩

end Objects
end GPyABCD
