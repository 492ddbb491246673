import Verif.Lemmas.Refine12

/-!
# The store does to trees what the model of trees says: `_initialise`
-/

namespace GPyABCD
namespace Objects
open Links Links.LK
open KE hiding nodes

theorem setAllParents_setParent (p : Option Nat) (k : LK) : LK.setAllParents (LK.setParent p k) = LK.setParent p (LK.setAllParents k) := by
  cases k <;> simp [LK.setAllParents, LK.setParent]

theorem setAllParentsL_eq (i : Nat) (ks : List LK) : LK.setAllParentsL i ks = ks.map (fun k => LK.setParent (some i) (LK.setAllParents k)) := by
  induction ks with
  | nil => rfl
  | cons k ks ih => rw [LK.setAllParentsL, ih]; rfl

theorem depth_setParent (p : Option Nat) (k : LK) : depth (LK.setParent p k) = depth k := by
  cases k <;> simp [depth, LK.setParent]

theorem toRef_setAll (p : Option Nat) (k : LK) : toRef (LK.setParent p (LK.setAllParents k)) = toRef k := by
  cases k <;> simp [LK.setAllParents, LK.setParent, toRef, addr, LK.id?]

/-- One step of the loop. -/
theorem child_ok {a n : Nat} {k : LK} {h : Heap} (hk : k.isStr = false) (hs : Stored h k) (hn : (ids k).Nodup)
    (hf : ∀ h, Stored h (LK.setParent (some a) k) → ∃ h', setAllParentsF n (addr k) h = (.ok (), h') ∧
      Stored h' (LK.setAllParents (LK.setParent (some a) k)) ∧ Same (· ∈ ids k) h h') :
    ∃ h', (do setParent (addr k) (some a); setAllParentsF n (addr k) : M Unit) h = (.ok (), h') ∧
      Stored h' (LK.setParent (some a) (LK.setAllParents k)) ∧ Same (· ∈ ids k) h h' := by
  obtain ⟨h1, e1, s1, m1⟩ := setParent_ok (some a) hk hs hn
  obtain ⟨h2, e2, s2, m2⟩ := hf h1 s1
  refine ⟨h2, (run_bind e1).trans e2, by rw [← setAllParents_setParent]; exact s2, (m1.mono ?_).trans m2⟩
  rintro x rfl
  exact addr_mem hk

/-- `_set_all_parents` -/
theorem setAllParentsF_ok : (n : Nat) → (k : LK) → {h : Heap} → k.isStr = false → Stored h k → (ids k).Nodup → depth k < n + 1 →
    ∃ h', setAllParentsF n (addr k) h = (.ok (), h') ∧ Stored h' (LK.setAllParents k) ∧ Same (· ∈ ids k) h h'
  | 0, k, h, hk, _, _, hd => by cases k <;> simp [depth, LK.isStr] at hd hk
  | n + 1, .str _, h, hk, _, _, _ => by cases hk
  | n + 1, .comm i r p op bts cts, h, hk, hs, hn, hd => by
    simp only [Stored] at hs
    simp only [ids, List.nodup_cons] at hn
    simp only [depth] at hd
    obtain ⟨h2, e2, s2, m2⟩ := each_ok (f := fun ct => do setParent ct (some i); setAllParentsF n ct) (g := fun k => LK.setParent (some i) (LK.setAllParents k)) cts
      (fun k hk h hs' hn' => child_ok (storedL_iff.1 hs.2 k hk).1 hs' hn' (fun h1 hs1 => by
        have := setAllParentsF_ok n (LK.setParent (some i) k) (by simpa using (storedL_iff.1 hs.2 k hk).1) hs1 (by simpa using hn')
          (by have := depth_lt_of_mem hk; rw [depth_setParent]; omega)
        rw [show addr (LK.setParent (some i) k) = addr k by simp [addr], ids_setParent] at this
        exact this))
      (fun k _ => ⟨by simp, fun a ha => by simpa [ids_setAllParents] using ha⟩) hs.2 hn.2
    refine ⟨h2, ?_, ?_, m2.mono (fun a ha => by simp [ids, ha])⟩
    · simp only [setAllParentsF, addr, LK.id?, Option.getD_some]
      rw [run_bind (run_look hs.1)]
      exact e2
    · simp only [LK.setAllParents, Stored]
      refine ⟨?_, by rw [setAllParentsL_eq]; exact s2⟩
      rw [m2.2 i hn.1, setAllParentsL_eq, List.map_map]
      have : (addr ∘ fun k => LK.setParent (some i) (LK.setAllParents k)) = addr := by funext k; simp [addr]
      rw [this]
      exact hs.1
  | n + 1, .change i r p c l r', h, hk, hs, hn, hd => by
    simp only [Stored] at hs
    simp only [ids, List.nodup_cons, List.mem_append, not_or, List.nodup_append] at hn
    simp only [depth] at hd
    obtain ⟨h2, e2, s2, m2⟩ := onRef_ok (f := fun ct => do setParent ct (some i); setAllParentsF n ct) (g := fun k => LK.setParent (some i) (LK.setAllParents k)) l (fun _ => rfl)
      (fun hk h hs' hn' => child_ok hk hs' hn' (fun h1 hs1 => by
        have := setAllParentsF_ok n (LK.setParent (some i) l) (by simpa using hk) hs1 (by simpa using hn') (by rw [depth_setParent]; omega)
        rw [show addr (LK.setParent (some i) l) = addr l by simp [addr], ids_setParent] at this
        exact this)) hs.2.1 hn.2.1
    obtain ⟨h3, e3, s3, m3⟩ := onRef_ok (f := fun ct => do setParent ct (some i); setAllParentsF n ct) (g := fun k => LK.setParent (some i) (LK.setAllParents k)) r' (fun _ => rfl)
      (fun hk h hs' hn' => child_ok hk hs' hn' (fun h1 hs1 => by
        have := setAllParentsF_ok n (LK.setParent (some i) r') (by simpa using hk) hs1 (by simpa using hn') (by rw [depth_setParent]; omega)
        rw [show addr (LK.setParent (some i) r') = addr r' by simp [addr], ids_setParent] at this
        exact this)) (m2.stored (fun a ha hh => hn.2.2.2 a hh a ha rfl) hs.2.2) hn.2.2.1
    refine ⟨h3, ?_, ?_, (m2.mono (fun a ha => by simp [ids, ha])).trans (m3.mono (fun a ha => by simp [ids, ha]))⟩
    · simp only [setAllParentsF, addr, LK.id?, Option.getD_some]
      rw [run_bind (run_look hs.1)]
      exact (run_bind e2).trans e3
    · simp only [LK.setAllParents, Stored]
      refine ⟨?_, m3.stored (fun a ha hh => hn.2.2.2 a (by simpa [ids_setAllParents] using ha) a hh rfl) s2, s3⟩
      rw [m3.2 i hn.1.2, m2.2 i hn.1.1, toRef_setAll, toRef_setAll]
      exact hs.1
termination_by n => n

theorem stored_proper {h : Heap} : (k : LK) → Stored h k → Proper k
  | .str _, _ => trivial
  | .comm i r p op bts cts, hs => by
    simp only [Stored] at hs
    simp only [Proper]
    have : ∀ ks : List LK, (∀ k ∈ ks, k ∈ cts) → ProperL ks := by
      intro ks
      induction ks with
      | nil => intro _; trivial
      | cons k ks ih =>
        intro hk
        have hk1 := storedL_iff.1 hs.2 k (hk k (by simp))
        have := List.sizeOf_lt_of_mem (hk k (by simp))
        exact ⟨⟨hk1.1, stored_proper k hk1.2⟩, ih (fun k' hk' => hk k' (by simp [hk']))⟩
    exact this cts (fun _ h => h)
  | .change i r p c l r', hs => by
    simp only [Stored] at hs
    exact ⟨stored_proper l hs.2.1, stored_proper r' hs.2.2⟩
termination_by k => sizeOf k

/-- `_initialise` -/
theorem initialise_ok (cfg : Cfg) {h : Heap} {k : LK} (hk : k.isStr = false) (hs : Stored h k) (hn : (ids k).Nodup) :
    ∃ h', initialise cfg (addr k) h = (.ok (addr (LK.initialise cfg k)), h') ∧ Stored h' (LK.initialise cfg k) ∧ Same (· ∈ ids k) h h' := by
  obtain ⟨h1, e1, s1, m1⟩ := setRoot_ok none hk hs hn
  have a1 : addr (LK.setRoot none k) = addr k := by simp [addr]
  have i1 : ids (LK.setRoot none k) = ids k := by simp
  obtain ⟨h2, e2, s2, m2⟩ := setAllParentsF_ok (h1.length + 1) (LK.setRoot none k) (by simpa using hk) s1 (by simpa using hn) (by
    have := depth_bound s1 (by simpa using hn); omega)
  have a2 : addr (LK.setAllParents (LK.setRoot none k)) = addr k := by simp [addr]
  have i2 : ids (LK.setAllParents (LK.setRoot none k)) = ids k := by rw [ids_setAllParents, i1]
  obtain ⟨h3, e3, s3, m3⟩ := simplify_ok cfg (k := LK.setAllParents (LK.setRoot none k)) (by simpa using hk) s2 (by rw [i2]; exact hn)
  have a3 : addr (LK.initialise cfg k) = addr k := (addr_simplify cfg _).trans a2
  rw [a1] at e2
  rw [a2] at e3
  rw [i1] at m2
  rw [i2] at m3
  refine ⟨h3, ?_, s3, (m1.trans m2).trans m3⟩
  rw [initialise, a3]
  exact (run_bind e1).trans ((run_bind (m := levels (fun n => setAllParentsF n (addr k))) e2).trans ((run_bind e3).trans rfl))

end Objects
end GPyABCD
