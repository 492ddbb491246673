import Verif.Spec.Bench
import Verif.Lemmas.ParamsName

/-!
# Lemmas on the names of benchmarked versions
-/

namespace GPyABCD
namespace Bench

variable {S T : Type}

/-- A name by its parts. -/
def key (n : String × Option Nat) : String := match n.2 with | none => n.1 | some i => numbered n.1 i

/-- The names in use do not have digits. -/
def Plain (n : String × Option Nat) : Prop := ∀ c ∈ n.1.toList, c.isDigit = false

theorem key_inj {m n : String × Option Nat} (hm : Plain m) (hn : Plain n) (h : key m = key n) : m = n := by
  have hd : ∀ k : Nat, ∀ c ∈ (Nat.toDigits 10 k).head?, (!c.isDigit) = false := fun k c hc => by
    simp [Params.digits_digit c (List.mem_of_mem_head? hc)]
  obtain ⟨s, i⟩ := m
  obtain ⟨t, j⟩ := n
  have e := congrArg String.toList h
  have sp := fun b b' h1 h2 h3 => Params.split_unique (p := fun c : Char => !c.isDigit) (a := s.toList) (b := b) (a' := t.toList) (b' := b')
    (fun x hx => by simpa using hm x hx) h1 (fun x hx => by simpa using hn x hx) h2 h3
  match i, j with
  | none, none =>
    simp only [key] at h
    rw [h]
  | none, some j =>
    simp only [key, numbered, String.toList_append, String.toList_ofList] at e
    have := (sp [] _ (by simp) (hd j) (by simpa using e)).2
    exact absurd this.symm Nat.toDigits_ne_nil
  | some i, none =>
    simp only [key, numbered, String.toList_append, String.toList_ofList] at e
    have := (sp _ [] (hd i) (by simp) (by simpa using e)).2
    exact absurd this Nat.toDigits_ne_nil
  | some i, some j =>
    simp only [key, numbered, String.toList_append, String.toList_ofList] at e
    have := sp _ _ (hd i) (hd j) (by simpa using e)
    rw [String.toList_inj.1 this.1, Params.digits_inj this.2]

theorem setItem_new {α : Type} {d : List (String × α)} {k : String} {v : α} (h : k ∉ d.map Prod.fst) : setItem d k v = d ++ [(k, v)] := by
  rw [setItem, if_neg]
  simp only [List.any_eq_true, beq_iff_eq, not_exists, not_and]
  rintro x hx rfl
  exact h (List.mem_map_of_mem hx)

/-- Items with new keys are appended. -/
theorem fold_new {α : Type} : ∀ (items d : List (String × α)), ((d ++ items).map Prod.fst).Nodup → items.foldl (fun e x => setItem e x.1 x.2) d = d ++ items
  | [], d, _ => by simp
  | x :: items, d, h => by
    have hx : x.1 ∉ d.map Prod.fst := by
      simp only [List.map_append, List.map_cons, List.nodup_append, List.mem_cons] at h
      exact fun hm => h.2.2 _ hm _ (.inl rfl) rfl
    rw [List.foldl_cons, setItem_new hx, fold_new items _ (by simpa using h)]
    simp

/-- The items of one loop. -/
def sepItems (parallel : Bool) : Nat → List S → List ((String × Option Nat) × Version S T)
  | _, [] => []
  | i, s :: ss => (("Eager", some (i + 2)), .eager s) :: ((if parallel then [(("Parallel Eager", some (i + 2)), .parallelEager s)] else []) ++
      sepItems parallel (i + 1) ss)

def sepsItems : Nat → List T → List ((String × Option Nat) × Version S T)
  | _, [] => []
  | i, s :: ss => (("Vec Eager", some (i + 2)), .vecEager s) :: sepsItems (i + 1) ss

def items (c : Choice S T) : List ((String × Option Nat) × Version S T) :=
  (if c.f then [(("Base", none), .base), (("Lazy", none), .lazy)] ++ (if c.parallel then [(("Parallel", none), .parallel)] else []) ++
    (c.sig.toList.flatMap fun s => (("Eager", none), .eager s) :: if c.parallel then [(("Parallel Eager", none), .parallelEager s)] else []) ++
    sepItems c.parallel 0 c.seps else []) ++
  if c.scalar then (("Vec Lazy", none), .vecLazy) :: (c.sigs.toList.map (fun s => (("Vec Eager", none), .vecEager s)) ++ sepsItems 0 c.sepss) else []

def named (l : List ((String × Option Nat) × Version S T)) : List (String × Version S T) := l.map fun x => (key x.1, x.2)

abbrev putAll (l d : List (String × Version S T)) : List (String × Version S T) := l.foldl (fun e x => setItem e x.1 x.2) d

theorem sepLoop_fold (parallel : Bool) : ∀ (ss : List S) (i : Nat) (d : List (String × Version S T)),
    sepLoop parallel i ss d = putAll (named (sepItems parallel i ss)) d
  | [], _, _ => rfl
  | s :: ss, i, d => by
    simp only [sepLoop]
    rw [sepLoop_fold parallel ss]
    cases parallel <;> rfl

theorem sepsLoop_fold : ∀ (ss : List T) (i : Nat) (d : List (String × Version S T)), sepsLoop i ss d = putAll (named (sepsItems i ss)) d
  | [], _, _ => rfl
  | s :: ss, i, d => by
    simp only [sepsLoop]
    rw [sepsLoop_fold ss]
    rfl

theorem sepItems_fst {parallel : Bool} : ∀ {ss : List S} {i : Nat} {x : (String × Option Nat) × Version S T}, x ∈ sepItems parallel i ss →
    ∃ j, i ≤ j ∧ (x.1 = ("Eager", some (j + 2)) ∨ x.1 = ("Parallel Eager", some (j + 2)))
  | s :: ss, i, x, h => by
    simp only [sepItems, List.mem_cons, List.mem_append] at h
    rcases h with rfl | h | h
    · exact ⟨i, le_refl _, .inl rfl⟩
    · cases parallel with
      | false => simp at h
      | true => simp at h; subst h; exact ⟨i, le_refl _, .inr rfl⟩
    · obtain ⟨j, hj, h⟩ := sepItems_fst h
      exact ⟨j, by omega, h⟩

theorem sepsItems_fst : ∀ {ss : List T} {i : Nat} {x : (String × Option Nat) × Version S T}, x ∈ sepsItems i ss →
    ∃ j, i ≤ j ∧ x.1 = ("Vec Eager", some (j + 2))
  | s :: ss, i, x, h => by
    simp only [sepsItems, List.mem_cons] at h
    rcases h with rfl | h
    · exact ⟨i, le_refl _, rfl⟩
    · obtain ⟨j, hj, h⟩ := sepsItems_fst h
      exact ⟨j, by omega, h⟩

theorem sepItems_nodup {parallel : Bool} : ∀ (ss : List S) (i : Nat), ((sepItems (T := T) parallel i ss).map Prod.fst).Nodup
  | [], _ => by simp [sepItems]
  | s :: ss, i => by
    have IH := sepItems_nodup (parallel := parallel) ss (i + 1)
    have h : ∀ x ∈ (sepItems (T := T) parallel (i + 1) ss), x.1 ≠ ("Eager", some (i + 2)) ∧ x.1 ≠ ("Parallel Eager", some (i + 2)) := by
      intro x hx
      obtain ⟨j, hj, h | h⟩ := sepItems_fst hx <;> rw [h] <;> simp <;> omega
    cases parallel <;> simp [sepItems, IH] <;>
      first
      | exact fun v hv => (h _ hv).1 rfl
      | exact ⟨fun v hv => (h _ hv).1 rfl, fun v hv => (h _ hv).2 rfl⟩

theorem sepsItems_nodup : ∀ (ss : List T) (i : Nat), ((sepsItems (S := S) i ss).map Prod.fst).Nodup
  | [], _ => by simp [sepsItems]
  | s :: ss, i => by
    have IH := sepsItems_nodup ss (i + 1)
    simp only [sepsItems, List.map_cons, List.nodup_cons]
    refine ⟨fun h => ?_, IH⟩
    obtain ⟨x, hx, e⟩ := List.mem_map.1 h
    obtain ⟨j, hj, h⟩ := sepsItems_fst hx
    rw [h] at e
    simp at e
    omega

theorem items_fst_nodup (c : Choice S T) : ((items c).map Prod.fst).Nodup := by
  obtain ⟨f, sig, seps, scalar, sigs, sepss, parallel⟩ := c
  have h1 := sepItems_nodup (T := T) (parallel := parallel) seps 0
  have h2 := sepsItems_nodup (S := S) sepss 0
  have f1 : ∀ a ∈ (sepItems (T := T) parallel 0 seps).map Prod.fst, a.2 ≠ none ∧ (a.1 = "Eager" ∨ a.1 = "Parallel Eager") := by
    intro a ha
    obtain ⟨x, hx, rfl⟩ := List.mem_map.1 ha
    obtain ⟨j, -, h | h⟩ := sepItems_fst hx <;> rw [h] <;> simp
  have f2 : ∀ a ∈ (sepsItems (S := S) 0 sepss).map Prod.fst, a.2 ≠ none ∧ a.1 = "Vec Eager" := by
    intro a ha
    obtain ⟨x, hx, rfl⟩ := List.mem_map.1 ha
    obtain ⟨j, -, h⟩ := sepsItems_fst hx
    rw [h]; simp
  simp only [items, List.map_append, apply_ite (List.map Prod.fst), List.map_cons, List.map_nil, List.map_flatMap]
  generalize (sepItems (T := T) parallel 0 seps).map Prod.fst = l1 at *
  generalize (sepsItems (S := S) 0 sepss).map Prod.fst = l2 at *
  have n1 : ∀ s, (s, none) ∉ l1 := fun s h => (f1 _ h).1 rfl
  have n2 : ∀ s, (s, none) ∉ l2 := fun s h => (f2 _ h).1 rfl
  have n3 : ∀ a ∈ l1, a ∉ l2 := fun a ha hb => by
    have e := (f2 a hb).2
    rcases (f1 a ha).2 with h | h <;> rw [h] at e <;> simp at e
  have n3' : ∀ a ∈ l1, ∀ b ∈ l2, a ≠ b := fun a ha b hb e => n3 a ha (e ▸ hb)
  cases f <;> cases scalar <;> cases parallel <;> cases sig <;> cases sigs <;> simp [List.nodup_append, n1, n2, h1, h2] <;> grind

theorem plain_items (c : Choice S T) : ∀ x ∈ items c, Plain x.1 := by
  have h : ∀ s ∈ ["Base", "Lazy", "Parallel", "Eager", "Parallel Eager", "Vec Lazy", "Vec Eager"], ∀ c ∈ s.toList, c.isDigit = false := by decide
  intro x hx
  refine h x.1.1 ?_
  obtain ⟨f, sig, seps, scalar, sigs, sepss, parallel⟩ := c
  have f1 : ∀ x ∈ (sepItems (T := T) parallel 0 seps), x.1.1 = "Eager" ∨ x.1.1 = "Parallel Eager" := by
    intro x hx
    obtain ⟨j, -, h | h⟩ := sepItems_fst hx <;> rw [h] <;> simp
  have f2 : ∀ x ∈ (sepsItems (S := S) 0 sepss), x.1.1 = "Vec Eager" := by
    intro x hx
    obtain ⟨j, -, h⟩ := sepsItems_fst hx
    rw [h]
  simp only [items] at hx
  generalize sepItems (T := T) parallel 0 seps = l1 at *
  generalize sepsItems (S := S) 0 sepss = l2 at *
  cases f <;> cases scalar <;> cases parallel <;> cases sig <;> cases sigs <;> simp at hx <;> simp <;> grind

theorem sepItems_snd (parallel : Bool) : ∀ (ss : List S) (i : Nat), (sepItems (T := T) parallel i ss).map Prod.snd = ss.flatMap (eagers parallel)
  | [], _ => rfl
  | s :: ss, i => by
    simp only [sepItems, List.map_cons, List.map_append, sepItems_snd parallel ss, List.flatMap_cons, eagers]
    cases parallel <;> rfl

theorem sepsItems_snd : ∀ (ss : List T) (i : Nat), (sepsItems (S := S) i ss).map Prod.snd = ss.map .vecEager
  | [], _ => rfl
  | s :: ss, i => by simp only [sepsItems, List.map_cons, sepsItems_snd ss]

theorem items_snd (c : Choice S T) : (items c).map Prod.snd = wanted c := by
  obtain ⟨f, sig, seps, scalar, sigs, sepss, parallel⟩ := c
  have h1 := sepItems_snd (T := T) parallel seps 0
  have h2 := sepsItems_snd (S := S) sepss 0
  cases f <;> cases scalar <;> cases parallel <;> cases sig <;> cases sigs <;> simp [items, wanted, eagers, h1, h2]

theorem keys_nodup (c : Choice S T) : ((named (items c)).map Prod.fst).Nodup := by
  have h := items_fst_nodup c
  have e : (named (items c)).map Prod.fst = ((items c).map Prod.fst).map key := by simp [named]
  rw [e]
  refine List.Nodup.map_on (fun a ha b hb hab => ?_) h
  obtain ⟨x, hx, rfl⟩ := List.mem_map.1 ha
  obtain ⟨y, hy, rfl⟩ := List.mem_map.1 hb
  exact key_inj (plain_items c x hx) (plain_items c y hy) hab

theorem fDict_items (c : Choice S T) : fDict c "" = named (items c) := by
  have h := fold_new (named (items c)) [] (keys_nodup c)
  rw [List.nil_append] at h
  rw [← h]
  obtain ⟨f, sig, seps, scalar, sigs, sepss, parallel⟩ := c
  simp only [fDict, sepLoop_fold, sepsLoop_fold, if_true]
  cases f <;> cases scalar <;> cases parallel <;> cases sig <;> cases sigs <;> simp [items, named, key]

theorem fDict_pre (c : Choice S T) (pre : String) : fDict c pre = (named (items c)).map fun x => (pre ++ x.1, x.2) := by
  have h := fDict_items c
  by_cases hp : pre = ""
  · subst hp
    simp [h]
  · have e : fDict c pre = (fDict c "").foldl (fun e x => setItem e (pre ++ x.1) x.2) [] := by
      simp only [fDict, if_neg hp, if_true]
    rw [e, h, ← List.foldl_map (f := fun x : String × Version S T => (pre ++ x.1, x.2)) (g := fun e x => setItem e x.1 x.2), fold_new]
    · simp
    · have e' : (([] ++ (named (items c)).map fun x : String × Version S T => (pre ++ x.1, x.2)).map Prod.fst) = ((named (items c)).map Prod.fst).map (pre ++ ·) := by simp
      rw [e']
      refine (keys_nodup c).map fun a b hab => ?_
      have := congrArg String.toList hab
      simpa [String.toList_inj] using this

end Bench
end GPyABCD
