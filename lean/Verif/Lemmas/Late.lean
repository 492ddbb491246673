import Verif.Lemmas.Refine9
import Verif.Lemmas.ExpandSame

/-!
# Equal terms one after the other
-/

namespace GPyABCD
open KE hiding nodes

/-! ## Order in a list -/

/-- Wherever `x` is in the list, `y` is before it. -/
def Before {α : Type} (l : List α) (y x : α) : Prop := ∀ pre post, l = pre ++ x :: post → y ∈ pre

theorem Before.cons {α : Type} {l : List α} {y x a : α} (h : Before l y x) (ha : x ≠ a) : Before (a :: l) y x := by
  intro pre post e
  cases pre with
  | nil => simp only [List.nil_append, List.cons.injEq] at e; exact absurd e.1.symm ha
  | cons z pre =>
    simp only [List.cons_append, List.cons.injEq] at e
    exact List.mem_cons_of_mem _ (h pre post e.2)

theorem Before.right {α : Type} {l1 l2 : List α} {y x : α} (h : Before l2 y x) (hx : x ∉ l1) : Before (l1 ++ l2) y x := by
  induction l1 with
  | nil => exact h
  | cons a l1 ih =>
    simp only [List.mem_cons, not_or] at hx
    exact (ih hx.2).cons hx.1

theorem Before.left {α : Type} {l1 l2 : List α} {y x : α} (h : Before l1 y x) (hx : x ∉ l2) : Before (l1 ++ l2) y x := by
  intro pre post e
  rcases List.append_eq_append_iff.1 e with ⟨c, rfl, e2⟩ | ⟨c, rfl, e2⟩
  · exact absurd (by rw [e2]; simp) hx
  · cases c with
    | nil => simp only [List.nil_append] at e2; exact absurd (by rw [← e2]; simp) hx
    | cons z c =>
      simp only [List.cons_append, List.cons.injEq] at e2
      obtain ⟨rfl, rfl⟩ := e2
      exact h pre c rfl

theorem Before.cross {α : Type} {l1 l2 : List α} {y x : α} (hy : y ∈ l1) (hx : x ∉ l1) : Before (l1 ++ l2) y x := by
  intro pre post e
  rcases List.append_eq_append_iff.1 e with ⟨c, rfl, e2⟩ | ⟨c, rfl, e2⟩
  · exact List.mem_append_left _ hy
  · cases c with
    | nil => simpa using hy
    | cons z c =>
      simp only [List.cons_append, List.cons.injEq] at e2
      exact absurd (by rw [← e2.1]; simp) hx

theorem Before.map {α β : Type} {l : List α} {y x : α} (h : Before l y x) {f : α → β} (hf : ∀ a b, f a = f b → a = b) : Before (l.map f) (f y) (f x) := by
  intro pre post e
  obtain ⟨p, q, rfl, rfl, e2⟩ := List.map_eq_append_iff.1 e
  obtain ⟨z, q', rfl, hz, rfl⟩ := List.map_eq_cons_iff.1 e2
  rw [hf _ _ hz] at h
  exact List.mem_map_of_mem (h p q' rfl)

/-! ## Late terms -/

/-- At the position `p` of `k` is the term `s`; one of the terms before it, `s0` at `p0`, is equal. -/
inductive Late : KE → List Step → KE → List Step → KE → Prop
  | here {o : Op} {b : Counter} {cs : List KE} {m j : Nat} {s s0 : KE} : cs[m]? = some s → cs[j]? = some s0 → j < m → keq s s0 = true →
      Late (.comm o b cs) [.idx m] s [.idx j] s0
  | idx {o : Op} {b : Counter} {cs : List KE} {m : Nat} {k s s0 : KE} {p p0 : List Step} : cs[m]? = some k → Late k p s p0 s0 →
      Late (.comm o b cs) (.idx m :: p) s (.idx m :: p0) s0
  | left {c : CC} {l r s s0 : KE} {p p0 : List Step} : Late l p s p0 s0 → Late (.change c l r) (.left :: p) s (.left :: p0) s0
  | right {c : CC} {l r s s0 : KE} {p p0 : List Step} : Late r p s p0 s0 → Late (.change c l r) (.right :: p) s (.right :: p0) s0

theorem Late.eq {k s s0 : KE} {p p0 : List Step} (h : Late k p s p0 s0) : keq s s0 = true ∧ p ≠ [] ∧ p0 ≠ [] := by
  induction h with
  | here _ _ _ h => exact ⟨h, by simp, by simp⟩
  | idx _ _ ih => exact ⟨ih.1, by simp, by simp⟩
  | left _ ih => exact ⟨ih.1, by simp, by simp⟩
  | right _ ih => exact ⟨ih.1, by simp, by simp⟩

theorem traverseL_append (cfg : Cfg) : (a b : List KE) → (i : Nat) → traverseL cfg i (a ++ b) = traverseL cfg i a ++ traverseL cfg (i + a.length) b
  | [], b, i => by simp [traverseL]
  | x :: a, b, i => by
    simp only [List.cons_append, traverseL, traverseL_append cfg a b (i + 1), List.append_assoc, List.length_cons]
    rw [show i + 1 + a.length = i + (a.length + 1) by omega]

theorem traverseL_idx {cfg : Cfg} {cs : List KE} {i m : Nat} {p : List Step} {s : KE} (h : (.idx m :: p, s) ∈ traverseL cfg i cs) : i ≤ m ∧ m < i + cs.length := by
  obtain ⟨l1, a, l2, q, rfl, e, _⟩ := mem_traverseL.1 h
  simp only [List.cons.injEq, Step.idx.injEq] at e
  simp only [List.length_append, List.length_cons]
  omega

theorem split_at {α : Type} {cs : List α} {m : Nat} {a : α} (h : cs[m]? = some a) : ∃ l1 l2, cs = l1 ++ a :: l2 ∧ l1.length = m := by
  obtain ⟨hlt, rfl⟩ := List.getElem?_eq_some_iff.1 h
  exact ⟨cs.take m, cs.drop (m + 1), by simp, by simp; omega⟩

theorem traverse_self {cfg : Cfg} {k : KE} (h : k.isBase = false) : ([], k) ∈ KE.traverse cfg k := by
  cases k with
  | base => cases h
  | comm => rw [KE.traverse]; exact List.mem_cons_self
  | change => exact (mem_traverse_change).2 (.inl ⟨rfl, rfl⟩)

theorem traverse_parts (cfg : Cfg) (c : CC) (l r : KE) : ∃ A B, KE.traverse cfg (.change c l r) = ([], .change c l r) :: (A ++ B) ∧
    (l.isBase = false → A = (KE.traverse cfg l).map (fun q => (Step.left :: q.1, q.2))) ∧ (r.isBase = false → B = (KE.traverse cfg r).map (fun q => (Step.right :: q.1, q.2))) ∧
    (∀ p s, ((Step.right :: p, s) : List Step × KE) ∉ A) ∧ (∀ p s, ((Step.left :: p, s) : List Step × KE) ∉ B) := by
  refine ⟨(match l with
      | base b => [([Step.vleft], mkL cfg .sum [b] [])]
      | l => (KE.traverse cfg l).map (fun q => (Step.left :: q.1, q.2))), (match r with
      | base b => [([Step.vright], mkL cfg .sum [b] [])]
      | r => (KE.traverse cfg r).map (fun q => (Step.right :: q.1, q.2))), ?_, ?_, ?_, ?_, ?_⟩
  · cases l <;> cases r <;> simp only [KE.traverse]
  · intro h; cases l <;> first | rfl | cases h
  · intro h; cases r <;> first | rfl | cases h
  · intro p s; cases l <;> simp
  · intro p s; cases r <;> simp

/-- The equal term comes before in the traversal. -/
theorem Late.before {cfg : Cfg} {k s s0 : KE} {p p0 : List Step} (h : Late k p s p0 s0) (hs : s.isBase = false) : Before (KE.traverse cfg k) (p0, s0) (p, s) := by
  induction h with
  | @here o b cs m j s s0 h1 h2 h3 h4 =>
    obtain ⟨l1, l2, rfl, rfl⟩ := split_at h1
    rw [List.getElem?_append_left h3] at h2
    simp only [KE.traverse]
    refine Before.cons ?_ (by simp)
    rw [traverseL_append]
    refine Before.cross ?_ ?_
    · obtain ⟨a, b, rfl, rfl⟩ := split_at h2
      refine mem_traverseL.2 ⟨a, s0, b, [], rfl, by simp, traverse_self ?_⟩
      cases s0 with
      | base => cases s <;> simp_all [keq]
      | comm => rfl
      | change => rfl
    · intro hh
      have := traverseL_idx hh
      omega
  | @idx o b cs m k s s0 p p0 h1 h2 ih =>
    obtain ⟨l1, l2, rfl, rfl⟩ := split_at h1
    simp only [KE.traverse]
    refine Before.cons ?_ (by simp)
    rw [traverseL_append, traverseL]
    refine Before.right (Before.left ?_ ?_) ?_
    · simp only [Nat.zero_add]
      exact (ih hs).map (f := fun q : List Step × KE => (Step.idx l1.length :: q.1, q.2)) (by
        rintro ⟨a, b⟩ ⟨c, d⟩ e
        simp only [Prod.mk.injEq, List.cons.injEq, true_and] at e
        exact Prod.ext e.1 e.2)
    · intro hh
      have := traverseL_idx hh
      omega
    · intro hh
      have := traverseL_idx hh
      omega
  | @left c l r s s0 p p0 h ih =>
    obtain ⟨A, B, e, h1, _, _, h4⟩ := traverse_parts cfg c l r
    rw [e, h1 (by cases l with | base => cases h | comm => rfl | change => rfl)]
    have hm := (ih hs).map (f := fun q : List Step × KE => (Step.left :: q.1, q.2)) (by
      rintro ⟨a, b⟩ ⟨c, d⟩ e
      simp only [Prod.mk.injEq, List.cons.injEq, true_and] at e
      exact Prod.ext e.1 e.2)
    exact Before.cons (hm.left (h4 _ _)) (by simp)
  | @right c l r s s0 p p0 h ih =>
    obtain ⟨A, B, e, _, h2, h3, _⟩ := traverse_parts cfg c l r
    rw [e, h2 (by cases r with | base => cases h | comm => rfl | change => rfl)]
    have hm := (ih hs).map (f := fun q : List Step × KE => (Step.right :: q.1, q.2)) (by
      rintro ⟨a, b⟩ ⟨c, d⟩ e
      simp only [Prod.mk.injEq, List.cons.injEq, true_and] at e
      exact Prod.ext e.1 e.2)
    exact Before.cons (hm.right (h3 _ _)) (by simp)

theorem same_comm_of {o : Op} {b : Counter} {cs ds : List KE} (h : List.Forall₂ Same cs ds) : Same (.comm o b cs) (.comm o b ds) := Same.comm (fun _ => rfl) h (List.Perm.refl _)

theorem forall₂_same_refl : (cs : List KE) → List.Forall₂ Same cs cs
  | [] => .nil
  | c :: cs => .cons (Same.refl c) (forall₂_same_refl cs)

theorem forall₂_append {α β : Type} {R : α → β → Prop} {a c : List α} {b d : List β} (h : List.Forall₂ R a b) (h' : List.Forall₂ R c d) : List.Forall₂ R (a ++ c) (b ++ d) := by
  induction h with
  | nil => exact h'
  | cons h1 _ ih => exact .cons h1 ih

theorem replaceAt_idx {o : Op} {b : Counter} {cs : List KE} {m : Nat} {k v : KE} {p : List Step} (h : cs[m]? = some k) (hp : p ≠ []) :
    replaceAt (.comm o b cs) (.idx m :: p) v = .comm o b (cs.set m (replaceAt k p v)) := by
  cases p with
  | nil => exact absurd rfl hp
  | cons x p => rw [replaceAt, h] ; simp

/-- Replacing the late term gives what replacing the first one gives. -/
theorem Late.replace {k s s0 : KE} {p p0 : List Step} (h : Late k p s p0 s0) {v v' : KE} (hv : Same v v') : Same (replaceAt k p v) (replaceAt k p0 v') := by
  induction h with
  | @here o b cs m j s s0 h1 h2 h3 h4 =>
    have e : (fun y => keq s y) = (fun y => keq s0 y) := funext fun y => keq_same_left ((keq_iff _ _).1 h4)
    simp only [replaceAt, h1, h2, e]
    exact same_comm_of (forall₂_append (forall₂_same_refl _) (.cons hv .nil))
  | @idx o b cs m k s s0 p p0 h1 h2 ih =>
    obtain ⟨_, hp, hp0⟩ := h2.eq
    rw [replaceAt_idx h1 hp, replaceAt_idx h1 hp0]
    obtain ⟨l1, l2, rfl, rfl⟩ := split_at h1
    simp only [List.set_append_right _ _ (Nat.le_refl _), Nat.sub_self, List.set_cons_zero]
    exact same_comm_of (forall₂_append (forall₂_same_refl _) (.cons ih (forall₂_same_refl _)))
  | @left c l r s s0 p p0 h ih => simp only [replaceAt]; exact .change ih (Same.refl r)
  | @right c l r s s0 p p0 h ih => simp only [replaceAt]; exact .change (Same.refl l) ih

namespace Objects
open Links Links.LK

/-- If a node is not the first of its kind among the terms of its parent, there is an equal one before it. -/
theorem first_or_late {cfg : Cfg} {fresh : Nat → Bool → Nat} {R : Option Nat → Prop} : (k : LK) → {T : Option Nat → Prop} → {q : List Step × LK} →
    G R T k → q ∈ LK.traverse cfg fresh k → q.1 ≠ [] → isChange q.2.erase = true →
    ∃ u ∈ nodes k, q.2.parent = some (addr u) ∧ (FirstIn q.2 u ∨ ∃ p0 s0, Late k.erase q.1 q.2.erase p0 s0)
  | .str _, _, _, _, h, _, _ => by simp [LK.traverse] at h
  | .comm i r p op bts cts, T, q, hG, h, hq, hc => by
    simp only [LK.traverse, List.mem_cons] at h
    rcases h with rfl | h
    · exact absurd rfl hq
    obtain ⟨m, hm, q', h1, rfl⟩ := mem_traverseL h
    simp only [G] at hG
    obtain ⟨c1, c2⟩ := GL_get hG.2.2 hm
    by_cases hq' : q'.1 = []
    · have e := traverse_top h1 hq'
      refine ⟨.comm i r p op bts cts, by simp [nodes], by rw [e]; exact (G_top.1 c2).2 c1, ?_⟩
      rw [e]
      by_cases hf : ∀ y ∈ cts.take m, keq cts[m].erase y.erase = false
      · exact .inl ⟨cts.take m, cts.drop (m + 1), by simp, hf⟩
      · simp only [not_forall, Bool.not_eq_false] at hf
        obtain ⟨y, hy, hk⟩ := hf
        obtain ⟨j, hj, rfl⟩ := List.getElem_of_mem hy
        simp only [List.length_take] at hj
        refine .inr ⟨[.idx j], (cts[j]'(by omega)).erase, ?_⟩
        rw [hq', erase, Nat.zero_add]
        refine Late.here (eraseL_get hm) (eraseL_get (by omega)) (by omega) ?_
        simpa using hk
    · obtain ⟨u, hu, h2, h3⟩ := first_or_late cts[m] c2 h1 hq' hc
      refine ⟨u, by simp only [nodes]; exact List.mem_cons_of_mem _ (mem_nodesL.2 ⟨_, List.getElem_mem hm, hu⟩), h2, h3.imp id ?_⟩
      rintro ⟨p0, s0, hl⟩
      exact ⟨_, s0, by rw [erase, Nat.zero_add]; exact Late.idx (eraseL_get hm) hl⟩
  | .change i rt p c l r, T, q, hG, h, hq, hc => by
    simp only [G] at hG
    rcases traverse_change h with rfl | ⟨b, rfl, rfl⟩ | ⟨q', h1, rfl⟩ | ⟨b, rfl, rfl⟩ | ⟨q', h1, rfl⟩
    · exact absurd rfl hq
    · obtain ⟨bts, t1, t2⟩ := temp_eq cfg i rt (fresh i false) b
      rw [t1] at hc; cases hc
    · have hl := traverse_nonstr cfg fresh l h1
      by_cases hq' : q'.1 = []
      · have e := traverse_top h1 hq'
        exact ⟨.change i rt p c l r, by simp only [nodes]; exact List.mem_cons_self, by rw [e]; exact (G_top.1 hG.2.2.1).2 hl, .inl trivial⟩
      · obtain ⟨u, hu, h2, h3⟩ := first_or_late l hG.2.2.1 h1 hq' hc
        refine ⟨u, by simp only [nodes]; exact List.mem_cons_of_mem _ (List.mem_append_left _ hu), h2, h3.imp id ?_⟩
        rintro ⟨p0, s0, hl⟩
        exact ⟨_, s0, by rw [erase]; exact Late.left hl⟩
    · obtain ⟨bts, t1, t2⟩ := temp_eq cfg i rt (fresh i true) b
      rw [t1] at hc; cases hc
    · have hl := traverse_nonstr cfg fresh r h1
      by_cases hq' : q'.1 = []
      · have e := traverse_top h1 hq'
        exact ⟨.change i rt p c l r, by simp only [nodes]; exact List.mem_cons_self, by rw [e]; exact (G_top.1 hG.2.2.2).2 hl, .inl trivial⟩
      · obtain ⟨u, hu, h2, h3⟩ := first_or_late r hG.2.2.2 h1 hq' hc
        refine ⟨u, by simp only [nodes]; exact List.mem_cons_of_mem _ (List.mem_append_right _ hu), h2, h3.imp id ?_⟩
        rintro ⟨p0, s0, hl⟩
        exact ⟨_, s0, by rw [erase]; exact Late.right hl⟩
termination_by k => sizeOf k
decreasing_by
  all_goals simp_wf
  · have := List.sizeOf_lt_of_mem (List.getElem_mem hm); omega
  · omega

theorem late_of_not_first {cfg : Cfg} {fresh : Nat → Bool → Nat} {t s w : LK} {pos : List Step} (ht : WellLinked t) (hq : (pos, s) ∈ LK.traverse cfg fresh t) (hp : pos ≠ [])
    (hb : Branch w s) (hf : ¬ First t s) : ∃ p0 s0, Late t.erase pos s.erase p0 s0 := by
  obtain ⟨⟨i, _, htl⟩, htn⟩ := ht
  obtain ⟨u, hu, h2, h3⟩ := first_or_late t ((linked_iff _ _ _).1 htl) hq hp (branch_isChange hb)
  rcases h3 with h3 | h3
  · refine absurd (fun u' hu' hpar => ?_) hf
    have : addr u' = addr u := Option.some.inj (hpar.symm.trans h2)
    rw [nodes_inj t htn u' hu' u hu this]
    exact h3
  · exact h3

end Objects

end GPyABCD
