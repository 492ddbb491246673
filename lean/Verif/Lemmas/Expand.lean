import Verif.Model.Grammar
import Verif.Spec.Expand
import Verif.Lemmas.Util
import Verif.Lemmas.Settled

namespace GPyABCD
open List

theorem isEqv_keq : Util.IsEqv KE.keq :=
  ⟨KE.keq_refl, fun _ _ => KE.keq_symm, fun _ _ _ => KE.keq_trans⟩

namespace Ctx

/-- Composition of contexts. -/
def comp : Ctx → Ctx → Ctx
  | hole, D => D
  | comm o b l1 C l2, D => comm o b l1 (C.comp D) l2
  | left c C r, D => left c (C.comp D) r
  | right c l C, D => right c l (C.comp D)

theorem plug_same (C : Ctx) {x y : KE} (h : Same x y) : Same (C.plug x) (C.plug y) := by
  induction C with
  | hole => exact h
  | comm o b l1 C l2 ih =>
    exact SameL.same (fun _ => rfl) (SameL.append (SameL.refl _) (SameL.cons ih (SameL.refl _)))
  | left c C r ih => exact .change ih (Same.refl _)
  | right c l C ih => exact .change (Same.refl _) ih

end Ctx

namespace KE

theorem mkL_one (cfg : Cfg) (b : Base) : mkL cfg .sum [b] [] = comm .sum [(b, 1)] [] := by
  obtain ⟨x, y, z⟩ := cfg
  cases b <;> cases y <;> rfl

/-- What replacing node `S` by `new` in `k` produces. -/
inductive Repl (S new : KE) : KE → KE → Prop
  | here : Repl S new S new
  | term {o : Op} {b : Counter} {l1 l2 : List KE} {y : KE} (h : Same S y) :
      Repl S new (comm o b (l1 ++ y :: l2)) (comm o b (l1 ++ l2 ++ [new]))
  | sub {o : Op} {b : Counter} {l1 l2 : List KE} {a a' : KE} (h : Repl S new a a') :
      Repl S new (comm o b (l1 ++ a :: l2)) (comm o b (l1 ++ a' :: l2))
  | left {c : CC} {l l' r : KE} (h : Repl S new l l') : Repl S new (change c l r) (change c l' r)
  | right {c : CC} {l r r' : KE} (h : Repl S new r r') : Repl S new (change c l r) (change c l r')
  | leafL {c : CC} {b : Base} {r : KE} (h : S = comm .sum [(b, 1)] []) :
      Repl S new (change c (base b) r) (change c (base b) new)
  | leafR {c : CC} {b : Base} {l : KE} (h : S = comm .sum [(b, 1)] []) :
      Repl S new (change c l (base b)) (change c l new)

theorem mem_traverseL {cfg : Cfg} {p : List Step × KE} : ∀ {cs : List KE} {i : Nat},
    p ∈ traverseL cfg i cs ↔ ∃ l1 a l2 q, cs = l1 ++ a :: l2 ∧ p.1 = Step.idx (i + l1.length) :: q ∧ (q, p.2) ∈ traverse cfg a := by
  intro cs
  induction cs with
  | nil => intro i; simp [traverseL]
  | cons k ks ih =>
    intro i
    simp only [traverseL, List.mem_append, List.mem_map, ih]
    constructor
    · rintro (⟨q, hq, rfl⟩ | ⟨l1, a, l2, q, rfl, h1, h2⟩)
      · exact ⟨[], k, ks, q.1, rfl, by simp, hq⟩
      · exact ⟨k :: l1, a, l2, q, rfl, by rw [h1]; simp; omega, h2⟩
    · rintro ⟨l1, a, l2, q, e, h1, h2⟩
      cases l1 with
      | nil =>
        simp only [List.nil_append, List.cons.injEq] at e
        obtain ⟨rfl, rfl⟩ := e
        refine Or.inl ⟨(q, p.2), h2, ?_⟩
        obtain ⟨p1, p2⟩ := p
        simp only [List.length_nil, Nat.add_zero] at h1
        rw [h1]
      | cons x l1 =>
        simp only [List.cons_append, List.cons.injEq] at e
        obtain ⟨rfl, rfl⟩ := e
        exact Or.inr ⟨l1, a, l2, q, rfl, by rw [h1]; simp; omega, h2⟩

/-- Members of `traverse` of a change operator. -/
theorem mem_traverse_change {cfg : Cfg} {c : CC} {l r : KE} {p : List Step} {S : KE} :
    (p, S) ∈ traverse cfg (change c l r) ↔
      (p = [] ∧ S = change c l r) ∨
      (∃ b, l = base b ∧ p = [.vleft] ∧ S = comm .sum [(b, 1)] []) ∨
      (∃ q, p = .left :: q ∧ (q, S) ∈ traverse cfg l) ∨
      (∃ b, r = base b ∧ p = [.vright] ∧ S = comm .sum [(b, 1)] []) ∨
      (∃ q, p = .right :: q ∧ (q, S) ∈ traverse cfg r) := by
  have hm : ∀ (s : Step) (L : List (List Step × KE)), (p, S) ∈ L.map (fun p => (s :: p.1, p.2)) ↔ ∃ q, p = s :: q ∧ (q, S) ∈ L := by
    intro s L
    simp only [List.mem_map, Prod.mk.injEq]
    constructor
    · rintro ⟨q, hq, rfl, rfl⟩; exact ⟨q.1, rfl, hq⟩
    · rintro ⟨q, rfl, hq⟩; exact ⟨(q, S), hq, rfl, rfl⟩
  cases l <;> cases r <;>
    simp only [traverse, List.mem_cons, List.mem_append, Prod.mk.injEq, hm, mkL_one, base.injEq, exists_eq_left',
      reduceCtorEq, false_and, exists_false, false_or, List.not_mem_nil, and_false, or_false]

theorem traverse_nil {cfg : Cfg} {k S : KE} (h : ([], S) ∈ traverse cfg k) : S = k := by
  cases k with
  | base b => simp [traverse] at h
  | comm o b cs =>
    simp only [traverse, List.mem_cons, Prod.mk.injEq, true_and] at h
    rcases h with h | h
    · exact h
    · obtain ⟨_, _, _, _, _, h1, _⟩ := mem_traverseL.1 h
      simp at h1
  | change c l r =>
    rcases mem_traverse_change.1 h with ⟨_, h⟩ | ⟨_, _, h, _⟩ | ⟨_, h, _⟩ | ⟨_, _, h, _⟩ | ⟨_, h, _⟩
    · exact h
    all_goals simp at h

theorem traverse_not_base {cfg : Cfg} {k : KE} : ∀ {p : List Step} {S : KE}, (p, S) ∈ traverse cfg k → S.isBase = false := by
  induction k using KE.ind with
  | base b => intro p S h; simp [traverse] at h
  | comm o b cs ih =>
    intro p S h
    simp only [traverse, List.mem_cons, Prod.mk.injEq] at h
    rcases h with ⟨_, rfl⟩ | h
    · rfl
    · obtain ⟨l1, a, l2, q, rfl, _, h2⟩ := mem_traverseL.1 h
      exact ih a (by simp) h2
  | change c l r hl hr =>
    intro p S h
    rcases mem_traverse_change.1 h with ⟨_, rfl⟩ | ⟨_, _, _, rfl⟩ | ⟨_, _, h⟩ | ⟨_, _, _, rfl⟩ | ⟨_, _, h⟩
    · rfl
    · rfl
    · exact hl h
    · rfl
    · exact hr h

theorem replaceAt_idx {o : Op} {b : Counter} {l1 l2 : List KE} {a new : KE} {q : List Step} (hq : q ≠ []) :
    replaceAt (comm o b (l1 ++ a :: l2)) (Step.idx l1.length :: q) new = comm o b (l1 ++ replaceAt a q new :: l2) := by
  cases q with
  | nil => exact absurd rfl hq
  | cons s q =>
    have h : (l1 ++ a :: l2)[l1.length]? = some a := by simp
    simp only [replaceAt, h]
    simp

theorem replaceAt_idx_nil {o : Op} {b : Counter} {l1 l2 : List KE} {a new : KE} :
    ∃ m1 y m2, l1 ++ a :: l2 = m1 ++ y :: m2 ∧ Same a y ∧ (∀ z ∈ m1, keq a z = false) ∧
      replaceAt (comm o b (l1 ++ a :: l2)) [Step.idx l1.length] new = comm o b (m1 ++ m2 ++ [new]) := by
  have h : (l1 ++ a :: l2)[l1.length]? = some a := by simp
  simp only [replaceAt, h]
  cases hr : removeFirst (fun y => keq a y) (l1 ++ a :: l2) with
  | none =>
    have := removeFirst_eq_none.1 hr a (by simp)
    rw [keq_refl] at this; simp at this
  | some r =>
    obtain ⟨m1, y, m2, e1, e2, h3, h4⟩ := removeFirst_eq_some.1 hr
    exact ⟨m1, y, m2, e1, (keq_iff _ _).1 h3, h4, by simp [e2]⟩

theorem repl_of_traverse {cfg : Cfg} {new : KE} {k : KE} : ∀ {p : List Step} {S : KE}, (p, S) ∈ traverse cfg k →
    Repl S new k (replaceAt k p new) := by
  induction k using KE.ind with
  | base b => intro p S h; simp [traverse] at h
  | comm o b cs ih =>
    intro p S h
    simp only [traverse, List.mem_cons, Prod.mk.injEq] at h
    rcases h with ⟨rfl, rfl⟩ | h
    · rw [replaceAt]; exact Repl.here
    · obtain ⟨l1, a, l2, q, rfl, h1, h2⟩ := mem_traverseL.1 h
      simp only [Nat.zero_add] at h1
      subst h1
      by_cases hq : q = []
      · subst hq
        have := traverse_nil h2
        simp only at this; subst this
        obtain ⟨m1, y, m2, e1, e2, _, e3⟩ := replaceAt_idx_nil (o := o) (b := b) (l1 := l1) (l2 := l2) (a := S) (new := new)
        rw [e3, e1]
        exact Repl.term e2
      · rw [replaceAt_idx hq]
        exact Repl.sub (ih a (by simp) h2)
  | change c l r hl hr =>
    intro p S h
    rcases mem_traverse_change.1 h with ⟨rfl, rfl⟩ | ⟨b, rfl, rfl, rfl⟩ | ⟨q, rfl, hq⟩ | ⟨b, rfl, rfl, rfl⟩ | ⟨q, rfl, hq⟩
    · rw [replaceAt]; exact Repl.here
    · rw [replaceAt]; exact Repl.leafL rfl
    · rw [replaceAt]; exact Repl.left (hl hq)
    · rw [replaceAt]; exact Repl.leafR rfl
    · rw [replaceAt]; exact Repl.right (hr hq)

/-! ## Occurrences as contexts -/

theorem same_move {o : Op} {b : Counter} {l1 l2 m1 m2 : List KE} {S y new : KE}
    (e : l1 ++ S :: l2 = m1 ++ y :: m2) (h : Same S y) (hm : ∀ z ∈ m1, keq S z = false) :
    Same (comm o b (m1 ++ m2 ++ [new])) (comm o b (l1 ++ new :: l2)) := by
  refine SameL.same (fun _ => rfl) ?_
  rcases List.append_eq_append_iff.1 e with ⟨t, ht, h2⟩ | ⟨t, ht, h2⟩
  · -- m1 = l1 ++ t
    cases t with
    | nil =>
      simp only [List.append_nil] at ht
      simp only [List.nil_append, List.cons.injEq] at h2
      rw [ht, h2.2, List.append_assoc]
      exact SameL.of_perm ((List.perm_append_comm).append_left _)
    | cons z t =>
      simp only [List.cons_append, List.cons.injEq] at h2
      have := hm S (by rw [ht, h2.1]; simp)
      rw [keq_refl] at this; simp at this
  · cases t with
    | nil =>
      simp only [List.append_nil] at ht
      simp only [List.nil_append, List.cons.injEq] at h2
      rw [ht, ← h2.2, List.append_assoc]
      exact SameL.of_perm ((List.perm_append_comm).append_left _)
    | cons z t =>
      simp only [List.cons_append, List.cons.injEq] at h2
      obtain ⟨rfl, rfl⟩ := h2
      subst ht
      refine (SameL.of_perm (cs' := S :: (m1 ++ t ++ new :: l2)) ?_).trans ((SameL.cons h (SameL.refl _)).trans (SameL.of_perm ?_))
      · rw [List.append_assoc, List.append_assoc, List.append_assoc, List.cons_append]
        refine ((perm_middle (a := S)).append_left m1).trans ?_
        refine perm_middle.trans (Perm.cons _ ?_)
        exact ((perm_append_comm (l₁ := l2) (l₂ := [new])).append_left t).append_left m1
      · rw [List.append_assoc, List.append_assoc, List.cons_append]
        exact perm_middle.symm

/-- What a position of `traverse` means: an occurrence, and what replacing there gives. -/
structure Occ (k : KE) (p : List Step) (C : Ctx) (x : KE) : Prop where
  eq : k = C.plug x
  repl : (C.endsLeft && x.isBase) = false → ∀ new, Same (replaceAt k p new) (C.plug new)
  slip : (C.endsLeft && x.isBase) = true → ∃ D c y, C = Ctx.comp D (.left c .hole y) ∧
    ∀ new, replaceAt k p new = D.plug (change c x new)

theorem occ_idx {o : Op} {b : Counter} {l1 l2 : List KE} {a x : KE} {q : List Step} {C : Ctx} (h : Occ a q C x)
    (hq : q = [] → C = .hole ∧ x = a) (hb : a.isBase = false) :
    Occ (comm o b (l1 ++ a :: l2)) (.idx l1.length :: q) (.comm o b l1 C l2) x := by
  refine ⟨by rw [Ctx.plug, ← h.eq], ?_, ?_⟩
  · intro hl new
    by_cases e : q = []
    · obtain ⟨rfl, rfl⟩ := hq e
      subst e
      obtain ⟨m1, y, m2, e1, e2, e4, e3⟩ := replaceAt_idx_nil (o := o) (b := b) (l1 := l1) (l2 := l2) (a := x) (new := new)
      rw [e3]
      exact same_move e1 e2 e4
    · rw [replaceAt_idx e]
      exact SameL.same (fun _ => rfl) (SameL.append (SameL.refl _) (SameL.cons (h.repl hl new) (SameL.refl _)))
  · intro hl
    obtain ⟨D, c, y, e, h2⟩ := h.slip hl
    refine ⟨.comm o b l1 D l2, c, y, by rw [e]; rfl, fun new => ?_⟩
    have hq' : q ≠ [] := by
      rintro rfl; obtain ⟨rfl, _⟩ := hq rfl; simp [Ctx.endsLeft] at hl
    rw [replaceAt_idx hq', h2]; rfl

theorem nodeOf_of_not_base {k : KE} (h : k.isBase = false) : nodeOf k = k := by
  cases k <;> simp_all [nodeOf, isBase]

theorem endsLeft_left {c : CC} {C : Ctx} {r : KE} (h : C ≠ .hole) : (Ctx.left c C r).endsLeft = C.endsLeft := by
  cases C <;> simp_all [Ctx.endsLeft]

/-- Every position of `traverse` is an occurrence. -/
theorem traverse_occ {cfg : Cfg} {k : KE} : ∀ {p : List Step} {S : KE}, (p, S) ∈ traverse cfg k →
    ∃ C x, S = nodeOf x ∧ (p = [] → C = .hole ∧ x = k) ∧ (C = .hole → x = S) ∧ Occ k p C x := by
  induction k using KE.ind with
  | base b => intro p S h; simp [traverse] at h
  | comm o b cs ih =>
    intro p S h
    simp only [traverse, List.mem_cons, Prod.mk.injEq] at h
    rcases h with ⟨rfl, rfl⟩ | h
    · exact ⟨.hole, _, rfl, fun _ => ⟨rfl, rfl⟩, fun _ => rfl, rfl, fun _ new => by rw [replaceAt]; exact Same.refl _, by simp [Ctx.endsLeft]⟩
    · obtain ⟨l1, a, l2, q, rfl, h1, h2⟩ := mem_traverseL.1 h
      simp only [Nat.zero_add] at h1
      subst h1
      obtain ⟨C, x, e1, e2, e3, hO⟩ := ih a (by simp) h2
      have hab : a.isBase = false := by
        cases a with
        | base _ => simp [traverse] at h2
        | _ => rfl
      exact ⟨.comm o b l1 C l2, x, e1, by simp, by simp, occ_idx hO e2 hab⟩
  | change c l r hl hr =>
    intro p S h
    rcases mem_traverse_change.1 h with ⟨rfl, rfl⟩ | ⟨b, rfl, rfl, rfl⟩ | ⟨q, rfl, hq⟩ | ⟨b, rfl, rfl, rfl⟩ | ⟨q, rfl, hq⟩
    · exact ⟨.hole, _, rfl, fun _ => ⟨rfl, rfl⟩, fun _ => rfl, rfl, fun _ new => by rw [replaceAt]; exact Same.refl _, by simp [Ctx.endsLeft]⟩
    · refine ⟨.left c .hole r, base b, rfl, by simp, by simp, rfl, by simp [Ctx.endsLeft, isBase], fun _ => ⟨.hole, c, r, rfl, fun new => by rw [replaceAt]; rfl⟩⟩
    · obtain ⟨C, x, e1, e2, e3, hO⟩ := hl hq
      have hx : C = .hole → x.isBase = false := fun h => by rw [e3 h]; exact traverse_not_base hq
      refine ⟨.left c C r, x, e1, by simp, by simp, by rw [Ctx.plug, ← hO.eq], ?_, ?_⟩
      · intro he new
        rw [replaceAt]
        refine Same.change (hO.repl ?_ new) (Same.refl _)
        by_cases hC : C = .hole
        · rw [hC]; rfl
        · rw [endsLeft_left hC] at he; exact he
      · intro he
        have hC : C ≠ .hole := by
          intro hC; rw [hx hC] at he; simp at he
        rw [endsLeft_left hC] at he
        obtain ⟨D, c', y, e, h2⟩ := hO.slip he
        exact ⟨.left c D r, c', y, by rw [e]; rfl, fun new => by rw [replaceAt, h2]; rfl⟩
    · refine ⟨.right c l .hole, base b, rfl, by simp, by simp, rfl, fun _ new => by rw [replaceAt]; exact Same.refl _, by simp [Ctx.endsLeft]⟩
    · obtain ⟨C, x, e1, e2, e3, hO⟩ := hr hq
      refine ⟨.right c l C, x, e1, by simp, by simp, by rw [Ctx.plug, ← hO.eq], ?_, ?_⟩
      · intro he new
        rw [replaceAt]
        exact Same.change (Same.refl _) (hO.repl he new)
      · intro he
        obtain ⟨D, c', y, e, h2⟩ := hO.slip he
        exact ⟨.right c l D, c', y, by rw [e]; rfl, fun new => by rw [replaceAt, h2]; rfl⟩

/-- Every occurrence is visited by `traverse`. -/
theorem occ_traverse {cfg : Cfg} (C : Ctx) : ∀ {x : KE}, wf (C.plug x) = true → (C.plug x).isBase = false →
    ∃ p, (p, nodeOf x) ∈ traverse cfg (C.plug x) ∧ (p = [] → C = .hole) ∧ Occ (C.plug x) p C x := by
  induction C with
  | hole =>
    intro x _ hb
    refine ⟨[], ?_, fun _ => rfl, rfl, fun _ new => by rw [replaceAt]; exact Same.refl _, by simp [Ctx.endsLeft]⟩
    rw [Ctx.plug] at hb ⊢
    rw [nodeOf_of_not_base hb]
    cases x with
    | base b => simp [isBase] at hb
    | comm _ _ _ => simp [traverse]
    | change _ _ _ => exact mem_traverse_change.2 (Or.inl ⟨rfl, rfl⟩)
  | comm o b l1 C l2 ih =>
    intro x hw _
    rw [Ctx.plug] at hw ⊢
    have hc := (wf_comm.1 hw).2.2 (C.plug x) (by simp)
    obtain ⟨p, h1, h2, h3⟩ := ih hc.2 hc.1
    refine ⟨.idx l1.length :: p, ?_, by simp, occ_idx h3 (fun e => ⟨h2 e, ?_⟩) hc.1⟩
    · rw [traverse, List.mem_cons]
      exact Or.inr (mem_traverseL.2 ⟨l1, _, l2, p, rfl, by simp, h1⟩)
    · rw [h2 e]; rfl
  | left c C r ih =>
    intro x hw _
    rw [Ctx.plug] at hw ⊢
    by_cases hb : (C.plug x).isBase = true
    · cases C with
      | hole =>
        cases x with
        | base b =>
          exact ⟨[.vleft], mem_traverse_change.2 (Or.inr (Or.inl ⟨b, rfl, rfl, rfl⟩)), by simp, rfl, by simp [Ctx.endsLeft, isBase],
            fun _ => ⟨.hole, c, r, rfl, fun new => by rw [Ctx.plug, replaceAt]; rfl⟩⟩
        | comm _ _ _ => simp [Ctx.plug, isBase] at hb
        | change _ _ _ => simp [Ctx.plug, isBase] at hb
      | comm _ _ _ _ _ => simp [Ctx.plug, isBase] at hb
      | left _ _ _ => simp [Ctx.plug, isBase] at hb
      | right _ _ _ => simp [Ctx.plug, isBase] at hb
    · have hb' : (C.plug x).isBase = false := by simpa using hb
      obtain ⟨p, h1, h2, h3⟩ := ih (wf_change.1 hw).1 hb'
      refine ⟨.left :: p, mem_traverse_change.2 (Or.inr (Or.inr (Or.inl ⟨p, rfl, h1⟩))), by simp, rfl, ?_, ?_⟩
      · intro he new
        rw [replaceAt]
        refine Same.change (h3.repl ?_ new) (Same.refl _)
        by_cases hC : C = .hole
        · rw [hC]; rfl
        · rw [endsLeft_left hC] at he; exact he
      · intro he
        have hC : C ≠ .hole := by
          rintro rfl; rw [Ctx.plug] at hb'; rw [hb'] at he; simp at he
        rw [endsLeft_left hC] at he
        obtain ⟨D, c', y, e, h2⟩ := h3.slip he
        exact ⟨.left c D r, c', y, by rw [e]; rfl, fun new => by rw [replaceAt, h2]; rfl⟩
  | right c l C ih =>
    intro x hw _
    rw [Ctx.plug] at hw ⊢
    by_cases hb : (C.plug x).isBase = true
    · cases C with
      | hole =>
        cases x with
        | base b =>
          exact ⟨[.vright], mem_traverse_change.2 (Or.inr (Or.inr (Or.inr (Or.inl ⟨b, rfl, rfl, rfl⟩)))), by simp, rfl,
            fun _ new => by rw [Ctx.plug, replaceAt]; exact Same.refl _, by simp [Ctx.endsLeft]⟩
        | comm _ _ _ => simp [Ctx.plug, isBase] at hb
        | change _ _ _ => simp [Ctx.plug, isBase] at hb
      | comm _ _ _ _ _ => simp [Ctx.plug, isBase] at hb
      | left _ _ _ => simp [Ctx.plug, isBase] at hb
      | right _ _ _ => simp [Ctx.plug, isBase] at hb
    · have hb' : (C.plug x).isBase = false := by simpa using hb
      obtain ⟨p, h1, h2, h3⟩ := ih (wf_change.1 hw).2 hb'
      refine ⟨.right :: p, mem_traverse_change.2 (Or.inr (Or.inr (Or.inr (Or.inr ⟨p, rfl, h1⟩)))), by simp, rfl, ?_, ?_⟩
      · intro he new
        rw [replaceAt]
        exact Same.change (Same.refl _) (h3.repl he new)
      · intro he
        obtain ⟨D, c', y, e, h2⟩ := h3.slip he
        exact ⟨.right c l D, c', y, by rw [e]; rfl, fun new => by rw [replaceAt, h2]; rfl⟩

/-! ## Standardisation -/

theorem nodesL'_eq_of {cs : List KE} (h : ∀ k ∈ cs, standardise.nodes' k = nodes k) : standardise.nodesL' cs = nodesL cs := by
  induction cs with
  | nil => rfl
  | cons k ks ih => rw [standardise.nodesL', nodesL, h k (by simp), ih (fun x hx => h x (by simp [hx]))]

theorem nodes'_eq (k : KE) : standardise.nodes' k = nodes k := by
  induction k using KE.ind with
  | base b => rfl
  | comm o b cs ih => rw [standardise.nodes', nodes, nodesL'_eq_of ih]
  | change c l r hl hr => rw [standardise.nodes', nodes, hl, hr]

theorem length_elements_of_pos {c : Counter} (h : c.Pos) : (c.elements.length : Int) = c.total := by
  induction c with
  | nil => rfl
  | cons p r ih =>
    have hp := h p (by simp)
    have := ih (fun q hq => h q (by simp [hq]))
    simp only [Counter.elements, Counter.total, List.flatMap_cons, List.length_append, List.length_replicate, List.map_cons, List.sum_cons] at this ⊢
    omega

theorem extractsSelf_eq {k : KE} (h : wf k = true) : extractsSelf k = !isSingleton k := by
  cases k with
  | base b => rfl
  | change _ _ _ => rfl
  | comm o c cs =>
    have hp := (wf_comm.1 h).2.1
    have hl := length_elements_of_pos hp
    have : ((decide (c.total = 1) && cs.isEmpty) || (decide (c.total = 0) && decide (cs.length = 1))) = decide (c.elements.length + cs.length = 1) := by
      rw [Bool.eq_iff_iff]
      simp only [Bool.or_eq_true, Bool.and_eq_true, decide_eq_true_eq, List.isEmpty_iff, ← List.length_eq_zero_iff]
      omega
    simp only [extractsSelf, isSingleton, this]

/-- The shape of a one-term node. -/
theorem singleton_cases {k : KE} (hw : wf k = true) (h : isSingleton k = true) :
    (∃ o b, k = comm o [(b, 1)] [] ∧ extract k = base b) ∨
    (∃ o ct, k = comm o [] [ct] ∧ extract k = ct ∧ ct.isBase = false ∧ wf ct = true) := by
  cases k with
  | base b => simp [isSingleton] at h
  | change _ _ _ => simp [isSingleton] at h
  | comm o c cs =>
    obtain ⟨hc, hp, hcs⟩ := wf_comm.1 hw
    simp only [isSingleton, decide_eq_true_eq] at h
    have hl := length_elements_of_pos hp
    by_cases h0 : c.total = 0
    · have hcn := (Counter.total_eq_zero hp).1 h0
      subst hcn
      have : cs.length = 1 := by simpa [Counter.elements] using h
      obtain ⟨ct, rfl⟩ := List.length_eq_one_iff.1 this
      exact Or.inr ⟨o, ct, rfl, by simp [extract, Counter.elements, Counter.total], hcs ct (by simp)⟩
    · have h1 : c.total = 1 := by have := Counter.total_nonneg hp; omega
      have hcs0 : cs = [] := by rw [← List.length_eq_zero_iff]; omega
      subst hcs0
      obtain ⟨b, rfl⟩ := Counter.total_eq_one hp h1
      exact Or.inl ⟨o, b, rfl, by simp [extract, Counter.elements, Counter.total]⟩

/-- Induction along standardisation, with termination. -/
theorem standardiseF_ind {cfg : Cfg} (Q : KE → Prop) (hs : ∀ k, wf k = true → Q k → Q (simplify cfg k))
    (h1 : ∀ o b, Q (comm o [(b, 1)] []) → Q (comm .sum [(b, 1)] []))
    (h2 : ∀ o ct, Q (comm o [] [ct]) → Q ct) : ∀ (n : Nat) (k : KE), wf k = true → k.isBase = false → Q k → nodes k < n →
    ∃ r, standardiseF cfg n k = some r ∧ Q r ∧ wf r = true ∧ r.isBase = false ∧
      ((isSingleton r = false ∧ ∃ k', wf k' = true ∧ r = simplify cfg k') ∨ ∃ b, r = comm .sum [(b, 1)] []) := by
  intro n
  induction n with
  | zero => intro k _ _ _ h; omega
  | succ n ih =>
    intro k hw hb hQ hn
    have hws := wf_simplify cfg k hw
    have hQs := hs k hw hQ
    have hbs : (simplify cfg k).isBase = false := by rw [isBase_simplify]; exact hb
    rw [standardiseF]
    simp only [extractsSelf_eq hws]
    by_cases hsing : isSingleton (simplify cfg k) = true
    · simp only [hsing, Bool.not_true, Bool.false_eq_true, if_false]
      rcases singleton_cases hws hsing with ⟨o, b, e, ex⟩ | ⟨o, ct, e, ex, hcb, hcw⟩
      · rw [ex]
        refine ⟨comm .sum [(b, 1)] [], by simp only [mkL_one], h1 o b (e ▸ hQs), ?_, rfl, Or.inr ⟨b, rfl⟩⟩
        cases b <;> rfl
      · rw [ex]
        have hnn : nodes ct < n := by
          have := nodes_simplify_le cfg k hw
          rw [e] at this; simp only [nodes, nodesL] at this; omega
        obtain ⟨r, hr⟩ := ih ct hcw hcb (h2 o ct (e ▸ hQs)) hnn
        refine ⟨r, ?_, hr.2⟩
        cases ct with
        | base b => simp [isBase] at hcb
        | comm _ _ _ => exact hr.1
        | change _ _ _ => exact hr.1
    · have hsing' : isSingleton (simplify cfg k) = false := by simpa using hsing
      simp only [hsing', Bool.not_false, if_true]
      exact ⟨_, rfl, hQs, hws, hbs, Or.inl ⟨hsing', k, hw, rfl⟩⟩

theorem standardise_ind {cfg : Cfg} (Q : KE → Prop) (hs : ∀ k, wf k = true → Q k → Q (simplify cfg k))
    (h1 : ∀ o b, Q (comm o [(b, 1)] []) → Q (comm .sum [(b, 1)] []))
    (h2 : ∀ o ct, Q (comm o [] [ct]) → Q ct) {k : KE} (hw : wf k = true) (hb : k.isBase = false) (hQ : Q k) :
    Q (standardise cfg k) ∧ wf (standardise cfg k) = true ∧ (standardise cfg k).isBase = false ∧
      ((isSingleton (standardise cfg k) = false ∧ ∃ k', wf k' = true ∧ standardise cfg k = simplify cfg k') ∨
        ∃ b, standardise cfg k = comm .sum [(b, 1)] []) := by
  obtain ⟨r, e, h⟩ := standardiseF_ind Q hs h1 h2 (nodes k + 1) k hw hb hQ (by omega)
  rw [standardise, nodes'_eq, e]
  exact h

theorem isSingleton_same {a b : KE} (ha : wf a = true) (hb : wf b = true) (h : Same a b) : isSingleton a = isSingleton b := by
  cases h with
  | base _ => rfl
  | change _ _ => rfl
  | @comm o c c' cs ds cs' hc hf hp =>
    have h1 := (wf_comm.1 ha)
    have h2 := (wf_comm.1 hb)
    have hperm : c.elements.Perm c'.elements := by
      rw [List.perm_iff_count]; intro x
      rw [Counter.count_elements h1.1, Counter.count_elements h2.1, hc]
    simp only [isSingleton, hperm.length_eq, hf.length_eq, hp.length_eq]

theorem standardiseF_same {cfg : Cfg} : ∀ (n : Nat) {a b r : KE}, wf a = true → wf b = true → Same a b → standardiseF cfg n a = some r →
    ∃ r', standardiseF cfg n b = some r' ∧ Same r r' := by
  intro n
  induction n with
  | zero => intro a b r _ _ _ h; simp [standardiseF] at h
  | succ n ih =>
    intro a b r ha hb hS h
    have hsa := wf_simplify cfg a ha
    have hsb := wf_simplify cfg b hb
    have hss := simplify_same cfg a b ha hb hS
    have hex := extract_same hsa hsb hss
    have hsing := isSingleton_same hsa hsb hss
    rw [standardiseF] at h ⊢
    simp only [extractsSelf_eq hsa] at h
    simp only [extractsSelf_eq hsb, ← hsing]
    by_cases hs : isSingleton (simplify cfg a) = true
    · simp only [hs, Bool.not_true, Bool.false_eq_true, if_false] at h ⊢
      have w1 := wf_extract hsa
      have w2 := wf_extract hsb
      generalize extract (simplify cfg a) = ea at *
      generalize extract (simplify cfg b) = eb at *
      cases hex with
      | base x => exact ⟨r, h, Same.refl _⟩
      | comm hc hf hp => exact ih w1 w2 (.comm hc hf hp) h
      | change h1 h2 => exact ih w1 w2 (.change h1 h2) h
    · have hs' : isSingleton (simplify cfg a) = false := by simpa using hs
      simp only [hs', Bool.not_false, if_true, Option.some.injEq] at h ⊢
      subst h
      exact ⟨_, rfl, hss⟩

theorem standardise_same {cfg : Cfg} {a b : KE} (ha : wf a = true) (hb : wf b = true) (h : Same a b) :
    Same (standardise cfg a) (standardise cfg b) := by
  rw [standardise, standardise, nodes'_eq, nodes'_eq, ← nodes_same h]
  cases e : standardiseF cfg (nodes a + 1) a with
  | none =>
    cases e' : standardiseF cfg (nodes a + 1) b with
    | none => exact h
    | some r =>
      obtain ⟨r', h1, _⟩ := standardiseF_same _ hb ha h.symm e'
      rw [e] at h1; simp at h1
  | some r =>
    obtain ⟨r', h1, h2⟩ := standardiseF_same _ ha hb h e
    rw [h1]; exact h2

/-- `wf` only depends on the expression up to reordering, given the counters. -/
theorem wf_plug {C : Ctx} {x new : KE} (h : wf (C.plug x) = true) (hn : wf new = true) (hb : new.isBase = false) :
    wf (C.plug new) = true ∧ (C.plug new).isBase = false := by
  induction C with
  | hole => exact ⟨hn, hb⟩
  | comm o b l1 C l2 ih =>
    simp only [Ctx.plug] at h ⊢
    obtain ⟨h1, h2, h3⟩ := wf_comm.1 h
    have := ih (h3 _ (by simp)).2
    refine ⟨wf_comm.2 ⟨h1, h2, ?_⟩, rfl⟩
    intro k hk
    simp only [List.mem_append, List.mem_cons] at hk
    rcases hk with hk | rfl | hk
    · exact h3 k (by simp [hk])
    · exact ⟨this.2, this.1⟩
    · exact h3 k (by simp [hk])
  | left c C r ih =>
    simp only [Ctx.plug] at h ⊢
    have := wf_change.1 h
    exact ⟨wf_change.2 ⟨(ih this.1).1, this.2⟩, rfl⟩
  | right c l C ih =>
    simp only [Ctx.plug] at h ⊢
    have := wf_change.1 h
    exact ⟨wf_change.2 ⟨this.1, (ih this.2).1⟩, rfl⟩

theorem repl_wf {S new k k' : KE} (h : Repl S new k k') (hk : wf k = true) (hn : wf new = true) (hb : new.isBase = false) :
    wf k' = true ∧ k'.isBase = false := by
  induction h with
  | here => exact ⟨hn, hb⟩
  | @term o b l1 l2 y hS =>
    obtain ⟨h1, h2, h3⟩ := wf_comm.1 hk
    refine ⟨wf_comm.2 ⟨h1, h2, ?_⟩, rfl⟩
    intro k hk
    simp only [List.mem_append, List.mem_singleton] at hk
    rcases hk with (hk | hk) | rfl
    · exact h3 k (by simp [hk])
    · exact h3 k (by simp [hk])
    · exact ⟨hb, hn⟩
  | @sub o b l1 l2 a a' _ ih =>
    obtain ⟨h1, h2, h3⟩ := wf_comm.1 hk
    have := ih (h3 a (by simp)).2
    refine ⟨wf_comm.2 ⟨h1, h2, ?_⟩, rfl⟩
    intro k hk
    simp only [List.mem_append, List.mem_cons] at hk
    rcases hk with hk | rfl | hk
    · exact h3 k (by simp [hk])
    · exact ⟨this.2, this.1⟩
    · exact h3 k (by simp [hk])
  | left _ ih => have := wf_change.1 hk; exact ⟨wf_change.2 ⟨(ih this.1).1, this.2⟩, rfl⟩
  | right _ ih => have := wf_change.1 hk; exact ⟨wf_change.2 ⟨this.1, (ih this.2).1⟩, rfl⟩
  | leafL _ => have := wf_change.1 hk; exact ⟨wf_change.2 ⟨this.1, hn⟩, rfl⟩
  | leafR _ => have := wf_change.1 hk; exact ⟨wf_change.2 ⟨this.1, hn⟩, rfl⟩

theorem mem_expandNode {rules : List Rule} {S new : KE} (h : new ∈ expandNode rules S) : ∃ rule ∈ rules, new ∈ rule S := by
  obtain ⟨r, hr, h2⟩ := List.mem_flatMap.1 ((Util.uniqueGo_sublist _ _ _).subset h)
  exact ⟨r, hr, h2⟩

theorem mem_expand {cfg : Cfg} {rules : List Rule} {k r : KE} (h : r ∈ expand cfg rules k) :
    ∃ p S, (p, S) ∈ traverse cfg k ∧ ∃ rule ∈ rules, ∃ new ∈ rule S, r = standardise cfg (replaceAt k p new) := by
  obtain ⟨⟨p, S⟩, hp, h2⟩ := List.mem_flatMap.1 ((Util.uniqueGo_sublist _ _ _).subset h)
  obtain ⟨new, hn, rfl⟩ := List.mem_map.1 h2
  obtain ⟨rule, hr, h3⟩ := mem_expandNode hn
  exact ⟨p, S, hp, rule, hr, new, h3, rfl⟩

/-- Every result of a rule at a visited node is represented. -/
theorem expand_mem {cfg : Cfg} {rules : List Rule} {k S new : KE} {p : List Step} {rule : Rule} (hp : (p, S) ∈ traverse cfg k)
    (hr : rule ∈ rules) (hn : new ∈ rule S) :
    ∃ new', Same new' new ∧ (∃ rule' ∈ rules, new' ∈ rule' S) ∧ ∃ r ∈ expand cfg rules k, Same r (standardise cfg (replaceAt k p new')) := by
  have h1 : new ∈ rules.flatMap (fun r => r S) := List.mem_flatMap.2 ⟨rule, hr, hn⟩
  rcases Util.uniqueGo_repr isEqv_keq [] _ new h1 with ⟨s, hs, _⟩ | ⟨n', hn', e'⟩
  · simp at hs
  · refine ⟨n', ((keq_iff _ _).1 (by simpa using List.find?_some e')).symm, mem_expandNode hn', ?_⟩
    have h2 : standardise cfg (replaceAt k p n') ∈ (traverse cfg k).flatMap (fun pS =>
        (expandNode rules pS.2).map (fun new => standardise cfg (replaceAt k pS.1 new))) :=
      List.mem_flatMap.2 ⟨(p, S), hp, List.mem_map.2 ⟨n', hn', rfl⟩⟩
    rcases Util.uniqueGo_repr isEqv_keq [] _ _ h2 with ⟨s, hs, _⟩ | ⟨r, hr, e⟩
    · simp at hs
    · exact ⟨r, hr, ((keq_iff _ _).1 (by simpa using List.find?_some e)).symm⟩

end KE
end GPyABCD
