import Verif.Lemmas.Attain
import Verif.Props.Expand
import Verif.Lemmas.SemSame

/-!
# Limits of families within expressions
-/

namespace GPyABCD
open scoped Pointwise
open KE Kern Params Sops Filter Topology

/-- All of one family are limits of the other. -/
def TendsAll (A B : Fam) : Prop := ∀ f ∈ A, Tends B f

namespace TendsAll
variable {A A' B B' : Fam}

theorem refl (A : Fam) : TendsAll A A := fun f hf => ⟨fun _ => f, fun _ => hf, fun _ _ => tendsto_const_nhds⟩

theorem add (h1 : TendsAll A A') (h2 : TendsAll B B') : TendsAll (A + B) (A' + B') := by
  rintro _ ⟨f, hf, g, hg, rfl⟩
  obtain ⟨F, a1, a2⟩ := h1 f hf
  obtain ⟨G, b1, b2⟩ := h2 g hg
  exact ⟨fun m => F m + G m, fun m => Set.add_mem_add (a1 m) (b1 m), fun x y => (a2 x y).add (b2 x y)⟩

theorem mul (h1 : TendsAll A A') (h2 : TendsAll B B') : TendsAll (A * B) (A' * B') := by
  rintro _ ⟨f, hf, g, hg, rfl⟩
  obtain ⟨F, a1, a2⟩ := h1 f hf
  obtain ⟨G, b1, b2⟩ := h2 g hg
  exact ⟨fun m => F m * G m, fun m => Set.mul_mem_mul (a1 m) (b1 m), fun x y => (a2 x y).mul (b2 x y)⟩

theorem chg {cfg : Cfg} {c : CC} (h1 : TendsAll A A') (h2 : TendsAll B B') : TendsAll (chgFam cfg c A B) (chgFam cfg c A' B') := by
  rintro _ ⟨f, hf, g, hg, p, hp, rfl⟩
  obtain ⟨F, a1, a2⟩ := h1 f hf
  obtain ⟨G, b1, b2⟩ := h2 g hg
  refine ⟨fun m => changeK (F m) (G m) p.1 p.2, fun m => ⟨_, a1 m, _, b1 m, p, hp, rfl⟩, fun x y => ?_⟩
  exact ((a2 x y).mul_const _).add ((b2 x y).mul_const _)

theorem fold (o : Op) {l l' : List Fam} (h : List.Forall₂ TendsAll l l') : TendsAll (opFold o l) (opFold o l') := by
  induction h with
  | nil => exact refl _
  | cons h _ ih =>
    cases o with
    | sum => simp only [opFold, List.sum_cons] at ih ⊢; exact add h ih
    | prod => simp only [opFold, List.prod_cons] at ih ⊢; exact mul h ih

end TendsAll

theorem forall2_refl (l : List Fam) : List.Forall₂ TendsAll l l := List.forall₂_same.2 fun A _ => TendsAll.refl A

theorem plug_tends (cfg : Cfg) (C : Ctx) {x y : KE} (h : TendsAll (den (realI cfg posV) x) (den (realI cfg posV) y)) :
    TendsAll (den (realI cfg posV) (C.plug x)) (den (realI cfg posV) (C.plug y)) := by
  induction C with
  | hole => exact h
  | comm o b l1 C l2 ih =>
    simp only [Ctx.plug, den, denL_eq, List.map_append, List.map_cons]
    refine TendsAll.fold o ?_
    refine List.rel_append (forall2_refl _) (List.rel_append (forall2_refl _) (.cons ih (forall2_refl _)))
  | left c C r ih => exact TendsAll.chg ih (TendsAll.refl _)
  | right c l C ih => exact TendsAll.chg (TendsAll.refl _) ih

theorem forall2_mem {α β : Type*} {R : α → β → Prop} {l : List α} {m : List β} (h : List.Forall₂ R l m) {y : β} (hy : y ∈ m) : ∃ x ∈ l, R x y := by
  induction h with
  | nil => cases hy
  | cons h _ ih =>
    rcases List.mem_cons.1 hy with rfl | hy
    · exact ⟨_, by simp, h⟩
    · obtain ⟨x, hx, h'⟩ := ih hy
      exact ⟨x, by simp [hx], h'⟩

theorem linCOK_perm {cfg : Cfg} {l m : List Base} (h : l ⊆ m) (hl : LinCOK cfg m) : LinCOK cfg l :=
  hl.imp_right (Or.imp (fun h1 h2 => h1 (h h2)) fun h1 h2 => h1 (h h2))

theorem operand_base (b : Base) : operand (base b) = true := by cases b <;> decide

theorem add_tends (cfg : Cfg) {S : KE} {b : Base} (hS : operand S = true) (hb : b.isSigmoid = false) (hnb : S.isBase = false)
    (hl : LinCOK cfg (bases S ++ [b])) {new : KE} (h : new ∈ KE.add cfg S (base b)) : TendsAll (den (realI cfg posV) S) (den (realI cfg posV) new) := by
  have sb : ∀ x ∈ bases (base b), x.isSigmoid = false := by simpa [bases] using hb
  obtain ⟨r, rest, e, hd⟩ := C13_add_sum_partial cfg S (base b) hS (operand_base b) (realI cfg posV) (.inr ⟨rfl, by simpa [bases] using hl⟩)
  rw [e] at h
  rcases List.mem_cons.1 h with rfl | h
  · intro f hf
    rw [hd]
    exact tends_add cfg sb (operand_iff.1 (operand_base b)).2.1 hf
  · cases S with
    | base _ => cases hnb
    | change _ _ _ => simp only [KE.add, addNested, List.cons.injEq] at e; rw [← e.2] at h; cases h
    | comm o c cs =>
      cases o with
      | sum => simp only [KE.add, addNested, List.cons.injEq] at e; rw [← e.2] at h; cases h
      | prod =>
        obtain ⟨r', rest', e', hf⟩ := C15_add_nested_partial cfg b c cs hS (realI cfg posV) (.inr ⟨rfl, linCOK_perm (by intro x hx; simpa [or_comm] using hx) hl⟩)
        rw [e, List.cons.injEq] at e'
        rw [e'.2] at h
        obtain ⟨bt, _, X, e1, e2⟩ := forall2_mem hf h
        rw [e1, e2]
        refine TendsAll.mul (fun f hf => ?_) (TendsAll.refl _)
        obtain ⟨F, q1, q2⟩ := tends_add cfg sb (operand_iff.1 (operand_base b)).2.1 hf
        refine ⟨F, fun m => ?_, q2⟩
        obtain ⟨f1, hf1, f2, hf2, e3⟩ := q1 m
        rw [e3]
        refine ⟨f2, hf2, f1, hf1, ?_⟩
        funext x y
        exact add_comm _ _

theorem multiply_tends (cfg : Cfg) {S : KE} {b : Base} (hS : operand S = true) (hb : b.isSigmoid = false) (hw : b ≠ .WN) (ho : b = .LIN → cfg.linOffset = true)
    (hnb : S.isBase = false) (hl : LinCOK cfg (bases S ++ [b])) {new : KE} (h : new ∈ KE.multiply cfg S (base b)) :
    TendsAll (den (realI cfg posV) S) (den (realI cfg posV) new) := by
  obtain ⟨r, rest, e, hd⟩ := C14_multiply_product_partial cfg S (base b) hS (operand_base b) (realI cfg posV) (.inr ⟨rfl, by simpa [bases] using hl⟩)
  rw [e] at h
  rcases List.mem_cons.1 h with rfl | h
  · intro f hf
    rw [hd]
    exact tends_mul hf (tends_one cfg hb hw ho)
  · cases S with
    | base _ => cases hnb
    | change _ _ _ => simp only [KE.multiply, mulNested, List.cons.injEq] at e; rw [← e.2] at h; cases h
    | comm o c cs =>
      cases o with
      | prod => simp only [KE.multiply, mulNested, List.cons.injEq] at e; rw [← e.2] at h; cases h
      | sum =>
        obtain ⟨r', rest', e', hf⟩ := C15_multiply_nested_partial cfg b c cs hS (realI cfg posV) (.inr ⟨rfl, linCOK_perm (by intro x hx; simpa [or_comm] using hx) hl⟩)
        rw [e, List.cons.injEq] at e'
        rw [e'.2] at h
        obtain ⟨bt, _, X, e1, e2⟩ := forall2_mem hf h
        rw [e1, e2]
        refine TendsAll.add (fun f hf => ?_) (TendsAll.refl _)
        obtain ⟨F, q1, q2⟩ := tends_mul hf (tends_one cfg hb hw ho)
        refine ⟨F, fun m => ?_, q2⟩
        obtain ⟨f1, hf1, f2, hf2, e3⟩ := q1 m
        rw [e3]
        refine ⟨f2, hf2, f1, hf1, ?_⟩
        funext x y
        exact mul_comm _ _

theorem change_tends (cfg : Cfg) {c : CC} {l r : KE} (h1 : operand l = true) (h2 : operand r = true) (s1 : ∀ b ∈ bases l, b.isSigmoid = false)
    (s2 : ∀ b ∈ bases r, b.isSigmoid = false) (hl : LinCOK cfg (bases l ++ bases r)) :
    TendsAll (den (realI cfg posV) l) (den (realI cfg posV) (mkChange cfg c l r)) ∧ TendsAll (den (realI cfg posV) r) (den (realI cfg posV) (mkChange cfg c l r)) := by
  have hR : Reading cfg (bases l ++ bases r) (realI cfg posV) := .inr ⟨rfl, hl⟩
  have ho : operand (change c l r) = true := operand_change.2 ⟨h1, h2⟩
  have hd : den (realI cfg posV) (mkChange cfg c l r) = chgFam cfg c (den (realI cfg posV) l) (den (realI cfg posV) r) := by
    rw [mkChange, den_simplify_operand hR.laws cfg ho (hR.safe.sub (by simp [bases]))]
    simp only [den, hR.chg]
  obtain ⟨u, hu⟩ := den_nonempty cfg s1 (operand_iff.1 h1).2.1
  obtain ⟨v, hv⟩ := den_nonempty cfg s2 (operand_iff.1 h2).2.1
  rw [hd]
  constructor <;> intro f hf
  · obtain ⟨P, p1, p2, p3⟩ := change_away cfg c true
    exact tends_change true P p1 p2 p3 hf hv
  · obtain ⟨P, p1, p2, p3⟩ := change_away cfg c false
    exact tends_change false P p1 p2 p3 hf hu

theorem changes_tends (cfg : Cfg) {S : KE} {b : Base} (hS : operand S = true) (sS : ∀ x ∈ bases S, x.isSigmoid = false) (hb : b.isSigmoid = false)
    (hl : LinCOK cfg (bases S ++ [b])) {new : KE} (h : new ∈ bothChanges cfg S (some (base b)) ∨ new ∈ bothChanges cfg S none) :
    TendsAll (den (realI cfg posV) S) (den (realI cfg posV) new) := by
  have sb : ∀ x ∈ bases (base b), x.isSigmoid = false := by simpa [bases] using hb
  have l1 : LinCOK cfg (bases S ++ bases (base b)) := by simpa [bases] using hl
  have l2 : LinCOK cfg (bases (base b) ++ bases S) := linCOK_perm (by intro x hx; simpa [bases, or_comm] using hx) hl
  have l3 : LinCOK cfg (bases S ++ bases S) := linCOK_perm (by intro x hx; simp at hx; simp [hx]) hl
  simp only [bothChanges, List.flatMap_cons, List.flatMap_nil, List.append_nil, List.mem_append, List.mem_singleton] at h
  rcases h with h | h
  · by_cases hk : keq (base b) S = true
    · simp only [hk, if_true, List.mem_singleton] at h
      rcases h with rfl | rfl <;> exact (change_tends cfg hS hS sS sS l3).1
    · simp only [hk, Bool.false_eq_true, if_false, List.mem_cons, List.not_mem_nil, or_false] at h
      rcases h with (rfl | rfl) | (rfl | rfl)
      · exact (change_tends cfg hS (operand_base b) sS sb l1).1
      · exact (change_tends cfg (operand_base b) hS sb sS l2).2
      · exact (change_tends cfg hS (operand_base b) sS sb l1).1
      · exact (change_tends cfg (operand_base b) hS sb sS l2).2
  · rcases h with rfl | rfl <;> exact (change_tends cfg hS hS sS sS l3).1

theorem repl_plug (C : Ctx) {x new : KE} : wf (C.plug x) = true → (C.plug x).isBase = false → (C.endsLeft && x.isBase) = false → Repl (nodeOf x) new (C.plug x) (C.plug new) := by
  have hx : x.isBase = false → Repl (nodeOf x) new x new := fun h => by
    have : nodeOf x = x := by cases x <;> first | rfl | cases h
    rw [this]
    exact .here
  induction C with
  | hole => exact fun _ h _ => hx h
  | comm o b l1 C l2 ih =>
    intro hw _ hl
    have := (wf_comm.1 hw).2.2 (C.plug x) (by simp)
    exact .sub (ih this.2 this.1 hl)
  | left c C r ih =>
    intro hw _ hl
    cases C with
    | hole => exact .left (hx (by simpa [Ctx.endsLeft] using hl))
    | comm _ _ _ _ _ => exact .left (ih (wf_change.1 hw).1 rfl hl)
    | left _ _ _ => exact .left (ih (wf_change.1 hw).1 rfl hl)
    | right _ _ _ => exact .left (ih (wf_change.1 hw).1 rfl hl)
  | right c l C ih =>
    intro hw _ hl
    cases C with
    | hole =>
      cases x with
      | base b => exact .leafR rfl
      | comm _ _ _ => exact .right (hx rfl)
      | change _ _ _ => exact .right (hx rfl)
    | comm _ _ _ _ _ => exact .right (ih (wf_change.1 hw).2 rfl hl)
    | left _ _ _ => exact .right (ih (wf_change.1 hw).2 rfl hl)
    | right _ _ _ => exact .right (ih (wf_change.1 hw).2 rfl hl)

end GPyABCD
