import Verif.Lemmas.Objects

/-!
# Property C77: operators do not touch their arguments
-/

namespace GPyABCD
open Objects KE

/-- Whether a call returns, and how many results. -/
private def resultCount {α : Type} (m : M α) (n : α → Nat) (h : Heap) : Option Nat :=
  match m h with
  | (.ok x, _) => some (n x)
  | _ => none

/-- `SumKE(['WN'], [ProductKE(['LIN', 'PER'])])._initialise()` and `ChangeKE('CP', 'SE', ProductKE(['LIN', 'PER']))._initialise()`, made one
after the other in an empty store. -/
private def twoExprs : M (Nat × Nat) := do
  let p ← newList .default .prod [.LIN, .PER] []
  let s ← newList .default .sum [.WN] [p]
  let s ← initialise .default s
  let c ← newChange .default .CP (.str .SE) (.obj p)
  let c ← initialise .default c
  pure (s, c)

/-- The store after that: the product (0), the sum (1) with its copy of the product (2), the change point (3) with its copy (4). -/
private def store : Heap := [
  .comm none none .prod [(.LIN, 1), (.PER, 1)] [],
  .comm (some 1) none .sum [(.WN, 1)] [2],
  .comm (some 1) (some 1) .prod [(.LIN, 1), (.PER, 1)] [],
  .change (some 3) none .CP (.str .SE) (.obj 4),
  .comm (some 3) (some 3) .prod [(.LIN, 1), (.PER, 1)] []]

example : resultCount twoExprs (fun x => if x = (1, 3) then 1 else 0) [] = some 1 ∧ (twoExprs []).2 = store := by decide +kernel

/-- A shared branch: the same product object as both branches of a change point, which the constructor never makes but assignment does. -/
private def shared : Heap := [
  .comm (some 1) (some 1) .prod [(.LIN, 1), (.PER, 1)] [],
  .change (some 1) none .CP (.obj 0) (.obj 0)]

/-! ## Constructors -/

/-- C77. Constructors do not change their arguments nor anything else that was there before, whatever the arguments share with each other, and
even when they raise. -/
theorem C77_new_comm (cfg : Cfg) (op : Op) (bts : Counter) (cts : List Nat) : LeavesAlone (newComm cfg op bts cts) :=
  leavesAlone_of (Q := fun n => (n ≤ ·)) (R := fun n => (n ≤ ·)) fun _ => keeps_newComm (fun _ h => h)

/-- And the result shares nothing with anything that was there before. -/
theorem C77_new_comm_new (cfg : Cfg) (op : Op) (bts : Counter) (cts : List Nat) : GivesNew (newComm cfg op bts cts) (fun a => [a]) :=
  givesNew_of fun _ => Keeps.mono (keeps_newComm fun _ h => h) (fun _ h => allIn_one h)

/-- C77, for change points and change windows. -/
theorem C77_new_change (cfg : Cfg) (c : CC) (l r : Ref) : LeavesAlone (newChange cfg c l r) :=
  leavesAlone_of (Q := fun n => (n ≤ ·)) (R := fun n => (n ≤ ·)) fun _ => keeps_newChange (fun _ h => h)

/-- And the result shares nothing with anything that was there before. -/
theorem C77_new_change_new (cfg : Cfg) (c : CC) (l r : Ref) : GivesNew (newChange cfg c l r) (fun a => [a]) :=
  givesNew_of fun _ => Keeps.mono (keeps_newChange fun _ h => h) (fun _ h => allIn_one h)

example : Returns (newComm .default .sum [(.C, 1)] [1, 3, 1]) store := ⟨_, _, rfl⟩
example : Returns (newChange .default .CW (.obj 1) (.obj 3)) store := ⟨_, _, rfl⟩

/-- The branches of a new change point are two objects, also when the same object was given twice. -/
example : (newChange .default .CP (.obj 0) (.obj 0) shared).2[2]? = some (.change none none .CP (.obj 3) (.obj 5)) := by rfl

/-! ## Operators -/

/-- C77. `add` does not change its operands nor anything else that was there before. -/
theorem C77_add (cfg : Cfg) (k1 k2 : Ref) : LeavesAlone (Objects.add cfg k1 k2) ∧ GivesNew (Objects.add cfg k1 k2) id :=
  ⟨leavesAlone_of (Q := fun n => (n ≤ ·)) (R := fun n => AllIn n) fun _ => keeps_combine (fun _ h => h),
    givesNew_of fun _ => keeps_combine (fun _ h => h)⟩

/-- C77, for `multiply`. -/
theorem C77_multiply (cfg : Cfg) (k1 k2 : Ref) : LeavesAlone (Objects.multiply cfg k1 k2) ∧ GivesNew (Objects.multiply cfg k1 k2) id :=
  ⟨leavesAlone_of (Q := fun n => (n ≤ ·)) (R := fun n => AllIn n) fun _ => keeps_combine (fun _ h => h),
    givesNew_of fun _ => keeps_combine (fun _ h => h)⟩

example : resultCount (Objects.add .default (.obj 1) (.obj 3)) List.length store = some 1 := by decide +kernel
example : resultCount (Objects.multiply .default (.obj 1) (.str .PER)) List.length store = some 2 := by decide +kernel
example : resultCount (Objects.multiply .default (.obj 1) (.obj 1)) List.length store = some 1 := by decide +kernel

/-- C77, for `swap_base`. -/
theorem C77_swap_base (cfg : Cfg) (S : Nat) (B : Base) : LeavesAlone (Objects.swapBase cfg S B) ∧ GivesNew (Objects.swapBase cfg S B) id :=
  ⟨leavesAlone_of (Q := fun n => (n ≤ ·)) (R := fun n => AllIn n) fun _ => keeps_swapBase (fun _ h => h),
    givesNew_of fun _ => keeps_swapBase (fun _ h => h)⟩

/-- C77, for `one_change`. -/
theorem C77_one_change (cfg : Cfg) (S : Ref) (x : CC) (S2 : Option Ref) :
    LeavesAlone (Objects.oneChange cfg S x S2) ∧ GivesNew (Objects.oneChange cfg S x S2) id :=
  ⟨leavesAlone_of (Q := fun n => (n ≤ ·)) (R := fun n => AllIn n) fun _ => keeps_changesOf (fun _ h => h),
    givesNew_of fun _ => keeps_changesOf (fun _ h => h)⟩

/-- C77, for `both_changes`. -/
theorem C77_both_changes (cfg : Cfg) (S : Ref) (S2 : Option Ref) :
    LeavesAlone (Objects.bothChanges cfg S S2) ∧ GivesNew (Objects.bothChanges cfg S S2) id :=
  ⟨leavesAlone_of (Q := fun n => (n ≤ ·)) (R := fun n => AllIn n) fun _ => keeps_bothChanges (fun _ h => h),
    givesNew_of fun _ => keeps_bothChanges (fun _ h => h)⟩

/-- C77, for `higher_curves`, which deletes base terms, but only from its results. -/
theorem C77_higher_curves (cfg : Cfg) (S : Nat) : LeavesAlone (Objects.higherCurves cfg S) ∧ GivesNew (Objects.higherCurves cfg S) id :=
  ⟨leavesAlone_of (Q := fun n => (n ≤ ·)) (R := fun n => AllIn n) fun _ => keeps_higherCurves (fun _ h => h),
    givesNew_of fun _ => keeps_higherCurves (fun _ h => h)⟩

example : resultCount (Objects.swapBase .default 2 .SE) List.length store = some 2 := by decide +kernel
example : resultCount (Objects.oneChange .default (.obj 1) .CW (some (.obj 3))) List.length store = some 2 := by decide +kernel
example : resultCount (Objects.bothChanges .default (.obj 1) none) List.length store = some 2 := by decide +kernel
example : resultCount (Objects.higherCurves .default 2) List.length store = some 3 := by decide +kernel

/-- C77, for `replace_node`: it changes nothing. -/
theorem C77_replace_node (cfg : Cfg) (S2 : Ref) : LeavesAlone (Objects.replaceNode cfg S2) :=
  leavesAlone_of (Q := fun n => (n ≤ ·)) (R := fun _ _ => True) fun _ => keeps_replaceNode (fun _ h => h)

/-- C77, for `remove_a_term`: it changes nothing. -/
theorem C77_remove_a_term (cfg : Cfg) (S : Nat) : LeavesAlone (Objects.removeATerm cfg S) :=
  leavesAlone_of (Q := fun n => (n ≤ ·)) (R := fun _ _ => True) fun _ => keeps_removeATerm (fun _ h => h)

/-- But these two may return objects that were there before, not copies: the replacement itself, and a branch of the argument. -/
theorem C77_returns_old : ¬ GivesNew (Objects.replaceNode .default (.obj 1)) id ∧ ¬ GivesNew (Objects.removeATerm .default 3) id := by
  constructor
  · intro h
    have := h store store [1] rfl 1 (by simp) 1 (.here 1)
    simp [store] at this
  · intro h
    have := h store _ [5, 4] rfl 4 (by simp) 4 (.here 4)
    simp [store] at this

/-! ## Trees -/

/-- C77. `new_tree_with_self_replaced` changes neither the tree nor the new node, whatever they share. -/
theorem C77_new_tree (a new : Nat) : LeavesAlone (newTree a new) :=
  leavesAlone_of (Q := fun n => (n ≤ ·)) (R := fun n => (n ≤ ·)) fun _ => keeps_newTree (fun _ h => h) (fun _ h => h)

/-- And the new tree shares nothing with them, although `replace_node` and `remove_a_term` pass it old objects. -/
theorem C77_new_tree_new (a new : Nat) : GivesNew (newTree a new) (fun x => [x]) :=
  givesNew_of fun _ => Keeps.mono (keeps_newTree (fun _ h => h) (fun _ h => h)) (fun _ h => allIn_one h)

example : Returns (newTree 2 4) store := ⟨_, _, rfl⟩
example : Returns (newTree 3 1) store := ⟨_, _, rfl⟩

/-- C77. `traverse` changes nothing; it adds temporary nodes, which nothing that was there before refers to. -/
theorem C77_traverse (cfg : Cfg) (a : Nat) : LeavesAlone (Objects.traverse cfg a) :=
  leavesAlone_of (Q := fun _ _ => True) (R := fun _ _ => True) fun _ => keeps_traverse

example : resultCount (Objects.traverse .default 3) List.length store = some 3 := by decide +kernel

/-! ## Expansion -/

/-- C77. `expand` does not change the expression, nor anything else that was there before, for any list of production rules and any order of
the base kernels, and even when it raises. -/
theorem C77_expand (cfg : Cfg) (o : Orders) (rules : List RuleName) (a : Nat) : LeavesAlone (Objects.expand cfg o rules a) :=
  fun h b hb => by
    obtain ⟨_, _, _, h2, _⟩ := expand_keeps cfg o rules a h
    exact h2 b hb

/-- And no expansion shares anything with what was there before. -/
theorem C77_expand_new (cfg : Cfg) (o : Orders) (rules : List RuleName) (a : Nat) : GivesNew (Objects.expand cfg o rules a) id := by
  intro h h' x hx r hr b hb
  obtain ⟨n, hn, h1, _, h3⟩ := expand_keeps cfg o rules a h
  rw [hx] at h1 h3
  exact Nat.le_trans hn (reach_in h1 hb (h3 x rfl r hr))

/-- Whatever is then done to the expansions (fitting writes to them), the expression they came from stays as it was. -/
theorem C77_expand_then (cfg : Cfg) (o : Orders) (rules : List RuleName) (a : Nat) (h h' : Heap) (x : List Nat)
    (hx : Objects.expand cfg o rules a h = (.ok x, h')) (r : Nat) (hr : r ∈ x) (b : Nat) (hb : Reach h' r b) (f : Obj → Obj) (c : Nat)
    (hc : c < h.length) : (edit b f h').2[c]? = h[c]? := by
  have h1 := C77_expand_new cfg o rules a h h' x hx r hr b hb
  have h2 := C77_expand cfg o rules a h c hc
  rw [hx] at h2
  rw [← h2]
  unfold edit
  split
  · exact List.getElem?_set_ne (by omega)
  · rfl

/-- The base kernels in some order. -/
private def orders : Orders := ⟨[.WN, .C, .LIN, .PER], [.WN, .LIN, .PER]⟩

set_option maxRecDepth 20000 in
example : resultCount (Objects.expand .default orders [.plus_base, .change_window_linear, .remove_some_term, .replace_with_singleton] 1) List.length store = some 23 := by
  decide +kernel

/-- By contrast, methods that are meant to change the expression do: `simplify` is not such a call. -/
example : ¬ LeavesAlone (Objects.simplify .default 0) := by
  intro h
  have := h [.comm none none .sum [(.WN, 2)] []] 0 (by decide)
  revert this
  decide

end GPyABCD
