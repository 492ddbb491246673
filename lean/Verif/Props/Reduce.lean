import Verif.Model.Reduce
import Verif.Lemmas.Links

/-!
# Properties: `reduce` (C95)

C95: `reduce` calls its function once for each of the nodes that `traverse` lists, in that order, string branches included, and leaves the tree as it was
but for what the function does to the base terms of the tree's own nodes.
-/

namespace GPyABCD
open Links Links.LK

mutual
/-- Specification: the tree with `e` applied to the base terms of every node. -/
def editBases (e : Counter → Counter) : LK → LK
  | .str b => str b
  | .comm i r p op bts cts => LK.comm i r p op (e bts) (editBasesL e cts)
  | change i rt p c l r => change i rt p c (editBases e l) (editBases e r)
/-- In a list. -/
def editBasesL (e : Counter → Counter) : List LK → List LK
  | [] => []
  | k :: ks => editBases e k :: editBasesL e ks
end

/-- Specification: call the function on one node after the other. -/
def callAll {A : Type} (func : Func A) (nodes : List LK) (acc : A) : A := nodes.foldl (fun a n => (func n a).2) acc

theorem callAll_append {A : Type} (func : Func A) (xs ys : List LK) (acc : A) :
    callAll func (xs ++ ys) acc = callAll func ys (callAll func xs acc) := List.foldl_append

theorem branchAcc_eq {A : Type} (cfg : Cfg) (i : Nat) (rt : Option Nat) (n : Nat) (func : Func A) (st : KE.Step) (k : LK) (acc : A) :
    branchAcc cfg i rt n func k acc = callAll func ((temps cfg i rt n st k).map (·.2)) acc := by
  cases k <;> rfl

mutual
theorem reduce_fold {A : Type} (cfg : Cfg) (fresh : Nat → Bool → Nat) (func : Func A) : (k : LK) → (acc : A) →
    (reduce cfg fresh func k acc).2 = callAll func ((traverse cfg fresh k).map (·.2)) acc
  | str _, _ => rfl
  | .comm i r p op bts cts, acc => by
    simp only [reduce, traverse, List.map_cons]
    exact reduceL_fold cfg fresh func cts 0 _
  | change i rt p c l r, acc => by
    have hl := reduce_fold cfg fresh func l
    have hr := reduce_fold cfg fresh func r
    simp only [reduce, traverse, List.map_cons, List.map_append, List.map_map]
    rw [hr, hl, branchAcc_eq _ _ _ _ _ .vright r, branchAcc_eq _ _ _ _ _ .vleft l]
    show _ = callAll func _ (func _ acc).2
    rw [callAll_append, callAll_append, callAll_append]
    rfl
theorem reduceL_fold {A : Type} (cfg : Cfg) (fresh : Nat → Bool → Nat) (func : Func A) : (ks : List LK) → (j : Nat) → (acc : A) →
    (reduceL cfg fresh func ks acc).2 = callAll func ((traverseL cfg fresh j ks).map (·.2)) acc
  | [], _, _ => rfl
  | k :: ks, j, acc => by
    have hk := reduce_fold cfg fresh func k acc
    have hs := reduceL_fold cfg fresh func ks (j + 1)
    simp only [reduceL, traverseL, List.map_append, List.map_map]
    rw [hs, hk, callAll_append]
    rfl
end

mutual
theorem reduce_tree {A : Type} (cfg : Cfg) (fresh : Nat → Bool → Nat) (func : Func A) (e : Counter → Counter)
    (he : ∀ n acc, (func n acc).1 = e (counterOf n)) : (k : LK) → (acc : A) → (reduce cfg fresh func k acc).1 = editBases e k
  | str _, _ => rfl
  | .comm i r p op bts cts, acc => by
    simp only [reduce, editBases]
    rw [he, reduceL_tree cfg fresh func e he cts]
    rfl
  | change i rt p c l r, acc => by
    simp only [reduce, editBases]
    rw [reduce_tree cfg fresh func e he l, reduce_tree cfg fresh func e he r]
theorem reduceL_tree {A : Type} (cfg : Cfg) (fresh : Nat → Bool → Nat) (func : Func A) (e : Counter → Counter)
    (he : ∀ n acc, (func n acc).1 = e (counterOf n)) : (ks : List LK) → (acc : A) → (reduceL cfg fresh func ks acc).1 = editBasesL e ks
  | [], _ => rfl
  | k :: ks, acc => by
    simp only [reduceL, editBasesL]
    rw [reduce_tree cfg fresh func e he k, reduceL_tree cfg fresh func e he ks]
end

/-- C95. The result of `reduce` is that of calling the function, from left to right, on the nodes that `traverse` returns for the tree as it was before:
whatever the function does to the base terms of a node, no later call sees it except through the accumulator. -/
theorem C95_order {A : Type} (cfg : Cfg) (fresh : Nat → Bool → Nat) (func : Func A) (k : LK) (acc : A) :
    (reduce cfg fresh func k acc).2 = ((traverse cfg fresh k).map (·.2)).foldl (fun a n => (func n a).2) acc :=
  reduce_fold cfg fresh func k acc

/-- C95. Collecting the nodes with `reduce` is `traverse`. -/
theorem C95_collect (cfg : Cfg) (fresh : Nat → Bool → Nat) (k : LK) :
    (reduce cfg fresh (fun n acc => (counterOf n, acc ++ [n])) k []).2 = (traverse cfg fresh k).map (·.2) := by
  rw [C95_order]
  have h : ∀ (ns acc : List LK), ns.foldl (fun a n => ((counterOf n, a ++ [n]) : Counter × List LK).2) acc = acc ++ ns := by
    intro ns
    induction ns with
    | nil => intro acc; simp
    | cons n ns ih => intro acc; rw [List.foldl_cons, ih]; simp
  exact h _ []

/-- C95. A function that leaves in each node base terms that depend on the node's own base terms only, changes the base terms of every node of the tree, and
nothing else: string branches, identities, links and composite terms stay. In particular a function that only reads leaves the tree as it was. -/
theorem C95_tree {A : Type} (cfg : Cfg) (fresh : Nat → Bool → Nat) (func : Func A) (e : Counter → Counter)
    (he : ∀ n acc, (func n acc).1 = e (counterOf n)) (k : LK) (acc : A) : (reduce cfg fresh func k acc).1 = editBases e k :=
  reduce_tree cfg fresh func e he k acc

mutual
theorem editBases_id : (k : LK) → editBases (fun c => c) k = k
  | str _ => rfl
  | .comm _ _ _ _ _ _ => by simp only [editBases]; rw [editBasesL_id]
  | change _ _ _ _ l r => by simp only [editBases]; rw [editBases_id l, editBases_id r]
theorem editBasesL_id : (ks : List LK) → editBasesL (fun c => c) ks = ks
  | [] => rfl
  | k :: ks => by simp only [editBasesL]; rw [editBases_id k, editBasesL_id ks]
end

/-- C95. A function that only reads leaves the tree as it was. -/
theorem C95_readonly {A : Type} (cfg : Cfg) (fresh : Nat → Bool → Nat) (func : Func A) (he : ∀ n acc, (func n acc).1 = counterOf n) (k : LK) (acc : A) :
    (reduce cfg fresh func k acc).1 = k := by
  rw [C95_tree cfg fresh func (fun c => c) he, editBases_id]

/-- `ChangeKE('CP', ProductKE(['PER'], [SumKE(['WN', 'C'])]), ChangeKE('CW', 'SE', 'WN'))`, as in `Tests/test_kernelExpressions.py:11` -/
def reduceExample : LK :=
  change 0 (some 0) none .CP (LK.comm 1 (some 0) (some 0) .prod [(.PER, 1)] [LK.comm 2 (some 0) (some 1) .sum [(.WN, 1), (.C, 1)] []])
    (change 3 (some 0) (some 0) .CW (str .SE) (str .WN))

/-- Adds `LIN` to every node that has base terms and collects their base terms: the function of `Tests/test_kernelExpressions.py:64-73`, without `set_root` and without simplifying the base terms. -/
def reduceFunc : Func (List Base) := fun n acc =>
  match n with
  | .comm _ _ _ _ bts _ => (bts.add [(.LIN, 1)], acc ++ (bts.add [(.LIN, 1)]).elements)
  | n => (counterOf n, acc)

/-- The calls reach the string branches of the window, what is done there is lost, and what is done to the tree's own nodes stays. -/
example : (reduce Cfg.default (fun i b => 10 + 2 * i + b.toNat) reduceFunc reduceExample []).2 =
    [.PER, .LIN, .WN, .C, .LIN, .SE, .LIN, .WN, .LIN] := by decide +kernel

example : ((reduce Cfg.default (fun i b => 10 + 2 * i + b.toNat) reduceFunc reduceExample []).1).erase.bases =
    [.PER, .LIN, .WN, .C, .LIN, .SE, .WN] := by decide +kernel

end GPyABCD
