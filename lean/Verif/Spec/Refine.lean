import Verif.Model.Objects
import Verif.Spec.Links

/-!
# Specification: a store holds a tree
-/

namespace GPyABCD
namespace Objects
open Links

/-- The address of a node, which is its identity. -/
def addr (k : LK) : Nat := k.id?.getD 0

/-- A node or a string, as a branch of an object. -/
def toRef : LK → Ref
  | .str b => .str b
  | k => .obj (addr k)

mutual
/-- Every node of the tree is the object at the address that is its identity, with the same links and parts. -/
def Stored (h : Heap) : LK → Prop
  | .str _ => True
  | .comm i r p op bts cts => h[i]? = some (.comm r p op bts (cts.map addr)) ∧ StoredL h cts
  | .change i r p c l r' => h[i]? = some (.change r p c (toRef l) (toRef r')) ∧ Stored h l ∧ Stored h r'
/-- The composite terms: none is a string. -/
def StoredL (h : Heap) : List LK → Prop
  | [] => True
  | k :: ks => (k.isStr = false ∧ Stored h k) ∧ StoredL h ks
end

/-- The value of the object at an address, which needs no links and allows for shared parts: what `str` and `==` see. `none`: nothing there, or
more levels than `n`. -/
def read (h : Heap) : Nat → Ref → Option KE
  | _, .str b => some (.base b)
  | 0, .obj _ => none
  | n + 1, .obj a =>
    match h[a]? with
    | some (.comm _ _ op b c) => (c.mapM (fun x => read h n (.obj x))).map (KE.comm op b)
    | some (.change _ _ c l r) => (read h n l).bind fun x => (read h n r).map fun y => KE.change c x y
    | none => none

/-- The value of the object at an address, of whatever depth. -/
def valueAt (h : Heap) (a : Nat) : Option KE := read h (h.length + 1) (.obj a)

/-- Everything that was there is still there, as it was. -/
def Kept (h h' : Heap) : Prop := ∀ a < h.length, h'[a]? = h[a]?

/-- The object at `a` is the root of a tree with the value `v` in which every node knows its parent and its root, and is in one place only. -/
def RootAt (h : Heap) (a : Nat) (v : KE) : Prop := ∃ t : LK, addr t = a ∧ Stored h t ∧ WellLinked t ∧ t.erase = v

/-- A change operator. -/
def isChange : KE → Bool
  | .change .. => true
  | _ => false

mutual
/-- No node holds two equal change operators among its composite terms. -/
def NoTwins : KE → Prop
  | .base _ => True
  | .comm _ _ cs => cs.Pairwise (fun x y => isChange x = true → isChange y = true → KE.keq x y = false) ∧ NoTwinsL cs
  | .change _ l r => NoTwins l ∧ NoTwins r
/-- For composite terms. -/
def NoTwinsL : List KE → Prop
  | [] => True
  | k :: ks => NoTwins k ∧ NoTwinsL ks
end

end Objects
end GPyABCD
