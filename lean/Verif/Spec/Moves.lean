import Verif.Spec.Expand
import Verif.Model.Grammar

/-!
# Specification: what one production rule may do to one node

`Move cfg n S e`: rule `n` may turn the node `S` into (a simplified form of) `e`. The right-hand sides are plain expressions, not results of the
operators of the model, and need not be simplified.
-/

namespace GPyABCD
open KE

/-- The base kernels the search puts into expressions. -/
def Searched (cfg : Cfg) (B : Base) : Prop := B ∈ [Base.WN, .C, .LIN, .PER] ∨ (B = .SE ∧ cfg.includeSE = true)

/-- One move of one rule at one node. -/
inductive Move (cfg : Cfg) : RuleName → KE → KE → Prop
  /-- S becomes S + B -/
  | plus {B : Base} {S : KE} (h : Searched cfg B) : Move cfg .plus_base S (comm .sum [(B, 1)] [S])
  /-- one factor F of a product becomes F + B -/
  | plusInside {B bt : Base} {b b' m : Counter} {c : List KE} (h : Searched cfg B) (hb : (bt :: b'.elements).Perm b.elements)
      (hm : m.elements.Perm [B, bt]) : Move cfg .plus_base (comm .prod b c) (comm .prod b' (c ++ [comm .sum m []]))
  /-- S becomes S * B -/
  | times {B : Base} {S : KE} (h : Searched cfg B) (hC : B ≠ .C) : Move cfg .times_base S (comm .prod [(B, 1)] [S])
  /-- one term F of a sum becomes F * B -/
  | timesInside {B bt : Base} {b b' m : Counter} {c : List KE} (h : Searched cfg B) (hC : B ≠ .C) (hb : (bt :: b'.elements).Perm b.elements)
      (hm : m.elements.Perm [B, bt]) : Move cfg .times_base (comm .sum b c) (comm .sum b' (c ++ [comm .prod m []]))
  /-- one base kernel of a sum or product becomes another -/
  | exchange {B bt : Base} {o : Op} {b b' : Counter} {c : List KE} (h : Searched cfg B) (hne : bt ≠ B) (hbt : bt ∈ b.elements)
      (hb : (bt :: b'.elements).Perm (B :: b.elements)) : Move cfg .replace_base (comm o b c) (comm o b' c)
  /-- one base kernel of a sum or product is there once more -/
  | again {B : Base} {o : Op} {b b' : Counter} {c : List KE} (h : Searched cfg B) (hB : B ∈ b.elements)
      (hb : b'.elements.Perm (B :: b.elements)) : Move cfg .replace_base (comm o b c) (comm o b' c)
  /-- a left branch that is a base kernel becomes another -/
  | exchangeLeft {B a : Base} {x : CC} {r : KE} (h : Searched cfg B) (hne : a ≠ B) :
      Move cfg .replace_base (change x (base a) r) (change x (base B) r)
  /-- a right branch that is a base kernel becomes another -/
  | exchangeRight {B a : Base} {x : CC} {l : KE} (h : Searched cfg B) (hne : a ≠ B) :
      Move cfg .replace_base (change x l (base a)) (change x l (base B))
  /-- a change to or from a base kernel -/
  | changeNew {B : Base} {x : CC} {S : KE} (h : Searched cfg B) (hC : B ≠ .C) (e : KE)
      (he : e = change x S (base B) ∨ e = change x (base B) S) : Move cfg .change_new_base S e
  /-- a change between two instances of S -/
  | changeSame {x : CC} {S : KE} : Move cfg .change_same S (change x S S)
  /-- a window of, or outside of, a constant -/
  | windowConstant {S : KE} (e : KE) (he : e = change .CW S (base .C) ∨ e = change .CW (base .C) S) : Move cfg .change_window_constant S e
  /-- a window of, or outside of, a linear kernel -/
  | windowLinear {S : KE} (e : KE) (he : e = change .CW S (base .LIN) ∨ e = change .CW (base .LIN) S) : Move cfg .change_window_linear S e
  /-- a change to or from a linear kernel -/
  | pointLinear {S : KE} (e : KE) (he : e = change .CP S (base .LIN) ∨ e = change .CP (base .LIN) S) : Move cfg .change_point_linear S e
  /-- S becomes S * (B + C) -/
  | shifted {B : Base} {S : KE} (h : Searched cfg B) (hC : B ≠ .C) :
      Move cfg .times_shifted_base S (comm .prod [] [S, comm .sum [(B, 1), (.C, 1)] []])
  /-- S becomes B -/
  | single {B : Base} {S : KE} (h : Searched cfg B) : Move cfg .replace_with_singleton S (base B)
  /-- one base kernel of several terms goes -/
  | dropBase {bt : Base} {o : Op} {b b' : Counter} {c : List KE} (hn : 1 < b.elements.length + c.length)
      (hb : (bt :: b'.elements).Perm b.elements) : Move cfg .remove_some_term (comm o b c) (comm o b' c)
  /-- one composite term of several terms goes -/
  | dropTerm {o : Op} {b : Counter} {c1 c2 : List KE} {k : KE} (hn : 1 < b.elements.length + (c1 ++ k :: c2).length) :
      Move cfg .remove_some_term (comm o b (c1 ++ k :: c2)) (comm o b (c1 ++ c2))
  /-- only the left branch stays -/
  | keepLeft {x : CC} {l r : KE} : Move cfg .remove_some_term (change x l r) l
  /-- only the right branch stays -/
  | keepRight {x : CC} {l r : KE} : Move cfg .remove_some_term (change x l r) r
  /-- a quadratic or cubic is added, and SE goes -/
  | curveSum {b b' : Counter} {c : List KE} (n : Int) (hn : n = 2 ∨ n = 3) (hb : b'.elements.Perm (b.elements.filter (· ≠ .SE))) :
      Move cfg .try_higher_curves (comm .sum b c) (comm .sum b' (c ++ [comm .prod [(.LIN, n)] []]))
  /-- a quadratic, cubic or periodic (two if there was none) is multiplied, and SE goes -/
  | curveProd {b b' : Counter} {c : List KE} (m : List Base)
      (hm : m = [.LIN, .LIN] ∨ m = [.LIN, .LIN, .LIN] ∨ (m = [.PER] ∧ .PER ∈ b.elements) ∨ (m = [.PER, .PER] ∧ .PER ∉ b.elements))
      (hb : b'.elements.Perm (b.elements.filter (· ≠ .SE) ++ m)) : Move cfg .try_higher_curves (comm .prod b c) (comm .prod b' c)
  /-- a branch that is a base kernel becomes a quadratic or cubic -/
  | curveLeft {a : Base} {x : CC} {r : KE} (n : Int) (hn : n = 2 ∨ n = 3) :
      Move cfg .try_higher_curves (change x (base a) r) (change x (comm .prod [(.LIN, n)] []) r)
  /-- the same on the right -/
  | curveRight {a : Base} {x : CC} {l : KE} (n : Int) (hn : n = 2 ∨ n = 3) :
      Move cfg .try_higher_curves (change x l (base a)) (change x l (comm .prod [(.LIN, n)] []))

/-- Wherever a sum or product has SE among its base terms, sums and products alternate from there on. -/
def curvesOK (k : KE) : Bool :=
  allNodes (fun n => match n with
    | .comm _ b _ => !(b.has .SE) || alternating n
    | _ => true) k

end GPyABCD
