import Verif.Model.GPModel

/-!
# Specification: what a model object owes to its call history

Functions of the calls made so far (newest first) and of the expression the model was made with, not of the object's fields.
-/

namespace GPyABCD
namespace GPM

variable {M Kx S I R ε : Type}

/-- The last number of restarts given to `fit`. -/
def given : List (Call M Kx R ε) → Option Int
  | [] => none
  | .fit (some r) _ :: _ => some r
  | _ :: cs => given cs

/-- The latest regression: of the last `fit` that got as far as building one. -/
def fitted (k : Kx) : List (Call M Kx R ε) → Option M
  | [] => none
  | .fit r out :: cs =>
    match given (.fit r out :: cs) with
    | none => fitted k cs
    | some n =>
      match out n k with
      | .buildFail _ => fitted k cs
      | .optFail m _ => some m
      | .ok m => some m
  | _ :: cs => fitted k cs

/-- The sum-of-products form of an expression with the parameters of a regression. -/
def describe (E : Env M Kx S I ε) (m : M) (k : Kx) : Except ε S := E.matchUp m k >>= E.sops

/-- Whether the call asks for a description. -/
def asks : Call M Kx R ε → Bool
  | .sumOfProds => true
  | .interpret => true
  | _ => false

/-- The first description ever obtained. -/
def firstDescribed (E : Env M Kx S I ε) (k : Kx) : List (Call M Kx R ε) → Option S
  | [] => none
  | c :: cs =>
    match firstDescribed E k cs with
    | some x => some x
    | none =>
      if asks c then
        match fitted k cs with
        | none => none
        | some m => (describe E m k).toOption
      else none

/-- The last score computed, whatever the function's name. -/
def lastScore (k : Kx) : List (Call M Kx R ε) → Option R
  | [] => none
  | .utility f _ :: cs =>
    match fitted k cs with
    | none => lastScore k cs
    | some m => match f m with
      | .error _ => lastScore k cs
      | .ok u => some u
  | _ :: cs => lastScore k cs

/-- The last score computed by a function with a name, with that name. -/
def lastNamed (k : Kx) : List (Call M Kx R ε) → Option (R × String)
  | [] => none
  | .utility f n :: cs =>
    match n, fitted k cs with
    | some n, some m => match f m with
      | .error _ => lastNamed k cs
      | .ok u => some (u, n)
    | _, _ => lastNamed k cs
  | _ :: cs => lastNamed k cs

end GPM
end GPyABCD
