/-!
# The model object

Models `/repo/GPy_ABCD/Models/model.py`. GPy (building and optimising a regression, log-likelihood), the
expression code (matching parameters, sum-of-products form, description) and scoring functions are arbitrary
functions that may raise. Kernel expressions are objects in a store, because matching parameters changes its
argument: `GPModel.sum_of_prods_kex` hands it a `deepcopy`. Warnings and plotting are not modelled.
-/

namespace GPyABCD
namespace GPM

/-- What the methods return or raise. -/
inductive Exc (ε : Type)
  /-- `ValueError` raised by `model.py` itself -/
  | value
  /-- `AttributeError` for a missing model or function name -/
  | attribute
  /-- raised by GPy, the expression code or the scoring function -/
  | other (e : ε)
  deriving DecidableEq

/-- Outcome of `GPRegression(...)` followed by `optimize_restarts`, `model.py:28-31`. -/
inductive FitOut (M ε : Type)
  /-- the regression object could not be built -/
  | buildFail (e : ε)
  /-- the regression object was stored, then the optimisation raised -/
  | optFail (m : M) (e : ε)
  | ok (m : M)

/-- The expression code a model calls. `Kx` kernel expression objects, `M` fitted regressions, `S` sum-of-products forms,
`I` descriptions. -/
structure Env (M Kx S I ε : Type) where
  /-- `fit_ker_to_kex_with_params(kern, kex)`: the changed expression, `kernelOperations.py:31-35` -/
  matchUp : M → Kx → Except ε Kx
  /-- `.sum_of_prods_form()` -/
  sops : Kx → Except ε S
  /-- `.get_interpretation(sops)` -/
  interp : S → Except ε I

/-- The fields of a `GPModel`, `model.py:11-19`, and the store of expression objects. -/
structure St (M Kx S R : Type) where
  /-- expression objects -/
  objs : List Kx
  /-- `kernel_expression`, an index -/
  kex : Nat
  /-- `_sum_of_prods_kex` -/
  sops : Option S
  /-- `restarts` -/
  restarts : Option Int
  /-- `model` -/
  model : Option M
  /-- `cached_utility_function` -/
  util : Option R
  /-- `cached_utility_function_type` -/
  utilType : Option String

variable {M Kx S I R ε : Type}

/-- `GPModel(X, Y, kernel_expression)`, `model.py:11-19`. -/
def new (objs : List Kx) (kex : Nat) : St M Kx S R := ⟨objs, kex, none, none, none, none, none⟩

/-- `fit(restarts, ...)`, `model.py:24-32`; `out` is what GPy would do for a number of restarts and an expression. -/
def fit (s : St M Kx S R) (restarts : Option Int) (out : Int → Kx → FitOut M ε) : St M Kx S R × Except (Exc ε) Unit :=
  let go (s : St M Kx S R) (r : Int) : St M Kx S R × Except (Exc ε) Unit :=
    match s.objs[s.kex]? with
    | none => (s, .error .attribute)
    | some k =>
      match out r k with
      | .buildFail e => (s, .error (.other e))
      | .optFail m e => ({ s with model := some m }, .error (.other e))
      | .ok m => ({ s with model := some m }, .ok ())
  match restarts with
  | none =>
    match s.restarts with
    | none => (s, .error .value)
    | some r => go s r
  | some r => go { s with restarts := some r } r

/-- The property `sum_of_prods_kex`, `model.py:34-41`: `deepcopy` makes a new object, which `matchUp` changes. -/
def sumOfProds (E : Env M Kx S I ε) (s : St M Kx S R) : St M Kx S R × Except (Exc ε) S :=
  match s.model with
  | none => (s, .error .value)
  | some m =>
    match s.sops with
    | some x => (s, .ok x)
    | none =>
      match s.objs[s.kex]? with
      | none => (s, .error .attribute)
      | some k =>
        -- deepcopy(self.kernel_expression)
        let copy := s.objs.length
        let s := { s with objs := s.objs ++ [k] }
        match E.matchUp m k with
        | .error e => (s, .error (.other e))
        | .ok k' =>
          let s := { s with objs := s.objs.set copy k' }
          match E.sops k' with
          | .error e => (s, .error (.other e))
          | .ok x => ({ s with sops := some x }, .ok x)

/-- `interpret()`, `model.py:43-47`. -/
def interpret (E : Env M Kx S I ε) (s : St M Kx S R) : St M Kx S R × Except (Exc ε) I :=
  match sumOfProds E s with
  | (s, .error e) => (s, .error e)
  | (s, .ok x) =>
    match E.interp x with
    | .error e => (s, .error (.other e))
    | .ok i => (s, .ok i)

/-- `predict(X, ...)`, `model.py:49-52`, with `f` the two GPy calls. -/
def predict {P : Type} (f : M → Except ε P) (s : St M Kx S R) : Except (Exc ε) P :=
  match s.model with
  | none => .error .attribute
  | some m =>
    match f m with
    | .error e => .error (.other e)
    | .ok p => .ok p

/-- `compute_utility(score_f)`, `model.py:71-74`; `name` is `score_f.__name__` (`none`: the callable has no name, and the
second assignment raises `AttributeError`). -/
def computeUtility (f : M → Except ε R) (name : Option String) (s : St M Kx S R) : St M Kx S R × Except (Exc ε) R :=
  match s.model with
  | none => (s, .error .attribute)
  | some m =>
    match f m with
    | .error e => (s, .error (.other e))
    | .ok u =>
      let s := { s with util := some u }
      match name with
      | none => (s, .error .attribute)
      | some n => ({ s with utilType := some n }, .ok u)

/-- `fit_kex(X, Y, kex, restarts, score, ...)`, `modelUtil.py:39-47`: `kex._initialise()` changes the given object (`init`) and returns it. The shapes of
`X` and `Y` are left out. -/
def fitKex (init : Kx → Kx) (objs : List Kx) (kex : Nat) (restarts : Option Int) (out : Int → Kx → FitOut M ε) (f : M → Except ε R) (name : Option String) :
    St M Kx S R × Except (Exc ε) Unit :=
  let s : St M Kx S R := new (objs.modify kex init) kex
  match fit s restarts out with
  | (s, .error e) => (s, .error e)
  | (s, .ok _) =>
    match computeUtility f name s with
    | (s, .error e) => (s, .error e)
    | (s, .ok _) => (s, .ok ())

/-- A method call with what GPy and the scoring function would do. -/
inductive Call (M Kx R ε : Type)
  | fit (restarts : Option Int) (out : Int → Kx → FitOut M ε)
  | sumOfProds
  | interpret
  | utility (f : M → Except ε R) (name : Option String)

/-- The state after a call. -/
def step (E : Env M Kx S I ε) (s : St M Kx S R) : Call M Kx R ε → St M Kx S R
  | .fit r out => (fit s r out).1
  | .sumOfProds => (sumOfProds E s).1
  | .interpret => (interpret E s).1
  | .utility f n => (computeUtility f n s).1

/-- The state after a sequence of calls. -/
def run (E : Env M Kx S I ε) (s : St M Kx S R) (cs : List (Call M Kx R ε)) : St M Kx S R := cs.foldl (step E) s

end GPM
end GPyABCD
