/-!
# Base kernel names and `collections.Counter`

Models the Python standard-library `Counter` operations the expression code relies on
(`/repo/GPy_ABCD/KernelExpressions/commutative_base.py`, `commutatives.py`,
`/repo/GPy_ABCD/KernelExpansion/kernelExpressionOperations.py`).
-/

namespace GPyABCD

/-- Base kernel names: `base_kerns` and `base_sigmoids`,
`/repo/GPy_ABCD/Kernels/baseKernels.py:11-12`. Python uses strings; here an enumeration. -/
inductive Base
  | WN | C | LIN | SE | PER | S | Sr | SI | SIr
  deriving DecidableEq, Repr, Inhabited

namespace Base

/-- `base_sigmoids`, `Kernels/baseKernels.py:12`. -/
def isSigmoid : Base → Bool
  | .S | .Sr | .SI | .SIr => true
  | _ => false

/-- `stationary_kerns`, `Kernels/baseKernels.py:14`. -/
def isStationary : Base → Bool
  | .WN | .C | .SE | .PER => true
  | _ => false

/-- All names, in the order of `Kernels/baseKernels.py:11-12`. -/
def all : List Base := [.WN, .C, .LIN, .SE, .PER, .S, .Sr, .SI, .SIr]

/-- `base_kern_interp_order`, `KernelExpansion/kernelInterpretation.py:9`. -/
def order : Base → Nat
  | .PER => 0 | .SE => 1 | .C => 2 | .WN => 3 | .LIN => 4 | .Sr => 5 | .S => 6 | .SIr => 7 | .SI => 8

end Base

/-- A Python `Counter` over base kernel names: insertion-ordered key/count pairs.
Keys are distinct in every Python counter (`Counter.WF`). -/
abbrev Counter := List (Base × Int)

namespace Counter

/-- Keys are distinct, as in any Python dict. -/
def WF (c : Counter) : Prop := (c.map Prod.fst).Nodup

instance (c : Counter) : Decidable c.WF := inferInstanceAs (Decidable (List.Nodup _))

/-- `c[b]`: the count, `0` for a missing key (no insertion). -/
def get : Counter → Base → Int
  | [], _ => 0
  | (k, v) :: r, b => if k = b then v else get r b

/-- `b in c`. -/
def has : Counter → Base → Bool
  | [], _ => false
  | (k, _) :: r, b => if k = b then true else has r b

/-- `c[b] = v`: in place if the key exists, else appended. -/
def put : Counter → Base → Int → Counter
  | [], b, v => [(b, v)]
  | (k, w) :: r, b, v => if k = b then (k, v) :: r else (k, w) :: put r b v

/-- `del c[b]` (`Counter.__delitem__` ignores missing keys). -/
def del (c : Counter) (b : Base) : Counter := c.filter (fun p => decide (p.1 ≠ b))

/-- Unary `+c`: keep the positive counts. -/
def pos (c : Counter) : Counter := c.filter (fun p => decide (0 < p.2))

/-- `sum(c.values())`. -/
def total (c : Counter) : Int := (c.map Prod.snd).sum

/-- `list(c.elements())`. -/
def elements (c : Counter) : List Base := c.flatMap (fun p => List.replicate p.2.toNat p.1)

/-- `c.update(list_of_names)`: count every name. -/
def updateList (c : Counter) (l : List Base) : Counter :=
  l.foldl (fun c b => c.put b (c.get b + 1)) c

/-- `Counter(list_of_names)`. -/
def ofList (l : List Base) : Counter := updateList [] l

/-- `c.update(other_counter)`: add counts (when `c` is empty Python copies `other`; same result for distinct keys). -/
def updateMap (c m : Counter) : Counter :=
  m.foldl (fun c p => c.put p.1 (p.2 + c.get p.1)) c

/-- Binary `c + d`: sum counts, keep positive ones, keys of `c` first. -/
def add (c d : Counter) : Counter :=
  pos (c.map (fun p => (p.1, p.2 + d.get p.1))) ++ pos (d.filter (fun p => !c.has p.1))

/-- Binary `c - d`: subtract counts, keep positive ones, keys of `c` first. -/
def sub (c d : Counter) : Counter :=
  pos (c.map (fun p => (p.1, p.2 - d.get p.1))) ++ pos ((d.filter (fun p => !c.has p.1)).map (fun p => (p.1, 0 - p.2)))

/-- `c == d` (Python >= 3.10: missing keys count as zero). -/
def eq (c d : Counter) : Bool :=
  c.all (fun p => decide (c.get p.1 = d.get p.1)) && d.all (fun p => decide (c.get p.1 = d.get p.1))

end Counter

/-- Configuration flags, `/repo/GPy_ABCD/config.py`. -/
structure Cfg where
  /-- `__INCLUDE_SE_KERNEL` -/
  includeSE : Bool
  /-- `__USE_LIN_KERNEL_HORIZONTAL_OFFSET` -/
  linOffset : Bool
  /-- `__FIX_SIGMOIDAL_KERNELS_SLOPE` -/
  fixSlope : Bool
  deriving DecidableEq, Repr

/-- The values shipped in `/repo/GPy_ABCD/config.py`. -/
def Cfg.default : Cfg := { includeSE := false, linOffset := true, fixSlope := true }

end GPyABCD
