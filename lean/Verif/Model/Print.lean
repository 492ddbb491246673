import Verif.Model.Params

/-!
# Printing expressions and reading them back

Models `__str__` and `__repr__` (`/repo/GPy_ABCD/KernelExpressions/{commutative_base,commutatives,change}.py`) and `to_kernel_unrefined` (`base.py:117-119`), which
evaluates the printed form. Python itself is modelled as far as printed forms need it: names, calls, lists, strings, `+`, `*` and brackets, read by a machine that
goes through the tokens once, with `*` before `+`, both from the left.
-/

namespace GPyABCD
namespace Print
open Params

/-- Characters of a literal. -/
abbrev chars (s : String) : Str := s.toList

/-- Names of base kernels. -/
def bname : Base → Str
  | .WN => ['W', 'N']
  | .C => ['C']
  | .LIN => ['L', 'I', 'N']
  | .SE => ['S', 'E']
  | .PER => ['P', 'E', 'R']
  | .S => ['S']
  | .Sr => ['S', 'r']
  | .SI => ['S', 'I']
  | .SIr => ['S', 'I', 'r']

/-- `CP_or_CW`. -/
def cname : CC → Str
  | .CP => ['C', 'P']
  | .CW => ['C', 'W']

/-- `sep.join(l)`. -/
def join (sep : Str) : List Str → Str
  | [] => []
  | [x] => x
  | x :: y :: r => x ++ sep ++ join sep (y :: r)

/-- `bs`, `base.py:121-123`. -/
def bs (s : Str) : Str := '(' :: (s ++ [')'])

mutual
/-- `__str__`, `commutative_base.py:21-22`, `change.py:21-22`, with the two versions of `bracket_if_needed` (`commutative_base.py:32-34`,
`commutatives.py:67-69`); a string is itself. -/
def pyStr : KE → Str
  | .base b => bname b
  | .comm .sum b cs => join [' ', '+', ' '] ((orderBase b.elements).map bname ++ strs cs)
  | .comm .prod b cs => join [' ', '*', ' '] ((orderBase b.elements).map bname ++ brackets cs)
  | .change c l r => cname c ++ bs (pyStr l ++ [',', ' '] ++ pyStr r)
/-- Composite terms of a sum. -/
def strs : List KE → List Str
  | [] => []
  | k :: ks => pyStr k :: strs ks
/-- Composite terms of a product: sums in brackets. -/
def brackets : List KE → List Str
  | [] => []
  | k :: ks => (if KE.isComm .sum k then bs (pyStr k) else pyStr k) :: brackets ks
end

/-- `"'" + s + "'"`, also the `__repr__` of a string without quotes in it. -/
def quoted (s : Str) : Str := '\'' :: (s ++ ['\''])

/-- `type(self).__name__`. -/
def opClass : Op → Str
  | .sum => ['S', 'u', 'm', 'K', 'E']
  | .prod => ['P', 'r', 'o', 'd', 'u', 'c', 't', 'K', 'E']

/-- `'ChangeKE'`. -/
def changeClass : Str := ['C', 'h', 'a', 'n', 'g', 'e', 'K', 'E']

mutual
/-- `__repr__`, `commutative_base.py:24-27`, `change.py:24-25`. -/
def pyRepr : KE → Str
  | .base b => quoted (bname b)
  | .comm op b cs =>
    opClass op ++ ['(', '['] ++ join [',', ' '] (b.elements.map (fun x => quoted (bname x))) ++ [']'] ++
      (if cs = [] then [] else [',', ' ', '['] ++ join [',', ' '] (reprs cs) ++ [']']) ++ [')']
  | .change c l r => changeClass ++ ['('] ++ quoted (cname c) ++ [',', ' '] ++ pyRepr l ++ [',', ' '] ++ pyRepr r ++ [')']
/-- Composite terms. -/
def reprs : List KE → List Str
  | [] => []
  | k :: ks => pyRepr k :: reprs ks
end

/-! ## The regular expression -/

/-- `[A-Z]`. -/
def upper (c : Char) : Bool := decide ('A' ≤ c ∧ c ≤ 'Z')

/-- `(?!\(|[A-Z])`. -/
def ahead : Str → Bool
  | [] => true
  | c :: _ => c ≠ '(' && !upper c

/-- The longest of the lengths `1 … n` at which `[A-Z]+(?!\(|[A-Z])` can end: backtracking. -/
def backtrack (s : Str) : Nat → Option Nat
  | 0 => none
  | n + 1 => if ahead (s.drop (n + 1)) then some n else backtrack s n

/-- The match of the pattern at the start of `s`, as one less than its length. -/
def matchAt (s : Str) : Option Nat := backtrack s (s.takeWhile upper).length

/-- `re.sub(r'([A-Z]+(?!\(|[A-Z]))', r'\1()', s)`. -/
def subCalls (s : Str) : Str :=
  match s with
  | [] => []
  | c :: cs =>
    match matchAt (c :: cs) with
    | none => c :: subCalls cs
    | some n => (c :: cs).take (n + 1) ++ '(' :: ')' :: subCalls (cs.drop n)
termination_by s.length
decreasing_by all_goals simp_wf <;> omega

/-! ## Python -/

/-- Tokens. -/
inductive Tok | name (s : Str) | lit (s : Str) | lp | rp | lb | rb | comma | plus | star
  deriving DecidableEq, Repr

/-- Where the scanner is. -/
inductive Mode | out | name (acc : Str) | lit (acc : Str)

/-- Characters of names. -/
def nameChar (c : Char) : Bool := c.isAlphanum || c = '_'

/-- Tokens of one character. -/
def sym : Char → Option Tok
  | '(' => some .lp
  | ')' => some .rp
  | '[' => some .lb
  | ']' => some .rb
  | ',' => some .comma
  | '+' => some .plus
  | '*' => some .star
  | _ => none

/-- One character outside names and strings. -/
def start (c : Char) : Option (List Tok × Mode) :=
  if c = ' ' then some ([], .out)
  else if c = '\'' then some ([], .lit [])
  else if nameChar c then some ([], .name [c])
  else (sym c).map (fun t => ([t], .out))

/-- One character. -/
def scan : Mode → Char → Option (List Tok × Mode)
  | .out, c => start c
  | .name acc, c => if nameChar c then some ([], .name (acc ++ [c])) else (start c).map (fun r => (.name acc :: r.1, r.2))
  | .lit acc, c => if c = '\'' then some ([.lit acc], .out) else some ([], .lit (acc ++ [c]))

/-- Tokens of a text; `none`: unexpected characters or an open string. -/
def lex (m : Mode) : Str → Option (List Tok)
  | [] => match m with
    | .out => some []
    | .name acc => some [.name acc]
    | .lit _ => none
  | c :: cs =>
    match scan m c with
    | none => none
    | some (ts, m') => (lex m' cs).map (ts ++ ·)

/-- Expressions. -/
inductive PyE
  | name (s : Str)
  | lit (s : Str)
  | list (l : List PyE)
  | call (f : Str) (args : List PyE)
  | add (a b : PyE)
  | mul (a b : PyE)
  deriving Repr

/-- What a bracket belongs to. -/
inductive Kind | top | paren | call (f : Str) | list
  deriving DecidableEq, Repr

/-- What has been read since a bracket was opened: complete arguments, and of the current one a sum, a product to be added to it and a factor of that. -/
structure Frame where
  /-- bracket -/
  kind : Kind
  /-- arguments -/
  done : List PyE := []
  /-- terms before the last `+` -/
  sum : Option PyE := none
  /-- factors before the last `*` -/
  prod : Option PyE := none
  /-- last factor -/
  cur : Option PyE := none
  deriving Repr

/-- `s + e`, or `e`. -/
def addO : Option PyE → PyE → PyE
  | none, e => e
  | some s, e => .add s e

/-- `p * e`, or `e`. -/
def mulO : Option PyE → PyE → PyE
  | none, e => e
  | some p, e => .mul p e

/-- The current argument. -/
def Frame.value (f : Frame) : Option PyE := f.cur.map (fun e => addO f.sum (mulO f.prod e))

/-- All arguments. -/
def Frame.args (f : Frame) : Option (List PyE) :=
  match f.value with
  | some v => some (f.done ++ [v])
  | none => if f.done.isEmpty && f.sum.isNone && f.prod.isNone then some [] else none

/-- One token; `none`: a syntax error. -/
def step : List Frame → Tok → Option (List Frame)
  | [], _ => none
  | f :: st, t =>
    match t with
    | .name s => if f.cur.isNone then some ({ f with cur := some (.name s) } :: st) else none
    | .lit s => if f.cur.isNone then some ({ f with cur := some (.lit s) } :: st) else none
    | .lp =>
      match f.cur with
      | none => some ({ kind := .paren } :: f :: st)
      | some (.name n) => some ({ kind := .call n } :: { f with cur := none } :: st)
      | some _ => none
    | .lb => if f.cur.isNone then some ({ kind := .list } :: f :: st) else none
    | .star => f.cur.map (fun e => { f with prod := some (mulO f.prod e), cur := none } :: st)
    | .plus => f.value.map (fun v => { f with sum := some v, prod := none, cur := none } :: st)
    | .comma =>
      match f.kind, f.value with
      | .call _, some v => some ({ f with done := f.done ++ [v], sum := none, prod := none, cur := none } :: st)
      | .list, some v => some ({ f with done := f.done ++ [v], sum := none, prod := none, cur := none } :: st)
      | _, _ => none
    | .rp =>
      match f.kind, st with
      | .paren, g :: st => f.value.map (fun v => { g with cur := some v } :: st)
      | .call n, g :: st => f.args.map (fun a => { g with cur := some (.call n a) } :: st)
      | _, _ => none
    | .rb =>
      match f.kind, st with
      | .list, g :: st => f.args.map (fun a => { g with cur := some (.list a) } :: st)
      | _, _ => none

/-- All tokens. -/
def run : List Frame → List Tok → Option (List Frame)
  | st, [] => some st
  | st, t :: ts =>
    match step st t with
    | none => none
    | some st' => run st' ts

/-- Reading a text as one expression. -/
def read (s : Str) : Option PyE :=
  match lex .out s with
  | none => none
  | some ts =>
    match run [{ kind := .top }] ts with
    | some [f] => f.value
    | _ => none

/-! ## Evaluation -/

/-- What the names of a printed form mean. -/
structure Alg (X : Type) where
  /-- `b()` -/
  base : Base → X
  /-- `+` -/
  add : X → X → X
  /-- `*` -/
  mul : X → X → X
  /-- `CP(a, b)`, `CW(a, b)` -/
  chg : CC → X → X → X

/-- The names of `baseKernels.py` without arguments. -/
def callBase (n : Str) : Option Base :=
  [Base.WN, .C, .LIN, .SE, .PER, .S, .Sr, .SI, .SIr].find? (fun b => bname b = n)

/-- Those with two. -/
def callChange (n : Str) : Option CC := [CC.CP, .CW].find? (fun c => cname c = n)

variable {X : Type}

/-- A call; `none`: `TypeError` or `NameError`. -/
def Alg.call (A : Alg X) (n : Str) : List X → Option X
  | [] => (callBase n).map A.base
  | [a, b] => (callChange n).map (fun c => A.chg c a b)
  | _ => none

mutual
/-- `eval` of a printed form. -/
def evalA (A : Alg X) : PyE → Option X
  | .name _ => none
  | .lit _ => none
  | .list _ => none
  | .call n args => (evalArgs A args).bind (A.call n)
  | .add a b => (evalA A a).bind (fun x => (evalA A b).map (fun y => A.add x y))
  | .mul a b => (evalA A a).bind (fun x => (evalA A b).map (fun y => A.mul x y))
/-- Arguments. -/
def evalArgs (A : Alg X) : List PyE → Option (List X)
  | [] => some []
  | a :: as => (evalA A a).bind (fun x => (evalArgs A as).map (fun xs => x :: xs))
end

/-- Kernels as `baseKernels.py` makes them: every parameter linked. -/
def kernelAlg (cfg : Cfg) : Alg (GK Unit) where
  base b := .base b (linked (basePars cfg b))
  add := combine .sum
  mul := combine .prod
  chg c a b := .change c (linked (kerPars cfg c)) a b

/-- `to_kernel_unrefined`, `base.py:117-119`. -/
def unrefined (cfg : Cfg) (k : KE) : Option (GK Unit) := (read (subCalls (pyStr k))).bind (evalA (kernelAlg cfg))

/-- Values of a `repr`. -/
inductive PyV
  | str (s : Str)
  | ke (k : KE)
  | list (l : List PyV)

/-- Names among strings; `none`: not the name of a base kernel. -/
def bases? : List PyV → Option (List Base)
  | [] => some []
  | .str s :: r => (callBase s).bind (fun b => (bases? r).map (fun bs => b :: bs))
  | _ :: _ => none

/-- Expressions among values. -/
def kes? : List PyV → Option (List KE)
  | [] => some []
  | .ke k :: r => (kes? r).map (fun ks => k :: ks)
  | _ :: _ => none

/-- A branch of a change operator: an expression or the name of a base kernel. -/
def branch? : PyV → Option KE
  | .ke k => some k
  | .str s => (callBase s).map KE.base
  | .list _ => none

/-- `SumKE(...)`, `ProductKE(...)`, `ChangeKE(...)`. -/
def construct (cfg : Cfg) (n : Str) : List PyV → Option KE
  | [.list bts] =>
    (if n = opClass .sum then some Op.sum else if n = opClass .prod then some Op.prod else none).bind (fun op =>
      (bases? bts).map (fun l => KE.mkL cfg op l []))
  | [.list bts, .list cts] =>
    (if n = opClass .sum then some Op.sum else if n = opClass .prod then some Op.prod else none).bind (fun op =>
      (bases? bts).bind (fun l => (kes? cts).map (fun cs => KE.mkL cfg op l cs)))
  | [.str c, l, r] =>
    if n = changeClass then (callChange c).bind (fun c => (branch? l).bind (fun l => (branch? r).map (fun r => KE.mkChange cfg c l r))) else none
  | _ => none

mutual
/-- `eval` of a `repr`. -/
def evalK (cfg : Cfg) : PyE → Option PyV
  | .lit s => some (.str s)
  | .list l => (evalKs cfg l).map PyV.list
  | .call n args => (evalKs cfg args).bind (fun vs => (construct cfg n vs).map PyV.ke)
  | _ => none
/-- Over a list. -/
def evalKs (cfg : Cfg) : List PyE → Option (List PyV)
  | [] => some []
  | a :: as => (evalK cfg a).bind (fun x => (evalKs cfg as).map (fun xs => x :: xs))
end

/-- `eval(repr(k))`. -/
def evalRepr (cfg : Cfg) (k : KE) : Option KE := (read (pyRepr k)).bind (fun e => (evalK cfg e).bind (fun v => match v with
  | .ke k => some k
  | _ => none))

end Print
end GPyABCD
