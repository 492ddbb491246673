import Verif.Model.Sops
import Verif.Model.Intervals
import Mathlib.Data.List.Sort

/-!
# Descriptions of components

Models `/repo/GPy_ABCD/KernelExpansion/kernelInterpretation.py:9-108` and
`/repo/GPy_ABCD/KernelExpressions/base.py:144-149`.

The code assembles strings; here a sentence is first a structure of phrases (`describe`) and then its text (`Sentence.text`). The
formatting `'{:.2f}'` of numbers is a parameter `fmt`.
Simplifications: the groups of sigmoids are all read before any is reduced, which may change which of two errors is raised;
`IndexError` of an empty list is not told from `ValueError`.
-/

namespace GPyABCD
namespace Interp
open Sops Interval

/-- How the change slopes of a window are reported, `kernelInterpretation.py:84-86`. -/
inductive Slopes (α : Type)
  | none
  | same (a : α)
  | two (a b : α)
  deriving DecidableEq, Repr

/-- One interval, `kernelInterpretation.py:76-86`. -/
inductive IvlText (α : Type)
  | until (e : α) (slope : Option α)
  | from (s : α) (slope : Option α)
  | between (s e : α) (slopes : Slopes α)
  deriving DecidableEq, Repr

/-- What a sentence starts with, `kernelInterpretation.py:27-54`. -/
inductive First (α : Type)
  | noise
  | constant
  | smooth (l : α)
  | periodic (p l : α)
  | periodics (main : α × α) (more : List (α × α))
  | linear (o : Option α)
  | polynomial (n : Nat) (roots : Option (List α))
  deriving DecidableEq, Repr

/-- A modifier, `kernelInterpretation.py:57-90`. -/
inductive Modifier (α : Type)
  | smooth (l : α)
  | linear (o : Option α)
  | polynomial (n : Nat) (roots : Option (List α))
  | intervals (l : List (IvlText α))
  deriving DecidableEq, Repr

/-- A sentence. -/
structure Sentence (α : Type) where
  /-- first term -/
  first : First α
  /-- modifiers -/
  mods : List (Modifier α)
  /-- whether there are sigmoids -/
  bounded : Bool
  /-- the variance -/
  var : α
  deriving DecidableEq, Repr

section
variable {α : Type}

/-- A list comprehension over dictionaries. -/
def readAll {β : Type} (f : PD α → Except PyErr β) : List (PD α) → Except PyErr (List β)
  | [] => .ok []
  | p :: ps => do
    let x ← f p
    let xs ← readAll f ps
    return x :: xs

/-- `p['period']` and `p['lengthscale']`. -/
def readPer (p : PD α) : Except PyErr (α × α) := do
  let a ← get p.period
  let b ← get p.lengthscale
  return (a, b)

/-- The offsets of `LIN` terms, `kernelInterpretation.py:43-52, 62-71`: one term or several; nothing is read without offsets. -/
def readLin {β : Type} (cfg : Cfg) (one : Option α → β) (many : Nat → Option (List α) → β) : List (PD α) → Except PyErr β
  | [] => .error .value
  | [p] => if cfg.linOffset then (fun o => one (some o)) <$> get p.offset else .ok (one none)
  | ps => if cfg.linOffset then (fun os => many ps.length (some os)) <$> readAll (fun p => get p.offset) ps else .ok (many ps.length none)

variable [LinearOrder α]

/-- `sorted(ps, key = lambda p: p['period'], reverse = True)`, `kernelInterpretation.py:35`: stable. -/
def byPeriod (l : List (α × α)) : List (α × α) := l.insertionSort (fun a b => b.1 ≤ a.1)

/-- `first_term_interpretation`, `kernelInterpretation.py:27-54`. -/
def first (cfg : Cfg) : Base × List (PD α) → Except PyErr (First α)
  | (.WN, _) => .ok .noise
  | (.C, _) => .ok .constant
  | (.SE, ps) =>
    match ps with
    | [] => .error .value
    | p :: _ => First.smooth <$> get p.lengthscale
  | (.PER, ps) =>
    match ps with
    | [] => .error .value
    | [p] => (fun x => First.periodic x.1 x.2) <$> readPer p
    | ps => do
      let l ← readAll readPer ps
      match byPeriod l with
      | [] => .error .value
      | x :: xs => return .periodics x xs
  | (.LIN, ps) => readLin cfg First.linear First.polynomial ps
  | (_, _) => .error .value

/-- `postmodifier_interpretation` of a base kernel, `kernelInterpretation.py:57-71, 89`: the empty string is `none`. -/
def postBase (cfg : Cfg) : Base × List (PD α) → Except PyErr (Option (Modifier α))
  | (.SE, ps) =>
    match ps with
    | [] => .error .value
    | p :: _ => (fun x => some (Modifier.smooth x)) <$> get p.lengthscale
  | (.LIN, ps) => some <$> readLin cfg Modifier.linear Modifier.polynomial ps
  | (b, _) => if b.isSigmoid then .ok none else .error .value

/-- The body of the loop over intervals, `kernelInterpretation.py:76-86`: `'start' not in None` is `TypeError`. -/
def ivlText (cfg : Cfg) : Option (Ivl α) → Except PyErr (IvlText α)
  | none => .error .type
  | some i =>
    if i.start.isNone then do
      let e ← get i.stop
      if cfg.fixSlope then return .until e none
      else
        let s ← get i.stopSlope
        return .until e (some s)
    else if i.stop.isNone then do
      let s ← get i.start
      if cfg.fixSlope then return .from s none
      else
        let a ← get i.startSlope
        return .from s (some a)
    else do
      let s ← get i.start
      let e ← get i.stop
      if cfg.fixSlope then
        let a ← get i.startSlope
        let b ← get i.stopSlope
        if a = b then return .between s e (.same a) else return .between s e (.two a b)
      else return .between s e .none

/-- The loop over intervals. -/
def ivlTexts (cfg : Cfg) : List (Option (Ivl α)) → Except PyErr (List (IvlText α))
  | [] => .ok []
  | i :: is => do
    let x ← ivlText cfg i
    let xs ← ivlTexts cfg is
    return x :: xs

/-- `postmodifier_interpretation` of `'sigmoidal_intervals'`, `kernelInterpretation.py:72-88`. -/
def postIvl (cfg : Cfg) (l : List (Option (Ivl α))) : Except PyErr (Option (Modifier α)) := do
  let ts ← ivlTexts cfg l
  match ts with
  | [] => return none
  | _ => return some (.intervals ts)

/-- The postmodifiers that are not the empty string, `kernelInterpretation.py:20-23`. -/
def postAll (cfg : Cfg) : List (Base × List (PD α)) → Except PyErr (List (Modifier α))
  | [] => .ok []
  | e :: es => do
    let x ← postBase cfg e
    let xs ← postAll cfg es
    return x.toList ++ xs

variable [Add α] [One α]

/-- The location, slope and width of a sigmoid, `kernelInterpretation.py:97, 110-118`: the slope is 1 when slopes are fixed; the
width is not read for `S` and `Sr` (here 1). -/
def readSig (cfg : Cfg) (window : Bool) (p : PD α) : Except PyErr (SigP α) := do
  let l ← get p.location
  let s ← if cfg.fixSlope then .ok 1 else get p.slope
  let w ← if window then get p.width else .ok 1
  return ⟨l, s, w⟩

/-- The groups of sigmoids, in the order of the dictionary, `kernelInterpretation.py:99-103`. -/
def groups (cfg : Cfg) : PDict α → Except PyErr (List (Group α))
  | [] => .ok []
  | (b, ps) :: r =>
    match b with
    | .S => do
      let g ← readAll (readSig cfg false) ps
      let gs ← groups cfg r
      return .S g :: gs
    | .Sr => do
      let g ← readAll (readSig cfg false) ps
      let gs ← groups cfg r
      return .Sr g :: gs
    | .SI => do
      let g ← readAll (readSig cfg true) ps
      let gs ← groups cfg r
      return .SI g :: gs
    | .SIr => do
      let g ← readAll (readSig cfg true) ps
      let gs ← groups cfg r
      return .SIr g :: gs
    | _ => groups cfg r

/-- `sigmoids_to_intervals`, `kernelInterpretation.py:96-108`: the `'sigmoidal_intervals'` entry, `none` if there is none. -/
def toIntervals (cfg : Cfg) (ps : PDict α) : Except PyErr (Option (List (Option (Ivl α)))) := do
  let gs ← groups cfg ps
  match gs with
  | [] => return none
  | _ => some <$> sigmoidIntervals gs

/-- `base_factors_interpretation`, `kernelInterpretation.py:13-24`, on the dictionaries of a component and its variance.
`'sigmoidal_intervals'` has the largest rank of all keys, so it comes last after sorting. -/
def describe (cfg : Cfg) (ps : PDict α) (pv : Option α) : Except PyErr (Sentence α) := do
  let iv ← toIntervals cfg ps
  let var ← get pv
  let ordered := ps.insertionSort (fun a b => a.1.order ≤ b.1.order)
  match ordered with
  | [] => .error .value
  | e :: es => do
    let ms ← postAll cfg es
    let last ← match iv with
      | none => pure none
      | some l => postIvl cfg l
    let f ← first cfg e
    return ⟨f, ms ++ last.toList, iv.isSome, var⟩

end

/-! ## Text -/

section
variable {α : Type} (fmt : α → String)

/-- `xs[-1] = 'and ' + xs[-1]` when there is more than one, then `', '.join(xs)`. -/
def commaAnd (l : List String) : String :=
  ", ".intercalate (if l.length > 1 then l.dropLast ++ l.getLast?.toList.map ("and " ++ ·) else l)

/-- `kernelInterpretation.py:76-86`. -/
def IvlText.text : IvlText α → String
  | .until e none => "until " ++ fmt e
  | .until e (some s) => "until " ++ fmt e ++ " (with change slope " ++ fmt s ++ ")"
  | .from s none => "from " ++ fmt s
  | .from s (some a) => "from " ++ fmt s ++ " (with change slope " ++ fmt a ++ ")"
  | .between s e sl => "between " ++ fmt s ++ " and " ++ fmt e ++
    match sl with
    | .none => ""
    | .same a => " (with same change slopes " ++ fmt a ++ ")"
    | .two a b => " (with change slopes " ++ fmt a ++ " and " ++ fmt b ++ ")"

/-- A periodic function in a list of them, `kernelInterpretation.py:38`. -/
def perText (p : α × α) : String := "period " ++ fmt p.1 ++ " and lengthscale " ++ fmt p.2

/-- `kernelInterpretation.py:27-54`. -/
def First.text : First α → String
  | .noise => "Uncorrelated noise"
  | .constant => "A constant"
  | .smooth l => "A smooth function with lengthscale " ++ fmt l
  | .periodic p l => "A periodic function with period " ++ fmt p ++ " and lengthscale " ++ fmt l
  | .periodics m more =>
    "A periodic function with main period " ++ fmt m.1 ++ " and lengthscale " ++ fmt m.2 ++ ", then " ++
    (if more.length = 1 then "modulated by another periodic function of "
      else "repeatedly modulated by " ++ toString more.length ++ " more periodic functions (by decreasing period) of ") ++
    commaAnd (more.map (perText fmt))
  | .linear (some o) => "A linear function with horizontal offset " ++ fmt o
  | .linear none => "A linear function"
  | .polynomial n (some r) => "A polynomial function of order " ++ toString n ++ " with roots " ++ commaAnd (r.map fmt)
  | .polynomial n none => "A polynomial function of order " ++ toString n

/-- `kernelInterpretation.py:57-90`. -/
def Modifier.text : Modifier α → String
  | .smooth l => "whose shape changes smoothly with lengthscale " ++ fmt l
  | .linear (some o) => "with linearly varying amplitude with horizontal offset " ++ fmt o
  | .linear none => "with linearly varying amplitude"
  | .polynomial n (some r) => "with polynomially varying amplitude of order " ++ toString n ++ " with roots " ++ commaAnd (r.map fmt)
  | .polynomial n none => "with polynomially varying amplitude of order " ++ toString n
  | .intervals l => commaAnd (l.map (IvlText.text fmt))

/-- With what it is appended, `kernelInterpretation.py:23`. -/
def Modifier.joined (m : Modifier α) : String :=
  (match m with
    | .intervals _ => "; this component applies "
    | _ => ", ") ++ m.text fmt

/-- `kernelInterpretation.py:16, 24`. -/
def Sentence.text (s : Sentence α) : String :=
  s.first.text fmt ++ String.join (s.mods.map (Modifier.joined fmt)) ++
    (if s.bounded then ", and it" else "; this component") ++ " has overall variance " ++ fmt s.var

end

section
variable {α : Type} [LinearOrder α] [Add α] [One α]

/-- The loop over components, `base.py:148`. -/
def describeAll (cfg : Cfg) : List (PKE α) → Except PyErr (List (Sentence α))
  | [] => .ok []
  | .comm _ _ ps pv _ :: ks => do
    let s ← describe cfg ps pv
    let ss ← describeAll cfg ks
    return s :: ss
  | _ :: _ => .error .type

/-- `get_interpretation`, `base.py:144-149`. -/
def interpretation (fmt : α → String) (cfg : Cfg) : PKE α → Except PyErr String
  | .comm _ bts _ _ cts =>
    if bts.total = 0 then do
      let ss ← describeAll cfg cts
      return "The fit kernel consists of " ++ toString cts.length ++ " components:" ++ String.join (ss.map (fun s => "\n\t" ++ s.text fmt))
    else .error .assertion
  | _ => .error .type

end
end Interp
end GPyABCD
