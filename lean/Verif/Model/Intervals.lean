import Mathlib.Order.Basic
import Mathlib.Order.Defs.LinearOrder

/-!
# Sigmoids as intervals

Models `/repo/GPy_ABCD/KernelExpansion/kernelInterpretation.py:94-214`. Python dictionaries with the keys
`start`, `end`, `start_slope`, `end_slope` are records of optional values; reading a missing key is `KeyError`,
reading a key of `None` is `TypeError`. Numbers are any linear order with addition.
-/

namespace GPyABCD
namespace Interval

/-- Python exceptions. -/
inductive PyErr | key | type | value | assertion
  deriving DecidableEq, Repr

/-- A dictionary describing an interval, or a window to be left out (`SIr_hole_interval`). -/
structure Ivl (α : Type) where
  /-- `'start'` -/
  start : Option α := none
  /-- `'end'` -/
  stop : Option α := none
  /-- `'start_slope'` -/
  startSlope : Option α := none
  /-- `'end_slope'` -/
  stopSlope : Option α := none
  deriving DecidableEq, Repr

/-- The key `'slope'`, which no interval dictionary has: every one is made by the functions at
`kernelInterpretation.py:110-115, 132, 149, 152, 159, 162, 168-169, 173-174, 201`. -/
def Ivl.slope {α : Type} (_ : Ivl α) : Option α := none

/-- `d[key]`. -/
def get {α : Type} (o : Option α) : Except PyErr α :=
  match o with
  | some a => .ok a
  | none => .error .key

/-- `v[key]` for a dictionary or `None`. -/
def sub {α : Type} (v : Option (Ivl α)) (f : Ivl α → Option α) : Except PyErr α :=
  match v with
  | some i => get (f i)
  | none => .error .type

/-- Parameters of a sigmoid term of a product. -/
structure SigP (α : Type) where
  /-- `'location'` -/
  loc : α
  /-- `'slope'`: fitted, or 1 when slopes are fixed, `kernelInterpretation.py:97` -/
  slope : α
  /-- `'width'` (windows only) -/
  width : α
  deriving DecidableEq, Repr

variable {α : Type}

/-- `S_interval`, `kernelInterpretation.py:110`. -/
def sInterval (p : SigP α) : Ivl α := { start := some p.loc, startSlope := some p.slope }

/-- `Sr_interval`, `kernelInterpretation.py:111`. -/
def srInterval (p : SigP α) : Ivl α := { stop := some p.loc, stopSlope := some p.slope }

/-- `SI_interval`, `kernelInterpretation.py:112, 117-118`. -/
def siInterval [Add α] (p : SigP α) : Ivl α := ⟨some p.loc, some (p.loc + p.width), some p.slope, some p.slope⟩

/-- `SIr_hole_interval`, `kernelInterpretation.py:113, 117-118`: the hole from `end` to `start`. -/
def sirHole [Add α] (p : SigP α) : Ivl α := ⟨some (p.loc + p.width), some p.loc, some p.slope, some p.slope⟩

/-- `SIr_split_intervals`, `kernelInterpretation.py:115`. -/
def sirSplit (h : Ivl α) : Except PyErr (List (Ivl α)) := do
  let e ← get h.stop
  let es ← get h.stopSlope
  let s ← get h.start
  let ss ← get h.startSlope
  return [{ stop := some e, stopSlope := some es }, { start := some s, startSlope := some ss }]

section
variable [LinearOrder α]

/-- Loop of `min(xs, key = f)`: the first element with the smallest key. -/
def minGo {β : Type} (f : β → Except PyErr α) (best : β) (bk : α) : List β → Except PyErr β
  | [] => .ok best
  | x :: xs =>
    match f x with
    | .error e => .error e
    | .ok k => if k < bk then minGo f x k xs else minGo f best bk xs

/-- `min(xs, key = f)`. -/
def minBy {β : Type} (f : β → Except PyErr α) : List β → Except PyErr β
  | [] => .error .value
  | x :: xs =>
    match f x with
    | .error e => .error e
    | .ok k => minGo f x k xs

/-- Loop of `max(xs, key = f)`: the first element with the largest key. -/
def maxGo {β : Type} (f : β → Except PyErr α) (best : β) (bk : α) : List β → Except PyErr β
  | [] => .ok best
  | x :: xs =>
    match f x with
    | .error e => .error e
    | .ok k => if bk < k then maxGo f x k xs else maxGo f best bk xs

/-- `max(xs, key = f)`. -/
def maxBy {β : Type} (f : β → Except PyErr α) : List β → Except PyErr β
  | [] => .error .value
  | x :: xs =>
    match f x with
    | .error e => .error e
    | .ok k => maxGo f x k xs

/-- `Sr_overlap`, `kernelInterpretation.py:124`. -/
def srOverlap (ps : List (Option (Ivl α))) : Except PyErr (Option (Ivl α)) := minBy (fun p => sub p Ivl.stop) ps

/-- `S_overlap`, `kernelInterpretation.py:126`. -/
def sOverlap (ps : List (Option (Ivl α))) : Except PyErr (Option (Ivl α)) := maxBy (fun p => sub p Ivl.start) ps

/-- `SI_overlap`, `kernelInterpretation.py:129-133`. -/
def siOverlap (ps : List (Option (Ivl α))) : Except PyErr (Option (Ivl α)) := do
  let start ← sOverlap ps
  let stop ← srOverlap ps
  let s ← sub start Ivl.start
  let e ← sub stop Ivl.stop
  let ss ← sub start Ivl.startSlope
  let es ← sub stop Ivl.stopSlope
  if e > s then return some ⟨some s, some e, some ss, some es⟩ else return none

/-- `intersect_segment_hole`, `kernelInterpretation.py:156-163`: what it appends. -/
def segmentHole (segment hole : Ivl α) : Except PyErr (List (Ivl α)) := do
  let s ← get segment.start
  let he ← get hole.stop
  let r1 ← (if s < he then do
      let e ← get segment.stop
      if e < he then return [segment]
      else
        let ss ← get segment.startSlope
        let hsl ← get hole.slope
        return [⟨some s, some he, some ss, some hsl⟩]
    else return [])
  let e ← get segment.stop
  let hs ← get hole.start
  let r2 ← (if e > hs then do
      if s > hs then return [segment]
      else
        let hsl ← get hole.slope
        let es ← get segment.stopSlope
        return [⟨some hs, some e, some hsl, some es⟩]
    else return [])
  return r1 ++ r2

/-- `intersect_semiline_hole`, `kernelInterpretation.py:165-176`: what it appends. -/
def semilineHole (semiline hole : Ivl α) : Except PyErr (List (Ivl α)) :=
  match semiline.start with
  | none => do
    let he ← get hole.stop
    let e ← get semiline.stop
    if he < e then
      let hsl ← get hole.slope
      let hs ← get hole.start
      if hs < e then
        let hss ← get hole.startSlope
        let es ← get semiline.stopSlope
        return [{ stop := some he, stopSlope := some hsl }, ⟨some hs, some e, some hss, some es⟩]
      else return [{ stop := some he, stopSlope := some hsl }]
    else return [semiline]
  | some s => do
    let hs ← get hole.start
    if hs > s then
      let he ← get hole.stop
      let r1 ← (if he > s then do
          let ss ← get semiline.startSlope
          let hes ← get hole.stopSlope
          return [⟨some s, some he, some ss, some hes⟩]
        else return [])
      let hss ← get hole.startSlope
      return r1 ++ [{ start := some hs, startSlope := some hss }]
    else return [semiline]

/-- `'start' not in a or 'end' not in a`. -/
def isSemiline (a : Ivl α) : Bool := a.start.isNone || a.stop.isNone

/-- One interval of the accumulator against a hole, `kernelInterpretation.py:138-139`. -/
def sirOne (a hole : Ivl α) : Except PyErr (List (Ivl α)) :=
  if isSemiline a then semilineHole a hole else segmentHole a hole

/-- `SIr_overlap_step`, `kernelInterpretation.py:135-140`. -/
def sirStep (acc : List (Ivl α)) (hole : Ivl α) : Except PyErr (List (Ivl α)) :=
  match acc with
  | [] => .ok []
  | a :: as => do
    let r ← sirOne a hole
    let rs ← sirStep as hole
    return r ++ rs

/-- `reduce(SIr_overlap_step, holes, acc)`. -/
def sirFold (acc : List (Ivl α)) : List (Ivl α) → Except PyErr (List (Ivl α))
  | [] => .ok acc
  | h :: hs => do
    let acc' ← sirStep acc h
    sirFold acc' hs

/-- `SIr_overlap`, `kernelInterpretation.py:141`; `IndexError` of an empty list is not told from `ValueError`. -/
def sirOverlap : List (Ivl α) → Except PyErr (List (Ivl α))
  | [] => .error .value
  | h :: hs => do
    let acc ← sirSplit h
    sirFold acc hs

/-- `intersect_segment_semiline`, `kernelInterpretation.py:146-154`. -/
def segmentSemiline (segment semiline : Option (Ivl α)) : Except PyErr (Option (Ivl α)) :=
  match semiline with
  | none => .error .type
  | some l => do
    let first ← (if l.start.isNone then do
        let s ← sub segment Ivl.start
        let le ← get l.stop
        return decide (s < le)
      else return false)
    if first then
      let e ← sub segment Ivl.stop
      let le ← get l.stop
      if e < le then return segment
      else
        let s ← sub segment Ivl.start
        let ss ← sub segment Ivl.startSlope
        let les ← get l.stopSlope
        return some ⟨some s, some le, some ss, some les⟩
    else
      let second ← (if l.stop.isNone then do
          let e ← sub segment Ivl.stop
          let ls ← get l.start
          return decide (e > ls)
        else return false)
      if second then
        let s ← sub segment Ivl.start
        let ls ← get l.start
        if s > ls then return segment
        else
          let e ← sub segment Ivl.stop
          let lss ← get l.startSlope
          let es ← sub segment Ivl.stopSlope
          return some ⟨some ls, some e, some lss, some es⟩
      else return none

/-- The kinds whose value is a single dictionary (or `None`). -/
inductive Kind | S | Sr | SI
  deriving DecidableEq, Repr

/-- A pair `(kind, value)`: a single interval, or `('SIr', list)`. -/
inductive Arg (α : Type)
  | flat (k : Kind) (v : Option (Ivl α))
  | holes (l : List (Option (Ivl α)))
  deriving DecidableEq, Repr

/-- What `simplify_sigmoidal_interval_pair` returns: a dictionary, `None` or a list. -/
inductive Res (α : Type)
  | ivl (i : Ivl α)
  | none
  | list (l : List (Option (Ivl α)))
  deriving DecidableEq, Repr

/-- A dictionary or `None` as a result. -/
def Res.ofOpt : Option (Ivl α) → Res α
  | some i => .ivl i
  | Option.none => .none

/-- `identify_interval_type` of a dictionary, `kernelInterpretation.py:209-214`. -/
def identify (i : Ivl α) : Arg α :=
  if i.start.isNone then .flat .Sr (some i) else if i.stop.isNone then .flat .S (some i) else .flat .SI (some i)

/-- `{**pair['S'], **pair['Sr']}`: later keys overwrite. -/
def merge (a b : Ivl α) : Ivl α :=
  ⟨b.start.or a.start, b.stop.or a.stop, b.startSlope.or a.startSlope, b.stopSlope.or a.stopSlope⟩

/-- A window against a semiline, `kernelInterpretation.py:198-200`: the empty list when they do not meet. -/
def pairSeg (seg semi : Option (Ivl α)) : Except PyErr (Res α) := do
  let r ← segmentSemiline seg semi
  match r with
  | some i => return .ivl i
  | none => return .list []

/-- A start against an end, `kernelInterpretation.py:201`: the two dictionaries merged, or the empty list. -/
def pairEnds (vs vr : Option (Ivl α)) : Except PyErr (Res α) := do
  let s ← sub vs Ivl.start
  let e ← sub vr Ivl.stop
  if s < e then
    match vs, vr with
    | some a, some b => return .ivl (merge a b)
    | _, _ => .error .type
  else return .list []

/-- `simplify_sigmoidal_interval_pair` when neither argument is `'SIr'`, `kernelInterpretation.py:198-206`: the result is a
dictionary, `None`, or the empty list. -/
def pairFlat (k1 : Kind) (v1 : Option (Ivl α)) (k2 : Kind) (v2 : Option (Ivl α)) : Except PyErr (Res α) :=
  if k1 = k2 then
    match k1 with
    | .SI => Res.ofOpt <$> siOverlap [v1, v2]
    | .S => Res.ofOpt <$> sOverlap [v1, v2]
    | .Sr => Res.ofOpt <$> srOverlap [v1, v2]
  else
    let of (k : Kind) := if k1 = k then v1 else v2
    if k1 = .SI ∨ k2 = .SI then pairSeg (of .SI) (of (if k1 = .S ∨ k2 = .S then .S else .Sr))
    else pairEnds (of .S) (of .Sr)

/-- The loop over the list of a reversed window, `kernelInterpretation.py:195-197`: `other` against every interval. -/
def pairHoles (k : Kind) (v : Option (Ivl α)) : List (Option (Ivl α)) → Except PyErr (List (Option (Ivl α)))
  | [] => .ok []
  | none :: _ => .error .type
  | some i :: l =>
    match identify i with
    | .holes _ => .error .type
    | .flat k' v' => do
      let r ← pairFlat k v k' v'
      let rs ← pairHoles k v l
      match r with
      | .ivl j => return some j :: rs
      | .none => return none :: rs
      | .list _ => return rs

/-- `res[0] if len(res) == 1 else res`, `kernelInterpretation.py:206`. -/
def unwrap : List (Option (Ivl α)) → Res α
  | [v] => Res.ofOpt v
  | l => .list l

/-- `simplify_sigmoidal_interval_pair`, `kernelInterpretation.py:190-206`. Two lists have the same key `'SIr'`, and
`pair['Sr']` is missing. -/
def pair : Arg α → Arg α → Except PyErr (Res α)
  | .flat k1 v1, .flat k2 v2 => pairFlat k1 v1 k2 v2
  | .holes l, .flat k v => unwrap <$> pairHoles k v l
  | .flat k v, .holes l => unwrap <$> pairHoles k v l
  | .holes _, .holes _ => .error .key

/-- The accumulator after a step; outer `none` is Python's `None`, `kernelInterpretation.py:184-187`. -/
def stepRes : Res α → Option (Arg α)
  | .ivl i => some (identify i)
  | .none => none
  | .list l => some (.holes l)

/-- `simplify_sigmoidal_intervals_step`, `kernelInterpretation.py:184-187`. -/
def simplifyStep (acc : Option (Arg α)) (new : Arg α) : Except PyErr (Option (Arg α)) :=
  match acc with
  | none => .ok none
  | some a => stepRes <$> pair a new

/-- `reduce` with that step. -/
def simplifyGo (acc : Option (Arg α)) : List (Arg α) → Except PyErr (Option (Arg α))
  | [] => .ok acc
  | x :: xs => do
    let acc' ← simplifyStep acc x
    simplifyGo acc' xs

/-- `simplify_sigmoidal_intervals(...)` followed by wrapping into a list, `kernelInterpretation.py:107, 182`: `None[1]` is
`TypeError`. -/
def simplifyAll : List (Arg α) → Except PyErr (List (Option (Ivl α)))
  | [] => .error .type
  | x :: xs => do
    let r ← simplifyGo (some x) xs
    match r with
    | none => .error .type
    | some (.flat _ v) => return [v]
    | some (.holes l) => return l

variable [Add α]

/-- The sigmoids of one kind in a product. -/
inductive Group (α : Type)
  | S (ps : List (SigP α))
  | Sr (ps : List (SigP α))
  | SI (ps : List (SigP α))
  | SIr (ps : List (SigP α))
  deriving DecidableEq, Repr

/-- One kind reduced by itself, `kernelInterpretation.py:99-103`. -/
def reduceGroup : Group α → Except PyErr (Arg α)
  | .S ps => Arg.flat .S <$> sOverlap (ps.map (fun p => some (sInterval p)))
  | .Sr ps => Arg.flat .Sr <$> srOverlap (ps.map (fun p => some (srInterval p)))
  | .SI ps => Arg.flat .SI <$> siOverlap (ps.map (fun p => some (siInterval p)))
  | .SIr ps => (fun l => Arg.holes (l.map some)) <$> sirOverlap (ps.map sirHole)

/-- All kinds reduced by themselves, in the order of the dictionary. -/
def reduceGroups : List (Group α) → Except PyErr (List (Arg α))
  | [] => .ok []
  | g :: gs => do
    let a ← reduceGroup g
    let as ← reduceGroups gs
    return a :: as

/-- The `'sigmoidal_intervals'` entry of `sigmoids_to_intervals`, `kernelInterpretation.py:96-108`, for a non-empty list of
groups (one per kind present, in dictionary order). -/
def sigmoidIntervals (gs : List (Group α)) : Except PyErr (List (Option (Ivl α))) := do
  let as ← reduceGroups gs
  simplifyAll as

end
end Interval
end GPyABCD
