import Verif.Model.Interp

/-!
# Specification: what a text must contain
-/

namespace GPyABCD
namespace Interp

/-- The text contains these pieces, in this order and without overlap. -/
inductive Says : String → List String → Prop
  | done (t : String) : Says t []
  | next (a p t : String) (ps : List String) : Says t ps → Says (a ++ p ++ t) (p :: ps)

variable {α : Type} (fmt : α → String)

/-- The pieces of an interval. -/
def IvlText.words : IvlText α → List String
  | .until e s => ["until", fmt e] ++ s.toList.flatMap (fun a => ["slope", fmt a])
  | .from b s => ["from", fmt b] ++ s.toList.flatMap (fun a => ["slope", fmt a])
  | .between b e .none => ["between", fmt b, fmt e]
  | .between b e (.same a) => ["between", fmt b, fmt e, "slope", fmt a]
  | .between b e (.two a a') => ["between", fmt b, fmt e, "slope", fmt a, fmt a']

/-- The pieces of the first term. -/
def First.words : First α → List String
  | .noise => ["noise"]
  | .constant => ["constant"]
  | .smooth l => ["smooth", "lengthscale", fmt l]
  | .periodic p l => ["periodic", "period", fmt p, "lengthscale", fmt l]
  | .periodics m more => ["periodic", "period", fmt m.1, "lengthscale", fmt m.2] ++
      (if more.length = 1 then ["another"] else [toString more.length]) ++
      more.flatMap (fun p => ["period", fmt p.1, "lengthscale", fmt p.2])
  | .linear o => ["linear"] ++ o.toList.flatMap (fun x => ["offset", fmt x])
  | .polynomial n none => ["polynomial", toString n]
  | .polynomial n (some r) => ["polynomial", toString n, "roots"] ++ r.map fmt

/-- The pieces of a modifier. -/
def Modifier.words : Modifier α → List String
  | .smooth l => ["smooth", "lengthscale", fmt l]
  | .linear o => ["linear"] ++ o.toList.flatMap (fun x => ["offset", fmt x])
  | .polynomial n none => ["polynomial", toString n]
  | .polynomial n (some r) => ["polynomial", toString n, "roots"] ++ r.map fmt
  | .intervals l => "applies" :: l.flatMap (IvlText.words fmt)

/-- The pieces of a sentence. -/
def Sentence.words (s : Sentence α) : List String :=
  s.first.words fmt ++ s.mods.flatMap (Modifier.words fmt) ++ ["variance", fmt s.var]

end Interp
end GPyABCD
