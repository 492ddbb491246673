import Verif.Props.Growing
import Verif.Props.Print
import Verif.Lemmas.Written
import Verif.Model.GPModel

/-!
# Properties: expressions written by users (C92)

C92: what becomes of an expression written with `SumKE`, `ProductKE` and `ChangeKE`, when it is fitted with `fit_kex` or given to a search as a start kernel:
both call `_initialise` on it, which simplifies it once more.
-/

namespace GPyABCD
open KE Sops Params Interp

variable {α : Type} [LinearOrder α] [Mul α] [One α] [Add α]

/-- `LIN + (PER + WN)`, with the inner sum in a product of its own, and a change point: `SumKE(['LIN'], [ProductKE([], [SumKE(['PER', 'WN'])]),
ChangeKE('CP', 'PER', ProductKE(['LIN', 'PER']))])` -/
def writtenExample : KE :=
  comm .sum [(.LIN, 1)] [comm .prod [] [comm .sum [(.PER, 1), (.WN, 1)] []], change .CP (base .PER) (comm .prod [(.LIN, 1), (.PER, 1)] [])]

/-- C92. `build` is what evaluating the text of the constructor calls gives. -/
theorem C92_written (cfg : Cfg) (t : KE) (hb : t.isBase = false) (hw : wf t = true) : Print.evalRepr cfg t = some (build cfg t) := by
  have h : (build cfg t).isBase = false := by rw [isBase_build]; exact hb
  rw [Print.evalRepr, Print.read_repr, Option.bind_some, Print.eval_build t hw, Option.bind_some]
  generalize build cfg t = k at h
  cases k <;> simp [isBase] at h <;> rfl

set_option maxRecDepth 8000 in
example : writtenExample.isBase = false ∧ wf writtenExample = true ∧ String.ofList (Print.pyRepr writtenExample) =
    "SumKE(['LIN'], [ProductKE([], [SumKE(['PER', 'WN'])]), ChangeKE('CP', 'PER', ProductKE(['LIN', 'PER']))])" := ⟨by decide, by decide, by rfl⟩

/-- C92. However an expression is written, `_initialise` leaves an expression in which no sum is directly in a sum and no product directly in a product, and
which simplification does not change any more. The constructors alone do not (next theorem). -/
theorem C92_stable (cfg : Cfg) (t : KE) (hw : wf t = true) :
    simplify cfg (simplify cfg (build cfg t)) = simplify cfg (build cfg t) ∧ alternating (simplify cfg (build cfg t)) = true := by
  have h := normal_build cfg t hw
  exact ⟨simplify_of_normal h, (normal_iff.1 h).2.2.2⟩

/-- C92. The constructors alone leave a sum in a sum, and give an expression that is not equal to the initialised one. -/
theorem C92_constructors_alone : wf writtenExample = true ∧ alternating (build .default writtenExample) = false ∧
    keq (simplify .default (build .default writtenExample)) (build .default writtenExample) = false ∧
    simplify .default (build .default writtenExample) =
      comm .sum [(.LIN, 1), (.PER, 1), (.WN, 1)] [change .CP (base .PER) (comm .prod [(.LIN, 1), (.PER, 1)] [])] :=
  ⟨by decide, by decide, by decide, by rfl⟩

/-- C92. So it can be written down with `repr` and read back. -/
theorem C92_repr (cfg : Cfg) (t : KE) (hb : t.isBase = false) (hw : wf t = true) :
    Print.evalRepr cfg (simplify cfg (build cfg t)) = some (simplify cfg (build cfg t)) := by
  refine C09_roundtrip cfg _ (by rw [isBase_simplify, isBase_build]; exact hb) (wf_simplify cfg _ (wf_build cfg t hw)) ?_
  rw [(C92_stable cfg t hw).1]; exact keq_refl _

/-- C92. Its base kernels are among those that are written (simplification drops some), its change operators are those that are written, and it is nowhere
empty if nothing written is, and no product of constants is written directly inside a product. -/
theorem C92_contents (cfg : Cfg) (t : KE) (hw : wf t = true) :
    (∀ x ∈ bases (simplify cfg (build cfg t)), x ∈ bases t) ∧ (changes (simplify cfg (build cfg t))).Perm (changes t) ∧
    (noEmpty t = true → noConstProd t = true → noEmpty (simplify cfg (build cfg t)) = true) := by
  have hw' := wf_build cfg t hw
  refine ⟨fun x hx => (bases_build cfg t hw).subset ((bases_simplify cfg _ hw').subset hx),
    (changes_simplify cfg _ hw').trans (changes_build cfg t hw), fun h1 h2 => ?_⟩
  exact (settled_iff.1 (settled_simplify cfg (operand_build cfg t (operand_iff.2 ⟨hw, h1, h2⟩)))).2.1

/-- C92. A product of constants in a product is lost, and the model cannot be built. -/
theorem C92_constant_lost : wf (comm .prod [] [comm .prod [(.C, 1)] []]) = true ∧ noEmpty (comm .prod [] [comm .prod [(.C, 1)] []]) = true ∧
    simplify .default (build .default (comm .prod [] [comm .prod [(.C, 1)] []])) = comm .prod [] [] ∧
    ∃ e, toKernel .default (comm .prod [] []) = .error e := ⟨by decide, by decide, by rfl, _, rfl⟩

/-- C92 (partial: where LIN meets C while LIN absorbs constants, only with LIN standing for LIN plus a constant, `C02_lin_c_changes`): it has the
covariances of what is written. -/
theorem C92_meaning_partial (cfg : Cfg) (t : KE) (hw : wf t = true) (he : noEmpty t = true) (hp : noConstProd t = true)
    (I : Interp) (hc : Reading cfg (bases t) I) :
    den I (simplify cfg (build cfg t)) = den I t := by
  have ho := operand_iff.2 ⟨hw, he, hp⟩
  obtain ⟨h1, h2, h3⟩ := operand_iff.1 (operand_build cfg t ho)
  have hs := (bases_build cfg t hw).subset
  rw [den_simplify hc.laws cfg _ h1 h2 (noEmpty_simplify cfg _ h1 h2 h3) (hc.safe.sub (fun _ hx => hs hx))]
  exact den_build hc.laws cfg t ho hc.safe

example : wf writtenExample = true ∧ noEmpty writtenExample = true ∧ noConstProd writtenExample = true ∧ Base.C ∉ bases writtenExample := by decide

/-- C92. Users' expressions are start kernels as C91 asks for. -/
theorem C92_start (cfg : Cfg) (t : KE) (hb : t.isBase = false) (hw : wf t = true) (he : noEmpty t = true) (hp : noConstProd t = true) (hn : NoSig t)
    (hSE : cfg.includeSE = false → Base.SE ∉ bases t) : Sound cfg (simplify cfg (build cfg t)) := by
  obtain ⟨h1, _, h3⟩ := C92_contents cfg t hw
  exact ⟨⟨wf_simplify cfg _ (wf_build cfg t hw), by rw [isBase_simplify, isBase_build]; exact hb⟩, h3 he hp, fun x hx => hn x (h1 x hx),
    (C92_stable cfg t hw).1, fun h hx => hSE h (h1 _ hx)⟩

/-- C92. `fit_kex` succeeds exactly if the fit of the initialised expression and the scoring function do; the model it returns has that expression, its fit,
and the score with its name; the given expression object is the model's, changed. -/
theorem C92_fit_kex {M S R ε : Type} (init : KE → KE) (objs : List KE) (i : Nat) (k : KE) (hk : objs[i]? = some k) (restarts : Option Int)
    (out : Int → KE → GPM.FitOut M ε) (f : M → Except ε R) (name : Option String) (s : GPM.St M KE S R) :
    GPM.fitKex init objs i restarts out f name = (s, .ok ()) ↔
      ∃ r m u n, restarts = some r ∧ out r (init k) = .ok m ∧ f m = .ok u ∧ name = some n ∧
        s = { objs := objs.set i (init k), kex := i, sops := none, restarts := some r, model := some m, util := some u, utilType := some n } := by
  have hi : i < objs.length := by
    by_contra h
    rw [List.getElem?_eq_none (by omega)] at hk; cases hk
  have hset : objs.modify i init = objs.set i (init k) := by
    rw [List.modify_eq_set_getElem? , hk]; rfl
  have hget : (objs.modify i init)[i]? = some (init k) := by rw [List.getElem?_modify]; simp [hk]
  cases restarts with
  | none => simp [GPM.fitKex, GPM.fit, GPM.new]
  | some r =>
    simp only [GPM.fitKex, GPM.fit, GPM.new, hget, Option.some.injEq, exists_and_left, exists_eq_left']
    cases ho : out r (init k) with
    | buildFail e => simp
    | optFail m e => simp
    | ok m =>
      simp only [GPM.computeUtility]
      cases hf : f m with
      | error e => simp [hf]
      | ok u =>
        cases name with
        | none => simp
        | some n => simp [hf, hset, eq_comm]

/-- Fitting the example when building the model and scoring succeed: the object given is changed to its simplified form. -/
example : GPM.fitKex (M := Nat) (S := Unit) (R := Nat) (ε := Unit) (simplify .default) [build .default writtenExample] 0 (some 5) (fun _ _ => .ok 7) (fun m => .ok m)
      (some "BIC") = (⟨[simplify .default (build .default writtenExample)], 0, none, some 5, some 7, some 7, some "BIC"⟩, .ok ()) :=
  (C92_fit_kex _ _ _ _ rfl _ _ _ _ _).2 ⟨_, _, _, _, rfl, rfl, rfl, rfl, rfl⟩

/-- C92. What `fit_kex` makes of an expression users write can be interpreted exactly if every sum and product in it has base kernels of its own (without change
windows); if not, `interpret()` raises an `AssertionError`. -/
theorem C92_interpret (comb : α → α → α) (fmt : α → String) (cfg : Cfg) (t : KE) (hb : t.isBase = false) (hw : wf t = true) (he : noEmpty t = true)
    (hp : noConstProd t = true) (hn : NoSig t) (hc : CC.CW ∉ changes t) :
    ∃ s, toKernel cfg (simplify cfg (build cfg t)) = .ok s ∧ ∀ g : GK α, erase g = s →
      (allNodes ownNode (simplify cfg (build cfg t)) = true ∧ ∃ f ss, fitParams cfg g (simplify cfg (build cfg t)) = .ok f ∧ Carries f g ∧
        List.Forall₂ (fun c t => Relates cfg c t) (comps f) ss ∧
        interpret comb fmt cfg g (simplify cfg (build cfg t)) = .ok ("The fit kernel consists of " ++ toString (comps f).length ++ " components:" ++
          String.join (ss.map (fun t => "\n\t" ++ t.text fmt)))) ∨
      (allNodes ownNode (simplify cfg (build cfg t)) = false ∧ interpret comb fmt cfg g (simplify cfg (build cfg t)) = .error (.form .assertion)) := by
  obtain ⟨h1, h2, h3⟩ := C92_contents cfg t hw
  have hb' : (simplify cfg (build cfg t)).isBase = false := by rw [isBase_simplify, isBase_build]; exact hb
  have hw' := wf_simplify cfg _ (wf_build cfg t hw)
  have hke : keq (simplify cfg (simplify cfg (build cfg t))) (simplify cfg (build cfg t)) = true := by rw [(C92_stable cfg t hw).1]; exact keq_refl _
  have hns : NoSig (simplify cfg (build cfg t)) := fun x hx => hn x (h1 x hx)
  cases hown : allNodes ownNode (simplify cfg (build cfg t)) with
  | true =>
    obtain ⟨s, hs, hall⟩ := C75_points_partial (R := Int) (fun _ => 0) (fun _ _ => 0) comb fmt cfg _ hb' hw' (h3 he hp) hns hke hown
      (fun h => hc (h2.subset h))
    refine ⟨s, hs, fun g hg => Or.inl ⟨rfl, ?_⟩⟩
    obtain ⟨f, ss, f1, f2, f3, _, f5⟩ := hall g hg
    exact ⟨f, ss, f1, f2, f3, f5⟩
  | false =>
    obtain ⟨s, hs, hall⟩ := C75_raises comb fmt cfg _ hb' hw' (h3 he hp) hns hke hown
    exact ⟨s, hs, fun g hg => Or.inr ⟨rfl, hall g hg⟩⟩

/-- Both cases occur: the example, and `ProductKE([], [SumKE(['PER', 'C']), SumKE(['LIN', 'WN'])])`. -/
example : NoSig writtenExample ∧ CC.CW ∉ changes writtenExample ∧ allNodes ownNode (simplify .default (build .default writtenExample)) = true ∧
    allNodes ownNode (simplify .default (build .default (comm .prod [] [comm .sum [(.PER, 1), (.C, 1)] [], comm .sum [(.LIN, 1), (.WN, 1)] []]))) = false :=
  ⟨show ∀ x ∈ [Base.LIN, .PER, .WN, .PER, .LIN, .PER], _ by decide, by decide, by decide, by decide⟩

end GPyABCD
