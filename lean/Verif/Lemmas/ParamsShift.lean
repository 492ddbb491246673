import Verif.Lemmas.ParamsMain

/-!
# Matching only depends on what follows the prefix (C40)
-/

namespace GPyABCD
namespace Params
open KE Sops

variable {α : Type}

theorem lookupPars_shift {d d' : Str → Option α} {pre pre' : Str} (h : ∀ key, d (pre ++ key) = d' (pre' ++ key)) (skip : Bool) :
    ∀ qs, lookupPars d skip pre qs = lookupPars d' skip pre' qs
  | [] => rfl
  | q :: qs => by
    simp only [lookupPars, h q.str, lookupPars_shift h skip qs]

private theorem app {d d' : Str → Option α} {pre pre' : Str} (h : ∀ key, d (pre ++ key) = d' (pre' ++ key)) (x : Str) :
    ∀ key, d (pre ++ x ++ key) = d' (pre' ++ x ++ key) := fun key => by rw [List.append_assoc, List.append_assoc, h]

theorem matchBases_shift (cfg : Cfg) {d d' : Str → Option α} {pre pre' : Str} (h : ∀ key, d (pre ++ key) = d' (pre' ++ key)) :
    ∀ (bs : List Base) (seen : Seen) (ps : PDict α), matchBases cfg d pre seen ps bs = matchBases cfg d' pre' seen ps bs
  | [], _, _ => rfl
  | b :: bs, seen, ps => by
    simp only [matchBases]
    cases baseName cfg b with
    | none => rfl
    | some n =>
      simp only [lookupPars_shift (app (app h n) _)]
      simp only [matchBases_shift cfg h bs]

mutual
theorem matchUp_shift (cfg : Cfg) {d d' : Str → Option α} : ∀ (k : KE) (root : Bool) {pre pre' : Str}, (∀ key, d (pre ++ key) = d' (pre' ++ key)) →
    (root = true ∨ (pre ≠ [] ∧ pre' ≠ [])) → matchUp cfg d root pre k = matchUp cfg d' root pre' k
  | .base b, root, pre, pre', h, _ => by simp only [matchUp, lookupPars_shift h]
  | .comm op b cs, root, pre, pre', h, hr => by
    simp only [matchUp]
    obtain ⟨x, e1, e2⟩ : ∃ x, startPrefix root pre (if b.total + cs.length = 1 then [] else opName op ++ ['.']) = .ok (pre ++ x) ∧
        startPrefix root pre' (if b.total + cs.length = 1 then [] else opName op ++ ['.']) = .ok (pre' ++ x) := by
      cases root with
      | true => exact ⟨_, rfl, rfl⟩
      | false =>
        have := hr.resolve_left (by simp)
        exact ⟨[], by simp [startPrefix, this.1], by simp [startPrefix, this.2]⟩
    rw [e1, e2]
    simp only [bind, Except.bind, matchBases_shift cfg (app h x)]
    split
    · rfl
    · rename_i v hv
      simp only [matchUpL_shift cfg cs (app h x)]
  | .change c l r, root, pre, pre', h, hr => by
    simp only [matchUp]
    obtain ⟨x, e1, e2⟩ : ∃ x, startPrefix root pre (changeName c ++ ['.']) = .ok (pre ++ x) ∧ startPrefix root pre' (changeName c ++ ['.']) = .ok (pre' ++ x) := by
      cases root with
      | true => exact ⟨_, rfl, rfl⟩
      | false =>
        have := hr.resolve_left (by simp)
        exact ⟨[], by simp [startPrefix, this.1], by simp [startPrefix, this.2]⟩
    rw [e1, e2]
    simp only [bind, Except.bind, lookupPars_shift (app h x)]
    cases kname cfg l with
    | none => rfl
    | some nl =>
      cases kname cfg r with
      | none => rfl
      | some nr =>
        simp only [matchUp_shift cfg l false (app (app (app h x) nl) ['.']) (Or.inr (by simp)),
          matchUp_shift cfg r false (app (app (app h x) nr) (if sameBranches cfg l r then ['_', '1', '.'] else ['.']))
            (Or.inr (by split <;> simp))]
theorem matchUpL_shift (cfg : Cfg) {d d' : Str → Option α} : ∀ (cs : List KE) {pre pre' : Str}, (∀ key, d (pre ++ key) = d' (pre' ++ key)) →
    ∀ seen, matchUpL cfg d pre seen cs = matchUpL cfg d' pre' seen cs
  | [], _, _, _, _ => rfl
  | k :: ks, pre, pre', h, seen => by
    simp only [matchUpL]
    cases kname cfg k with
    | none => rfl
    | some n =>
      have hp : ∀ m : Nat, postfixOf m ≠ [] := fun m => by unfold postfixOf; split <;> simp
      simp only [matchUp_shift cfg k false (app (app h n) (postfixOf _)) (Or.inr ⟨by simp [hp], by simp [hp]⟩), matchUpL_shift cfg ks h]
end

theorem kernel_dict (cfg : Cfg) (g : GK α) (key : Str) : pyDict (paramList cfg g) (regression ++ key) = pyDict (kernelParamList cfg g) ([] ++ key) := by
  have : paramList cfg g = (kernelParamList cfg g).map (fun e => (regression ++ e.1, e.2)) := by
    simp only [paramList, kernelParamList, List.map_map]
    refine List.map_congr_left ?_
    intro e _
    simp
  rw [this, pyDict_prefix, List.nil_append]

end Params
end GPyABCD
