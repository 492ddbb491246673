import Verif.Lemmas.ExpandSame
import Verif.Lemmas.RealSem

/-!
# Equal expressions have the same families
-/

namespace GPyABCD
namespace KE

theorem den_same (I : Interp) (a : KE) : ∀ b, wf a = true → wf b = true → Same a b → den I a = den I b := by
  induction a using KE.ind with
  | base x => intro b _ _ h; cases h; rfl
  | change c l r hl hr =>
    intro b ha hb h
    cases h with
    | change h1 h2 =>
      have wa := wf_change.1 ha
      have wb := wf_change.1 hb
      rw [den, den, hl _ wa.1 wb.1 h1, hr _ wa.2 wb.2 h2]
  | comm o c cs ih =>
    intro b ha hb h
    cases h with
    | @comm _ _ c' _ ds cs' hc hf hp =>
      have wa := wf_comm.1 ha
      have wb := wf_comm.1 hb
      rw [den, den, denL_eq, denL_eq]
      refine opFold_perm o (List.Perm.append ((Counter.elements_perm wa.1 wb.1 hc).map _) ?_)
      have e : cs.map (den I) = ds.map (den I) := by
        have key : ∀ (l m : List KE), List.Forall₂ Same l m → (∀ x ∈ l, x ∈ cs) → (∀ y ∈ m, y ∈ cs') → l.map (den I) = m.map (den I) := by
          intro l m h
          induction h with
          | nil => intros; rfl
          | cons h1 _ ih' =>
            intro h2 h3
            rw [List.map_cons, List.map_cons, ih' (fun x hx => h2 x (by simp [hx])) (fun y hy => h3 y (by simp [hy]))]
            rw [ih _ (h2 _ (by simp)) _ (wa.2.2 _ (h2 _ (by simp))).2 (wb.2.2 _ (h3 _ (by simp))).2 h1]
        exact key cs ds hf (fun x hx => hx) (fun y hy => hp.subset hy)
      rw [e]
      exact hp.map _

end KE
end GPyABCD
