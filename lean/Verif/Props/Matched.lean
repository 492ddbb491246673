import Verif.Lemmas.ParamsBad
import Verif.Props.EndToEnd

/-!
# Which models get their parameters (C40, C88 continued)
-/

namespace GPyABCD
open KE Sops Params Interp Search

section
variable {α : Type}

/-- C40, exactly which expressions are matched up: an expression with simplified terms, and not one nested term alone, gets all the parameters of a kernel with its
structure exactly if no sum is directly in a sum and no product directly in a product. Otherwise matching raises or leaves some base kernel without a value. -/
theorem C40_iff (cfg : Cfg) (k : KE) (hk : k.isBase = false) (hset : settled cfg k = true) (hn : ∀ x ∈ bases k, x.isSigmoid = false)
    (hr : isSingleton k = true → alternating k = true) (s : GK Unit) (hs : toKernel cfg k = .ok s) (g : GK α) (hg : erase g = s) :
    (∃ f, fitParams cfg g k = .ok f ∧ HasParams cfg f) ↔ alternating k = true := by
  obtain ⟨h1, h2, h3, h4⟩ := settled_iff.1 hset
  constructor
  · rintro ⟨f, hf, hp⟩
    by_contra ha
    have ha : alternating k = false := by simpa using ha
    refine bad_root cfg k ⟨h1, h2, allNodes_of_allBelow ?_ h4, hn⟩ ha hs hg hf hp
    cases hi : isSingleton k with
    | false => rfl
    | true => rw [hr hi] at ha; exact absurd ha (by simp)
  · intro ha
    have he : keq (simplify cfg k) k = true := by
      rw [simplify_of_normal (normal_iff.2 ⟨h1, h3, h4, ha⟩)]
      exact keq_refl _
    obtain ⟨s', h5, h6⟩ := C40_matched (α := α) cfg k hk h1 h2 hn he
    obtain rfl : s' = s := by rw [hs] at h5; exact (Except.ok.inj h5).symm
    obtain ⟨f, h7, _, h8⟩ := h6 g hg
    obtain ⟨h9, h10⟩ := C40_fitted (fun _ => True) cfg k hk h1 h2 hn he _ hs g hg (se_any g) f h7
    exact ⟨f, h7, has_of f g h8 h9 h10 (var_erase g (hg ▸ var_toKernel cfg k _ hs))⟩

-- PER * (WN + CP(LIN * SE, C)) alternates, LIN * (LIN * SE) and WN + (WN + C) do not
example : let k := comm .prod [(.PER, 1)] [comm .sum [(.WN, 1)] [change .CP (comm .prod [(.LIN, 1), (.SE, 1)] []) (base .C)]]
    k.isBase = false ∧ settled .default k = true ∧ (∀ x ∈ bases k, x.isSigmoid = false) ∧ isSingleton k = false ∧ alternating k = true ∧
      (toKernel .default k).isOk = true ∧ ∀ s, erase (ones s) = s :=
  ⟨rfl, by decide, by decide, by decide, by decide, by decide, erase_ones⟩
example : let k := comm .prod [(.LIN, 1)] [comm .prod [(.LIN, 1), (.SE, 1)] []]
    k.isBase = false ∧ settled .default k = true ∧ (∀ x ∈ bases k, x.isSigmoid = false) ∧ isSingleton k = false ∧ alternating k = false ∧
      (toKernel .default k).isOk = true :=
  ⟨rfl, by decide, by decide, by decide, by decide, by decide⟩
example : let k := comm .sum [(.WN, 1)] [comm .sum [(.WN, 1), (.C, 1)] []]
    k.isBase = false ∧ settled .default k = true ∧ (∀ x ∈ bases k, x.isSigmoid = false) ∧ isSingleton k = false ∧ alternating k = false ∧
      (toKernel .default k).isOk = true :=
  ⟨rfl, by decide, by decide, by decide, by decide, by decide⟩

end

section
variable {α ε D R : Type}

/-- C88, the same for whole searches: a model that a search from built-in start kernels returns, whatever values its parameters were given, gets all of them
exactly if no sum is directly in a sum and no product directly in a product of its expression. -/
theorem C88_matched {cfg : Cfg} {o : Orders} {rules : List RuleName} {le : R → R → Bool} {score : D → R} {fit : Nat → KE → Except PErr D}
    (ho : o.OK cfg) (bs : List Base) (hbs : bs.Perm [.WN, .C, .LIN, .PER]) (ps : List Pseudo)
    (hp : ps ∈ startGroups cfg bs) (starts : List KE) (hst : makeSimpleKexs cfg ps = some starts) (ker : D → GK α) (hfit : FitsKernel cfg ker fit)
    (v : Bool) (n : Nat) (beam : BeamArg) (s : St KE D R) (h : explore (keEnv cfg o rules le score fit) v starts n beam = .ok s)
    (m : Mod KE D R) (hm : m ∈ s.sorted) :
    (∃ f, fitParams cfg (ker m.data) m.kex = .ok f ∧ HasParams cfg f) ↔ alternating m.kex = true := by
  obtain ⟨h1, _, h2⟩ := C27_all_models _ _ _ _ _ _ h
  obtain ⟨starts', h3, h4⟩ := C25_builtin cfg bs hbs ps hp rules
  obtain rfl : starts' = starts := by rw [h3] at hst; exact Option.some.inj hst
  have hreach := C34_reachable cfg o ho rules le score fit v _ n beam s h m (h1.subset hm)
  obtain ⟨_, h6, h7, h8⟩ := h4 _ hreach
  have hker := hfit _ _ _ (h2 m hm).1
  refine C40_iff cfg _ h7 h6 h8 (fun hi => ?_) _ hker _ rfl
  have hr : alternating m.kex = true ∨ isSingleton m.kex = false ∨ ∃ b, m.kex = comm .sum [(b, 1)] [] := by
    clear hi hker h6 h7 h8
    revert hreach
    generalize m.kex = k
    intro hreach
    cases hreach with
    | start hk =>
      obtain ⟨ks, g1, _, g2, _⟩ := C65_builtin cfg bs hbs ps hp
      obtain rfl : ks = starts' := by rw [hst] at g1; exact (Option.some.inj g1).symm
      obtain ⟨e, hset, _, hns, _⟩ := g2 _ hk
      obtain ⟨q1, q2, _, _⟩ := settled_iff.1 hset
      exact Or.inl (stable_matchable q1 q2 hns (by rw [e]; exact keq_refl _)).1.2.2.2.1
    | @step k _ o' ho' hk' hx =>
      obtain ⟨_, g6, g7, _⟩ := h4 _ hk'
      rcases (C24_shape cfg _ (C20_builtin_rules cfg o' ho' rules) k ⟨(settled_iff.1 g6).1, g7⟩ _ hx).2 with ⟨c, l, r', rfl⟩ | h | ⟨_, _, _, rfl, h⟩
      · exact Or.inr (Or.inl rfl)
      · exact Or.inr (Or.inr h)
      · exact Or.inr (Or.inl h)
  rcases hr with hr | hr | ⟨b, hr⟩
  · exact hr
  · rw [hr] at hi; exact absurd hi (by simp)
  · rw [hr]; simp [alternating, allNodes, allNodesL, altNode]

/-- Two rounds of the default search; one of its models is of an alternating expression. -/
example : ∃ starts s, makeSimpleKexs .default (startDefault .default [.WN, .C, .LIN, .PER]) = some starts ∧
    FitsKernel .default id (oneFit .default) ∧
    explore (keEnv .default ⟨[.WN, .C, .LIN, .PER], [.WN, .LIN, .PER]⟩ rulesDefault (fun a b => decide (a ≤ b)) (fun _ => 0) (oneFit .default)) false
      starts ((2 : Nat) : Int) (.list [9, 20]) = .ok s ∧ ∃ m ∈ s.sorted, alternating m.kex = true := by
  have hp : startDefault .default [.WN, .C, .LIN, .PER] ∈ startGroups .default [.WN, .C, .LIN, .PER] := by simp [startGroups, startExtra, Cfg.default]
  obtain ⟨starts, s, h1, h2⟩ := C88_succeeds .default ⟨[.WN, .C, .LIN, .PER], [.WN, .LIN, .PER]⟩ rulesDefault (fun a b => decide (a ≤ b)) (fun _ => 0)
    (oneFit .default) ⟨by decide, by decide⟩ _ (List.Perm.refl _) _ hp (oneFit_fits _).2 2 (.list [9, 20]) (by simp) (by simp)
  refine ⟨starts, s, h1, (oneFit_fits _).1, h2, ?_⟩
  have hk : change .CP (base .LIN) (base .LIN) ∈ starts := by
    have : (makeSimpleKexs .default (startDefault .default [.WN, .C, .LIN, .PER])).map (fun l => l[7]?) =
      some (some (change .CP (base .LIN) (base .LIN))) := by rfl
    rw [h1] at this
    exact List.mem_of_getElem? (Option.some.inj this)
  obtain ⟨m, hm, e⟩ := start_tested h2 hk
  refine ⟨m, (C27_all_models _ _ _ _ _ _ h2).1.symm.subset hm, ?_⟩
  rw [e]
  decide

end
end GPyABCD
