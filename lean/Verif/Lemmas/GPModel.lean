import Verif.Spec.GPModel
import Batteries.Data.List.Basic

/-! The fields of a model object as functions of its history. -/

namespace GPyABCD
namespace GPM

variable {M Kx S I R ε : Type}

/-- The fields agree with the history `h` (newest first). -/
structure Inv (E : Env M Kx S I ε) (objs : List Kx) (i : Nat) (k : Kx) (h : List (Call M Kx R ε)) (s : St M Kx S R) : Prop where
  kex : s.kex = i
  pre : objs <+: s.objs
  model : s.model = fitted k h
  restarts : s.restarts = given h
  sops : s.sops = firstDescribed E k h
  util : s.util = lastScore k h
  utilType : s.utilType = (lastNamed k h).map Prod.snd

theorem Inv.obj {E : Env M Kx S I ε} {objs : List Kx} {i : Nat} {k : Kx} {h : List (Call M Kx R ε)} {s : St M Kx S R}
    (hi : objs[i]? = some k) (v : Inv E objs i k h s) : s.objs[s.kex]? = some k := by
  rw [v.kex]
  obtain ⟨t, ht⟩ := v.pre
  rw [← ht, List.getElem?_append_left]
  · exact hi
  · exact (List.getElem?_eq_some_iff.1 hi).1

theorem inv_new (E : Env M Kx S I ε) (objs : List Kx) (i : Nat) (k : Kx) : Inv (R := R) E objs i k [] (new objs i) :=
  ⟨rfl, List.prefix_refl _, rfl, rfl, rfl, rfl, rfl⟩

theorem prefix_set_append {objs l : List Kx} (h : objs <+: l) (k k' : Kx) : objs <+: (l ++ [k]).set l.length k' := by
  obtain ⟨t, rfl⟩ := h
  rw [List.set_append_right _ _ (Nat.le_refl _)]
  exact ⟨t ++ [k].set ((objs ++ t).length - (objs ++ t).length) k', by simp⟩

/-- What `sum_of_prods_kex` returns, and the state it leaves, whichever of the two calls asked. -/
theorem sumOfProds_spec {E : Env M Kx S I ε} {objs : List Kx} {i : Nat} {k : Kx} {h : List (Call M Kx R ε)} {s : St M Kx S R}
    (hi : objs[i]? = some k) (v : Inv E objs i k h s) :
    (sumOfProds E s).2 = (match fitted k h with
      | none => .error .value
      | some m => match firstDescribed E k h with
        | some x => .ok x
        | none => match describe E m k with
          | .error e => .error (.other e)
          | .ok x => .ok x) ∧
    ∀ c, asks c = true → Inv E objs i k (c :: h) (sumOfProds E s).1 := by
  have ho := v.obj hi
  obtain ⟨so, kx, ss, sr, sm, su, st⟩ := s
  obtain ⟨hk, hp, hm, hr, hs, hu, ht⟩ := v
  simp only at hk hp hm hr hs hu ht ho
  have hc : ∀ c : Call M Kx R ε, asks c = true → given (c :: h) = given h ∧ fitted k (c :: h) = fitted k h ∧
      lastScore k (c :: h) = lastScore k h ∧ lastNamed k (c :: h) = lastNamed k h ∧
      firstDescribed E k (c :: h) = (match firstDescribed E k h with
        | some x => some x
        | none => match fitted k h with
          | none => none
          | some m => (describe E m k).toOption) := by
    intro c hc
    cases c with
    | fit => simp [asks] at hc
    | utility => simp [asks] at hc
    | _ => exact ⟨rfl, rfl, rfl, rfl, by simp only [firstDescribed, asks, if_true]; cases firstDescribed E k h <;> rfl⟩
  have key : ∀ (so' : List Kx) (ss' : Option S), objs <+: so' → ss' = (match firstDescribed E k h with
        | some x => some x
        | none => match fitted k h with
          | none => none
          | some m => (describe E m k).toOption) →
      ∀ c : Call M Kx R ε, asks c = true → Inv E objs i k (c :: h) ⟨so', kx, ss', sr, sm, su, st⟩ := by
    intro so' ss' h0 h6 c ha
    obtain ⟨h1, h2, h3, h4, h5⟩ := hc c ha
    exact ⟨hk, h0, by rw [h2]; exact hm, by rw [h1]; exact hr, by rw [h5]; exact h6, by rw [h3]; exact hu, by rw [h4]; exact ht⟩
  unfold sumOfProds
  simp only [ho]
  cases hf : fitted k h with
  | none =>
    rw [hf] at hm
    subst hm
    refine ⟨rfl, key _ _ hp ?_⟩
    rw [hs, hf]
    cases firstDescribed E k h <;> rfl
  | some m =>
    rw [hf] at hm
    subst hm
    cases hd : firstDescribed E k h with
    | some x =>
      rw [hd] at hs
      subst hs
      exact ⟨rfl, key _ _ hp (by rw [hd])⟩
    | none =>
      rw [hd] at hs
      subst hs
      simp only
      cases hmu : E.matchUp m k with
      | error e =>
        have hde : describe E m k = .error e := by simp [describe, hmu, bind, Except.bind]
        simp only [hde]
        refine ⟨trivial, key _ _ (hp.trans (List.prefix_append _ _)) ?_⟩
        simp [hd, hf, hde, Except.toOption]
      | ok k' =>
        simp only
        cases hso : E.sops k' with
        | error e =>
          have hde : describe E m k = .error e := by simp [describe, hmu, bind, Except.bind, hso]
          simp only [hde]
          refine ⟨trivial, key _ _ (prefix_set_append hp _ _) ?_⟩
          simp [hd, hf, hde, Except.toOption]
        | ok x =>
          have hde : describe E m k = .ok x := by simp [describe, hmu, bind, Except.bind, hso]
          simp only [hde]
          refine ⟨trivial, key _ _ (prefix_set_append hp _ _) ?_⟩
          simp [hd, hf, hde, Except.toOption]

theorem interpret_state (E : Env M Kx S I ε) (s : St M Kx S R) : (interpret E s).1 = (sumOfProds E s).1 := by
  unfold interpret
  split
  · rename_i h; rw [h]
  · rename_i h
    rw [h]
    split <;> rfl

theorem inv_fit {E : Env M Kx S I ε} {objs : List Kx} {i : Nat} {k : Kx} {h : List (Call M Kx R ε)} {s : St M Kx S R}
    (hi : objs[i]? = some k) (v : Inv E objs i k h s) (r : Option Int) (out : Int → Kx → FitOut M ε) :
    Inv E objs i k (.fit r out :: h) (fit s r out).1 := by
  have ho := v.obj hi
  have hd : firstDescribed E k (.fit r out :: h) = firstDescribed E k h := by
    simp only [firstDescribed, asks]
    cases firstDescribed E k h <;> simp
  obtain ⟨so, kx, ss, sr, sm, su, st⟩ := s
  obtain ⟨hk, hp, hm, hr, hs, hu, ht⟩ := v
  simp only at hk hp hm hr hs hu ht ho
  have key : ∀ (sr' : Option Int) (sm' : Option M), sr' = given (.fit r out :: h) → sm' = fitted k (.fit r out :: h) →
      Inv E objs i k (.fit r out :: h) ⟨so, kx, ss, sr', sm', su, st⟩ := fun _ _ h1 h2 =>
    ⟨hk, hp, h2, h1, by rw [hd]; exact hs, hu, ht⟩
  unfold fit
  cases r with
  | none =>
    have hg : given (.fit none out :: h) = given h := rfl
    subst hr
    cases hgv : given h with
    | none => exact key _ _ (by rw [hg, hgv]) (by simp [fitted, hg, hgv, hm])
    | some n =>
      simp only [ho]
      cases hout : out n k with
      | buildFail e => exact key _ _ (by rw [hg, hgv]) (by simp [fitted, hg, hgv, hout, hm])
      | optFail m e => exact key _ _ (by rw [hg, hgv]) (by simp [fitted, hg, hgv, hout])
      | ok m => exact key _ _ (by rw [hg, hgv]) (by simp [fitted, hg, hgv, hout])
  | some n =>
    have hg : given (.fit (some n) out :: h) = some n := rfl
    simp only [ho]
    cases hout : out n k with
    | buildFail e => exact key _ _ (by rw [hg]) (by simp [fitted, hg, hout, hm])
    | optFail m e => exact key _ _ (by rw [hg]) (by simp [fitted, hg, hout])
    | ok m => exact key _ _ (by rw [hg]) (by simp [fitted, hg, hout])

theorem inv_utility {E : Env M Kx S I ε} {objs : List Kx} {i : Nat} {k : Kx} {h : List (Call M Kx R ε)} {s : St M Kx S R}
    (v : Inv E objs i k h s) (f : M → Except ε R) (n : Option String) :
    Inv E objs i k (.utility f n :: h) (computeUtility f n s).1 := by
  have hd : firstDescribed E k (.utility f n :: h) = firstDescribed E k h := by
    simp only [firstDescribed, asks]
    cases firstDescribed E k h <;> simp
  obtain ⟨so, kx, ss, sr, sm, su, st⟩ := s
  obtain ⟨hk, hp, hm, hr, hs, hu, ht⟩ := v
  simp only at hk hp hm hr hs hu ht
  have key : ∀ (su' : Option R) (st' : Option String), su' = lastScore k (.utility f n :: h) →
      st' = (lastNamed k (.utility f n :: h)).map Prod.snd →
      Inv E objs i k (.utility f n :: h) ⟨so, kx, ss, sr, sm, su', st'⟩ := fun _ _ h1 h2 =>
    ⟨hk, hp, hm, hr, by rw [hd]; exact hs, h1, h2⟩
  unfold computeUtility
  cases hf : fitted k h with
  | none =>
    rw [hf] at hm
    subst hm
    exact key _ _ (by simp [lastScore, hf, hu]) (by cases n <;> simp [lastNamed, hf, ht])
  | some m =>
    rw [hf] at hm
    subst hm
    simp only
    cases hx : f m with
    | error e => exact key _ _ (by simp [lastScore, hf, hx, hu]) (by cases n <;> simp [lastNamed, hf, hx, ht])
    | ok u =>
      cases n with
      | none => exact key _ _ (by simp [lastScore, hf, hx]) (by simp [lastNamed, ht])
      | some n => exact key _ _ (by simp [lastScore, hf, hx]) (by simp [lastNamed, hf, hx])

theorem inv_run {E : Env M Kx S I ε} {objs : List Kx} {i : Nat} {k : Kx} (hi : objs[i]? = some k) (cs : List (Call M Kx R ε)) :
    Inv E objs i k cs.reverse (run E (new objs i) cs) := by
  have gen : ∀ (cs h : List (Call M Kx R ε)) (s : St M Kx S R), Inv E objs i k h s → Inv E objs i k (cs.reverse ++ h) (run E s cs) := by
    intro cs
    induction cs with
    | nil => intro h s v; exact v
    | cons c cs ih =>
      intro h s v
      rw [List.reverse_cons, List.append_assoc, run, List.foldl_cons]
      refine ih _ _ ?_
      cases c with
      | fit r out => exact inv_fit hi v r out
      | sumOfProds => exact (sumOfProds_spec hi v).2 _ rfl
      | interpret => rw [step, interpret_state]; exact (sumOfProds_spec hi v).2 _ rfl
      | utility f n => exact inv_utility v f n
  simpa using gen cs [] _ (inv_new E objs i k)

end GPM
end GPyABCD
