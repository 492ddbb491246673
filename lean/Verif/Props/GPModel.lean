import Verif.Lemmas.GPModel
import Mathlib.Data.Nat.Notation

/-! # C38 and C39: the model object over all call sequences -/

namespace GPyABCD
open GPM

variable {M Kx S I R ε : Type}

/-- Descriptions that name the regression they came from. -/
def idEnv : Env ℕ ℕ ℕ ℕ Unit := ⟨fun m _ => .ok m, fun k => .ok k, fun x => .ok x⟩

/-! ## C38 -/

/-- After any calls `sum_of_prods_kex` is the first description ever obtained, and the description of the latest fit if
there has been none. Missing from the full statement: after a refit it still describes the fit of the first
description (`C38_stale`). -/
theorem C38_first_description_partial (E : Env M Kx S I ε) {objs : List Kx} {i : Nat} {k : Kx} (hi : objs[i]? = some k)
    (cs : List (Call M Kx R ε)) {m : M} (hm : fitted k cs.reverse = some m) :
    (sumOfProds E (run E (new objs i) cs)).2 =
      match firstDescribed E k cs.reverse with
      | some x => .ok x
      | none => match describe E m k with
        | .error e => .error (.other e)
        | .ok x => .ok x := by
  rw [(sumOfProds_spec hi (inv_run hi cs)).1, hm]
  cases firstDescribed E k cs.reverse with
  | some x => rfl
  | none => simp only; cases describe E m k <;> rfl

/-- If no description was asked for since the object was made, it is the latest fit that is described. -/
theorem C38_latest_fit (E : Env M Kx S I ε) {objs : List Kx} {i : Nat} {k : Kx} (hi : objs[i]? = some k)
    (cs : List (Call M Kx R ε)) (ha : ∀ c ∈ cs, asks c = false) {m : M} {x : S} {d : I} (hm : fitted k cs.reverse = some m)
    (hx : describe E m k = .ok x) (hd : E.interp x = .ok d) :
    (sumOfProds E (run E (new objs i) cs)).2 = .ok x ∧ (interpret E (run E (new objs i) cs)).2 = .ok d := by
  have hn : ∀ h : List (Call M Kx R ε), (∀ c ∈ h, asks c = false) → firstDescribed E k h = none := by
    intro h
    induction h with
    | nil => intro _; rfl
    | cons c h ih =>
      intro hh
      simp [firstDescribed, ih (fun c hc => hh c (List.mem_cons_of_mem _ hc)), hh c (List.mem_cons_self ..)]
  have h1 := C38_first_description_partial E hi cs hm
  rw [hn _ (fun c hc => ha c (List.mem_reverse.1 hc)), hx] at h1
  refine ⟨h1, ?_⟩
  unfold interpret
  split
  · rename_i h; rw [h] at h1; cases h1
  · rename_i h
    rw [h] at h1
    cases h1
    simp [hd]

/-- Once a description was obtained it never changes again, whatever is called and fitted later. -/
theorem C38_never_refreshed (E : Env M Kx S I ε) {objs : List Kx} {i : Nat} {k : Kx} (hi : objs[i]? = some k)
    (cs cs' : List (Call M Kx R ε)) {x : S} (hx : (sumOfProds E (run E (new objs i) cs)).2 = .ok x) :
    (sumOfProds E (run E (new objs i) (cs ++ .sumOfProds :: cs'))).2 = .ok x := by
  have h1 := (sumOfProds_spec hi (inv_run (E := E) hi cs)).1
  rw [hx] at h1
  have hd : firstDescribed E k (.sumOfProds :: cs.reverse) = some x := by
    simp only [firstDescribed, asks, if_true]
    split at h1
    · cases h1
    · rename_i m hm
      rw [hm]
      split at h1
      · rename_i y hy; cases h1; rw [hy]
      · rename_i hn
        rw [hn]
        split at h1
        · cases h1
        · rename_i y hy; cases h1; simp [hy, Except.toOption]
  have hm : (fitted k (.sumOfProds :: cs.reverse)).isSome := by
    show (fitted k cs.reverse).isSome
    cases hf : fitted k cs.reverse with
    | none => rw [hf] at h1; cases h1
    | some m => rfl
  have later : ∀ h h' : List (Call M Kx R ε), firstDescribed E k h' = some x → firstDescribed E k (h ++ h') = some x := by
    intro h h' hh
    induction h with
    | nil => exact hh
    | cons c h ih => simp [firstDescribed, ih]
  have laterM : ∀ h h' : List (Call M Kx R ε), (fitted k h').isSome → (fitted k (h ++ h')).isSome := by
    intro h h' hh
    induction h with
    | nil => exact hh
    | cons c h ih =>
      cases c with
      | fit r out =>
        rw [List.cons_append, fitted]
        split
        · exact ih
        · split
          · exact ih
          · rfl
          · rfl
      | _ => exact ih
  rw [(sumOfProds_spec hi (inv_run hi (cs ++ .sumOfProds :: cs'))).1]
  simp only [List.reverse_append, List.reverse_cons, List.append_assoc]
  obtain ⟨m, hm⟩ := Option.isSome_iff_exists.1 (laterM cs'.reverse _ hm)
  rw [show [Call.sumOfProds] ++ cs.reverse = Call.sumOfProds :: cs.reverse from rfl, hm, later _ _ hd]

/-- The claim fails: fit, describe, fit again, describe again; the second description is of the first fit. -/
theorem C38_stale : ∃ cs : List (Call ℕ ℕ ℕ Unit), fitted 0 cs.reverse = some 2 ∧
    (interpret idEnv (run idEnv (new [0] 0) cs)).2 = .ok 1 :=
  ⟨[.fit (some 5) (fun _ _ => .ok 1), .interpret, .fit none (fun _ _ => .ok 2)], rfl, rfl⟩

example : (interpret idEnv (run idEnv (new [0] 0 : St ℕ ℕ ℕ ℕ) [.fit (some 5) (fun _ _ => .ok 1), .fit none (fun _ _ => .ok 2)])).2 = .ok 2 :=
  (C38_latest_fit idEnv (k := 0) rfl _ (by simp [asks]) (m := 2) rfl rfl rfl).2

/-! ## C39 -/

/-- The model's expression, and every other expression that existed, stays as it was. -/
theorem C39_expression_unchanged (E : Env M Kx S I ε) {objs : List Kx} {i : Nat} {k : Kx} (hi : objs[i]? = some k)
    (cs : List (Call M Kx R ε)) (s : St M Kx S R) (hs : s = run E (new objs i) cs) :
    s.kex = i ∧ ∀ j, j < objs.length → s.objs[j]? = objs[j]? := by
  subst hs
  have v := inv_run (E := E) hi cs
  refine ⟨v.kex, fun j hj => ?_⟩
  obtain ⟨t, ht⟩ := v.pre
  rw [← ht, List.getElem?_append_left hj]

/-- Describing raises `ValueError` exactly until a regression has been made. -/
theorem C39_describe_unfitted (E : Env M Kx S I ε) {objs : List Kx} {i : Nat} {k : Kx} (hi : objs[i]? = some k)
    (cs : List (Call M Kx R ε)) :
    ((sumOfProds E (run E (new objs i) cs)).2 = .error .value ↔ fitted k cs.reverse = none) ∧
    ((interpret E (run E (new objs i) cs)).2 = .error .value ↔ fitted k cs.reverse = none) := by
  have h1 := (sumOfProds_spec hi (inv_run (E := E) hi cs)).1
  have key : (sumOfProds E (run E (new objs i) cs)).2 = .error .value ↔ fitted k cs.reverse = none := by
    rw [h1]
    split
    · rename_i h; simp [h]
    · rename_i m h
      rw [h]
      split
      · simp
      · split <;> simp
  refine ⟨key, ?_⟩
  rw [← key]
  unfold interpret
  split
  · rename_i h; rw [h]; simp
  · rename_i x h
    rw [h]
    split <;> simp

/-- A model is fitted exactly from the first `fit` on for which GPy built a regression. -/
theorem C39_fitted_iff (k : Kx) (h : List (Call M Kx R ε)) :
    (fitted k h).isSome ↔ ∃ h1 h2 r out n m, h = h1 ++ .fit r out :: h2 ∧ given (.fit r out :: h2) = some n ∧
      (out n k = .ok m ∨ ∃ e, out n k = .optFail m e) := by
  induction h with
  | nil => simp [fitted]
  | cons c h ih =>
    have back : (∃ h1 h2 r out n m, h = h1 ++ .fit r out :: h2 ∧ given (.fit r out :: h2) = some n ∧
        (out n k = .ok m ∨ ∃ e, out n k = .optFail m e)) →
        ∃ h1 h2 r out n m, c :: h = h1 ++ .fit r out :: h2 ∧ given (.fit r out :: h2) = some n ∧
        (out n k = .ok m ∨ ∃ e, out n k = .optFail m e) := by
      rintro ⟨h1, h2, r, out, n, m, e, g⟩
      exact ⟨c :: h1, h2, r, out, n, m, by rw [e]; rfl, g⟩
    have fwd : (∃ h1 h2 r out n m, c :: h = h1 ++ .fit r out :: h2 ∧ given (.fit r out :: h2) = some n ∧
        (out n k = .ok m ∨ ∃ e, out n k = .optFail m e)) →
        (∃ r out n m, c = .fit r out ∧ given (.fit r out :: h) = some n ∧ (out n k = .ok m ∨ ∃ e, out n k = .optFail m e)) ∨
        (fitted k h).isSome := by
      rintro ⟨h1, h2, r, out, n, m, e, g⟩
      cases h1 with
      | nil =>
        simp only [List.nil_append, List.cons.injEq] at e
        obtain ⟨rfl, rfl⟩ := e
        exact Or.inl ⟨r, out, n, m, rfl, g⟩
      | cons c' h1 =>
        simp only [List.cons_append, List.cons.injEq] at e
        exact Or.inr (ih.2 ⟨h1, h2, r, out, n, m, e.2, g⟩)
    cases c with
    | fit r out =>
      rw [fitted]
      split
      · rename_i hg
        refine ⟨fun hs => back (ih.1 hs), fun hs => ?_⟩
        rcases fwd hs with ⟨r', out', n, m, e, g, _⟩ | h'
        · cases e; rw [hg] at g; cases g
        · exact h'
      · rename_i n hg
        split
        · rename_i e he
          refine ⟨fun hs => back (ih.1 hs), fun hs => ?_⟩
          rcases fwd hs with ⟨r', out', n', m, e', g, ho⟩ | h'
          · cases e'
            rw [hg] at g
            cases g
            rw [he] at ho
            rcases ho with ho | ⟨_, ho⟩ <;> cases ho
          · exact h'
        · rename_i m e he
          exact ⟨fun _ => ⟨[], h, r, out, n, m, rfl, hg, Or.inr ⟨e, he⟩⟩, fun _ => rfl⟩
        · rename_i m he
          exact ⟨fun _ => ⟨[], h, r, out, n, m, rfl, hg, Or.inl he⟩, fun _ => rfl⟩
    | _ =>
      refine ⟨fun hs => back (ih.1 hs), fun hs => ?_⟩
      rcases fwd hs with ⟨r', out', n, m, e, _⟩ | h'
      · cases e
      · exact h'

/-- `fit` without a restarts value raises `ValueError` exactly when none was ever given, and otherwise asks GPy with
the last one; with a value it asks GPy with that. -/
theorem C39_restarts (E : Env M Kx S I ε) {objs : List Kx} {i : Nat} {k : Kx} (hi : objs[i]? = some k)
    (cs : List (Call M Kx R ε)) (r : Option Int) (out : Int → Kx → FitOut M ε) :
    (fit (run E (new objs i) cs) r out).2 =
      match (match r with | some n => some n | none => given cs.reverse) with
      | none => .error .value
      | some n => match out n k with
        | .buildFail e => .error (.other e)
        | .optFail _ e => .error (.other e)
        | .ok _ => .ok () := by
  have v := inv_run (E := E) hi cs
  have ho := v.obj hi
  unfold fit
  cases r with
  | none =>
    rw [v.restarts]
    cases given cs.reverse with
    | none => rfl
    | some n => simp only [ho]; cases out n k <;> rfl
  | some n => simp only [ho]; cases out n k <;> rfl

/-- What `given` means: the last value, if any. -/
theorem C39_given (h : List (Call M Kx R ε)) (n : Int) :
    given h = some n ↔ ∃ h1 h2 out, h = h1 ++ .fit (some n) out :: h2 ∧ ∀ c ∈ h1, ∀ n' out', c ≠ .fit (some n') out' := by
  induction h with
  | nil => simp [given]
  | cons c h ih =>
    by_cases hc : ∃ n' out', c = .fit (some n') out'
    · obtain ⟨n', out', rfl⟩ := hc
      constructor
      · intro hg
        simp only [given, Option.some.injEq] at hg
        subst hg
        exact ⟨[], h, out', rfl, by simp⟩
      · rintro ⟨h1, h2, out, e, hh⟩
        cases h1 with
        | nil =>
          simp only [List.nil_append, List.cons.injEq, Call.fit.injEq] at e
          simp [given, e.1.1]
        | cons c1 h1 =>
          simp only [List.cons_append, List.cons.injEq] at e
          exact absurd e.1.symm (hh c1 (List.mem_cons_self ..) n' out')
    · have hg : given (c :: h) = given h := by
        cases c with
        | fit r out =>
          cases r with
          | none => rfl
          | some n' => exact absurd ⟨n', out, rfl⟩ hc
        | _ => rfl
      rw [hg, ih]
      constructor
      · rintro ⟨h1, h2, out, rfl, hh⟩
        refine ⟨c :: h1, h2, out, rfl, fun c' hc' => ?_⟩
        rcases List.mem_cons.1 hc' with rfl | hc'
        · exact fun n' out' e => hc ⟨n', out', e⟩
        · exact hh c' hc'
      · rintro ⟨h1, h2, out, e, hh⟩
        cases h1 with
        | nil => simp only [List.nil_append, List.cons.injEq] at e; exact absurd ⟨_, _, e.1⟩ hc
        | cons c1 h1 =>
          simp only [List.cons_append, List.cons.injEq] at e
          exact ⟨h1, h2, out, e.2, fun c' hc' => hh c' (List.mem_cons_of_mem _ hc')⟩

/-- The cached score is the last one computed; the cached name is that of the last named function which computed a
score. -/
theorem C39_cached_score (E : Env M Kx S I ε) {objs : List Kx} {i : Nat} {k : Kx} (hi : objs[i]? = some k)
    (cs : List (Call M Kx R ε)) :
    (run E (new objs i) cs : St M Kx S R).util = lastScore k cs.reverse ∧
    (run E (new objs i) cs : St M Kx S R).utilType = (lastNamed k cs.reverse).map Prod.snd :=
  ⟨(inv_run hi cs).util, (inv_run hi cs).utilType⟩

/-- If all scoring functions have names, the cached score and name belong to the same call. -/
theorem C39_cached_pair (E : Env M Kx S I ε) {objs : List Kx} {i : Nat} {k : Kx} (hi : objs[i]? = some k)
    (cs : List (Call M Kx R ε)) (hn : ∀ f, Call.utility f none ∉ cs) :
    match lastNamed k cs.reverse with
    | none => (run E (new objs i) cs : St M Kx S R).util = none ∧ (run E (new objs i) cs : St M Kx S R).utilType = none
    | some (u, n) => (run E (new objs i) cs : St M Kx S R).util = some u ∧
        (run E (new objs i) cs : St M Kx S R).utilType = some n := by
  obtain ⟨h1, h2⟩ := C39_cached_score E hi cs
  have gen : ∀ h : List (Call M Kx R ε), (∀ f, Call.utility f none ∉ h) → lastScore k h = (lastNamed k h).map Prod.fst := by
    intro h
    induction h with
    | nil => intro _; rfl
    | cons c h ih =>
      intro hh
      have ih := ih (fun f hf => hh f (List.mem_cons_of_mem _ hf))
      cases c with
      | utility f n =>
        cases n with
        | none => exact absurd (List.mem_cons_self ..) (hh f)
        | some n =>
          simp only [lastScore, lastNamed]
          cases fitted k h with
          | none => exact ih
          | some m =>
            simp only
            cases f m with
            | error e => exact ih
            | ok u => rfl
      | _ => exact ih
  rw [h1, h2, gen _ (fun f hf => hn f (List.mem_reverse.1 hf))]
  split
  · rename_i h; simp [h]
  · rename_i h; simp [h]

/-- A scoring function without a name (a `functools.partial`, say) leaves its score beside the name of an earlier one. -/
theorem C39_unnamed_score : ∃ cs : List (Call ℕ ℕ ℕ Unit),
    (run idEnv (new [0] 0) cs : St ℕ ℕ ℕ ℕ).util = some 7 ∧ (run idEnv (new [0] 0) cs : St ℕ ℕ ℕ ℕ).utilType = some "BIC" ∧
    lastNamed 0 cs.reverse = some (3, "BIC") :=
  ⟨[.fit (some 5) (fun _ _ => .ok 1), .utility (fun _ => .ok 3) (some "BIC"), .utility (fun _ => .ok 7) none], rfl, rfl, rfl⟩

example : (fit (run idEnv (new [0] 0 : St ℕ ℕ ℕ ℕ) [.fit (some 5) (fun _ _ => .buildFail ())]) none
    (fun n _ => if n = 5 then .ok 1 else .buildFail ())).2 = .ok () := by
  rw [C39_restarts idEnv (k := 0) rfl]
  rfl

end GPyABCD
