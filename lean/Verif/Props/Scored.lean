import Verif.Lemmas.Scored
import Verif.Props.Search

/-!
# C109: any scoring function

`explore_model_space` says of `utility_function`: "arbitrary ones accepted". Here scoring functions may raise, may have no
`__name__`, and may return values that cannot be compared.
-/

namespace GPyABCD
open Search

variable {K D R ε : Type}

/-- C109: with a scoring function that has a name and returns comparable numbers, a search ends exactly as the search in which a model that cannot be
scored counts as one that cannot be fitted; so all that C27 to C37 say of results holds of it. -/
theorem C109_search [Inhabited R] (E : SEnv K D R ε) (hn : E.named = true) (hc : Comparable E) (v : Bool) (starts : List K) (rounds : Int)
    (beam : BeamArg) (s : St K D R) : exploreS E v starts rounds beam = .ok s ↔ explore E.plain v starts rounds beam = .ok s :=
  exploreS_eq hn hc

/-- C109: then the returned models are those fitted, each with the value of the scoring function, and no model comes before a better one. -/
theorem C109_best_first_partial [Inhabited R] (E : SEnv K D R ε) (hn : E.named = true) (hc : Comparable E) (v : Bool) (starts : List K) (rounds : Int)
    (beam : BeamArg) (s : St K D R) (h : exploreS E v starts rounds beam = .ok s) :
    s.sorted.Pairwise (fun a b => E.lt b.cached a.cached = false ∧ (E.lt a.cached b.cached = false → a.uid < b.uid)) ∧
      s.sorted.Perm s.tested.flatten ∧ ∀ m ∈ s.sorted, E.fit m.uid m.kex = .ok m.data ∧ E.score m.data = .ok m.cached := by
  have h' := (exploreS_eq hn hc).1 h
  have hs := C27_sorted E.plain hc.le v starts rounds beam s h'
  refine ⟨hs.imp fun {a b} hab => ⟨by simpa [SEnv.plain] using hab.1, fun hl => hab.2 (by simp [SEnv.plain, hl])⟩,
    (C27_all_models E.plain v starts rounds beam s h').1, fun m hm => ?_⟩
  obtain ⟨g1, g2⟩ := (C27_all_models E.plain v starts rounds beam s h').2.2 m hm
  simp only [SEnv.plain] at g1 g2
  split at g1
  · simp at g1
  · rename_i d hd
    split at g1
    · simp at g1
    · rename_i u hu
      simp only [Except.ok.injEq] at g1
      subst g1
      rw [hu] at g2
      simp only at g2
      exact ⟨hd, by rw [hu, g2]⟩

/-- C109: `sorted` as CPython does it is the stable sort, for fewer than 64 comparable elements: sorted, the same elements, and those
that neither precedes stay in their order. -/
theorem C109_sort {α : Type} (le : α → α → Prop) [DecidableRel le] (htr : ∀ a b c, le a b → le b c → le a c) (htot : ∀ a b, le a b ∨ le b a)
    (big : List α → List α) (xs : List α) (hl : xs.length < 64) :
    let ys := pySorted big (fun a b => decide (¬ le b a)) xs
    ys.Pairwise le ∧ ys.Perm xs ∧ ∀ c, ys.filter (fun z => le z c ∧ le c z) = xs.filter (fun z => le z c ∧ le c z) := by
  have hs : StrictOf le (fun a b => decide (¬ le b a)) := ⟨fun a b => by simp, htr, htot⟩
  have : Std.Total le := ⟨htot⟩
  have : IsTrans α le := ⟨htr⟩
  simp only
  rw [pySorted_eq hs (.inl hl)]
  exact ⟨List.pairwise_insertionSort le xs, List.perm_insertionSort le xs, insertionSort_class hs xs⟩

example : pySorted id (fun a b : Nat × Nat => decide (a.1 < b.1)) [(5, 0), (3, 1), (1, 2), (3, 3), (9, 4), (1, 5)] =
    [(1, 2), (1, 5), (3, 1), (3, 3), (5, 0), (9, 4)] := by decide +kernel

/-- C109: whatever the values are, and whatever `sorted` makes of them, no model is lost or doubled, each is either expanded or not,
and each has the value of the scoring function. -/
theorem C109_nothing_lost (E : SEnv K D R ε) (hb : ∀ ms, (E.big ms).Perm ms) (v : Bool) (starts : List K) (rounds : Int) (beam : BeamArg)
    (s : St K D R) (h : exploreS E v starts rounds beam = .ok s) :
    s.sorted.Perm s.tested.flatten ∧ (s.sorted.map (·.uid)).Nodup ∧ (s.expanded ++ s.notExpanded).Perm s.sorted ∧
      s.ktested.Perm (s.sorted.map (·.kex)) ∧
      ∀ m ∈ s.sorted, E.fit m.uid m.kex = .ok m.data ∧ E.score m.data = .ok m.cached := by
  have hi := invS_explore hb h
  refine ⟨by rw [← flatten_eq]; exact hi.perm, ?_, hi.part, hi.kexs.trans (hi.perm.map _).symm, fun m hm => hi.fits m (hi.perm.subset hm)⟩
  exact (hi.perm.map _).symm.nodup (hi.uids.symm.nodup List.nodup_range)

/-- C109: all models of a round are fitted before one is scored: if a fit fails, the error is that of the first such fit, whatever the scores. -/
theorem C109_fit_error (E : SEnv K D R ε) (ks : List K) (n i : Nat) (k : K) (e : ε) (hi : ks[i]? = some k) (he : E.fit (n + i) k = .error e)
    (hb : ∀ j < i, ∀ k', ks[j]? = some k' → ∃ d, E.fit (n + j) k' = .ok d) : fitSorted E n ks = .error (.fit (.fit e)) := by
  have : fitOnly E n ks = .error (.fit (.fit e)) := by
    induction ks generalizing n i with
    | nil => simp at hi
    | cons k0 ks ih =>
      rw [fitOnly]
      cases i with
      | zero =>
        simp only [List.getElem?_cons_zero, Option.some.injEq] at hi
        subst hi
        simp only [Nat.add_zero] at he
        rw [he]
      | succ i =>
        obtain ⟨d, hd⟩ := hb 0 (by omega) k0 rfl
        simp only [Nat.add_zero] at hd
        rw [hd]
        simp only
        rw [ih (n + 1) i (by simpa using hi) (by rw [← he]; congr 1; omega) fun j hj k' hk' => ?_]
        obtain ⟨d', hd'⟩ := hb (j + 1) (by omega) k' (by simpa using hk')
        exact ⟨d', by rw [← hd']; congr 1; omega⟩
  simp [fitSorted, this, bind, Except.bind]

/-- C109: if all fits succeed and the scoring function has a name, the error is that of the first model it raises on. -/
theorem C109_score_error (E : SEnv K D R ε) (hn : E.named = true) (ks : List K) (n i : Nat) (ds : List D) (d : D) (e : ε)
    (hf : ks.length = ds.length ∧ ∀ j k' d', ks[j]? = some k' → ds[j]? = some d' → E.fit (n + j) k' = .ok d') (hi : ds[i]? = some d)
    (he : E.score d = .error e) (hb : ∀ j < i, ∀ d', ds[j]? = some d' → ∃ u, E.score d' = .ok u) :
    fitSorted E n ks = .error (.fit (.score e)) := by
  have h1 : ∃ r, fitOnly E n ks = .ok r ∧ r.map (·.2.2) = ds := by
    clear hi hb
    obtain ⟨hl, hf⟩ := hf
    induction ks generalizing n ds with
    | nil =>
      have : ds = [] := List.length_eq_zero_iff.1 (by simpa using hl.symm)
      exact ⟨[], rfl, by simp [this]⟩
    | cons k ks ih =>
      cases ds with
      | nil => simp at hl
      | cons d0 ds =>
        obtain ⟨r, hr, hm⟩ := ih (n + 1) ds (by simpa using hl) fun j k' d' hk hd => by
          rw [← hf (j + 1) k' d' (by simpa using hk) (by simpa using hd)]; congr 1; omega
        refine ⟨(n, k, d0) :: r, ?_, by simp [hm]⟩
        have h0 := hf 0 k d0 rfl rfl
        simp only [Nat.add_zero] at h0
        rw [fitOnly, h0]
        simp only [hr]
  obtain ⟨r, hr, hm⟩ := h1
  have h2 : scoreOnly E r = .error (.fit (.score e)) := by
    clear hr hf
    induction r generalizing ds i with
    | nil => simp at hm; subst hm; simp at hi
    | cons x r ih =>
      obtain ⟨a, b, c⟩ := x
      cases ds with
      | nil => simp at hm
      | cons d0 ds =>
        simp only [List.map_cons, List.cons.injEq] at hm
        obtain ⟨rfl, hm⟩ := hm
        rw [scoreOnly]
        cases i with
        | zero =>
          simp only [List.getElem?_cons_zero, Option.some.injEq] at hi
          subst hi
          rw [he]
        | succ i =>
          obtain ⟨u, hu⟩ := hb 0 (by omega) c rfl
          rw [hu]
          simp only [hn, if_true]
          rw [ih i ds (by simpa using hi) (fun j hj d' hd' => hb (j + 1) (by omega) d' (by simpa using hd')) hm]
  simp [fitSorted, hr, h2, bind, Except.bind]

/-- C109: a callable without `__name__` (such as a `functools.partial`) is never accepted: a verbose search raises before fitting anything, … -/
theorem C109_unnamed_verbose (E : SEnv K D R ε) (hn : E.named = false) (starts : List K) (hs : starts ≠ []) (rounds : Int) (beam : BeamArg) :
    exploreS E true starts rounds beam = .error (.fit .noName) := by
  cases starts with
  | nil => exact absurd rfl hs
  | cons k ks => simp [exploreS, printList, hn, bind, Except.bind, throw, throwThe, MonadExceptOf.throw]

/-- C109: … any other one after fitting all the start kernels, if they can be fitted and the first can be scored. -/
theorem C109_unnamed (E : SEnv K D R ε) (hn : E.named = false) (k : K) (ks : List K) (d : D) (u : R) (ms : List (Nat × K × D))
    (hf : fitOnly E 0 (k :: ks) = .ok ms) (hd : E.fit 0 k = .ok d) (hu : E.score d = .ok u) (rounds : Int) (beam : BeamArg) :
    exploreS E false (k :: ks) rounds beam = .error (.fit .noName) := by
  have h : scoreOnly E ms = .error (.fit .noName) := by
    rw [fitOnly, hd] at hf
    simp only at hf
    split at hf
    · simp at hf
    · simp only [Except.ok.injEq] at hf
      subst hf
      simp [scoreOnly, hu, hn]
  simp [exploreS, startStS, fitSorted, hf, h, bind, Except.bind]

/-- C109: if neither the second model is better than the first nor the third better than the second, `sorted` leaves three models as they are, even if
the third is better than the first. -/
theorem sorted_three {α : Type} (big : List α → List α) (lt : α → α → Bool) (x y z : α) (h1 : lt y x = false) (h2 : lt z y = false) :
    pySorted big lt [x, y, z] = [x, y, z] := by
  simp [pySorted, countRun, runUp, h1, h2, binarySort]

/-- C109 is false where a value cannot be compared: the second of three start kernels scores `nan`; then the first one is
returned as the best however much better the third is, and it is the one that a beam of 1 expands. -/
theorem C109_nan (E : SEnv K D R ε) (hn : E.named = true) (k1 k2 k3 : K) (d1 d2 d3 : D) (a nan c : R)
    (hf : E.fit 0 k1 = .ok d1 ∧ E.fit 1 k2 = .ok d2 ∧ E.fit 2 k3 = .ok d3)
    (hs : E.score d1 = .ok a ∧ E.score d2 = .ok nan ∧ E.score d3 = .ok c) (hnan : ∀ x, E.lt nan x = false ∧ E.lt x nan = false) :
    ∃ s, exploreS E false [k1, k2, k3] 0 (.int 1) = .ok s ∧ s.sorted.map (·.kex) = [k1, k2, k3] ∧ s.sorted.map (·.cached) = [a, nan, c] ∧
      (slice s.notExpanded 1).map (·.kex) = [k1] := by
  obtain ⟨f1, f2, f3⟩ := hf
  obtain ⟨s1, s2, s3⟩ := hs
  have hst : ∀ m1 m2 m3 : Mod K D R, m1.cached = a → m2.cached = nan → m3.cached = c → sortS E [m1, m2, m3] = [m1, m2, m3] := by
    intro m1 m2 m3 h1 h2 h3
    exact sorted_three _ _ _ _ _ (by simp only [h1, h2]; exact (hnan a).1) (by simp only [h2, h3]; exact (hnan c).2)
  have hfs : fitSorted E 0 [k1, k2, k3] = .ok [⟨0, k1, d1, a⟩, ⟨1, k2, d2, nan⟩, ⟨2, k3, d3, c⟩] := by
    simp [fitSorted, fitOnly, scoreOnly, f1, f2, f3, s1, s2, s3, hn, bind, Except.bind, pure, Except.pure, hst]
  refine ⟨⟨[⟨0, k1, d1, a⟩, ⟨1, k2, d2, nan⟩, ⟨2, k3, d3, c⟩], [[⟨0, k1, d1, a⟩, ⟨1, k2, d2, nan⟩, ⟨2, k3, d3, c⟩]], [k1, k2, k3], [],
      [⟨0, k1, d1, a⟩, ⟨1, k2, d2, nan⟩, ⟨2, k3, d3, c⟩], 3⟩, ?_, rfl, rfl, rfl⟩
  simp [exploreS, startStS, hfs, bind, Except.bind, pure, Except.pure, handleBeam, roundsGoS, Util.flatten, hst]

/-! ## Examples -/

/-- Expressions are numbers, expanded to the next two; every fit succeeds with the number as its model. Scores: the number modulo 5, `nan`
(`none`) for multiples of 7; 13 raises. -/
def nanEnv (named : Bool) : SEnv Nat Nat (Option Nat) String where
  eqv a b := decide (a = b)
  expand k := [k + 1, k + 2]
  lt a b := match a, b with | some x, some y => decide (x < y) | _, _ => false
  score d := if d = 13 then .error "ValueError" else .ok (if d % 7 = 0 then none else some (d % 5))
  named := named
  fit _ k := .ok k
  big ms := ms

/-- What one sees of a result. -/
def scoredView (r : Except (Err (ScoreErr String)) (St Nat Nat (Option Nat))) : Except (Err (ScoreErr String)) (List Nat × List Nat) :=
  match r with
  | .error e => .error e
  | .ok s => .ok (s.sorted.map (·.kex), s.expanded.map (·.kex))

deriving instance DecidableEq for Except

/-- The same with numbers as scores and a right `sorted` for long lists. -/
def comparableEnv : SEnv Nat Nat Nat String where
  eqv a b := decide (a = b)
  expand k := [k + 1, k + 2]
  lt a b := decide (a < b)
  score d := if d = 13 then .error "ValueError" else .ok (d % 5)
  named := true
  fit n k := if k = 21 then .error "LinAlgError" else .ok (k + 100 * n)
  big ms := ms.insertionSort (fun a b => (!decide (b.cached < a.cached)) = true)

-- it meets the hypotheses of `C109_search` and `C109_best_first_partial`
example : comparableEnv.named = true ∧ Comparable comparableEnv :=
  ⟨rfl, ⟨fun a b c => by simp only [SEnv.plain, comparableEnv, Bool.not_eq_true', decide_eq_false_iff_not]; omega,
    fun a b => by simp only [SEnv.plain, comparableEnv, Bool.or_eq_true, Bool.not_eq_true', decide_eq_false_iff_not]; omega⟩, fun _ _ => rfl⟩
example : (match exploreS comparableEnv true [4, 7, 6] 1 (.list [2]) with
    | .ok s => s.sorted.map (fun m => (m.kex, m.cached))
    | .error _ => []) = [(6, 1), (7, 2), (8, 3), (4, 4), (9, 4)] := by decide +kernel
-- `C109_fit_error`, `C109_score_error`: the fit of 21 fails before 13 is scored
example : fitSorted comparableEnv 0 [13, 4, 21] = .error (.fit (.fit "LinAlgError")) :=
  C109_fit_error comparableEnv [13, 4, 21] 0 2 21 _ rfl rfl fun j hj k' hk' => by
    match j, hj with
    | 0, _ => cases hk'; exact ⟨_, rfl⟩
    | 1, _ => cases hk'; exact ⟨_, rfl⟩
example : fitSorted comparableEnv 0 [13, 4] = .error (.fit (.score "ValueError")) :=
  C109_score_error comparableEnv rfl [13, 4] 0 0 [13, 104] 13 _ ⟨rfl, fun j k' d' hk hd => by
    match j with
    | 0 => cases hk; cases hd; rfl
    | 1 => cases hk; cases hd; rfl⟩ rfl rfl fun j hj => absurd hj (by omega)
-- `C109_nan`
example : ∃ s, exploreS (nanEnv true) false [4, 7, 11] 0 (.int 1) = .ok s ∧ s.sorted.map (·.kex) = [4, 7, 11] ∧
    s.sorted.map (·.cached) = [some 4, none, some 1] ∧ (slice s.notExpanded 1).map (·.kex) = [4] :=
  C109_nan (nanEnv true) rfl 4 7 11 4 7 11 (some 4) none (some 1) ⟨rfl, rfl, rfl⟩ ⟨rfl, rfl, rfl⟩
    fun x => ⟨rfl, by cases x <;> rfl⟩
-- without nan: best first
example : scoredView (exploreS (nanEnv true) true [3, 1] 1 (.int 1)) = .ok ([1, 2, 3], [1]) := by decide +kernel
-- with nan: 4 (score 4) stays before 11 (score 1), and 4 is expanded
example : scoredView (exploreS (nanEnv true) false [4, 7, 11] 0 (.int 1)) = .ok ([4, 7, 11], []) := by decide +kernel
example : scoredView (exploreS (nanEnv true) false [4, 7, 11] 1 (.int 1)) = .ok ([4, 7, 5, 11, 6], [4]) := by decide +kernel
-- an error of the scoring function ends the search
example : scoredView (exploreS (nanEnv true) false [12] 1 (.int 1)) = .error (.fit (.score "ValueError")) := by decide +kernel
-- no name
example : scoredView (exploreS (nanEnv false) true [3, 1] 1 (.int 1)) = .error (.fit .noName) := by decide +kernel
example : scoredView (exploreS (nanEnv false) false [3, 1] 1 (.int 1)) = .error (.fit .noName) := by decide +kernel

end GPyABCD
