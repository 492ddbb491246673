import Verif.Lemmas.Search
import Verif.Lemmas.Fit
import Verif.Props.Expand

/-!
# The model search (C27 – C37, C69)

All statements are about the five lists returned by `explore_model_space` (fields of `St`), for an arbitrary
environment: any expressions with any `==` and any expansion, any fitting outcomes, any scores. `TotalLe` says the
utilities are totally preordered (no NaN); statements that do not need it do not assume it. A run is successful when no
fit gives up and the beam argument is acceptable; `C31_succeeds` shows that such runs exist for all arguments.
`explore … n` and `explore … (n + 1)` are the states after `n` and `n + 1` rounds of the same search (`C33_rounds`).
-/

namespace GPyABCD
open Search

variable {K D R ε : Type}

/-- A small environment for the examples: expressions are numbers, `k` expands to `k + 1`, `2 k` and `k - 3`, the score is the
distance to 11 halved (so that there are ties). -/
def toyEnv : Env Nat Nat Nat Unit where
  eqv a b := decide (a = b)
  expand k := [k + 1, 2 * k, k - 3]
  le a b := decide (a ≤ b)
  score d := ((d : Int) - 11).natAbs / 2
  fit _ k := .ok k

/-- The five lists of the toy search by expression (identities and data left out). -/
def toyView (r : Except (Err Unit) (St Nat Nat Nat)) : Option (List Nat × List (List Nat) × List Nat × List Nat × List Nat) :=
  match r with
  | .ok s => some (s.sorted.map (·.kex), s.tested.map (·.map (·.kex)), s.ktested, s.expanded.map (·.kex), s.notExpanded.map (·.kex))
  | .error _ => none

-- the runs the examples below refer to
example : toyView (explore toyEnv false [3, 5] 2 (.list [2, 1])) =
    some ([10, 11, 6, 7, 5, 4, 3, 2, 20, 0], [[5, 3], [10, 6, 4, 2, 0], [11, 7, 20]], [3, 5, 6, 10, 2, 4, 0, 11, 20, 7],
      [5, 3, 10], [11, 6, 7, 4, 2, 20, 0]) ∧
    toyView (explore toyEnv false [3, 5] 1 (.list [2, 1])) =
      some ([10, 6, 5, 4, 3, 2, 0], [[5, 3], [10, 6, 4, 2, 0]], [3, 5, 6, 10, 2, 4, 0], [5, 3], [10, 6, 4, 2, 0]) := by
  refine ⟨by rfl, by rfl⟩

theorem toy_total : TotalLe toyEnv.le := by
  refine ⟨?_, ?_⟩ <;> simp only [toyEnv, decide_eq_true_eq, Bool.or_eq_true] <;> intros <;> omega

theorem toy_eqv : Util.IsEqv toyEnv.eqv := ⟨by simp [toyEnv], by simp [toyEnv, eq_comm], by simp [toyEnv]⟩

/-! ## C27 -/

/-- C27: the first returned list contains exactly the models of all rounds, each once (identities differ), and no other;
each is the model obtained by fitting its expression, with its score. -/
theorem C27_all_models (E : Env K D R ε) (v : Bool) (starts : List K) (rounds : Int) (beam : BeamArg) (s : St K D R)
    (h : explore E v starts rounds beam = .ok s) :
    s.sorted.Perm s.tested.flatten ∧ (s.sorted.map (·.uid)).Nodup ∧
      ∀ m ∈ s.sorted, E.fit m.uid m.kex = .ok m.data ∧ m.cached = E.score m.data := by
  have hi := inv_explore h
  have hp := hi.perm
  refine ⟨by rw [← flatten_eq]; exact hp, hi.nodup_sorted, fun m hm => hi.fits m (hp.subset hm)⟩

/-- C27: it is sorted by non-decreasing utility, models with equal utilities in the order in which they were fitted. -/
theorem C27_sorted (E : Env K D R ε) (hl : TotalLe E.le) (v : Bool) (starts : List K) (rounds : Int) (beam : BeamArg) (s : St K D R)
    (h : explore E v starts rounds beam = .ok s) :
    s.sorted.Pairwise (fun a b => E.le a.cached b.cached = true ∧ (E.le b.cached a.cached = true → a.uid < b.uid)) :=
  before_explore hl h

/-- C27: the second returned list has one list per round and one for the start kernels, each sorted by non-decreasing
utility. -/
theorem C27_rounds (E : Env K D R ε) (hl : TotalLe E.le) (v : Bool) (starts : List K) (n : Nat) (beam : BeamArg) (s : St K D R)
    (h : explore E v starts n beam = .ok s) :
    s.tested.length = n + 1 ∧ ∀ t ∈ s.tested, t.Pairwise (fun a b => E.le a.cached b.cached = true) := by
  refine ⟨explore_rounds (explore_quiet h), fun t ht => ?_⟩
  obtain ⟨ms, rfl⟩ := (inv_explore h).rounds t ht
  exact sortMods_sorted hl ms

/-- C27: the models of round 0 are those of the start kernels. -/
theorem C27_starts (E : Env K D R ε) (v : Bool) (starts : List K) (n : Nat) (beam : BeamArg) (s : St K D R)
    (h : explore E v starts n beam = .ok s) : ∃ t, s.tested[0]? = some t ∧ (t.map (·.kex)).Perm starts := by
  replace h := explore_quiet h
  clear v
  induction n generalizing s with
  | zero =>
    obtain ⟨_, h⟩ := explore_zero.1 h
    simp only [startSt] at h
    split at h
    · simp at h
    · rename_i ms hms
      simp only [Except.ok.injEq] at h; subst h
      refine ⟨_, rfl, ?_⟩
      rw [← (fitAll_ok hms).1]
      exact (sortMods_perm E ms).map _
  | succ n ih =>
    obtain ⟨s0, b, h1, _, h3⟩ := explore_succ.1 h
    obtain ⟨t, ht, hp⟩ := ih s0 h1
    obtain ⟨ms, _, e, _⟩ := roundStep_ok h3
    refine ⟨t, ?_, hp⟩
    rw [e, List.getElem?_append_left, ht]
    exact (List.getElem?_eq_some_iff.1 ht).1

example : TotalLe toyEnv.le ∧ ∃ s, explore toyEnv false [3, 5] ((2 : Nat) : Int) (.list [2, 1]) = .ok s :=
  ⟨toy_total, explore_total (by simp [toyEnv]) _ _ (by simp) 2 (by decide)⟩

/-! ## C28 -/

/-- C28: the expanded and the not-expanded list together contain every tested model exactly once. -/
theorem C28_partition (E : Env K D R ε) (v : Bool) (starts : List K) (rounds : Int) (beam : BeamArg) (s : St K D R)
    (h : explore E v starts rounds beam = .ok s) :
    (s.expanded ++ s.notExpanded).Perm s.tested.flatten ∧ ((s.expanded ++ s.notExpanded).map (·.uid)).Nodup ∧
      s.notExpanded.Sublist s.sorted := by
  have hi := inv_explore h
  refine ⟨by rw [← flatten_eq]; exact hi.part.trans hi.perm, (hi.part.map _).symm.nodup hi.nodup_sorted, hi.sub⟩

example : ((toyView (explore toyEnv false [3, 5] 2 (.list [2, 1]))).map fun v => (v.2.2.2.1, v.2.2.2.2)) =
    some ([5, 3, 10], [11, 6, 7, 4, 2, 20, 0]) := by decide

/-! ## C29 -/

/-- C29: the returned list of tested expressions lists exactly the expressions of the fitted models. -/
theorem C29_tested_exprs (E : Env K D R ε) (v : Bool) (starts : List K) (rounds : Int) (beam : BeamArg) (s : St K D R)
    (h : explore E v starts rounds beam = .ok s) : s.ktested.Perm (s.tested.flatten.map (·.kex)) := by
  rw [← flatten_eq]; exact (inv_explore h).kexs

/-- C29: if the start kernels are pairwise different, no two fitted models have equal expressions. -/
theorem C29_no_refit (E : Env K D R ε) (he : Util.IsEqv E.eqv) (v : Bool) (starts : List K) (n : Nat) (beam : BeamArg) (s : St K D R)
    (hs : starts.Pairwise (fun a b => E.eqv a b = false)) (h : explore E v starts n beam = .ok s) :
    s.ktested.Pairwise (fun a b => E.eqv a b = false) ∧
      ∀ a ∈ s.sorted, ∀ b ∈ s.sorted, E.eqv a.kex b.kex = true → a = b := by
  have hsym : ∀ a b, E.eqv a b = false → E.eqv b a = false := by
    intro a b hab
    by_contra hc
    rw [he.symm _ _ (by simpa using hc)] at hab
    simp at hab
  have hk : s.ktested.Pairwise (fun a b => E.eqv a b = false) := by
    replace h := explore_quiet h
    clear v
    induction n generalizing s with
    | zero =>
      obtain ⟨_, h⟩ := explore_zero.1 h
      simp only [startSt] at h
      split at h
      · simp at h
      · simp only [Except.ok.injEq] at h; subst h; exact hs
    | succ n ih =>
      obtain ⟨s0, b, h1, _, h3⟩ := explore_succ.1 h
      obtain ⟨ms, _, _, _, _, _, e, _⟩ := roundStep_ok h3
      rw [e]
      exact List.pairwise_append.2 ⟨ih s0 h1, newKexs_pairwise he b s0,
        fun a ha k hk => hsym _ _ ((newKexs_fresh hk).2 a ha)⟩
  refine ⟨hk, ?_⟩
  have hp : (s.sorted.map (·.kex)).Perm s.ktested := by
    have := inv_explore h
    exact (this.perm.map _).trans this.kexs.symm
  have hsp : (s.sorted.map (·.kex)).Pairwise (fun a b => E.eqv a b = false) :=
    (hp.pairwise_iff (fun {x y} => hsym x y)).2 hk
  have h2 := List.pairwise_map.1 hsp
  intro a ha b hb hab
  by_contra hne
  have : Std.Symm (fun a b : Search.Mod K D R => E.eqv a.kex b.kex = false) := ⟨fun x y => hsym x.kex y.kex⟩
  have := h2.forall ha hb hne
  rw [hab] at this
  simp at this

example : Util.IsEqv toyEnv.eqv ∧ [3, 5].Pairwise (fun a b => toyEnv.eqv a b = false) := ⟨toy_eqv, by decide⟩

-- equal start kernels are fitted twice
example : ((toyView (explore toyEnv false [3, 3] 0 (.int 1))).map fun v => v.1) = some [3, 3] := by decide

/-! ## C30 -/

/-- C30: in round `n` the models expanded are the first `b` of the not-yet-expanded models in utility order, where `b` is
the beam of the round: fewer only when fewer remain, and none of the others has a smaller utility. -/
theorem C30_beam_best (E : Env K D R ε) (hl : TotalLe E.le) (v v' : Bool) (starts : List K) (n : Nat) (beam : BeamArg)
    (s s' : St K D R) (h : explore E v starts n beam = .ok s) (h' : explore E v' starts ((n + 1 : Nat) : Int) beam = .ok s') :
    ∃ b front, beamAt beam n = some b ∧ s'.expanded = s.expanded ++ front ∧ front <+: s.notExpanded ∧
      (0 ≤ b → front.length = min b.toNat s.notExpanded.length) ∧ (b < 0 → front.length = s.notExpanded.length - (-b).toNat) ∧
      front.Pairwise (fun a b => E.le a.cached b.cached = true) ∧
      ∀ m ∈ front, ∀ m' ∈ s.notExpanded, m' ∉ front → E.le m.cached m'.cached = true := by
  obtain ⟨t, b, h1, h2, h3⟩ := explore_succ.1 (explore_quiet h')
  rw [explore_quiet h] at h1
  simp only [Except.ok.injEq] at h1
  subst h1
  obtain ⟨ms, _, _, _, e, _⟩ := roundStep_ok h3
  have hi := inv_explore h
  have hs : s.notExpanded.Pairwise (fun a b => E.le a.cached b.cached = true) := by
    have := before_explore hl h
    exact (this.sublist hi.sub).imp fun h => h.1
  obtain ⟨k, hk⟩ := slice_prefix s.notExpanded b
  refine ⟨b, slice s.notExpanded b, h2, e, by rw [hk]; exact List.take_prefix _ _, ?_, ?_, ?_, ?_⟩
  · intro hb; simp [slice, hb]
  · intro hb
    have : ¬ 0 ≤ b := by omega
    simp only [slice, this, if_false, List.length_take]
    omega
  · rw [hk]; exact hs.sublist (List.take_sublist _ _)
  · rw [hk]
    intro m hm m' hm' hn
    have e2 : s.notExpanded = s.notExpanded.take k ++ s.notExpanded.drop k := (List.take_append_drop _ _).symm
    rw [e2] at hm' hs
    rcases List.mem_append.1 hm' with h4 | h4
    · exact absurd h4 hn
    · exact (List.pairwise_append.1 hs).2.2 m hm m' h4

-- the second round of the toy search expands the best of five unexpanded models
example : ∃ s s', explore toyEnv false [3, 5] ((1 : Nat) : Int) (.list [2, 1]) = .ok s ∧
    explore toyEnv false [3, 5] ((1 + 1 : Nat) : Int) (.list [2, 1]) = .ok s' := by
  obtain ⟨s, hs⟩ := explore_total (E := toyEnv) (by simp [toyEnv]) [3, 5] (.list [2, 1]) (by simp) 1 (by decide)
  obtain ⟨s', hs'⟩ := explore_total (E := toyEnv) (by simp [toyEnv]) [3, 5] (.list [2, 1]) (by simp) 2 (by decide)
  exact ⟨s, s', hs, hs'⟩

/-! ## C31 -/

/-- C31: for a non-negative number of rounds the beams used are, for each round, the integer given, or the list's entry for
that round, or its last entry beyond its end; anything else is an error. -/
theorem C31_beam (n : Nat) (beam : BeamArg) (bs : List Int) :
    handleBeam (ε := ε) n beam = .ok bs ↔
      beam ≠ .other ∧ bs.length = n ∧ ∀ r < n, bs[r]? = beamAt beam r ∧ (beamAt beam r).isSome :=
  handleBeam_spec n beam bs

/-- C31: an empty list with at least one round, or an argument of another type, is an error; nothing else is. -/
theorem C31_beam_error (n : Nat) (beam : BeamArg) :
    (∃ e, handleBeam (ε := ε) n beam = .error e) ↔ beam = .other ∨ (beam = .list [] ∧ 0 < n) := by
  constructor
  · rintro ⟨e, he⟩
    cases beam with
    | other => exact .inl rfl
    | int b => simp [handleBeam] at he
    | list bs =>
      right
      simp only [handleBeam] at he
      by_cases hc : (n : Int) - bs.length > 0
      · rw [if_pos hc] at he
        cases hb : bs.getLast? with
        | none =>
          rw [List.getLast?_eq_none_iff] at hb
          subst hb
          exact ⟨rfl, by simp only [List.length_nil] at hc; omega⟩
        | some b => rw [hb] at he; simp at he
      · rw [if_neg hc] at he; simp at he
  · rintro (rfl | ⟨rfl, h⟩)
    · exact ⟨_, rfl⟩
    · refine ⟨.index, ?_⟩
      have : ((n : Int) - (([] : List Int).length : Int)) > 0 := by simp; omega
      simp only [handleBeam, this, if_true, List.getLast?_nil]

/-- C31: when no fit gives up and the beam argument is acceptable, the (non-verbose) search succeeds. -/
theorem C31_succeeds (E : Env K D R ε) (hf : ∀ n k, ∃ d, E.fit n k = .ok d) (starts : List K) (n : Nat) (beam : BeamArg)
    (hb : beam ≠ .other) (hb' : 0 < n → beam ≠ .list []) : ∃ s, explore E false starts n beam = .ok s := by
  refine explore_total hf starts beam hb n fun r hr => ?_
  cases beam with
  | other => exact absurd rfl hb
  | int b => rfl
  | list bs =>
    simp only [beamAt]
    split
    · simpa using ‹_›
    · have : bs ≠ [] := fun e => hb' (by omega) (by rw [e])
      rw [List.getLast?_eq_some_getLast this]; rfl

example : handleBeam (ε := Unit) 4 (.list [3, 2]) = .ok [3, 2, 2, 2] ∧ handleBeam (ε := Unit) 2 (.list [3, 2, 1]) = .ok [3, 2] ∧
    handleBeam (ε := Unit) 3 (.int 5) = .ok [5, 5, 5] ∧ handleBeam (ε := Unit) 1 (.list []) = .error .index := ⟨rfl, rfl, rfl, rfl⟩

/-! ## C32 -/

/-- C32: the first returned model has minimal utility among all tested models. -/
theorem C32_best (E : Env K D R ε) (hl : TotalLe E.le) (v : Bool) (starts : List K) (rounds : Int) (beam : BeamArg) (s : St K D R)
    (h : explore E v starts rounds beam = .ok s) (m : Mod K D R) (hm : s.sorted.head? = some m) :
    ∀ m' ∈ s.tested.flatten, E.le m.cached m'.cached = true := by
  intro m' hm'
  have hb := before_explore hl h
  have hm2 : m' ∈ s.sorted := (C27_all_models E v starts rounds beam s h).1.symm.subset hm'
  cases hs : s.sorted with
  | nil => rw [hs] at hm; simp at hm
  | cons x xs =>
    rw [hs] at hm hm2 hb
    simp only [List.head?_cons, Option.some.injEq] at hm
    subst hm
    rcases List.mem_cons.1 hm2 with rfl | h2
    · exact hl.refl _
    · exact ((List.pairwise_cons.1 hb).1 _ h2).1

/-- All models tested after `n` rounds are tested after more rounds. -/
theorem C32_keeps_models (E : Env K D R ε) (v v' : Bool) (starts : List K) (n d : Nat) (beam : BeamArg) (s s' : St K D R)
    (h : explore E v starts n beam = .ok s) (h' : explore E v' starts ((n + d : Nat) : Int) beam = .ok s') : s.tested <+: s'.tested := by
  replace h := explore_quiet h
  replace h' := explore_quiet h'
  clear v v'
  induction d generalizing s' with
  | zero =>
    rw [Nat.add_zero, h] at h'
    simp only [Except.ok.injEq] at h'
    rw [h']
  | succ d ih =>
    obtain ⟨t, b, h1, _, h3⟩ := (explore_succ (n := n + d)).1 h'
    obtain ⟨ms, _, e, _⟩ := roundStep_ok h3
    exact (ih t h1).trans (by rw [e]; exact List.prefix_append _ _)

/-- C32: the best utility never increases with more rounds. -/
theorem C32_never_worse (E : Env K D R ε) (hl : TotalLe E.le) (v v' : Bool) (starts : List K) (n d : Nat) (beam : BeamArg)
    (s s' : St K D R) (h : explore E v starts n beam = .ok s) (h' : explore E v' starts ((n + d : Nat) : Int) beam = .ok s')
    (m m' : Mod K D R) (hm : s.sorted.head? = some m) (hm' : s'.sorted.head? = some m') : E.le m'.cached m.cached = true := by
  refine C32_best E hl v' starts _ beam s' h' m' hm' m ?_
  obtain ⟨t, ht⟩ := C32_keeps_models E v v' starts n d beam s s' h h'
  rw [← ht, List.flatten_append]
  refine List.mem_append_left _ ((C27_all_models E v starts _ beam s h).1.subset ?_)
  exact List.mem_of_mem_head? hm

-- the best utility of the toy search falls from 3 to 0
example : (match explore toyEnv false [3, 5] ((0 : Nat) : Int) (.list [2, 1]) with
      | .ok s => s.sorted.head?.map (·.cached) | .error _ => none) = some 3 ∧
    (match explore toyEnv false [3, 5] ((0 + 2 : Nat) : Int) (.list [2, 1]) with
      | .ok s => s.sorted.head?.map (·.cached) | .error _ => none) = some 0 := by
  decide

/-! ## C33 -/

/-- C33: running `b1.length` rounds and continuing with `b2` is running all rounds at once with the concatenated beams: same
result or same error, for the same fitting outcomes. -/
theorem C33_continue (E : Env K D R ε) (starts : List K) (b1 b2 : List Int) :
    ((explore E false starts (b1.length : Int) (.list b1)).bind fun s => searchRounds E false (b2.length : Int) b2 s) =
      explore E false starts ((b1.length + b2.length : Nat) : Int) (.list (b1 ++ b2)) := by
  have e1 : handleBeam (ε := ε) (b1.length : Int) (.list b1) = .ok b1 := by
    simp [handleBeam, slice]
  have e2 : handleBeam (ε := ε) ((b1.length + b2.length : Nat) : Int) (.list (b1 ++ b2)) = .ok (b1 ++ b2) := by
    simp only [handleBeam, List.length_append, sub_self, gt_iff_lt, lt_self_iff_false, if_false, slice, Int.natCast_nonneg, if_true,
      Int.toNat_natCast]
    rw [List.take_of_length_le (by simp)]
  simp only [explore, bind, Except.bind, pure, Except.pure, Bool.false_eq_true, if_false, e1, e2]
  cases startSt E starts with
  | error e => rfl
  | ok s0 =>
    simp only [searchRounds, Int.toNat_natCast]
    rw [List.take_of_length_le (le_refl _), List.take_of_length_le (l := b1 ++ b2) (by simp), roundsGo_append,
      roundsGo_irrel (bs := b1) (b0' := (b1 ++ b2).headD 0) (r' := 1)]
    cases roundsGo E false ((b1 ++ b2).headD 0) 1 b1 s0 with
    | error e => rfl
    | ok s1 =>
      simp only [Except.bind]
      rw [List.take_of_length_le (le_refl _), roundsGo_irrel (bs := b2) (b0' := (b1 ++ b2).headD 0) (r' := 1 + b1.length)]
      cases roundsGo E false ((b1 ++ b2).headD 0) (1 + b1.length) b2 s1 <;> rfl

/-- C33: continuing a continued search composes in the same way. -/
theorem C33_continue_continue (E : Env K D R ε) (s : St K D R) (b1 b2 : List Int) :
    ((searchRounds E false (b1.length : Int) b1 s).bind fun t => searchRounds E false (b2.length : Int) b2 t) =
      searchRounds E false ((b1.length + b2.length : Nat) : Int) (b1 ++ b2) s := by
  simp only [searchRounds, Int.toNat_natCast]
  rw [List.take_of_length_le (l := b1 ++ b2) (by simp), roundsGo_append, List.take_of_length_le (le_refl _),
    roundsGo_irrel (bs := b1) (b0' := (b1 ++ b2).headD 0) (r' := 1)]
  cases roundsGo E false ((b1 ++ b2).headD 0) 1 b1 s with
  | error e => rfl
  | ok s1 =>
    simp only [Except.bind]
    rw [List.take_of_length_le (le_refl _)]
    exact roundsGo_irrel

/-- C33: a successful search of more rounds passes through the results of fewer rounds with the same beam argument. -/
theorem C33_rounds (E : Env K D R ε) (starts : List K) (n d : Nat) (beam : BeamArg) (s' : St K D R)
    (h : explore E false starts ((n + d : Nat) : Int) beam = .ok s') : ∃ s, explore E false starts (n : Int) beam = .ok s := by
  induction d generalizing s' with
  | zero => exact ⟨s', h⟩
  | succ d ih =>
    obtain ⟨t, b, h1, _, _⟩ := (explore_succ (n := n + d)).1 h
    exact ih t h1

example : toyView ((explore toyEnv false [3, 5] (([2] : List Int).length : Int) (.list [2])).bind
      fun s => searchRounds toyEnv false (([1] : List Int).length : Int) [1] s) =
    some ([10, 11, 6, 7, 5, 4, 3, 2, 20, 0], [[5, 3], [10, 6, 4, 2, 0], [11, 7, 20]], [3, 5, 6, 10, 2, 4, 0, 11, 20, 7],
      [5, 3, 10], [11, 6, 7, 4, 2, 20, 0]) := by
  decide

/-! ## C34 -/

/-- C34: the models of round `n + 1` come from the expansion of a model expanded in that round, and their expressions were
not tested before; the other way round, every expression in the expansion of a model expanded in that round has been tested
by the end of it. -/
theorem C34_provenance (E : Env K D R ε) (v v' : Bool) (starts : List K) (n : Nat) (beam : BeamArg)
    (s s' : St K D R) (h : explore E v starts n beam = .ok s) (h' : explore E v' starts ((n + 1 : Nat) : Int) beam = .ok s') :
    ∃ front new, s'.expanded = s.expanded ++ front ∧ s'.tested = s.tested ++ [new] ∧
      (∀ m ∈ new, (∃ p ∈ front, m.kex ∈ E.expand p.kex) ∧ ∀ t ∈ s.tested.flatten, E.eqv m.kex t.kex = false) ∧
      (Util.IsEqv E.eqv → ∀ p ∈ front, ∀ k ∈ E.expand p.kex, ∃ t ∈ s'.tested.flatten, E.eqv k t.kex = true) := by
  obtain ⟨t, b, h1, h2, h3⟩ := explore_succ.1 (explore_quiet h')
  rw [explore_quiet h] at h1
  simp only [Except.ok.injEq] at h1
  subst h1
  obtain ⟨ms, hms, e1, _, e2, _, e3, _⟩ := roundStep_ok h3
  refine ⟨_, _, e2, e1, ?_, ?_⟩
  · intro m hm
    have hm' : m.kex ∈ newKexs E b s := by
      rw [← (fitAll_ok hms).1]
      exact List.mem_map_of_mem ((sortMods_perm E ms).subset hm)
    obtain ⟨g1, g2⟩ := newKexs_fresh hm'
    exact ⟨g1, fun t ht => g2 _ ((C29_tested_exprs E v starts _ beam s h).symm.subset (List.mem_map_of_mem ht))⟩
  · intro he p hp k hk
    obtain ⟨t, ht, hkt⟩ := newKexs_complete he hp hk
    rw [← e3] at ht
    obtain ⟨m, hm, rfl⟩ := List.mem_map.1 ((C29_tested_exprs E v' starts _ beam s' h').subset ht)
    exact ⟨m, hm, hkt⟩

example : Util.IsEqv toyEnv.eqv ∧ ∃ s s', explore toyEnv false [3, 5] ((1 : Nat) : Int) (.list [2, 1]) = .ok s ∧
    explore toyEnv false [3, 5] ((1 + 1 : Nat) : Int) (.list [2, 1]) = .ok s' := by
  obtain ⟨s, hs⟩ := explore_total (E := toyEnv) (by simp [toyEnv]) [3, 5] (.list [2, 1]) (by simp) 1 (by decide)
  obtain ⟨s', hs'⟩ := explore_total (E := toyEnv) (by simp [toyEnv]) [3, 5] (.list [2, 1]) (by simp) 2 (by decide)
  exact ⟨toy_eqv, s, s', hs, hs'⟩

/-- The environment of a real search: kernel expressions, the code's `==` and expansion by built-in rules. -/
def keEnv (cfg : Cfg) (o : KE.Orders) (rules : List KE.RuleName) (le : R → R → Bool) (score : D → R) (fit : Nat → KE → Except ε D) :
    Env KE D R ε := ⟨KE.keq, KE.expandNamed cfg o rules, le, score, fit⟩

/-- C34, C25: every expression tested by a search with built-in rules is reachable from the start expressions by the rules. -/
theorem C34_reachable (cfg : Cfg) (o : KE.Orders) (ho : o.OK cfg) (rules : List KE.RuleName) (le : R → R → Bool) (score : D → R)
    (fit : Nat → KE → Except ε D) (v : Bool) (starts : List KE) (n : Nat) (beam : BeamArg) (s : St KE D R)
    (h : explore (keEnv cfg o rules le score fit) v starts n beam = .ok s) :
    ∀ m ∈ s.tested.flatten, Reachable cfg starts rules m.kex := by
  replace h := explore_quiet h
  clear v
  induction n generalizing s with
  | zero =>
    intro m hm
    have hlen := explore_rounds h
    obtain ⟨t, ht, hp⟩ := C27_starts _ _ _ _ _ _ h
    have : s.tested = [t] := by
      match hs : s.tested with
      | [] => rw [hs] at hlen; simp at hlen
      | [x] => rw [hs] at ht; simp at ht; rw [ht]
      | _ :: _ :: _ => rw [hs] at hlen; simp at hlen
    rw [this] at hm
    simp only [List.flatten_cons, List.flatten_nil, List.append_nil] at hm
    exact .start (hp.subset (List.mem_map_of_mem hm))
  | succ n ih =>
    obtain ⟨s0, b, h1, _, _⟩ := explore_succ.1 h
    obtain ⟨front, new, e1, e2, h3, _⟩ := C34_provenance _ _ _ _ _ _ _ _ h1 h
    intro m hm
    rw [e2, List.flatten_append] at hm
    rcases List.mem_append.1 hm with hm | hm
    · exact ih s0 h1 m hm
    · simp only [List.flatten_cons, List.flatten_nil, List.append_nil] at hm
      obtain ⟨⟨p, hp, hk⟩, _⟩ := h3 m hm
      have hp' : p ∈ s.expanded := by rw [e1]; exact List.mem_append_right _ hp
      have hp2 : p ∈ s0.tested.flatten := by
        obtain ⟨_, front', _, e3, h4, _⟩ : ∃ b front, beamAt beam n = some b ∧ s.expanded = s0.expanded ++ front ∧
            (∀ x ∈ front, x ∈ s0.notExpanded) ∧ True := by
          obtain ⟨t, b, g1, g2, g3⟩ := explore_succ.1 h
          rw [h1] at g1
          simp only [Except.ok.injEq] at g1
          subst g1
          obtain ⟨_, _, _, _, e, _⟩ := roundStep_ok g3
          refine ⟨b, _, g2, e, ?_, trivial⟩
          obtain ⟨k, hk⟩ := slice_prefix s0.notExpanded b
          rw [hk]; exact fun x hx => List.mem_of_mem_take hx
        have : front = front' := by rw [e1] at e3; exact List.append_cancel_left e3
        subst this
        exact (C28_partition _ _ _ _ _ _ h1).1.subset (List.mem_append_right _ (h4 p hp))
      exact .step ho (ih s0 h1 p hp2) hk

/-- C29 for the real search: with different start expressions no two fitted models have expressions that are the same up to
the order of terms. -/
theorem C29_no_refit_kernels (cfg : Cfg) (o : KE.Orders) (rules : List KE.RuleName) (le : R → R → Bool) (score : D → R)
    (fit : Nat → KE → Except ε D) (v : Bool) (starts : List KE) (n : Nat) (beam : BeamArg) (s : St KE D R)
    (hs : starts.Pairwise (fun a b => ¬ Same a b)) (h : explore (keEnv cfg o rules le score fit) v starts n beam = .ok s) :
    ∀ a ∈ s.sorted, ∀ b ∈ s.sorted, Same a.kex b.kex → a = b := by
  intro a ha b hb hab
  refine (C29_no_refit _ ⟨KE.keq_refl, fun _ _ => KE.keq_symm, fun _ _ _ => KE.keq_trans⟩ v starts n beam s ?_ h).2 a ha b hb ((KE.keq_iff _ _).2 hab)
  exact hs.imp fun {x y} hxy => by
    cases hc : KE.keq x y with
    | true => exact absurd ((KE.keq_iff _ _).1 hc) hxy
    | false => exact hc

-- a search with the default start kernels and rules
example : ∃ starts s, KE.makeSimpleKexs .default (KE.startDefault .default [.WN, .C, .LIN, .PER] ++ KE.startExtra .default) = some starts ∧
    starts.Pairwise (fun a b => ¬ Same a b) ∧
    explore (keEnv (D := Nat) (ε := Unit) .default ⟨[.WN, .C, .LIN, .PER], [.WN, .LIN, .PER]⟩ KE.rulesDefault (fun a b => decide (a ≤ b)) id
      (fun n _ => .ok n)) false starts ((2 : Nat) : Int) (.list [3, 2, 1]) = .ok s := by
  obtain ⟨ks, h1, _, _, h2⟩ := C65_builtin .default [.WN, .C, .LIN, .PER] (List.Perm.refl _)
    (KE.startDefault .default [.WN, .C, .LIN, .PER] ++ KE.startExtra .default) (by simp [startGroups])
  obtain ⟨s, hs⟩ := explore_total (E := keEnv (D := Nat) (ε := Unit) .default ⟨[.WN, .C, .LIN, .PER], [.WN, .LIN, .PER]⟩ KE.rulesDefault
    (fun a b => decide (a ≤ b)) id (fun n _ => .ok n)) (by simp [keEnv]) ks (.list [3, 2, 1]) (by simp) 2 (by decide)
  exact ⟨ks, s, h1, h2, hs⟩

/-! ## C35 -/

/-- C35: `fit_one_model` makes `n + 1` attempts with `n ≤ max(max_retries, 0)`; the first `n` failed and each gave one warning,
numbered from 1, with its error; the outcome is that of the last attempt, which is a success unless all the allowed attempts
have been made. -/
theorem C35_retries (att : Nat → Except ε D) (maxRetries : Int) :
    ∃ n : Nat, n ≤ maxRetries.toNat ∧ (fitOneModel att maxRetries).attempts = n + 1 ∧ (fitOneModel att maxRetries).out = att n ∧
      (n < maxRetries.toNat → ∃ d, att n = .ok d) ∧
      ∃ es : List ε, es.length = n ∧ (∀ j < n, ∃ e, es[j]? = some e ∧ att j = .error e) ∧
        (fitOneModel att maxRetries).warns = es.mapIdx (fun j e => ((j : Int) + 1, e)) := by
  obtain ⟨n, h1, h2, h3, h4, es, h5, h6, h7⟩ := fitLoop_spec att maxRetries maxRetries.toNat 0 0 [] (by simp)
  refine ⟨n, h1, by simpa [fitOneModel] using h2, by simpa [fitOneModel] using h3, by simpa using h4, es, h5, by simpa using h6, ?_⟩
  rw [fitOneModel, h7, List.nil_append]
  congr 1
  funext j e
  rw [Int.add_comm, Int.zero_add]

/-- C35: it fails exactly when every one of the `max(max_retries, 0) + 1` attempts fails. -/
theorem C35_fails_iff (att : Nat → Except ε D) (maxRetries : Int) :
    (∃ e, (fitOneModel att maxRetries).out = .error e) ↔ ∀ j ≤ maxRetries.toNat, ∃ e, att j = .error e := by
  obtain ⟨n, h1, _, h3, h4, es, _, h6, _⟩ := C35_retries att maxRetries
  rw [h3]
  constructor
  · rintro ⟨e, he⟩ j hj
    have hn : n = maxRetries.toNat := by
      by_contra hc
      obtain ⟨d, hd⟩ := h4 (by omega)
      rw [he] at hd; simp at hd
    rcases Nat.lt_or_ge j n with hlt | hge
    · obtain ⟨e', _, h⟩ := h6 j hlt; exact ⟨e', h⟩
    · have : j = n := by omega
      exact this ▸ ⟨e, he⟩
  · intro h; exact h n h1

-- two failures then a success, with 5 retries allowed, and with only 1
example : (fitOneModel (fun i => if i < 2 then .error i else .ok i : Nat → Except Nat Nat) 5).attempts = 3 ∧
    (fitOneModel (fun i => if i < 2 then .error i else .ok i : Nat → Except Nat Nat) 5).warns = [(1, 0), (2, 1)] ∧
    (fitOneModel (fun i => if i < 2 then .error i else .ok i : Nat → Except Nat Nat) 1).attempts = 2 := by
  simp [fitOneModel, fitLoop]

/-! ## C36 -/

/-- Number of chunks of `n` kernels. -/
def numChunks (n cpus : Nat) : Nat := (n + chunkSize n cpus - 1) / chunkSize n cpus

/-- C36: if every fit succeeds, the parallel result is the list of the models in the order of the kernels, as in sequential
fitting, whatever the order in which the chunks finish. -/
theorem C36_same {α β : Type} (f : α → Except ε β) (cpus : Nat) (sched : List Nat) (ks : List α) (ys : List β)
    (hs : sched.Perm (List.range (numChunks ks.length cpus))) (h : mapSeq f ks = .ok ys) :
    parallel f cpus sched ks = .ok (ys.map some) ∧ List.Forall₂ (fun k y => f k = .ok y) ks ys := by
  have h2 := (mapSeq_ok_iff f ks ys).1 h
  have hlen : ks.length = ys.length := h2.length_eq
  have hpos : 0 < chunkSize ks.length cpus := by simp [chunkSize]
  obtain ⟨v', g1, g2, g3⟩ := poolRun_ok f (chunkSize ks.length cpus) hpos ks ys h2 sched (List.replicate ks.length none) (by simpa using hlen)
  refine ⟨?_, h2⟩
  rw [parallel, g1]
  congr 1
  apply List.ext_getElem?
  intro j
  rw [g3 j]
  by_cases hj : j < ks.length
  · have : j / chunkSize ks.length cpus ∈ sched := by
      refine hs.symm.subset (List.mem_range.2 ?_)
      rw [numChunks, Nat.div_lt_iff_lt_mul hpos]
      have h3 := Nat.div_add_mod (ks.length + chunkSize ks.length cpus - 1) (chunkSize ks.length cpus)
      have h4 := Nat.mod_lt (ks.length + chunkSize ks.length cpus - 1) hpos
      rw [Nat.mul_comm]
      omega
    rw [if_pos this]
  · rw [List.getElem?_eq_none (l := ys.map some) (by simp; omega)]
    split
    · rfl
    · rw [List.getElem?_eq_none (by simp; omega)]

/-- C36: parallel fitting raises exactly when sequential fitting does, with the error of one of the kernels. -/
theorem C36_errors {α β : Type} (f : α → Except ε β) (cpus : Nat) (sched : List Nat) (ks : List α)
    (hs : sched.Perm (List.range (numChunks ks.length cpus))) :
    ((∃ e, parallel f cpus sched ks = .error e) ↔ ∃ e, mapSeq f ks = .error e) ∧
      ∀ e, parallel f cpus sched ks = .error e → ∃ k ∈ ks, f k = .error e := by
  have h2 : ∀ e, parallel f cpus sched ks = .error e → ∃ k ∈ ks, f k = .error e := fun e h => poolRun_error f _ ks sched _ e h
  refine ⟨⟨?_, ?_⟩, h2⟩
  · rintro ⟨e, he⟩
    cases hm : mapSeq f ks with
    | error e' => exact ⟨e', rfl⟩
    | ok ys => rw [(C36_same f cpus sched ks ys hs hm).1] at he; simp at he
  · rintro ⟨e, he⟩
    cases hp : parallel f cpus sched ks with
    | error e' => exact ⟨e', rfl⟩
    | ok v =>
      exfalso
      obtain ⟨x, hx, hfx⟩ := mapSeq_error f ks e he
      obtain ⟨i, hi, rfl⟩ := List.mem_iff_getElem.1 hx
      have hpos : 0 < chunkSize ks.length cpus := by simp [chunkSize]
      have hmem : i / chunkSize ks.length cpus ∈ sched := by
        refine hs.symm.subset (List.mem_range.2 ?_)
        rw [numChunks, Nat.div_lt_iff_lt_mul hpos]
        have h3 := Nat.div_add_mod (ks.length + chunkSize ks.length cpus - 1) (chunkSize ks.length cpus)
        have h4 := Nat.mod_lt (ks.length + chunkSize ks.length cpus - 1) hpos
        rw [Nat.mul_comm]
        omega
      obtain ⟨r, hr⟩ := poolRun_all f _ ks sched _ _ hp _ hmem
      have hf := (mapSeq_ok_iff f _ _).1 hr
      have hin : ks[i] ∈ (ks.drop (i / chunkSize ks.length cpus * chunkSize ks.length cpus)).take (chunkSize ks.length cpus) := by
        have h3 := Nat.div_add_mod i (chunkSize ks.length cpus)
        have h4 := Nat.mod_lt i hpos
        rw [Nat.mul_comm] at h3
        refine List.mem_iff_getElem?.2 ⟨i % chunkSize ks.length cpus, ?_⟩
        rw [List.getElem?_take_of_lt h4, List.getElem?_drop, h3, List.getElem?_eq_getElem hi]
      have : ∀ (l : List α) (r : List β), List.Forall₂ (fun x y => f x = .ok y) l r → ∀ x ∈ l, ∃ y, f x = .ok y := by
        intro l r h
        induction h with
        | nil => simp
        | cons h _ ih =>
          intro x hx
          rcases List.mem_cons.1 hx with rfl | hx
          · exact ⟨_, h⟩
          · exact ih x hx
      obtain ⟨y, hy⟩ := this _ _ hf _ hin
      rw [hfx] at hy
      simp at hy

/-- C36: the chunk size is at least one and there are never more chunks than processors. -/
theorem C36_chunks (n cpus : Nat) (hc : 0 < cpus) : 1 ≤ chunkSize n cpus ∧ numChunks n cpus ≤ cpus := by
  refine ⟨by simp [chunkSize], ?_⟩
  have hlt : n < cpus * chunkSize n cpus := by
    have h1 := Nat.div_add_mod n cpus
    have h2 := Nat.mod_lt n hc
    rw [chunkSize, Nat.mul_add]
    omega
  rw [numChunks]
  have hpos : 0 < chunkSize n cpus := by simp [chunkSize]
  rw [← Nat.lt_succ_iff, Nat.div_lt_iff_lt_mul hpos, Nat.succ_mul]
  omega

-- 7 kernels on 3 processors: chunks of 3, finishing in the order 2, 0, 1
example : [2, 0, 1].Perm (List.range (numChunks 7 3)) ∧
    parallel (fun k => .ok (10 * k) : Nat → Except Unit Nat) 3 [2, 0, 1] [1, 2, 3, 4, 5, 6, 7] =
      .ok [some 10, some 20, some 30, some 40, some 50, some 60, some 70] := by
  refine ⟨by decide, by rfl⟩

/-! ## C37 -/

/-- C37: if a verbose search succeeds, the silent one returns the same lists. -/
theorem C37_same_result (E : Env K D R ε) (starts : List K) (rounds : Int) (beam : BeamArg) (s : St K D R)
    (h : explore E true starts rounds beam = .ok s) : explore E false starts rounds beam = .ok s := explore_quiet h

/-- C37 is false: a search that succeeds silently can raise `IndexError` when verbose: with no rounds, with a beam starting
with 0, with no start kernels, with a round that finds nothing new. -/
theorem C37_verbose_breaks :
    ∃ (E : Env Nat Nat Nat Unit), ∀ a ∈ [([3], (0 : Int), BeamArg.list [3, 2, 1]), ([3], 1, .int 0), ([], 1, .int 1), ([0], 1, .int 1)],
      (∃ s, explore E false a.1 a.2.1 a.2.2 = .ok s) ∧ explore E true a.1 a.2.1 a.2.2 = .error .index := by
  refine ⟨{ toyEnv with expand := fun k => [2 * k] }, ?_⟩
  intro a ha
  simp only [List.mem_cons, List.not_mem_nil, or_false] at ha
  rcases ha with rfl | rfl | rfl | rfl <;> exact ⟨⟨_, rfl⟩, rfl⟩

/-- C37 (partial: the hypotheses exclude the failures above): with start kernels, at least one round, beams of at least 1 and
something new in every round, the verbose search returns what the silent one returns. -/
theorem C37_verbose_partial (E : Env K D R ε) (starts : List K) (n : Nat) (beam : BeamArg) (s : St K D R)
    (h : explore E false starts n beam = .ok s) (hs : starts ≠ []) (hn : 1 ≤ n) (hb : ∀ r < n, ∀ b, beamAt beam r = some b → 1 ≤ b)
    (ht : ∀ t ∈ s.tested, t ≠ []) : explore E true starts n beam = .ok s := by
  obtain ⟨s0, bs, h1, h2, h3, _⟩ := explore_ok h
  obtain ⟨_, hlen, hbs⟩ := (handleBeam_spec (ε := ε) n beam bs).1 h2
  have hall : ∀ b ∈ bs, 1 ≤ b := by
    intro b hbm
    obtain ⟨i, hi, rfl⟩ := List.mem_iff_getElem.1 hbm
    have hg := (hbs i (by omega)).1
    rw [List.getElem?_eq_getElem hi] at hg
    exact hb i (by omega) _ hg.symm
  cases hbc : bs with
  | nil => rw [hbc] at hlen; simp at hlen; omega
  | cons b0 bs' =>
    have hb0 : 1 ≤ b0 := hall b0 (by rw [hbc]; simp)
    have hi0 := inv_start h1
    have hlen0 : s0.tested.length = 1 := by
      simp only [startSt] at h1
      split at h1
      · simp at h1
      · simp only [Except.ok.injEq] at h1; subst h1; rfl
    have hgo := roundsGo_verbose (E := E) (b0 := bs.headD 0) (by rw [hbc]; exact hb0) (fun b hb' => hall b (List.mem_of_mem_take hb'))
      hi0 hlen0 h3 ht
    have hpre := roundsGo_prefix h3
    have hst : s0.notExpanded ≠ [] := by
      have hn0 : s0.notExpanded = s0.sorted := by
        simp only [startSt] at h1
        split at h1
        · simp at h1
        · simp only [Except.ok.injEq] at h1; subst h1; rfl
      rw [hn0]
      intro hnil
      have hk := hi0.kexs
      have hfl : Util.flatten s0.tested = [] := by
        have := hi0.perm
        rw [hnil] at this
        exact this.symm.eq_nil
      rw [hfl, List.map_nil] at hk
      have : s0.ktested = starts := by
        simp only [startSt] at h1
        split at h1
        · simp at h1
        · simp only [Except.ok.injEq] at h1; subst h1; rfl
      rw [this] at hk
      exact hs hk.eq_nil
    have hend : s.sorted ≠ [] := by
      intro hnil
      have hi := inv_explore h
      have hfl : Util.flatten s.tested = [] := by
        have := hi.perm
        rw [hnil] at this
        exact this.symm.eq_nil
      have hlen' := explore_rounds h
      cases hts : s.tested with
      | nil => rw [hts] at hlen'; simp at hlen'
      | cons t ts =>
        rw [hts, flatten_eq] at hfl
        simp only [List.flatten_cons, List.append_eq_nil_iff] at hfl
        exact ht t (by rw [hts]; simp) hfl.1
    refine explore_of h1 h2 hgo fun _ => ⟨printList_ok hs, ?_, ?_⟩
    · rw [hbc]; exact printList_ok (slice_ne_nil hst hb0)
    · rw [hbc]; exact printList_ok (slice_ne_nil hend hb0)

example : toyView (explore toyEnv true [3, 5] 2 (.list [2, 1])) = toyView (explore toyEnv false [3, 5] 2 (.list [2, 1])) ∧
    (toyView (explore toyEnv true [3, 5] 2 (.list [2, 1]))).isSome = true := by
  refine ⟨by rfl, by rfl⟩

/-! ## C69 -/

/-- C69: in a search from scratch, the list reported as the new models of round `r` is that round's. -/
theorem C69_reports_round (E : Env K D R ε) (v : Bool) (starts : List K) (n : Nat) (beam : BeamArg) (s : St K D R)
    (h : explore E v starts n beam = .ok s) : reported n s = s.tested.getLast? := by
  have := explore_rounds (explore_quiet h)
  rw [reported, List.getLast?_eq_getElem?, this]
  rfl

/-- C69 is false for continued searches: the first continued round reports the models of the first round of the earlier search
instead of its own. -/
theorem C69_continue_reports_old (E : Env K D R ε) (v : Bool) (starts : List K) (n : Nat) (beam : BeamArg) (s s' : St K D R)
    (hn : 1 ≤ n) (h : explore E v starts n beam = .ok s) (b : Int) (h' : roundStep E b s = .ok s') :
    reported 1 s' = s.tested[1]? ∧ ∃ new, s'.tested = s.tested ++ [new] ∧ s'.tested.getLast? = some new := by
  obtain ⟨ms, _, e, _⟩ := roundStep_ok h'
  have := explore_rounds (explore_quiet h)
  refine ⟨?_, _, e, by rw [e]; simp⟩
  rw [reported, e, List.getElem?_append_left (by omega)]

-- the continued toy search reports the first round's five models as new although the new ones are three others
example : (match explore toyEnv false [3, 5] 1 (.list [2]) with
    | .ok s => (match searchRounds toyEnv false 1 [1] s with
      | .ok s' => ((reported 1 s').map (·.map (·.kex)), s'.tested.getLast?.map (·.map (·.kex)))
      | .error _ => (none, none))
    | .error _ => (none, none)) = (some [10, 6, 4, 2, 0], some [11, 7, 20]) := by
  rfl

end GPyABCD
