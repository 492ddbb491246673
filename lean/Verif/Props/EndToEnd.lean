import Verif.Props.Search
import Verif.Props.Params
import Verif.Props.KernelFam

/-!
# Properties: what a search returns (C88, C89)

C88: models found by a search can be fitted and interpreted. C89: how much a search tests.
-/

namespace GPyABCD
open Search KE Sops Params Interp

variable {α D R ε : Type}

/-! ## C89 -/

/-- Reached from start kernels by at most `n` expansions, with any iteration orders. -/
inductive ReachIn (cfg : Cfg) (start : List KE) (rules : List RuleName) : Nat → KE → Prop
  | start {n : Nat} {k : KE} (h : k ∈ start) : ReachIn cfg start rules n k
  | step {n : Nat} {k r : KE} {o : Orders} (ho : o.OK cfg) (hk : ReachIn cfg start rules n k) (h : r ∈ expandNamed cfg o rules k) :
      ReachIn cfg start rules (n + 1) r

theorem ReachIn.mono {cfg : Cfg} {start : List KE} {rules : List RuleName} {n : Nat} {k : KE} (h : ReachIn cfg start rules n k) :
    ReachIn cfg start rules (n + 1) k := by
  induction h with
  | start h => exact .start h
  | step ho _ h ih => exact .step ho ih h

theorem reachable_iff {cfg : Cfg} {start : List KE} {rules : List RuleName} {k : KE} :
    Reachable cfg start rules k ↔ ∃ n, ReachIn cfg start rules n k := by
  constructor
  · intro h
    induction h with
    | start h => exact ⟨0, .start h⟩
    | step ho _ h ih => obtain ⟨n, ih⟩ := ih; exact ⟨n + 1, .step ho ih h⟩
  · rintro ⟨n, h⟩
    induction h with
    | start h => exact .start h
    | step ho _ h ih => exact .step ho ih h

variable (cfg : Cfg) (o : Orders) (rules : List RuleName) (le : R → R → Bool) (score : D → R) (fit : Nat → KE → Except ε D)

/-- C89. Everything the expansion of an expanded model gives has been tested, whichever the beams. -/
theorem C89_closed (v : Bool) (starts : List KE) (n : Nat) (beam : BeamArg) (s : St KE D R)
    (h : explore (keEnv cfg o rules le score fit) v starts n beam = .ok s) :
    ∀ p ∈ s.expanded, ∀ k ∈ expandNamed cfg o rules p.kex, ∃ m ∈ s.tested.flatten, keq k m.kex = true := by
  replace h := explore_quiet h
  clear v
  induction n generalizing s with
  | zero =>
    obtain ⟨_, h⟩ := explore_zero.1 h
    simp only [startSt] at h
    split at h
    · simp at h
    · simp only [Except.ok.injEq] at h; subst h; simp
  | succ n ih =>
    obtain ⟨s0, b, h1, _, _⟩ := explore_succ.1 h
    obtain ⟨front, new, e1, e2, _, h4⟩ := C34_provenance _ _ _ _ _ _ _ _ h1 h
    intro p hp k hk
    rw [e1] at hp
    rcases List.mem_append.1 hp with hp | hp
    · obtain ⟨m, hm, e⟩ := ih s0 h1 p hp k hk
      exact ⟨m, by rw [e2, List.flatten_append]; exact List.mem_append_left _ hm, e⟩
    · exact h4 isEqv_keq p hp k hk

theorem start_tested {E : Env KE D R ε} {starts : List KE} {n : Nat} {beam : BeamArg} {s : St KE D R}
    (h : explore E false starts n beam = .ok s) {k : KE} (hk : k ∈ starts) : ∃ m ∈ s.tested.flatten, m.kex = k := by
  obtain ⟨t, ht, hp⟩ := C27_starts _ _ _ _ _ _ h
  obtain ⟨m, hm, rfl⟩ := List.mem_map.1 (hp.symm.subset hk)
  exact ⟨m, List.mem_flatten.2 ⟨t, List.mem_of_getElem? ht, hm⟩, rfl⟩

theorem reachIn_isExpr {starts : List KE} (hs : ∀ k ∈ starts, IsExpr k) {n : Nat} {k : KE} (h : ReachIn cfg starts rules n k) : IsExpr k := by
  induction h with
  | start h => exact hs _ h
  | step ho _ h ih => exact (C24_shape cfg _ (C20_builtin_rules cfg _ ho rules) _ ih _ h).1

/-- One more expansion, up to equality and iteration order. -/
theorem expand_to {o : Orders} (ho : o.OK cfg) {o' : Orders} (ho' : o'.OK cfg) {k k' r : KE} (hk : IsExpr k) (hk' : IsExpr k') (h : keq k k' = true)
    (hr : r ∈ expandNamed cfg o' rules k) : ∃ r' ∈ expandNamed cfg o rules k', keq r r' = true := by
  obtain ⟨r1, h1, e1⟩ := C23_order_independent cfg o' o ho' ho rules k hk r hr
  obtain ⟨r2, h2, e2⟩ := C67_expand cfg o ho rules k k' hk hk' h r1 h1
  exact ⟨r2, h2, keq_trans ((keq_iff _ _).2 e1) e2⟩

/-- C89. If every round's beam is at least the number of models left to expand, what has been tested after `n` rounds is, up to equality, exactly
what at most `n` expansions of start kernels reach. -/
theorem C89_exhaustive (ho : o.OK cfg) (v : Bool) (starts : List KE) (hs : ∀ k ∈ starts, IsExpr k) (n : Nat) (beam : BeamArg) (s : St KE D R)
    (h : explore (keEnv cfg o rules le score fit) v starts n beam = .ok s)
    (hwide : ∀ i < n, ∀ t, explore (keEnv cfg o rules le score fit) false starts (i : Nat) beam = .ok t →
      ∀ b ∈ beamAt beam i, (t.notExpanded.length : Int) ≤ b) :
    (∀ m ∈ s.tested.flatten, ReachIn cfg starts rules n m.kex) ∧
      ∀ k, ReachIn cfg starts rules n k → ∃ m ∈ s.tested.flatten, keq k m.kex = true := by
  replace h := explore_quiet h
  clear v
  induction n generalizing s with
  | zero =>
    refine ⟨fun m hm => ?_, ?_⟩
    · have hlen := explore_rounds h
      obtain ⟨t, ht, hp⟩ := C27_starts _ _ _ _ _ _ h
      have : s.tested = [t] := by
        match hs : s.tested with
        | [] => rw [hs] at hlen; simp at hlen
        | [x] => rw [hs] at ht; simp at ht; rw [ht]
        | _ :: _ :: _ => rw [hs] at hlen; simp at hlen
      rw [this] at hm
      simp only [List.flatten_cons, List.flatten_nil, List.append_nil] at hm
      exact .start (hp.subset (List.mem_map_of_mem hm))
    · rintro k (h0 | _)
      obtain ⟨m, hm, rfl⟩ := start_tested h h0
      exact ⟨m, hm, keq_refl _⟩
  | succ n ih =>
    obtain ⟨s0, b, h1, hb, h2⟩ := explore_succ.1 h
    obtain ⟨i1, i2⟩ := ih s0 (fun i hi => hwide i (by omega)) h1
    obtain ⟨front, new, e1, e2, h3, _⟩ := C34_provenance _ _ _ _ _ _ _ _ h1 h
    obtain ⟨_, _, _, _, e3, _⟩ := roundStep_ok h2
    have hfront : front = slice s0.notExpanded b := by rw [e1] at e3; exact List.append_cancel_left e3
    have hw := hwide n (by omega) s0 h1 b hb
    have hall : front = s0.notExpanded := by
      rw [hfront, slice, if_pos (by omega), List.take_of_length_le (by omega)]
    have hpart := (C28_partition _ _ _ _ _ _ h1).1
    refine ⟨fun m hm => ?_, ?_⟩
    · rw [e2, List.flatten_append] at hm
      rcases List.mem_append.1 hm with hm | hm
      · exact (i1 m hm).mono
      · simp only [List.flatten_cons, List.flatten_nil, List.append_nil] at hm
        obtain ⟨⟨p, hp, hk⟩, _⟩ := h3 m hm
        exact .step ho (i1 p (hpart.subset (List.mem_append_right _ (hall ▸ hp)))) hk
    · rintro k (h0 | ⟨ho', hk, hr⟩)
      · obtain ⟨m, hm, rfl⟩ := start_tested h h0
        exact ⟨m, hm, keq_refl _⟩
      · obtain ⟨m, hm, e⟩ := i2 _ hk
        obtain ⟨r', hr', e'⟩ := expand_to cfg rules ho ho' (reachIn_isExpr cfg rules hs hk) (reachIn_isExpr cfg rules hs (i1 m hm)) e hr
        have hm' : m ∈ s.expanded := by rw [e1, hall]; exact hpart.symm.subset hm
        obtain ⟨t, ht, e4⟩ := C89_closed cfg o rules le score fit false starts _ beam s h m hm' r' hr'
        exact ⟨t, ht, keq_trans e' e4⟩

/-- One round from the default start kernels, all nine of which are expanded. -/
example : ∃ starts s, makeSimpleKexs .default (startDefault .default [.WN, .C, .LIN, .PER]) = some starts ∧ (∀ k ∈ starts, IsExpr k) ∧
    explore (keEnv (D := Nat) (ε := Unit) .default ⟨[.WN, .C, .LIN, .PER], [.WN, .LIN, .PER]⟩ rulesDefault (fun a b => decide (a ≤ b)) id
      (fun n _ => .ok n)) false starts ((1 : Nat) : Int) (.int 9) = .ok s ∧
    ∀ i < 1, ∀ t, explore (keEnv (D := Nat) (ε := Unit) .default ⟨[.WN, .C, .LIN, .PER], [.WN, .LIN, .PER]⟩ rulesDefault (fun a b => decide (a ≤ b)) id
      (fun n _ => .ok n)) false starts (i : Nat) (.int 9) = .ok t → ∀ b ∈ beamAt (.int 9) i, (t.notExpanded.length : Int) ≤ b := by
  obtain ⟨starts, hst⟩ : ∃ starts, makeSimpleKexs .default (startDefault .default [.WN, .C, .LIN, .PER]) = some starts := ⟨_, rfl⟩
  have hlen : starts.length = 9 := by
    have h : (makeSimpleKexs .default (startDefault .default [.WN, .C, .LIN, .PER])).map List.length = some 9 := by decide
    rw [hst] at h; simpa using h
  have hexp : ∀ k ∈ starts, IsExpr k := by
    have h : ∀ ks, makeSimpleKexs .default (startDefault .default [.WN, .C, .LIN, .PER]) = some ks → ∀ k ∈ ks, IsExpr k := by
      intro ks hks
      have := (by decide : (makeSimpleKexs .default (startDefault .default [.WN, .C, .LIN, .PER])).all (fun l => l.all (fun k => wf k && !k.isBase)) = true)
      rw [hks] at this
      simp only [Option.all_some, List.all_eq_true, Bool.and_eq_true, Bool.not_eq_true'] at this
      exact this
    exact h starts hst
  obtain ⟨s, hs⟩ := explore_total (E := keEnv (D := Nat) (ε := Unit) .default ⟨[.WN, .C, .LIN, .PER], [.WN, .LIN, .PER]⟩ rulesDefault
    (fun a b => decide (a ≤ b)) id (fun n _ => .ok n)) (by simp [keEnv]) starts (.int 9) (by simp) 1 (by decide)
  refine ⟨starts, s, hst, hexp, hs, ?_⟩
  rintro i hi t ht b hb
  obtain rfl : i = 0 := by omega
  simp only [beamAt, Option.mem_def, Option.some.injEq] at hb
  have h1 := (C28_partition _ _ _ _ _ _ ht).1.length_eq
  obtain ⟨u, hu, hp⟩ := C27_starts _ _ _ _ _ _ ht
  have h2 := explore_rounds ht
  have h3 : t.tested = [u] := by
    match hs : t.tested with
    | [] => rw [hs] at h2; simp at h2
    | [x] => rw [hs] at hu; simp at hu; rw [hu]
    | _ :: _ :: _ => rw [hs] at h2; simp at h2
  have h4 := hp.length_eq
  rw [h3] at h1
  simp only [List.length_append, List.flatten_cons, List.flatten_nil, List.append_nil, List.length_map] at h1 h4
  omega

/-- C89. If nothing is left to expand, everything reachable from the start kernels by any number of expansions has been tested, whichever the beams. -/
theorem C89_exhausted (ho : o.OK cfg) (v : Bool) (starts : List KE) (hs : ∀ k ∈ starts, IsExpr k) (n : Nat) (beam : BeamArg) (s : St KE D R)
    (h : explore (keEnv cfg o rules le score fit) v starts n beam = .ok s) (he : s.notExpanded = []) :
    ∀ k, Reachable cfg starts rules k → ∃ m ∈ s.tested.flatten, keq k m.kex = true := by
  intro k hk
  have hpart := (C28_partition _ _ _ _ _ _ h).1
  rw [he, List.append_nil] at hpart
  induction hk with
  | start h0 =>
    obtain ⟨m, hm, rfl⟩ := start_tested (explore_quiet h) h0
    exact ⟨m, hm, keq_refl _⟩
  | step ho' hk hr ih =>
    obtain ⟨m, hm, e⟩ := ih
    obtain ⟨i, hi⟩ := reachable_iff.1 hk
    obtain ⟨j, hj⟩ := reachable_iff.1 (C34_reachable cfg o ho rules le score fit v starts n beam s h m hm)
    obtain ⟨r', hr', e'⟩ := expand_to cfg rules ho ho' (reachIn_isExpr cfg rules hs hi) (reachIn_isExpr cfg rules hs hj) e hr
    obtain ⟨t, ht, e4⟩ := C89_closed cfg o rules le score fit v starts _ beam s h m (hpart.symm.subset hm) r' hr'
    exact ⟨t, ht, keq_trans e' e4⟩

/-- Removing terms from `LIN + PER * SE` comes to an end. -/
example : IsExpr (comm .sum [(.LIN, 1)] [comm .prod [(.PER, 1), (.SE, 1)] []]) ∧
    ∃ s, explore (keEnv (D := Nat) (ε := Unit) .default ⟨[.WN, .C, .LIN, .PER], [.WN, .LIN, .PER]⟩ [.remove_some_term] (fun a b => decide (a ≤ b)) id
      (fun n _ => .ok n)) false [comm .sum [(.LIN, 1)] [comm .prod [(.PER, 1), (.SE, 1)] []]] ((4 : Nat) : Int) (.int 2) = .ok s ∧
      s.notExpanded = [] ∧ s.sorted.length = 7 := by
  refine ⟨⟨by decide, by decide⟩, ?_⟩
  have h : (match explore (keEnv (D := Nat) (ε := Unit) .default ⟨[.WN, .C, .LIN, .PER], [.WN, .LIN, .PER]⟩ [.remove_some_term] (fun a b => decide (a ≤ b)) id
      (fun n _ => .ok n)) false [comm .sum [(.LIN, 1)] [comm .prod [(.PER, 1), (.SE, 1)] []]] ((4 : Nat) : Int) (.int 2) with
      | .ok s => s.notExpanded.isEmpty && decide (s.sorted.length = 7)
      | .error _ => false) = true := by decide +kernel
  split at h
  · rename_i s hs
    simp only [Bool.and_eq_true, List.isEmpty_iff, decide_eq_true_eq] at h
    exact ⟨s, hs, h⟩
  · simp at h

/-! ## C88 -/

/-- The fits of a search make models of the kernel of the expression: GPy only changes the values of linked parameters. -/
def FitsKernel (cfg : Cfg) (ker : D → GK α) (fit : Nat → KE → Except ε D) : Prop :=
  ∀ n k d, fit n k = .ok d → toKernel cfg k = .ok (erase (ker d))

/-- C88. Every expression that a search from built-in start kernels can reach has a kernel; so if optimising a kernel never gives up, the search
succeeds. -/
theorem C88_fittable (bs : List Base) (hbs : bs.Perm [.WN, .C, .LIN, .PER]) (ps : List Pseudo) (hp : ps ∈ startGroups cfg bs) :
    ∃ starts, makeSimpleKexs cfg ps = some starts ∧ ∀ k, Reachable cfg starts rules k → ∃ s, toKernel cfg k = .ok s := by
  obtain ⟨starts, h1, h2⟩ := C25_builtin cfg bs hbs ps hp rules
  refine ⟨starts, h1, fun k hk => ?_⟩
  obtain ⟨h3, _, _, h4⟩ := h2 k hk
  obtain ⟨s, hs, _⟩ := kernel_vals cfg k h4 h3
  exact ⟨s, hs⟩

theorem fitAll_of {E : Env KE D R ε} : ∀ (ks : List KE), (∀ n, ∀ k ∈ ks, ∃ d, E.fit n k = .ok d) → ∀ n, ∃ ms, fitAll E n ks = .ok ms := by
  intro ks
  induction ks with
  | nil => exact fun _ n => ⟨_, rfl⟩
  | cons k ks ih =>
    intro hf n
    obtain ⟨d, hd⟩ := hf n k List.mem_cons_self
    obtain ⟨ms, hms⟩ := ih (fun m k' hk' => hf m k' (List.mem_cons_of_mem _ hk')) (n + 1)
    exact ⟨_, by simp only [fitAll, hd, hms]; rfl⟩

/-- C88. So the search succeeds if optimising a kernel never gives up. -/
theorem C88_succeeds (ho : o.OK cfg) (bs : List Base) (hbs : bs.Perm [.WN, .C, .LIN, .PER]) (ps : List Pseudo) (hp : ps ∈ startGroups cfg bs)
    (hf : ∀ n k s, toKernel cfg k = .ok s → ∃ d, fit n k = .ok d) (n : Nat) (beam : BeamArg) (hb : beam ≠ .other) (hb' : 0 < n → beam ≠ .list []) :
    ∃ starts s, makeSimpleKexs cfg ps = some starts ∧ explore (keEnv cfg o rules le score fit) false starts n beam = .ok s := by
  obtain ⟨starts, h1, h2⟩ := C88_fittable cfg rules bs hbs ps hp
  have hfr : ∀ n k, Reachable cfg starts rules k → ∃ d, fit n k = .ok d := fun n k hk => by
    obtain ⟨s, hs⟩ := h2 k hk
    exact hf n k s hs
  suffices h : ∃ s, explore (keEnv cfg o rules le score fit) false starts n beam = .ok s by
    obtain ⟨s, hs⟩ := h; exact ⟨starts, s, h1, hs⟩
  have hbeam : ∀ r < n, (beamAt beam r).isSome := fun r hr => by
    cases beam with
    | other => exact absurd rfl hb
    | int b => rfl
    | list bs =>
      simp only [beamAt]
      split
      · simpa using ‹_›
      · have : bs ≠ [] := fun e => hb' (by omega) (by rw [e])
        rw [List.getLast?_eq_some_getLast this]; rfl
  clear hb'
  induction n with
  | zero =>
    obtain ⟨ms, hms⟩ := fitAll_of (E := keEnv cfg o rules le score fit) starts (fun n k hk => hfr n k (.start hk)) 0
    exact ⟨_, explore_zero.2 ⟨hb, by simp only [startSt, hms]; rfl⟩⟩
  | succ n ih =>
    obtain ⟨s, hs⟩ := ih (fun r hr => hbeam r (by omega))
    obtain ⟨b, hb'⟩ := Option.isSome_iff_exists.1 (hbeam n (by omega))
    obtain ⟨ms, hms⟩ := fitAll_of (E := keEnv cfg o rules le score fit) (newKexs (keEnv cfg o rules le score fit) b s) (fun i k hk => by
      obtain ⟨⟨p, hp, hk'⟩, _⟩ := newKexs_fresh hk
      refine hfr i k (.step ho (C34_reachable cfg o ho rules le score fit false starts n beam s hs p ?_) hk')
      refine (C28_partition _ _ _ _ _ _ hs).1.subset (List.mem_append_right _ ?_)
      obtain ⟨j, hj⟩ := slice_prefix s.notExpanded b
      rw [hj] at hp; exact List.mem_of_mem_take hp) s.next
    exact ⟨_, explore_succ.2 ⟨s, b, hs, hb', by simp only [roundStep, hms]; rfl⟩⟩

mutual
/-- A kernel with all values one, for the examples. -/
def ones : GK Unit → GK Nat
  | .base b p => .base b (mapPD (fun _ => 1) p)
  | .comb op parts => .comb op (onesL parts)
  | .change c p l r => .change c (mapPD (fun _ => 1) p) (ones l) (ones r)
/-- Over a list. -/
def onesL : List (GK Unit) → List (GK Nat)
  | [] => []
  | k :: ks => ones k :: onesL ks
end

theorem mapPD_one (p : PD Unit) : mapPD (fun _ => ()) (mapPD (fun _ => 1) p : PD Nat) = p := by
  obtain ⟨a, b, c, d, e, f, g⟩ := p
  cases a <;> cases b <;> cases c <;> cases d <;> cases e <;> cases f <;> cases g <;> rfl

mutual
theorem erase_ones (g : GK Unit) : erase (ones g) = g := by
  cases g with
  | base b p => rw [ones, erase, mapPD_one]
  | comb op l => rw [ones, erase, eraseL_ones l]
  | change c p a b => rw [ones, erase, mapPD_one, erase_ones a, erase_ones b]
theorem eraseL_ones (l : List (GK Unit)) : eraseL (onesL l) = l := by
  cases l with
  | nil => rfl
  | cons g l => rw [onesL, eraseL, erase_ones g, eraseL_ones l]
end

-- C40_random: PER * (C + SE * (C)) is simplified to PER * (C + SE) and all values are set to one
example : let k := KE.comm .prod [(.PER, 1)] [.comm .sum [(.C, 1)] [.comm .prod [(.SE, 1)] [.comm .sum [(.C, 1)] []]]]
    k.isBase = false ∧ wf k = true ∧ noEmpty (simplify .default k) = true ∧ (∀ x ∈ bases k, x.isSigmoid = false) ∧
      keq (simplify .default (simplify .default k)) (simplify .default k) = true ∧ keq (simplify .default k) k = false ∧ ∀ s, erase (ones s) = s :=
  ⟨rfl, by decide, by decide, by decide, by decide, by decide, erase_ones⟩

/-- Fits that leave every value at one, for the examples. -/
def oneFit (cfg : Cfg) (_ : Nat) (k : KE) : Except PErr (GK Nat) :=
  match toKernel cfg k with
  | .ok s => .ok (ones s)
  | .error e => .error e

theorem oneFit_fits (cfg : Cfg) : FitsKernel cfg id (oneFit cfg) ∧ ∀ n k s, toKernel cfg k = .ok s → ∃ d, oneFit cfg n k = .ok d := by
  refine ⟨fun n k d h => ?_, fun n k s h => ⟨ones s, by simp [oneFit, h]⟩⟩
  cases hk : toKernel cfg k with
  | error e => simp [oneFit, hk] at h
  | ok s =>
    simp only [oneFit, hk, Except.ok.injEq] at h
    rw [← h, id, erase_ones]

/-- The default start kernels and rules; optimising leaves every value at one. -/
example : FitsKernel .default id (oneFit .default) ∧ (∀ n k s, toKernel .default k = .ok s → ∃ d, oneFit .default n k = .ok d) ∧
    startDefault .default [.WN, .C, .LIN, .PER] ++ startExtra .default ∈ startGroups .default [.WN, .C, .LIN, .PER] ∧
    (⟨[.WN, .C, .LIN, .PER], [.WN, .LIN, .PER]⟩ : Orders).OK .default :=
  ⟨(oneFit_fits _).1, (oneFit_fits _).2, by simp [startGroups], by decide, by decide⟩

section
variable [LinearOrder α] [Mul α] [One α] [Add α]

theorem tested_stable {cfg : Cfg} {o : Orders} {rules : List RuleName} {le : R → R → Bool} {score : D → R} {fit : Nat → KE → Except ε D}
    (ho : o.OK cfg) {bs : List Base} (hbs : bs.Perm [.WN, .C, .LIN, .PER]) {ps : List Pseudo} (hp : ps ∈ startGroups cfg bs)
    {starts : List KE} (hst : makeSimpleKexs cfg ps = some starts) {v : Bool} {n : Nat} {beam : BeamArg} {s : St KE D R}
    (h : explore (keEnv cfg o rules le score fit) v starts n beam = .ok s) {m : Mod KE D R} (hm : m ∈ s.sorted) :
    fit m.uid m.kex = .ok m.data ∧ m.kex.isBase = false ∧ wf m.kex = true ∧ noEmpty m.kex = true ∧ (∀ x ∈ bases m.kex, x.isSigmoid = false) ∧
      (alternating m.kex = true → keq (simplify cfg m.kex) m.kex = true) := by
  obtain ⟨h1, _, h2⟩ := C27_all_models _ _ _ _ _ _ h
  obtain ⟨starts', h3, h4⟩ := C25_builtin cfg bs hbs ps hp rules
  obtain rfl : starts' = starts := by rw [h3] at hst; exact Option.some.inj hst
  obtain ⟨h5, h6, h7, h8⟩ := h4 _ (C34_reachable cfg o ho rules le score fit v _ n beam s h m (h1.subset hm))
  obtain ⟨g1, _, g3, g4⟩ := settled_iff.1 h6
  refine ⟨(h2 m hm).1, h7, g1, h5, h8, fun ha => ?_⟩
  rw [simplify_of_normal (normal_iff.2 ⟨g1, g3, g4, ha⟩)]
  exact keq_refl _

/-- C88 (partial: the first two conditions on the expression cannot go, and the third only in part, see the theorems below and `C75_windows_partial`). Every model a search from built-in start
kernels returns, whatever values its parameters were given, is interpreted if in its expression no sum is directly in a sum and no product in a product, every
sum and product has base terms of its own, no component is bounded by a window and something else, and windows have positive widths: one sentence per component,
and the components add up to the kernel. -/
theorem C88_interpret_partial {S : Type} [CommRing S] (φ : α → S) (shape : Base → Sops.PD α → S) (comb : α → α → α) (fmt : α → String)
    (ho : o.OK cfg) (bs : List Base) (hbs : bs.Perm [.WN, .C, .LIN, .PER]) (ps : List Pseudo)
    (hp : ps ∈ startGroups cfg bs) (starts : List KE) (hst : makeSimpleKexs cfg ps = some starts) (ker : D → GK α) (hfit : FitsKernel cfg ker fit)
    (v : Bool) (n : Nat) (beam : BeamArg) (s : St KE D R) (h : explore (keEnv cfg o rules le score fit) v starts n beam = .ok s)
    (m : Mod KE D R) (hm : m ∈ s.sorted) (ha : alternating m.kex = true) (hown : allNodes ownNode m.kex = true) (hc : aloneWindows m.kex = true)
    (hpos : WindowsPos (ker m.data)) :
    ∃ f ss, fitParams cfg (ker m.data) m.kex = .ok f ∧ Carries f (ker m.data) ∧
      List.Forall₂ (fun c t => Relates cfg c t) (comps f) ss ∧ ((comps f).map (Comp.val φ shape)).sum = gval φ shape (ker m.data) ∧
      interpret comb fmt cfg (ker m.data) m.kex = .ok ("The fit kernel consists of " ++ toString (comps f).length ++ " components:" ++
        String.join (ss.map (fun t => "\n\t" ++ t.text fmt))) := by
  obtain ⟨h1, h2, h3, h4, h5, h6⟩ := tested_stable ho hbs hp hst h hm
  obtain ⟨t, ht, hall⟩ := C75_interpret_partial φ shape comb fmt cfg m.kex h2 h3 h4 h5 (h6 ha) hown hc
  have := hfit _ _ _ h1
  rw [this] at ht
  exact hall _ (Except.ok.inj ht) hpos

/-- C88 without windows (partial as above): nothing need be known of the values. -/
theorem C88_points_partial {S : Type} [CommRing S] (φ : α → S) (shape : Base → Sops.PD α → S) (comb : α → α → α) (fmt : α → String)
    (ho : o.OK cfg) (bs : List Base) (hbs : bs.Perm [.WN, .C, .LIN, .PER]) (ps : List Pseudo)
    (hp : ps ∈ startGroups cfg bs) (starts : List KE) (hst : makeSimpleKexs cfg ps = some starts) (ker : D → GK α) (hfit : FitsKernel cfg ker fit)
    (v : Bool) (n : Nat) (beam : BeamArg) (s : St KE D R) (h : explore (keEnv cfg o rules le score fit) v starts n beam = .ok s)
    (m : Mod KE D R) (hm : m ∈ s.sorted) (ha : alternating m.kex = true) (hown : allNodes ownNode m.kex = true) (hc : CC.CW ∉ changes m.kex) :
    ∃ f ss, fitParams cfg (ker m.data) m.kex = .ok f ∧ Carries f (ker m.data) ∧
      List.Forall₂ (fun c t => Relates cfg c t) (comps f) ss ∧ ((comps f).map (Comp.val φ shape)).sum = gval φ shape (ker m.data) ∧
      interpret comb fmt cfg (ker m.data) m.kex = .ok ("The fit kernel consists of " ++ toString (comps f).length ++ " components:" ++
        String.join (ss.map (fun t => "\n\t" ++ t.text fmt))) := by
  obtain ⟨h1, h2, h3, h4, h5, h6⟩ := tested_stable ho hbs hp hst h hm
  obtain ⟨t, ht, hall⟩ := C75_points_partial φ shape comb fmt cfg m.kex h2 h3 h4 h5 (h6 ha) hown hc
  have := hfit _ _ _ h1
  rw [this] at ht
  exact hall _ (Except.ok.inj ht)

/-- Two rounds of the default search. -/
example : ∃ starts s, makeSimpleKexs .default (startDefault .default [.WN, .C, .LIN, .PER]) = some starts ∧
    explore (keEnv .default ⟨[.WN, .C, .LIN, .PER], [.WN, .LIN, .PER]⟩ rulesDefault (fun a b => decide (a ≤ b)) (fun _ => 0) (oneFit .default)) false
      starts ((2 : Nat) : Int) (.list [9, 20]) = .ok s ∧
    ∃ m ∈ s.sorted, alternating m.kex = true ∧ allNodes ownNode m.kex = true ∧ CC.CW ∉ changes m.kex := by
  have hp : startDefault .default [.WN, .C, .LIN, .PER] ∈ startGroups .default [.WN, .C, .LIN, .PER] := by simp [startGroups, startExtra, Cfg.default]
  obtain ⟨starts, s, h1, h2⟩ := C88_succeeds .default ⟨[.WN, .C, .LIN, .PER], [.WN, .LIN, .PER]⟩ rulesDefault (fun a b => decide (a ≤ b)) (fun _ => 0)
    (oneFit .default) ⟨by decide, by decide⟩ _ (List.Perm.refl _) _ hp (oneFit_fits _).2 2 (.list [9, 20]) (by simp) (by simp)
  refine ⟨starts, s, h1, h2, ?_⟩
  have hk : change .CP (base .LIN) (base .LIN) ∈ starts := by
    have : (makeSimpleKexs .default (startDefault .default [.WN, .C, .LIN, .PER])).map (fun l => l[7]?) =
      some (some (change .CP (base .LIN) (base .LIN))) := by rfl
    rw [h1] at this
    exact List.mem_of_getElem? (Option.some.inj this)
  obtain ⟨m, hm, e⟩ := start_tested h2 hk
  refine ⟨m, (C27_all_models _ _ _ _ _ _ h2).1.symm.subset hm, ?_⟩
  rw [e]
  decide

/-- The same with a window. -/
example : ∃ starts s, makeSimpleKexs .default (startDefault .default [.WN, .C, .LIN, .PER]) = some starts ∧
    explore (keEnv .default ⟨[.WN, .C, .LIN, .PER], [.WN, .LIN, .PER]⟩ rulesDefault (fun a b => decide (a ≤ b)) (fun _ => 0) (oneFit .default)) false
      starts ((2 : Nat) : Int) (.list [9, 20]) = .ok s ∧
    ∃ m ∈ s.sorted, alternating m.kex = true ∧ allNodes ownNode m.kex = true ∧ aloneWindows m.kex = true ∧ CC.CW ∈ changes m.kex := by
  have hp : startDefault .default [.WN, .C, .LIN, .PER] ∈ startGroups .default [.WN, .C, .LIN, .PER] := by simp [startGroups, startExtra, Cfg.default]
  obtain ⟨starts, s, h1, h2⟩ := C88_succeeds .default ⟨[.WN, .C, .LIN, .PER], [.WN, .LIN, .PER]⟩ rulesDefault (fun a b => decide (a ≤ b)) (fun _ => 0)
    (oneFit .default) ⟨by decide, by decide⟩ _ (List.Perm.refl _) _ hp (oneFit_fits _).2 2 (.list [9, 20]) (by simp) (by simp)
  refine ⟨starts, s, h1, h2, ?_⟩
  have hk : change .CW (base .LIN) (base .LIN) ∈ starts := by
    have : (makeSimpleKexs .default (startDefault .default [.WN, .C, .LIN, .PER])).map (fun l => l[8]?) =
      some (some (change .CW (base .LIN) (base .LIN))) := by rfl
    rw [h1] at this
    exact List.mem_of_getElem? (Option.some.inj this)
  obtain ⟨m, hm, e⟩ := start_tested h2 hk
  refine ⟨m, (C27_all_models _ _ _ _ _ _ h2).1.symm.subset hm, ?_⟩
  rw [e]
  decide

/-- C88. A model whose expression has a sum or product without base terms of its own cannot be interpreted. -/
theorem C88_raises (comb : α → α → α) (fmt : α → String) (ho : o.OK cfg) (bs : List Base) (hbs : bs.Perm [.WN, .C, .LIN, .PER]) (ps : List Pseudo)
    (hp : ps ∈ startGroups cfg bs) (starts : List KE) (hst : makeSimpleKexs cfg ps = some starts) (ker : D → GK α) (hfit : FitsKernel cfg ker fit)
    (v : Bool) (n : Nat) (beam : BeamArg) (s : St KE D R) (h : explore (keEnv cfg o rules le score fit) v starts n beam = .ok s)
    (m : Mod KE D R) (hm : m ∈ s.sorted) (ha : alternating m.kex = true) (hown : allNodes ownNode m.kex = false) :
    interpret comb fmt cfg (ker m.data) m.kex = .error (.form .assertion) := by
  obtain ⟨h1, h2, h3, h4, h5, h6⟩ := tested_stable ho hbs hp hst h hm
  obtain ⟨t, ht, hall⟩ := C75_raises comb fmt cfg m.kex h2 h3 h4 h5 (h6 ha) hown
  have := hfit _ _ _ h1
  rw [this] at ht
  exact hall _ (Except.ok.inj ht)

theorem alt_same (a b : KE) (_ : wf a = true) (_ : wf b = true) (h : Same a b) (hn : altNode a = true) : altNode b = true := by
  cases h with
  | base => rfl
  | change => exact hn
  | @comm o c c' cs ds cs' hc hf hp =>
    simp only [altNode, List.all_eq_true, Bool.not_eq_true'] at hn ⊢
    intro y hy
    obtain ⟨x, hx, hs⟩ := forall2_mem hf (hp.symm.subset hy)
    have := hn x hx
    cases hs <;> simpa [isComm] using this

theorem own_same (a b : KE) (ha : wf a = true) (hb : wf b = true) (h : Same a b) (hn : ownNode a = true) : ownNode b = true := by
  cases h with
  | base => rfl
  | change => exact hn
  | @comm o c c' cs ds cs' hc hf hp =>
    have wa := wf_comm.1 ha
    have wb := wf_comm.1 hb
    have hl := (Counter.elements_perm wa.1 wb.1 hc).length_eq
    simp only [ownNode, Bool.not_eq_true', List.isEmpty_eq_false_iff] at hn ⊢
    rintro rfl
    cases c with
    | nil => exact hn rfl
    | cons e r =>
      have := wa.2.1 e List.mem_cons_self
      simp [Counter.elements] at hl
      omega

theorem zero_left {E : Env KE D R ε} {starts : List KE} {beam : BeamArg} {t : St KE D R} (ht : explore E false starts ((0 : Nat) : Int) beam = .ok t) :
    t.notExpanded.length ≤ starts.length := by
  have h1 := (C28_partition _ _ _ _ _ _ ht).1.length_eq
  obtain ⟨u, hu, hp⟩ := C27_starts _ _ _ _ _ _ ht
  have h2 := explore_rounds ht
  have h3 : t.tested = [u] := by
    match hs : t.tested with
    | [] => rw [hs] at h2; simp at h2
    | [x] => rw [hs] at hu; simp at hu; rw [hu]
    | _ :: _ :: _ => rw [hs] at h2; simp at h2
  have h4 := hp.length_eq
  rw [h3] at h1
  simp only [List.length_append, List.flatten_cons, List.flatten_nil, List.append_nil, List.length_map] at h1 h4
  omega

/-- C88 is false of the default search: with the default start kernels and rules, one round that expands all of the start kernels always returns a model that
cannot be interpreted, `(PER + C) * (WN + C)`, whatever the data and the fits. -/
theorem C88_default_raises (comb : α → α → α) (fmt : α → String) (o : Orders) (ho : o.OK .default) (ker : D → GK α) (hfit : FitsKernel .default ker fit)
    (starts : List KE) (hst : makeSimpleKexs .default (startDefault .default [.WN, .C, .LIN, .PER]) = some starts) (b : Int) (hb : 9 ≤ b)
    (s : St KE D R) (h : explore (keEnv .default o rulesDefault le score fit) false starts ((1 : Nat) : Int) (.int b) = .ok s) :
    ∃ m ∈ s.sorted, interpret comb fmt .default (ker m.data) m.kex = .error (.form .assertion) := by
  have hp : startDefault .default [.WN, .C, .LIN, .PER] ∈ startGroups .default [.WN, .C, .LIN, .PER] := by simp [startGroups, startExtra, Cfg.default]
  have hlen : starts.length = 9 := by
    have h : (makeSimpleKexs .default (startDefault .default [.WN, .C, .LIN, .PER])).map List.length = some 9 := by decide
    rw [hst] at h; simpa using h
  have hexp : ∀ k ∈ starts, IsExpr k := by
    obtain ⟨ks, h1, _, h2, _⟩ := C65_builtin .default [.WN, .C, .LIN, .PER] (List.Perm.refl _) _ hp
    rw [hst] at h1
    cases Option.some.inj h1
    exact fun k hk => ⟨(settled_iff.1 (h2 k hk).2.1).1, (h2 k hk).2.2.1⟩
  obtain ⟨_, hall⟩ := C89_exhaustive .default o rulesDefault le score fit ho false starts hexp 1 (.int b) s h (by
    rintro i hi t ht c hc
    obtain rfl : i = 0 := by omega
    simp only [beamAt, Option.mem_def, Option.some.injEq] at hc
    have := zero_left ht
    omega)
  have hr : ReachIn .default starts rulesDefault 1
      (comm .prod [] [comm .sum [(.PER, 1), (.C, 1)] [], comm .sum [(.WN, 1), (.C, 1)] []]) := by
    refine .step (k := comm .sum [(.PER, 1), (.C, 1)] []) (o := ⟨[.WN, .C, .LIN, .PER], [.WN, .LIN, .PER]⟩) ⟨by decide, by decide⟩ (.start ?_)
      (List.mem_of_getElem? (i := 18) (by rfl))
    have : (makeSimpleKexs .default (startDefault .default [.WN, .C, .LIN, .PER])).map (fun l => l[6]?) =
      some (some (comm .sum [(.PER, 1), (.C, 1)] [])) := by rfl
    rw [hst] at this
    exact List.mem_of_getElem? (Option.some.inj this)
  obtain ⟨m, hm, e⟩ := hall _ hr
  have hm' : m ∈ s.sorted := (C27_all_models _ _ _ _ _ _ h).1.symm.subset hm
  have hsame := (keq_iff _ _).1 e
  obtain ⟨_, _, hw, _⟩ := tested_stable ho (List.Perm.refl _) hp hst h hm'
  refine ⟨m, hm', C88_raises .default o rulesDefault le score fit comb fmt ho _ (List.Perm.refl _) _ hp starts hst ker hfit false 1 (.int b) s h m hm' ?_ ?_⟩
  · exact allNodes_same alt_same _ _ (by decide) hw hsame (by decide)
  · by_contra hc
    have := allNodes_same own_same _ _ hw (by decide) hsame.symm (by simpa using hc)
    revert this
    decide

theorem var_only {p : PD α} (h : mapPD (fun _ => ()) p = { variance := some () }) : ∃ a, p = { variance := some a } := by
  obtain ⟨a, b, c, d, e, f, g⟩ := p
  simp only [mapPD, PD.mk.injEq, Option.map_eq_none_iff, Option.map_eq_some_iff] at h
  obtain ⟨⟨a, rfl, _⟩, rfl, rfl, rfl, rfl, rfl, rfl⟩ := h
  exact ⟨a, rfl⟩

/-- C88 is false in a worse way after three rounds: the default search can reach `WN + (WN + C)`, a sum in a sum. Its parameters are not found, which for
variances is not an error, and the text says variance one for two of the three components, whatever values were fitted. -/
theorem C88_wrong_variances (comb : α → α → α) (fmt : α → String) :
    ∃ starts, makeSimpleKexs .default (startDefault .default [.WN, .C, .LIN, .PER]) = some starts ∧
    ∃ k, ReachIn .default starts rulesDefault 3 k ∧ ∀ g : GK α, toKernel .default k = .ok (erase g) →
      ∃ a b c, g = .comb .sum [.base .WN { variance := some a }, .base .C { variance := some b }, .base .WN { variance := some c }] ∧
        interpret comb fmt .default g k = .ok ("The fit kernel consists of " ++ toString 3 ++ " components:" ++
          String.join (List.map (fun s => "\n\t" ++ Sentence.text fmt s)
            [⟨.noise, [], false, 1 * a⟩, ⟨.constant, [], false, 1⟩, ⟨.noise, [], false, 1⟩])) := by
  refine ⟨_, rfl, comm .sum [(.WN, 1)] [comm .sum [(.WN, 1), (.C, 1)] []], ?_, fun g hg => ?_⟩
  · refine .step (k := comm .sum [(.WN, 1)] [comm .prod [(.WN, 1)] [comm .sum [(.WN, 1), (.C, 1)] []]])
      (o := ⟨[.WN, .C, .LIN, .PER], [.WN, .LIN, .PER]⟩) ⟨by decide, by decide⟩ ?_ (List.mem_of_getElem? (i := 26) (by rfl))
    refine .step (k := comm .prod [(.WN, 1)] [comm .sum [(.WN, 1), (.C, 1)] []])
      (o := ⟨[.WN, .C, .LIN, .PER], [.WN, .LIN, .PER]⟩) ⟨by decide, by decide⟩ ?_ (List.mem_of_getElem? (i := 0) (by rfl))
    refine .step (k := comm .sum [(.WN, 1)] [])
      (o := ⟨[.WN, .C, .LIN, .PER], [.WN, .LIN, .PER]⟩) ⟨by decide, by decide⟩ (.start ?_) (List.mem_of_getElem? (i := 12) (by rfl))
    exact List.mem_of_getElem? (i := 0) (by rfl)
  · have hk : toKernel .default (comm .sum [(.WN, 1)] [comm .sum [(.WN, 1), (.C, 1)] []]) =
        .ok (.comb .sum [.base .WN { variance := some () }, .base .C { variance := some () }, .base .WN { variance := some () }]) := by rfl
    rw [hk] at hg
    obtain ⟨parts, rfl, hp⟩ := erase_comb (Except.ok.inj hg).symm
    obtain ⟨x, y, z, rfl⟩ : ∃ x y z, parts = [x, y, z] := by
      have := congrArg List.length hp
      match parts, this with
      | [x, y, z], _ => exact ⟨x, y, z, rfl⟩
    · simp only [List.map_cons, List.map_nil, List.cons.injEq, and_true] at hp
      obtain ⟨h1, h2, h3⟩ := hp
      obtain ⟨p, rfl, hp⟩ := erase_base h1
      obtain ⟨a, rfl⟩ := var_only hp
      obtain ⟨p, rfl, hp⟩ := erase_base h2
      obtain ⟨b, rfl⟩ := var_only hp
      obtain ⟨p, rfl, hp⟩ := erase_base h3
      obtain ⟨c, rfl⟩ := var_only hp
      refine ⟨a, b, c, rfl, ?_⟩
      rfl

/-- C88 is false of the smallest group of rules as well: it reaches `LIN + (PER + C)` in three rounds, and interpreting a model of it raises `KeyError`. -/
theorem C88_minimal_keyerror (comb : α → α → α) (fmt : α → String) :
    ∃ starts, makeSimpleKexs .default (startDefault .default [.WN, .C, .LIN, .PER]) = some starts ∧
    ∃ k, ReachIn .default starts rulesMinimal 3 k ∧ ∀ g : GK α, toKernel .default k = .ok (erase g) →
      interpret comb fmt .default g k = .error (.matching .key) := by
  refine ⟨_, rfl, comm .sum [(.LIN, 1)] [comm .sum [(.PER, 1), (.C, 1)] []], ?_, fun g hg => ?_⟩
  · refine .step (k := comm .sum [(.LIN, 1)] [comm .prod [(.WN, 1)] [comm .sum [(.PER, 1), (.C, 1)] []]])
      (o := ⟨[.WN, .C, .LIN, .PER], [.WN, .LIN, .PER]⟩) ⟨by decide, by decide⟩ ?_ (List.mem_of_getElem? (i := 19) (by rfl))
    refine .step (k := comm .prod [(.WN, 1)] [comm .sum [(.PER, 1), (.C, 1)] []])
      (o := ⟨[.WN, .C, .LIN, .PER], [.WN, .LIN, .PER]⟩) ⟨by decide, by decide⟩ ?_ (List.mem_of_getElem? (i := 4) (by rfl))
    refine .step (k := comm .sum [(.PER, 1), (.C, 1)] [])
      (o := ⟨[.WN, .C, .LIN, .PER], [.WN, .LIN, .PER]⟩) ⟨by decide, by decide⟩ (.start ?_) (List.mem_of_getElem? (i := 4) (by rfl))
    exact List.mem_of_getElem? (i := 6) (by rfl)
  · have hk : toKernel .default (comm .sum [(.LIN, 1)] [comm .sum [(.PER, 1), (.C, 1)] []]) =
        .ok (.comb .sum [.base .LIN { variance := some (), offset := some () },
          .base .PER { variance := some (), lengthscale := some (), period := some () }, .base .C { variance := some () }]) := by rfl
    rw [hk] at hg
    obtain ⟨parts, rfl, hp⟩ := erase_comb (Except.ok.inj hg).symm
    obtain ⟨x, y, z, rfl⟩ : ∃ x y z, parts = [x, y, z] := by
      have := congrArg List.length hp
      match parts, this with
      | [x, y, z], _ => exact ⟨x, y, z, rfl⟩
    simp only [List.map_cons, List.map_nil, List.cons.injEq, and_true] at hp
    obtain ⟨h1, h2, h3⟩ := hp
    obtain ⟨p, rfl, hp⟩ := erase_base h1
    obtain ⟨q, rfl, hq⟩ := erase_base h2
    obtain ⟨r, rfl, hr⟩ := erase_base h3
    obtain ⟨c, rfl⟩ := var_only hr
    obtain ⟨p1, p2, p3, p4, p5, p6, p7⟩ := p
    obtain ⟨q1, q2, q3, q4, q5, q6, q7⟩ := q
    simp only [mapPD, PD.mk.injEq, Option.map_eq_none_iff, Option.map_eq_some_iff] at hp hq
    obtain ⟨⟨a, rfl, _⟩, rfl, rfl, ⟨a', rfl, _⟩, rfl, rfl, rfl⟩ := hp
    obtain ⟨⟨b, rfl, _⟩, ⟨b', rfl, _⟩, ⟨b'', rfl, _⟩, rfl, rfl, rfl, rfl⟩ := hq
    rfl

end

end GPyABCD
