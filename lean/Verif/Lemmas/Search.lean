import Verif.Spec.Search
import Verif.Lemmas.Util
import Mathlib.Data.List.Nodup
import Mathlib.Data.List.Perm.Basic

/-!
# Lemmas about the model search
-/

namespace GPyABCD
namespace Search
open Util

variable {K D R ε : Type}

theorem flatten_eq {α : Type} (l : List (List α)) : Util.flatten l = l.flatten := by simp [Util.flatten, List.flatMap]

theorem flatten_snoc {α : Type} (l : List (List α)) (x : List α) : Util.flatten (l ++ [x]) = Util.flatten l ++ x := by
  simp [flatten_eq]

theorem slice_prefix {α : Type} (xs : List α) (b : Int) : ∃ n, slice xs b = xs.take n := by
  unfold slice; split <;> exact ⟨_, rfl⟩

theorem fitAll_ok {E : Env K D R ε} : ∀ {ks : List K} {n : Nat} {ms : List (Mod K D R)}, fitAll E n ks = .ok ms →
    ms.map (·.kex) = ks ∧ ms.map (·.uid) = List.range' n ks.length ∧
      ∀ m ∈ ms, E.fit m.uid m.kex = .ok m.data ∧ m.cached = E.score m.data := by
  intro ks
  induction ks with
  | nil => intro n ms h; simp only [fitAll, Except.ok.injEq] at h; subst h; simp
  | cons k ks ih =>
    intro n ms h
    simp only [fitAll] at h
    split at h
    · simp at h
    · rename_i d hd
      split at h
      · simp at h
      · rename_i ms' hms
        simp only [Except.ok.injEq] at h; subst h
        obtain ⟨h1, h2, h3⟩ := ih hms
        refine ⟨by simp [h1], by simp [h2, List.range'_succ], ?_⟩
        intro m hm
        rcases List.mem_cons.1 hm with rfl | hm
        · exact ⟨hd, rfl⟩
        · exact h3 m hm

theorem sortMods_perm (E : Env K D R ε) (ms : List (Mod K D R)) : (sortMods E ms).Perm ms :=
  List.perm_insertionSort _ _

theorem TotalLe.refl {le : R → R → Bool} (h : TotalLe le) (a : R) : le a a = true := by simpa using h.total a a

theorem sortMods_sorted {E : Env K D R ε} (h : TotalLe E.le) (ms : List (Mod K D R)) :
    (sortMods E ms).Pairwise (fun a b => E.le a.cached b.cached = true) :=
  have : Std.Total (fun a b : Mod K D R => E.le a.cached b.cached = true) := ⟨fun a b => by simpa using h.total a.cached b.cached⟩
  have : IsTrans (Mod K D R) (fun a b => E.le a.cached b.cached = true) := ⟨fun a b c => h.trans a.cached b.cached c.cached⟩
  List.pairwise_insertionSort _ ms

/-- Removing models by identity. -/
theorem diff_ids {xs ys : List (Mod K D R)} (hx : (xs.map (·.uid)).Nodup) (hy : ys.Nodup) (hs : ys ⊆ xs) :
    (ys ++ diff sameMod xs ys).Perm xs ∧ (diff sameMod xs ys).Sublist xs := by
  obtain ⟨p, q, zs, e, hf, hp, hsub, hq⟩ := diff_spec sameMod xs ys
  have inj : ∀ a ∈ xs, ∀ b ∈ xs, a.uid = b.uid → a = b := fun a ha b hb h => List.inj_on_of_nodup_map hx ha hb h
  have hpz : p = zs := by
    have : ∀ (p zs : List (Mod K D R)), List.Forall₂ (fun a b => sameMod a b = true) p zs → p ⊆ xs → zs ⊆ xs → p = zs := by
      intro p zs h
      induction h with
      | nil => intros; rfl
      | @cons a b l₁ l₂ h _ ih =>
        intro h1 h2
        have e1 : a = b := inj a (h1 (by simp)) b (h2 (by simp)) (by simpa [sameMod] using h)
        have e2 : l₁ = l₂ := ih (fun x hx => h1 (by simp [hx])) (fun x hx => h2 (by simp [hx]))
        rw [e1, e2]
    refine this p zs hf (fun x hx => hs (by rw [e]; simp [hx])) (fun x hx => hp.symm.subset (by simp [hx]))
  subst hpz
  have hq0 : q = [] := by
    rcases hq with h | ⟨y, q', rfl, hno⟩
    · exact h
    · exfalso
      have hyx : y ∈ xs := hs (by rw [e]; simp)
      rcases List.mem_append.1 (hp.subset hyx) with h | h
      · rw [e] at hy
        exact (List.nodup_append.1 hy).2.2 y h y (by simp) rfl
      · have := hno y h
        simp [sameMod] at this
  subst hq0
  rw [List.append_nil] at e; subst e
  exact ⟨hp.symm, hsub⟩

/-- The invariant of the search. -/
structure Inv (E : Env K D R ε) (s : St K D R) : Prop where
  sorted : s.sorted = sortMods E (Util.flatten s.tested)
  uids : ((Util.flatten s.tested).map (·.uid)).Perm (List.range s.next)
  part : (s.expanded ++ s.notExpanded).Perm s.sorted
  sub : s.notExpanded.Sublist s.sorted
  kexs : s.ktested.Perm ((Util.flatten s.tested).map (·.kex))
  fits : ∀ m ∈ Util.flatten s.tested, E.fit m.uid m.kex = .ok m.data ∧ m.cached = E.score m.data
  rounds : ∀ t ∈ s.tested, ∃ ms, t = sortMods E ms

theorem Inv.perm {E : Env K D R ε} {s : St K D R} (h : Inv E s) : s.sorted.Perm (Util.flatten s.tested) := by
  rw [h.sorted]; exact sortMods_perm _ _

theorem Inv.nodup {E : Env K D R ε} {s : St K D R} (h : Inv E s) : ((Util.flatten s.tested).map (·.uid)).Nodup :=
  h.uids.symm.nodup (List.nodup_range (n := s.next))

theorem Inv.nodup_sorted {E : Env K D R ε} {s : St K D R} (h : Inv E s) : (s.sorted.map (·.uid)).Nodup :=
  (h.perm.map _).symm.nodup h.nodup

theorem Inv.nodup_part {E : Env K D R ε} {s : St K D R} (h : Inv E s) : (s.expanded ++ s.notExpanded).Nodup :=
  h.part.symm.nodup h.nodup_sorted.of_map

theorem inv_start {E : Env K D R ε} {starts : List K} {s : St K D R} (h : startSt E starts = .ok s) : Inv E s := by
  simp only [startSt] at h
  split at h
  · simp at h
  · rename_i ms hms
    simp only [Except.ok.injEq] at h; subst h
    obtain ⟨h1, h2, h3⟩ := fitAll_ok hms
    have hp := sortMods_perm E ms
    have e : Util.flatten [sortMods E ms] = sortMods E ms := by simp [flatten_eq]
    refine ⟨rfl, ?_, List.Perm.refl _, List.Sublist.refl _, ?_, ?_, ?_⟩
    · simp only [e]
      refine (hp.map _).trans ?_
      rw [h2, ← List.range_eq_range']
    · simp only [e]
      refine List.Perm.trans ?_ (hp.map _).symm
      rw [h1]
    · intro m hm
      simp only [e] at hm
      exact h3 m (hp.subset hm)
    · intro t ht; simp only [List.mem_singleton] at ht; exact ⟨ms, ht⟩

theorem roundStep_ok {E : Env K D R ε} {b : Int} {s s' : St K D R} (h : roundStep E b s = .ok s') :
    ∃ ms, fitAll E s.next (newKexs E b s) = .ok ms ∧ s'.tested = s.tested ++ [sortMods E ms] ∧
      s'.sorted = sortMods E (Util.flatten s'.tested) ∧ s'.expanded = s.expanded ++ slice s.notExpanded b ∧
      s'.notExpanded = diff sameMod s'.sorted s'.expanded ∧ s'.ktested = s.ktested ++ newKexs E b s ∧
      s'.next = s.next + (newKexs E b s).length := by
  simp only [roundStep] at h
  split at h
  · simp at h
  · rename_i ms hms
    simp only [Except.ok.injEq] at h; subst h
    exact ⟨ms, hms, rfl, rfl, rfl, rfl, rfl, rfl⟩

theorem inv_round {E : Env K D R ε} {b : Int} {s s' : St K D R} (hi : Inv E s) (h : roundStep E b s = .ok s') : Inv E s' := by
  obtain ⟨ms, hms, ht, hs, he, hn, hk, hx⟩ := roundStep_ok h
  obtain ⟨h1, h2, h3⟩ := fitAll_ok hms
  have hp := sortMods_perm E ms
  have hfl : Util.flatten s'.tested = Util.flatten s.tested ++ sortMods E ms := by rw [ht, flatten_snoc]
  have huid : ((Util.flatten s'.tested).map (·.uid)).Perm (List.range s'.next) := by
    rw [hfl, List.map_append, hx, List.range_add]
    refine hi.uids.append ((hp.map _).trans ?_)
    rw [h2, List.range'_eq_map_range]
  have hperm : s'.sorted.Perm (Util.flatten s'.tested) := by rw [hs]; exact sortMods_perm _ _
  have hnod : (s'.sorted.map (·.uid)).Nodup := (hperm.map _).symm.nodup (huid.symm.nodup List.nodup_range)
  have hmem : s'.expanded ⊆ s'.sorted := by
    rw [he]
    intro m hm
    refine hperm.symm.subset ?_
    rw [hfl]
    refine List.mem_append_left _ (hi.perm.subset ?_)
    rcases List.mem_append.1 hm with hm | hm
    · exact hi.part.subset (List.mem_append_left _ hm)
    · obtain ⟨n, e⟩ := slice_prefix s.notExpanded b
      rw [e] at hm
      exact hi.part.subset (List.mem_append_right _ (List.mem_of_mem_take hm))
  have hexp : s'.expanded.Nodup := by
    rw [he]
    obtain ⟨n, e⟩ := slice_prefix s.notExpanded b
    rw [e]
    exact (hi.nodup_part).sublist (List.Sublist.append (List.Sublist.refl _) (List.take_sublist _ _))
  obtain ⟨g1, g2⟩ := diff_ids hnod hexp hmem
  refine ⟨hs, huid, by rw [hn]; exact g1, by rw [hn]; exact g2, ?_, ?_, ?_⟩
  · rw [hk, hfl, List.map_append]
    exact hi.kexs.append (by rw [← h1]; exact (hp.map _).symm)
  · intro m hm
    rw [hfl] at hm
    rcases List.mem_append.1 hm with hm | hm
    · exact hi.fits m hm
    · exact h3 m (hp.subset hm)
  · intro t hm
    rw [ht] at hm
    rcases List.mem_append.1 hm with hm | hm
    · exact hi.rounds t hm
    · simp only [List.mem_singleton] at hm; exact ⟨ms, hm⟩

/-- The loop without printing. -/
theorem roundsGo_quiet {E : Env K D R ε} {v : Bool} {b0 : Int} : ∀ {bs : List Int} {r : Nat} {s s' : St K D R},
    roundsGo E v b0 r bs s = .ok s' → roundsGo E false b0 r bs s = .ok s' := by
  intro bs
  induction bs with
  | nil => intro r s s' h; exact h
  | cons b bs ih =>
    intro r s s' h
    simp only [roundsGo] at h ⊢
    cases hr : roundStep E b s with
    | error e => rw [hr] at h; simp at h
    | ok t =>
      rw [hr] at h
      simp only at h ⊢
      split at h
      · simp at h
      · exact ih h

theorem roundsGo_irrel {E : Env K D R ε} {b0 b0' : Int} : ∀ {bs : List Int} {r r' : Nat} {s : St K D R},
    roundsGo E false b0 r bs s = roundsGo E false b0' r' bs s := by
  intro bs
  induction bs with
  | nil => intros; rfl
  | cons b bs ih =>
    intro r r' s
    simp only [roundsGo]
    cases roundStep E b s with
    | error e => rfl
    | ok t => exact ih

theorem roundsGo_append {E : Env K D R ε} {v : Bool} {b0 : Int} : ∀ {bs cs : List Int} {r : Nat} {s : St K D R},
    roundsGo E v b0 r (bs ++ cs) s = (roundsGo E v b0 r bs s).bind (roundsGo E v b0 (r + bs.length) cs) := by
  intro bs
  induction bs with
  | nil => intro cs r s; rfl
  | cons b bs ih =>
    intro cs r s
    simp only [List.cons_append, roundsGo]
    cases roundStep E b s with
    | error e => rfl
    | ok t =>
      simp only
      split
      · rfl
      · rw [ih]
        simp only [List.length_cons]
        congr 2
        omega

theorem roundsGo_ind {E : Env K D R ε} {v : Bool} {b0 : Int} {P : St K D R → Prop}
    (hP : ∀ b s s', P s → roundStep E b s = .ok s' → P s') : ∀ {bs : List Int} {r : Nat} {s s' : St K D R},
    P s → roundsGo E v b0 r bs s = .ok s' → P s' := by
  intro bs
  induction bs with
  | nil => intro r s s' hs h; simp only [roundsGo, Except.ok.injEq] at h; exact h ▸ hs
  | cons b bs ih =>
    intro r s s' hs h
    simp only [roundsGo] at h
    cases hr : roundStep E b s with
    | error e => rw [hr] at h; simp at h
    | ok t =>
      rw [hr] at h
      simp only at h
      split at h
      · simp at h
      · exact ih (hP b s t hs hr) h

/-- What a successful search consists of. -/
theorem explore_ok {E : Env K D R ε} {v : Bool} {starts : List K} {rounds : Int} {beam : BeamArg} {s : St K D R}
    (h : explore E v starts rounds beam = .ok s) : ∃ s0 bs, startSt E starts = .ok s0 ∧ handleBeam (ε := ε) rounds beam = .ok bs ∧
      searchRounds E v rounds bs s0 = .ok s ∧
      (v = true → printList (ε := ε) starts = .ok () ∧ printStart (ε := ε) bs s0 = .ok () ∧ printEnd (ε := ε) bs s = .ok ()) := by
  simp only [explore, bind, Except.bind, pure, Except.pure] at h
  cases v with
  | false =>
    simp only [Bool.false_eq_true, if_false] at h
    cases h1 : startSt E starts with
    | error e => rw [h1] at h; simp at h
    | ok s0 =>
      rw [h1] at h
      simp only at h
      cases h2 : handleBeam (ε := ε) rounds beam with
      | error e => rw [h2] at h; simp at h
      | ok bs =>
        rw [h2] at h
        simp only at h
        cases h3 : searchRounds E false rounds bs s0 with
        | error e => rw [h3] at h; simp at h
        | ok s1 =>
          rw [h3] at h
          simp only [Except.ok.injEq] at h
          subst h
          exact ⟨s0, bs, rfl, rfl, h3, by simp⟩
  | true =>
    simp only [if_true] at h
    cases h0 : printList (ε := ε) starts with
    | error e => rw [h0] at h; simp at h
    | ok u =>
      rw [h0] at h
      simp only at h
      cases h1 : startSt E starts with
      | error e => rw [h1] at h; simp at h
      | ok s0 =>
        rw [h1] at h
        simp only at h
        cases h2 : handleBeam (ε := ε) rounds beam with
        | error e => rw [h2] at h; simp at h
        | ok bs =>
          rw [h2] at h
          simp only at h
          cases h4 : printStart (ε := ε) bs s0 with
          | error e => rw [h4] at h; simp at h
          | ok u4 =>
            rw [h4] at h
            simp only at h
            cases h3 : searchRounds E true rounds bs s0 with
            | error e => rw [h3] at h; simp at h
            | ok s1 =>
              rw [h3] at h
              simp only at h
              cases h5 : printEnd (ε := ε) bs s1 with
              | error e => rw [h5] at h; simp at h
              | ok u5 =>
                rw [h5] at h
                simp only [Except.ok.injEq] at h
                subst h
                exact ⟨s0, bs, rfl, rfl, h3, fun _ => ⟨rfl, h4, h5⟩⟩

theorem explore_of {E : Env K D R ε} {v : Bool} {starts : List K} {rounds : Int} {beam : BeamArg} {s s0 : St K D R} {bs : List Int}
    (h1 : startSt E starts = .ok s0) (h2 : handleBeam (ε := ε) rounds beam = .ok bs) (h3 : searchRounds E v rounds bs s0 = .ok s)
    (h4 : v = true → printList (ε := ε) starts = .ok () ∧ printStart (ε := ε) bs s0 = .ok () ∧ printEnd (ε := ε) bs s = .ok ()) :
    explore E v starts rounds beam = .ok s := by
  simp only [explore, bind, Except.bind, pure, Except.pure]
  cases v with
  | false => simp only [Bool.false_eq_true, if_false, h1, h2, h3]
  | true =>
    obtain ⟨a, b, c⟩ := h4 rfl
    simp only [if_true, a, h1, h2, b, h3, c]

theorem inv_explore {E : Env K D R ε} {v : Bool} {starts : List K} {rounds : Int} {beam : BeamArg} {s : St K D R}
    (h : explore E v starts rounds beam = .ok s) : Inv E s := by
  obtain ⟨s0, bs, h1, h2, h3, _⟩ := explore_ok h
  exact roundsGo_ind (fun b s s' => inv_round) (inv_start h1) h3

/-! ## Tested expressions -/

theorem newKexs_pairwise {E : Env K D R ε} (he : IsEqv E.eqv) (b : Int) (s : St K D R) :
    (newKexs E b s).Pairwise (fun a b => E.eqv a b = false) :=
  (uniqueGo_pairwise he.symm _ _).sublist List.filter_sublist

theorem newKexs_fresh {E : Env K D R ε} {b : Int} {s : St K D R} {k : K} (h : k ∈ newKexs E b s) :
    (∃ m ∈ slice s.notExpanded b, k ∈ E.expand m.kex) ∧ ∀ t ∈ s.ktested, E.eqv k t = false := by
  obtain ⟨h1, h2⟩ := List.mem_filter.1 h
  have := (uniqueGo_sublist _ _ _).subset h1
  rw [flatten_eq] at this
  obtain ⟨l, hl, hk⟩ := List.mem_flatten.1 this
  obtain ⟨m, hm, rfl⟩ := List.mem_map.1 hl
  refine ⟨⟨m, hm, hk⟩, ?_⟩
  simpa using h2

theorem newKexs_complete {E : Env K D R ε} (he : IsEqv E.eqv) {b : Int} {s : St K D R} {m : Mod K D R} (hm : m ∈ slice s.notExpanded b)
    {k : K} (hk : k ∈ E.expand m.kex) : ∃ t ∈ s.ktested ++ newKexs E b s, E.eqv k t = true := by
  have h1 : k ∈ Util.flatten ((slice s.notExpanded b).map (fun m => E.expand m.kex)) := by
    rw [flatten_eq]; exact List.mem_flatten.2 ⟨_, List.mem_map.2 ⟨m, hm, rfl⟩, hk⟩
  rcases uniqueGo_repr he [] _ k h1 with ⟨z, hz, _⟩ | ⟨y, hy, e⟩
  · simp at hz
  · have hky : E.eqv k y = true := by simpa using List.find?_some e
    cases hb : s.ktested.any (fun t => E.eqv y t) with
    | true =>
      obtain ⟨t, ht, h2⟩ := List.any_eq_true.1 hb
      exact ⟨t, List.mem_append_left _ ht, he.trans _ _ _ hky h2⟩
    | false =>
      exact ⟨y, List.mem_append_right _ (List.mem_filter.2 ⟨hy, by simp [hb]⟩), hky⟩

/-! ## Ties -/

/-- Utility order refined by the order of fitting. -/
def Before (E : Env K D R ε) (a b : Mod K D R) : Prop :=
  E.le a.cached b.cached = true ∧ (E.le b.cached a.cached = true → a.uid < b.uid)

/-- Ties are listed in the order of fitting. -/
def TieOrd (E : Env K D R ε) (a b : Mod K D R) : Prop := E.le b.cached a.cached = true → a.uid < b.uid

theorem sortMods_before {E : Env K D R ε} (h : TotalLe E.le) {ms : List (Mod K D R)} (ht : ms.Pairwise (TieOrd E)) :
    (sortMods E ms).Pairwise (Before E) := by
  have hn : ms.Nodup := by
    refine ht.imp ?_
    rintro a b hab rfl
    exact absurd (hab (h.refl _)) (by omega)
  have hsn : (sortMods E ms).Nodup := (sortMods_perm E ms).symm.nodup hn
  have hs := sortMods_sorted h ms
  have : Std.Total (fun a b : Mod K D R => E.le a.cached b.cached = true) := ⟨fun a b => by simpa using h.total a.cached b.cached⟩
  have : IsTrans (Mod K D R) (fun a b => E.le a.cached b.cached = true) := ⟨fun a b c => h.trans a.cached b.cached c.cached⟩
  rw [List.pairwise_iff_forall_sublist] at hs ⊢
  intro a b hab
  refine ⟨hs hab, fun hba => ?_⟩
  have ha : a ∈ ms := (sortMods_perm E ms).subset (hab.subset (by simp))
  have hb : b ∈ ms := (sortMods_perm E ms).subset (hab.subset (by simp))
  have hne : a ≠ b := by
    have := hsn.sublist hab
    simpa using this
  rcases List.pairwise_iff_forall_sublist.1 ht with ht'
  have key : [a, b].Sublist ms ∨ [b, a].Sublist ms := by
    obtain ⟨l1, l2, e⟩ := List.append_of_mem ha
    rw [e] at hb ⊢
    rcases List.mem_append.1 hb with hb | hb
    · right
      exact List.Sublist.append (List.singleton_sublist.2 hb) (by simp : [a].Sublist (a :: l2))
    · left
      rcases List.mem_cons.1 hb with hb | hb
      · exact absurd hb.symm hne
      · exact (List.Sublist.cons_cons a (List.singleton_sublist.2 hb)).trans (List.sublist_append_right _ _)
  rcases key with hk | hk
  · exact ht' hk hba
  · exfalso
    have h2 : [b, a].Sublist (sortMods E ms) := List.pair_sublist_insertionSort (r := fun a b : Mod K D R => E.le a.cached b.cached = true) hba hk
    have hmem : ∀ (l : List (Mod K D R)), l.Nodup → [a, b].Sublist l → [b, a].Sublist l → False := by
      intro l
      induction l with
      | nil => intro _ h; simp at h
      | cons x l ih =>
        intro hl h1 h2
        rw [List.nodup_cons] at hl
        cases h1 with
        | cons _ h1 =>
          cases h2 with
          | cons _ h2 => exact ih hl.2 h1 h2
          | cons_cons _ h2 => exact hl.1 (h1.subset (by simp))
        | cons_cons _ h1 =>
          cases h2 with
          | cons _ h2 => exact hl.1 (h2.subset (by simp))
          | cons_cons _ h2 => exact hne rfl
    exact hmem _ hsn hab h2

theorem fitAll_tie {E : Env K D R ε} {ks : List K} {n : Nat} {ms : List (Mod K D R)} (h : fitAll E n ks = .ok ms) :
    ms.Pairwise (TieOrd E) := by
  obtain ⟨_, h2, _⟩ := fitAll_ok h
  have : (ms.map (·.uid)).Pairwise (· < ·) := by rw [h2]; exact List.pairwise_lt_range'
  exact (List.pairwise_map.1 this).imp fun {a b} h => (fun _ => h : TieOrd E a b)

theorem tie_start {E : Env K D R ε} (hl : TotalLe E.le) {starts : List K} {s : St K D R} (h : startSt E starts = .ok s) :
    (Util.flatten s.tested).Pairwise (TieOrd E) := by
  simp only [startSt] at h
  split at h
  · simp at h
  · rename_i ms hms
    simp only [Except.ok.injEq] at h; subst h
    simp only [flatten_eq, List.flatten_cons, List.flatten_nil, List.append_nil]
    exact (sortMods_before hl (fitAll_tie hms)).imp fun h => h.2

theorem tie_round {E : Env K D R ε} (hl : TotalLe E.le) {b : Int} {s s' : St K D R}
    (hi : Inv E s ∧ (Util.flatten s.tested).Pairwise (TieOrd E)) (h : roundStep E b s = .ok s') :
    Inv E s' ∧ (Util.flatten s'.tested).Pairwise (TieOrd E) := by
  refine ⟨inv_round hi.1 h, ?_⟩
  obtain ⟨ms, hms, ht, _⟩ := roundStep_ok h
  rw [ht, flatten_snoc]
  refine List.pairwise_append.2 ⟨hi.2, (sortMods_before hl (fitAll_tie hms)).imp fun h => h.2, ?_⟩
  intro a ha b hb _
  have h1 : a.uid < s.next := by
    have := hi.1.uids.subset (List.mem_map_of_mem (f := (·.uid)) ha)
    simpa using this
  have h2 : s.next ≤ b.uid := by
    obtain ⟨_, h2, _⟩ := fitAll_ok hms
    have hb' := (sortMods_perm E ms).subset hb
    have := List.mem_map_of_mem (f := (·.uid)) hb'
    rw [h2, List.mem_range'_1] at this
    exact this.1
  omega

theorem before_explore {E : Env K D R ε} (hl : TotalLe E.le) {v : Bool} {starts : List K} {rounds : Int} {beam : BeamArg} {s : St K D R}
    (h : explore E v starts rounds beam = .ok s) : s.sorted.Pairwise (Before E) := by
  obtain ⟨s0, bs, h1, h2, h3, _⟩ := explore_ok h
  have := roundsGo_ind (P := fun s => Inv E s ∧ (Util.flatten s.tested).Pairwise (TieOrd E)) (fun b s s' => tie_round hl)
    ⟨inv_start h1, tie_start hl h1⟩ h3
  rw [this.1.sorted]
  exact sortMods_before hl this.2

/-! ## Beams and rounds -/

theorem handleBeam_spec (n : Nat) (beam : BeamArg) (bs : List Int) :
    handleBeam (ε := ε) n beam = .ok bs ↔ beam ≠ .other ∧ bs.length = n ∧ ∀ r < n, bs[r]? = beamAt beam r ∧ (beamAt beam r).isSome := by
  cases beam with
  | other => simp [handleBeam]
  | int b =>
    simp only [handleBeam, Except.ok.injEq, Int.toNat_natCast, ne_eq, reduceCtorEq, not_false_eq_true, true_and, beamAt,
      Option.isSome_some, and_true]
    constructor
    · rintro rfl
      refine ⟨by simp, fun r hr => by simp [List.getElem?_replicate, hr]⟩
    · rintro ⟨h1, h2⟩
      apply List.ext_getElem?
      intro i
      rw [List.getElem?_replicate]
      split
      · rw [h2 i ‹_›]
      · rw [List.getElem?_eq_none (by omega)]
  | list cs =>
    simp only [handleBeam, ne_eq, reduceCtorEq, not_false_eq_true, true_and, beamAt]
    by_cases hc : (n : Int) - cs.length > 0
    · have hc' : cs.length < n := by omega
      rw [if_pos hc]
      cases hl : cs.getLast? with
      | none =>
        simp only [reduceCtorEq, false_iff, not_and]
        intro _ h
        have := (h cs.length hc').2
        simp at this
      | some b =>
        have e : ((n : Int) - cs.length).toNat = n - cs.length := by omega
        simp only [Except.ok.injEq, e]
        constructor
        · rintro rfl
          refine ⟨by simp; omega, fun r hr => ?_⟩
          by_cases hr' : r < cs.length
          · rw [if_pos hr', List.getElem?_append_left hr']; simp [hr']
          · rw [if_neg hr', List.getElem?_append_right (by omega), List.getElem?_replicate, if_pos (by omega)]; simp
        · rintro ⟨h1, h2⟩
          apply List.ext_getElem?
          intro i
          by_cases hi : i < n
          · rw [(h2 i hi).1]
            by_cases hr' : i < cs.length
            · rw [if_pos hr', List.getElem?_append_left hr']
            · rw [if_neg hr', List.getElem?_append_right (by omega), List.getElem?_replicate, if_pos (by omega)]
          · rw [List.getElem?_eq_none (l := bs) (by omega), List.getElem?_eq_none (by simp; omega)]
    · have hc' : n ≤ cs.length := by omega
      rw [if_neg hc]
      simp only [Except.ok.injEq, slice, Int.natCast_nonneg, if_true, Int.toNat_natCast]
      constructor
      · rintro rfl
        refine ⟨by simp; omega, fun r hr => ?_⟩
        rw [if_pos (by omega), List.getElem?_take_of_lt hr]
        simp; omega
      · rintro ⟨h1, h2⟩
        apply List.ext_getElem?
        intro i
        by_cases hi : i < n
        · rw [(h2 i hi).1, if_pos (by omega), List.getElem?_take_of_lt hi]
        · rw [List.getElem?_eq_none (l := bs) (by omega), List.getElem?_eq_none (by simp; omega)]

theorem handleBeam_succ (n : Nat) (beam : BeamArg) (bs : List Int) (h : handleBeam (ε := ε) ((n + 1 : Nat) : Int) beam = .ok bs) :
    ∃ cs b, handleBeam (ε := ε) n beam = .ok cs ∧ beamAt beam n = some b ∧ bs = cs ++ [b] := by
  obtain ⟨h0, h1, h2⟩ := (handleBeam_spec (ε := ε) (n + 1) beam bs).1 h
  obtain ⟨b, hb⟩ := Option.isSome_iff_exists.1 (h2 n (by omega)).2
  refine ⟨bs.take n, b, (handleBeam_spec (ε := ε) n beam _).2 ⟨h0, by simp; omega, fun r hr => ?_⟩, hb, ?_⟩
  · rw [List.getElem?_take_of_lt hr]; exact h2 r (by omega)
  · have h3 := (h2 n (by omega)).1
    rw [hb] at h3
    obtain ⟨hlt, h4⟩ := List.getElem?_eq_some_iff.1 h3
    rw [← h4, ← List.take_succ_eq_append_getElem hlt, List.take_of_length_le (by omega)]

theorem handleBeam_snoc (n : Nat) (beam : BeamArg) (cs : List Int) (b : Int) (h : handleBeam (ε := ε) n beam = .ok cs)
    (hb : beamAt beam n = some b) : handleBeam (ε := ε) ((n + 1 : Nat) : Int) beam = .ok (cs ++ [b]) := by
  obtain ⟨h0, h1, h2⟩ := (handleBeam_spec (ε := ε) n beam cs).1 h
  refine (handleBeam_spec (ε := ε) (n + 1) beam _).2 ⟨h0, by simp [h1], fun r hr => ?_⟩
  by_cases hr' : r < n
  · rw [List.getElem?_append_left (by omega)]; exact h2 r hr'
  · have : r = n := by omega
    subst this
    rw [List.getElem?_append_right (by omega), hb]; simp [h1]

theorem explore_quiet {E : Env K D R ε} {v : Bool} {starts : List K} {rounds : Int} {beam : BeamArg} {s : St K D R}
    (h : explore E v starts rounds beam = .ok s) : explore E false starts rounds beam = .ok s := by
  obtain ⟨s0, bs, h1, h2, h3, _⟩ := explore_ok h
  exact explore_of h1 h2 (roundsGo_quiet h3) (by simp)

/-- A search of `n + 1` rounds is one of `n` rounds and one more round. -/
theorem explore_succ {E : Env K D R ε} {starts : List K} {n : Nat} {beam : BeamArg} {s' : St K D R} :
    explore E false starts ((n + 1 : Nat) : Int) beam = .ok s' ↔
      ∃ s b, explore E false starts n beam = .ok s ∧ beamAt beam n = some b ∧ roundStep E b s = .ok s' := by
  constructor
  · intro h
    obtain ⟨s0, bs, h1, h2, h3, _⟩ := explore_ok h
    obtain ⟨cs, b, g1, g2, rfl⟩ := handleBeam_succ n beam bs h2
    obtain ⟨_, hlen, _⟩ := (handleBeam_spec (ε := ε) n beam cs).1 g1
    rw [searchRounds, Int.toNat_natCast, List.take_of_length_le (by simp [hlen]), roundsGo_append] at h3
    cases hr : roundsGo E false ((cs ++ [b]).headD 0) 1 cs s0 with
    | error e => rw [hr] at h3; simp [Except.bind] at h3
    | ok s =>
      rw [hr] at h3
      refine ⟨s, b, explore_of h1 g1 ?_ (by simp), g2, ?_⟩
      · rw [searchRounds, Int.toNat_natCast, List.take_of_length_le (by omega), roundsGo_irrel]; exact hr
      · simp only [Except.bind, roundsGo] at h3
        cases hs : roundStep E b s with
        | error e => rw [hs] at h3; simp at h3
        | ok t => rw [hs] at h3; simpa using h3
  · rintro ⟨s, b, h, hb, hr⟩
    obtain ⟨s0, cs, h1, h2, h3, _⟩ := explore_ok h
    obtain ⟨_, hlen, _⟩ := (handleBeam_spec (ε := ε) n beam cs).1 h2
    refine explore_of h1 (handleBeam_snoc n beam cs b h2 hb) ?_ (by simp)
    rw [searchRounds, Int.toNat_natCast, List.take_of_length_le (by omega)] at h3
    rw [searchRounds, Int.toNat_natCast, List.take_of_length_le (by simp [hlen]), roundsGo_append,
      roundsGo_irrel (b0' := cs.headD 0) (r' := 1), h3]
    simp [Except.bind, roundsGo, hr]

theorem explore_zero {E : Env K D R ε} {starts : List K} {beam : BeamArg} {s : St K D R} :
    explore E false starts ((0 : Nat) : Int) beam = .ok s ↔ beam ≠ .other ∧ startSt E starts = .ok s := by
  constructor
  · intro h
    obtain ⟨s0, bs, h1, h2, h3, _⟩ := explore_ok h
    obtain ⟨h0, hlen, _⟩ := (handleBeam_spec (ε := ε) 0 beam bs).1 h2
    simp only [searchRounds, Int.toNat_natCast, List.take_zero, roundsGo, Except.ok.injEq] at h3
    exact ⟨h0, h3 ▸ h1⟩
  · rintro ⟨h0, h⟩
    refine explore_of h ((handleBeam_spec (ε := ε) 0 beam []).2 ⟨h0, rfl, by simp⟩) ?_ (by simp)
    simp [searchRounds, roundsGo]

/-- Number of rounds kept. -/
theorem explore_rounds {E : Env K D R ε} {starts : List K} {beam : BeamArg} : ∀ {n : Nat} {s : St K D R},
    explore E false starts (n : Int) beam = .ok s → s.tested.length = n + 1 := by
  intro n
  induction n with
  | zero =>
    intro s h
    obtain ⟨_, h⟩ := explore_zero.1 h
    simp only [startSt] at h
    split at h
    · simp at h
    · simp only [Except.ok.injEq] at h; subst h; rfl
  | succ n ih =>
    intro s h
    obtain ⟨s0, b, h1, _, h3⟩ := explore_succ.1 h
    obtain ⟨ms, _, ht, _⟩ := roundStep_ok h3
    rw [ht, List.length_append, ih h1]; rfl

theorem fitAll_total {E : Env K D R ε} (hf : ∀ n k, ∃ d, E.fit n k = .ok d) : ∀ (ks : List K) (n : Nat), ∃ ms, fitAll E n ks = .ok ms := by
  intro ks
  induction ks with
  | nil => intro n; exact ⟨_, rfl⟩
  | cons k ks ih =>
    intro n
    obtain ⟨d, hd⟩ := hf n k
    obtain ⟨ms, hms⟩ := ih (n + 1)
    exact ⟨_, by simp only [fitAll, hd, hms]; rfl⟩

theorem explore_total {E : Env K D R ε} (hf : ∀ n k, ∃ d, E.fit n k = .ok d) (starts : List K) (beam : BeamArg) (hb : beam ≠ .other) :
    ∀ n : Nat, (∀ r < n, (beamAt beam r).isSome) → ∃ s, explore E false starts (n : Int) beam = .ok s := by
  intro n
  induction n with
  | zero =>
    intro _
    obtain ⟨ms, hms⟩ := fitAll_total hf starts 0
    exact ⟨_, explore_zero.2 ⟨hb, by simp only [startSt, hms]; rfl⟩⟩
  | succ n ih =>
    intro h
    obtain ⟨s, hs⟩ := ih (fun r hr => h r (by omega))
    obtain ⟨b, hb'⟩ := Option.isSome_iff_exists.1 (h n (by omega))
    obtain ⟨ms, hms⟩ := fitAll_total hf (newKexs E b s) s.next
    exact ⟨_, explore_succ.2 ⟨s, b, hs, hb', by simp only [roundStep, hms]; rfl⟩⟩

/-! ## Printing -/

theorem slice_ne_nil {α : Type} {xs : List α} {b : Int} (hx : xs ≠ []) (hb : 1 ≤ b) : slice xs b ≠ [] := by
  have h0 : (0 : Int) ≤ b := by omega
  simp only [slice, h0, if_true]
  intro h
  rw [List.take_eq_nil_iff] at h
  rcases h with h | h
  · omega
  · exact hx h

theorem printList_ok {α : Type} {xs : List α} (h : xs ≠ []) : printList (ε := ε) xs = .ok () := by
  cases xs with
  | nil => exact absurd rfl h
  | cons x xs => rfl

theorem roundsGo_prefix {E : Env K D R ε} {v : Bool} {b0 : Int} {bs : List Int} {r : Nat} {s s' : St K D R}
    (h : roundsGo E v b0 r bs s = .ok s') : s.tested <+: s'.tested := by
  refine roundsGo_ind (P := fun t => s.tested <+: t.tested) ?_ (List.prefix_refl _) h
  intro b t t' ht hr
  obtain ⟨ms, _, e, _⟩ := roundStep_ok hr
  rw [e]; exact ht.trans (List.prefix_append _ _)

/-- After a round with something new, something is left to expand. -/
theorem roundStep_left {E : Env K D R ε} {b : Int} {s t : St K D R} (hi : Inv E s) (h : roundStep E b s = .ok t)
    {new : List (Mod K D R)} (hn : t.tested = s.tested ++ [new]) (hne : new ≠ []) : t.sorted ≠ [] ∧ t.notExpanded ≠ [] := by
  have hi' := inv_round hi h
  obtain ⟨ms, hms, e1, e2, e3, e4, e5, e6⟩ := roundStep_ok h
  obtain ⟨m, hm⟩ := List.exists_mem_of_ne_nil new hne
  have hfl : Util.flatten t.tested = Util.flatten s.tested ++ new := by rw [hn, flatten_snoc]
  have hms' : m ∈ t.sorted := hi'.perm.symm.subset (by rw [hfl]; exact List.mem_append_right _ hm)
  refine ⟨List.ne_nil_of_mem hms', fun hnil => ?_⟩
  have hx : m ∈ t.expanded := by
    have := hi'.part.symm.subset hms'
    rwa [hnil, List.append_nil] at this
  have hold : m ∈ Util.flatten s.tested := by
    rw [e3] at hx
    refine hi.perm.subset (hi.part.subset ?_)
    rcases List.mem_append.1 hx with hx | hx
    · exact List.mem_append_left _ hx
    · obtain ⟨k, hk⟩ := slice_prefix s.notExpanded b
      rw [hk] at hx
      exact List.mem_append_right _ (List.mem_of_mem_take hx)
  have hnd := hi'.nodup
  rw [hfl, List.map_append] at hnd
  exact (List.nodup_append.1 hnd).2.2 _ (List.mem_map_of_mem hold) _ (List.mem_map_of_mem hm) rfl

theorem roundsGo_verbose {E : Env K D R ε} {b0 : Int} (hb0 : 1 ≤ b0) : ∀ {bs : List Int} {r : Nat} {s s' : St K D R},
    (∀ b ∈ bs, 1 ≤ b) → Inv E s → s.tested.length = r → roundsGo E false b0 r bs s = .ok s' → (∀ t ∈ s'.tested, t ≠ []) →
    roundsGo E true b0 r bs s = .ok s' := by
  intro bs
  induction bs with
  | nil => intro r s s' _ _ _ h _; exact h
  | cons b bs ih =>
    intro r s s' hb hi hr h ht
    simp only [roundsGo] at h ⊢
    cases hs : roundStep E b s with
    | error e => rw [hs] at h; simp at h
    | ok t =>
      rw [hs] at h
      simp only [Bool.false_eq_true, if_false] at h
      simp only [if_true]
      obtain ⟨ms, hms, e1, _⟩ := roundStep_ok hs
      have hne : sortMods E ms ≠ [] := by
        refine ht _ ((roundsGo_prefix h).subset ?_)
        rw [e1]; simp
      obtain ⟨g1, g2⟩ := roundStep_left hi hs e1 hne
      have hp : printRound (ε := ε) r b0 b t = .ok () := by
        have : reported r t = some (sortMods E ms) := by
          rw [reported, e1, ← hr]; simp
        simp only [printRound, this, printList_ok (slice_ne_nil hne hb0), printList_ok (slice_ne_nil g1 hb0),
          printList_ok (slice_ne_nil g2 (hb b (by simp))), bind, Except.bind]
      rw [hp]
      simp only
      refine ih (fun c hc => hb c (by simp [hc])) (inv_round hi hs) ?_ h ht
      rw [e1]; simp [hr]

end Search
end GPyABCD
