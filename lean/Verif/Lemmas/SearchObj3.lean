import Verif.Lemmas.SearchObj2

/-!
# Lemmas: a whole search over objects
-/

namespace GPyABCD
namespace SearchObj
open Objects Links
open Search (Mod St slice sameMod)

variable {D R ε : Type}

/-- The state shows the one of the search over values, its expressions are good ones, no two models share a node, all nodes of models are at `lo` or above; no two
tested expressions share a node, and all their nodes are at `klo` or above; the objects `own` are expressions of models. -/
structure Holds (G : KE → Prop) (lo klo : Nat) (own : List Nat) (h : Heap) (s : St Nat D R) (s' : St KE D R) : Prop where
  /-- same -/
  shows : Shows h s s'
  /-- values -/
  good : ∀ m ∈ s'.tested.flatten, G m.kex
  /-- values -/
  goodNext : ∀ m ∈ s'.notExpanded, G m.kex
  /-- apart -/
  apart : Apart lo h (s.tested.flatten.map (·.kex))
  /-- apart -/
  kapart : Apart klo h s.ktested
  /-- below the end -/
  low : lo ≤ h.length
  /-- below the end -/
  klow : klo ≤ h.length
  /-- kept -/
  keeps : ∀ a ∈ own, a ∈ s.tested.flatten.map (·.kex)

theorem sort_shows (E : Env D R ε) {h : Heap} {ms : List (Mod Nat D R)} {ms' : List (Mod KE D R)} (hm : List.Forall₂ (ShowsMod h) ms ms') :
    List.Forall₂ (ShowsMod h) (sortMods E ms) (Search.sortMods E.values ms') :=
  forall₂_sort (fun _ _ _ _ h1 h2 => by rw [h1.cached, h2.cached]; rfl) hm

theorem sort_perm (E : Env D R ε) (ms : List (Mod Nat D R)) : (sortMods E ms).Perm ms := List.perm_insertionSort _ _

theorem diff_shows {h : Heap} {ms es : List (Mod Nat D R)} {ms' es' : List (Mod KE D R)} (hm : List.Forall₂ (ShowsMod h) ms ms') (he : List.Forall₂ (ShowsMod h) es es') :
    List.Forall₂ (ShowsMod h) (Util.diff sameMod ms es) (Util.diff sameMod ms' es') :=
  forall₂_diff (fun _ _ _ _ h1 h2 => by rw [sameMod, sameMod, h1.uid, h2.uid]) he hm

theorem fitAll_kexs {K : Type} {E : Search.Env K D R ε} {vs : List K} {n : Nat} {ms : List (Mod K D R)} (h : Search.fitAll E n vs = .ok ms) : ms.map (·.kex) = vs := by
  induction vs generalizing n ms with
  | nil => rw [Search.fitAll] at h; cases h; rfl
  | cons v vs ih =>
    rw [Search.fitAll] at h
    split at h
    · cases h
    · split at h
      · cases h
      · rename_i e
        cases h
        simp [ih e]

theorem sorted_good {E : Env D R ε} {G : KE → Prop} {vs : List KE} {n : Nat} {ms : List (Mod KE D R)} (h : Search.fitAll E.values n vs = .ok ms) (hg : ∀ v ∈ vs, G v) :
    ∀ m ∈ Search.sortMods E.values ms, G m.kex := by
  intro m hm
  have := (Search.sortMods_perm E.values ms).subset hm
  exact hg _ (by rw [← fitAll_kexs h]; exact List.mem_map_of_mem this)

theorem Shows.ext {h h' : Heap} (he : Ext h h') {s : St Nat D R} {s' : St KE D R} (hs : Shows h s s') : Shows h' s s' :=
  ⟨mods_ext he hs.sorted, hs.tested.imp (fun _ _ h1 => mods_ext he h1), roots_ext he hs.ktested, mods_ext he hs.expanded, mods_ext he hs.notExpanded, hs.next⟩

theorem Goes.known {α β : Type} {m : P ε α} {h : Heap} {x : Except (Search.Err ε) β} {Q : α → β → Heap → Prop} (hm : Goes m h x Q) :
    Goes m h x (fun a y h' => Q a y h' ∧ Ext h h' ∧ x = .ok y) := by
  cases x with
  | error e => exact hm
  | ok y => obtain ⟨a, h1, e1, x1, q1⟩ := hm; exact ⟨a, h1, e1, x1, q1, x1, rfl⟩

theorem roundStep_goes {E : Env D R ε} {G : KE → Prop} {lo klo : Nat} {own : List Nat} (hE : Expands E G) {h : Heap} (b : Int) {s : St Nat D R} {s' : St KE D R} (hs : Holds G lo klo own h s s') :
    Goes (roundStep E b s) h (Search.roundStep E.values b s') (fun t t' h' => Holds G lo klo own h' t t') := by
  obtain ⟨new, h1, e1, x1, f1, a1, g1⟩ := newKexs_ok hE b hs.shows.ktested hs.shows.notExpanded hs.goodNext
  rw [roundStep]
  refine Goes.step (run_ok e1) x1 ?_
  have key := (fitMods_goes E x1.1 f1 a1 s.next).known.bind (g := fun ms' => .ok
      ({ sorted := Search.sortMods E.values (Util.flatten (s'.tested ++ [Search.sortMods E.values ms'])), tested := s'.tested ++ [Search.sortMods E.values ms'],
         ktested := s'.ktested ++ Search.newKexs E.values b s', expanded := s'.expanded ++ slice s'.notExpanded b,
         notExpanded := Util.diff sameMod (Search.sortMods E.values (Util.flatten (s'.tested ++ [Search.sortMods E.values ms']))) (s'.expanded ++ slice s'.notExpanded b),
         next := s'.next + (Search.newKexs E.values b s').length } : St KE D R))
      (f := fun ms => (Pure.pure
      { sorted := sortMods E (s.tested ++ [sortMods E ms]).flatten, tested := s.tested ++ [sortMods E ms],
         ktested := s.ktested ++ new, expanded := s.expanded ++ slice s.notExpanded b,
         notExpanded := Util.diff sameMod (sortMods E (s.tested ++ [sortMods E ms]).flatten) (s.expanded ++ slice s.notExpanded b),
         next := s.next + new.length } : P ε (St Nat D R))) (Q' := fun t t' h' => Holds G lo klo own h' t t') (by
    rintro ms ms' h2 x2 ⟨⟨f2, a2, _, _⟩, _, hfit⟩
    have x3 := x1.trans x2
    have htested : List.Forall₂ (List.Forall₂ (ShowsMod h2)) (s.tested ++ [sortMods E ms]) (s'.tested ++ [Search.sortMods E.values ms']) :=
      forall₂_append (hs.shows.ext x3).tested (.cons (sort_shows E f2) .nil)
    have hsorted := sort_shows E (forall₂_flatten htested)
    have hexp : List.Forall₂ (ShowsMod h2) (s.expanded ++ slice s.notExpanded b) (s'.expanded ++ slice s'.notExpanded b) :=
      forall₂_append (hs.shows.ext x3).expanded (forall₂_slice b (hs.shows.ext x3).notExpanded)
    have hgood : ∀ m ∈ (s'.tested ++ [Search.sortMods E.values ms']).flatten, G m.kex := by
      intro m hm
      rw [List.flatten_append, List.mem_append] at hm
      rcases hm with hm | hm
      · exact hs.good m hm
      · exact sorted_good hfit (by rw [hs.shows.next] at *; exact g1) m (by simpa using hm)
    rw [flatten_eq]
    refine Goes.pure ⟨⟨hsorted, htested, forall₂_append (roots_ext x3 hs.shows.ktested) (roots_ext x2 f1), hexp, diff_shows hsorted hexp, ?_⟩, hgood, ?_, ?_, hs.kapart.append x1 a1 hs.klow |>.ext x2, Nat.le_trans hs.low x3.1, Nat.le_trans hs.klow x3.1, ?_⟩
    · show s.next + new.length = s'.next + _
      rw [hs.shows.next, f1.length_eq]
    · intro m hm
      obtain ⟨_, _, _, _, _, _, hsub, _⟩ := Util.diff_spec sameMod (Search.sortMods E.values (s'.tested ++ [Search.sortMods E.values ms']).flatten) (s'.expanded ++ slice s'.notExpanded b)
      exact hgood m ((Search.sortMods_perm E.values _).subset (hsub.subset hm))
    · show Apart lo h2 ((s.tested ++ [sortMods E ms]).flatten.map (·.kex))
      rw [List.flatten_append, List.map_append]
      refine hs.apart.append x3 ?_ hs.low
      have : [sortMods E ms].flatten = sortMods E ms := by simp
      rw [this]
      exact a2.perm ((sort_perm E ms).map _).symm
    · intro a ha
      show a ∈ ((s.tested ++ [sortMods E ms]).flatten.map (·.kex))
      rw [List.flatten_append, List.map_append]
      exact List.mem_append_left _ (hs.keeps a ha))
  rw [Search.roundStep]
  rw [hs.shows.next] at key ⊢
  revert key
  cases Search.fitAll E.values s'.next (Search.newKexs E.values b s') <;> exact id

theorem printList_eq {α β : Type} {Q : α → β → Prop} {xs : List α} {ys : List β} (h : List.Forall₂ Q xs ys) : Search.printList (ε := ε) xs = Search.printList ys := by
  cases h <;> rfl

theorem printRound_eq {h : Heap} {s : St Nat D R} {s' : St KE D R} (hs : Shows h s s') (r : Nat) (beam0 b : Int) :
    Search.printRound (ε := ε) r beam0 b s = Search.printRound r beam0 b s' := by
  rw [Search.printRound, Search.printRound, Search.reported, Search.reported]
  have h1 : (s.tested[r]? = none ∧ s'.tested[r]? = none) ∨ ∃ t t', s.tested[r]? = some t ∧ s'.tested[r]? = some t' ∧ List.Forall₂ (ShowsMod h) t t' := by
    have hl := hs.tested.length_eq
    by_cases hr : r < s.tested.length
    · exact .inr ⟨_, _, List.getElem?_eq_getElem hr, List.getElem?_eq_getElem (hl ▸ hr), (List.forall₂_iff_get.1 hs.tested).2 r hr (hl ▸ hr)⟩
    · exact .inl ⟨List.getElem?_eq_none (by omega), List.getElem?_eq_none (by omega)⟩
  rcases h1 with ⟨h1, h2⟩ | ⟨t, t', h1, h2, h3⟩
  · rw [h1, h2]
  · rw [h1, h2]
    simp only
    rw [printList_eq (forall₂_slice beam0 h3), printList_eq (forall₂_slice beam0 hs.sorted), printList_eq (forall₂_slice b hs.notExpanded)]

theorem roundsGo_goes {E : Env D R ε} {G : KE → Prop} {lo klo : Nat} {own : List Nat} (hE : Expands E G) (verbose : Bool) (beam0 : Int) (bs : List Int) : ∀ (r : Nat) {h : Heap} {s : St Nat D R} {s' : St KE D R},
    Holds G lo klo own h s s' → Goes (roundsGo E verbose beam0 r bs s) h (Search.roundsGo E.values verbose beam0 r bs s') (fun t t' h' => Holds G lo klo own h' t t') := by
  induction bs with
  | nil => intro r h s s' hs; exact Goes.pure hs
  | cons b bs ih =>
    intro r h s s' hs
    rw [roundsGo, Search.roundsGo]
    have key := (roundStep_goes hE b hs).bind (g := fun t' => (if verbose then Search.printRound r beam0 b t' else .ok ()) >>= fun _ => Search.roundsGo E.values verbose beam0 (r + 1) bs t')
      (f := fun t => (SearchObj.lift (if verbose then Search.printRound r beam0 b t else .ok ()) >>= fun _ => roundsGo E verbose beam0 (r + 1) bs t : P ε (St Nat D R)))
      (Q' := fun t t' h' => Holds G lo klo own h' t t') (by
      intro t t' h1 _ ht
      rw [printRound_eq ht.shows]
      refine Goes.bind Goes.same ?_
      rintro _ _ h2 _ ⟨_, rfl⟩
      exact ih (r + 1) ht)
    revert key
    cases Search.roundStep E.values b s' with
    | error e => exact id
    | ok t' =>
      simp only
      show Goes _ _ ((if verbose then Search.printRound r beam0 b t' else .ok ()) >>= fun _ => Search.roundsGo E.values verbose beam0 (r + 1) bs t') _ → _
      cases (if verbose then Search.printRound (ε := ε) r beam0 b t' else .ok ()) <;> exact id

theorem searchRounds_goes {E : Env D R ε} {G : KE → Prop} {lo klo : Nat} {own : List Nat} (hE : Expands E G) (verbose : Bool) (rounds : Int) (beam : List Int) {h : Heap} {s : St Nat D R} {s' : St KE D R}
    (hs : Holds G lo klo own h s s') : Goes (searchRounds E verbose rounds beam s) h (Search.searchRounds E.values verbose rounds beam s') (fun t t' h' => Holds G lo klo own h' t t') :=
  roundsGo_goes hE verbose _ _ 1 hs

/-- With processes the models hold copies only. -/
def lowest (E : Env D R ε) (h : Heap) : Nat := if E.cpus.isSome then h.length else 0

/-- Without processes they hold the objects that are given. -/
def held (E : Env D R ε) (as : List Nat) : List Nat := if E.cpus.isSome then [] else as

theorem startSt_goes (E : Env D R ε) {G : KE → Prop} {h : Heap} {as : List Nat} {vs : List KE} (hv : List.Forall₂ (RootAt h) as vs) (ha : Apart 0 h as) (hg : ∀ v ∈ vs, G v) :
    Goes (startSt E as) h (Search.startSt E.values vs) (fun t t' h' => Holds G (lowest E h) h.length (held E as) h' t t') := by
  rw [startSt, Search.startSt]
  have key := (fitMods_goes E (Nat.zero_le _) hv ha 0).known.bind (g := fun ms' => .ok
      ({ sorted := Search.sortMods E.values (Util.flatten [Search.sortMods E.values ms']), tested := [Search.sortMods E.values ms'],
         ktested := vs, expanded := [], notExpanded := Search.sortMods E.values (Util.flatten [Search.sortMods E.values ms']), next := vs.length } : St KE D R))
      (f := fun ms => (do
        let f ← SearchObj.run (Objects.deepcopy as)
        Pure.pure
          { sorted := sortMods E [sortMods E ms].flatten, tested := [sortMods E ms], ktested := as.map f, expanded := [],
            notExpanded := sortMods E [sortMods E ms].flatten, next := as.length } : P ε (St Nat D R))) (Q' := fun t t' h' => Holds G (lowest E h) h.length (held E as) h' t t') (by
    rintro ms ms' h1 x1 ⟨⟨f1, a1, a1', k1⟩, _, hfit⟩
    obtain ⟨f, h2, e2, x2, a2, r2⟩ := deepcopy_apart (ha.ext x1)
    refine Goes.step (run_ok e2) x2 ?_
    have f2 := mods_ext x2 f1
    have htested : List.Forall₂ (List.Forall₂ (ShowsMod h2)) [sortMods E ms] [Search.sortMods E.values ms'] := .cons (sort_shows E f2) .nil
    have hsorted := sort_shows E (forall₂_flatten htested)
    have hgood : ∀ m ∈ [Search.sortMods E.values ms'].flatten, G m.kex := fun m hm => sorted_good hfit hg m (by simpa using hm)
    rw [flatten_eq]
    refine Goes.pure ⟨⟨hsorted, htested, ?_, .nil, hsorted, hv.length_eq⟩, hgood, ?_, ?_, a2.le x1.1, ?_, (x1.trans x2).1, ?_⟩
    · show List.Forall₂ (RootAt h2) (as.map f) vs
      rw [List.forall₂_map_left_iff]
      exact forall₂_imp_mem hv (fun a ha v _ h3 => r2 a ha v (rootAt_ext x1 h3))
    · exact fun m hm => hgood m ((Search.sortMods_perm E.values _).subset hm)
    · show Apart (lowest E h) h2 ([sortMods E ms].flatten.map (·.kex))
      have : [sortMods E ms].flatten = sortMods E ms := by simp
      rw [this]
      have a3 : Apart (lowest E h) h1 (ms.map (·.kex)) := by
        rw [lowest]
        split
        · rename_i hc; exact a1' hc
        · exact a1
      exact (a3.perm ((sort_perm E ms).map _).symm).ext x2
    · have := (x1.trans x2).1
      rw [lowest]
      split <;> omega
    · intro a ha
      rw [held] at ha
      split at ha
      · cases ha
      · rename_i hc
        have h3 := k1 (by simpa using hc)
        show a ∈ ([sortMods E ms].flatten.map (·.kex))
        have : [sortMods E ms].flatten = sortMods E ms := by simp
        rw [this, ((sort_perm E ms).map _).mem_iff, h3]
        exact ha)
  revert key
  cases Search.fitAll E.values 0 vs <;> exact id

theorem exploreFrom_goes {E : Env D R ε} {G : KE → Prop} (hE : Expands E G) (verbose : Bool) (rounds : Int) (beam : Search.BeamArg) {h : Heap} {as : List Nat} {vs : List KE}
    (hv : List.Forall₂ (RootAt h) as vs) (ha : Apart 0 h as) (hg : ∀ v ∈ vs, G v) :
    Goes (exploreFrom E verbose as rounds beam) h (Search.explore E.values verbose vs rounds beam) (fun t t' h' => Holds G (lowest E h) h.length (held E as) h' t t') := by
  have hx : Search.explore E.values verbose vs rounds beam = ((if verbose then Search.printList vs else .ok ()) >>= fun _ => Search.startSt E.values vs >>= fun s =>
      Search.handleBeam rounds beam >>= fun bs => (if verbose then Search.printStart bs s else .ok ()) >>= fun _ => Search.searchRounds E.values verbose rounds bs s >>= fun s' =>
      (if verbose then Search.printEnd bs s' else .ok ()) >>= fun _ => .ok s') := by
    rw [Search.explore]
    cases verbose <;> rfl
  rw [hx, exploreFrom, printList_eq hv]
  refine Goes.bind Goes.same ?_
  rintro _ _ h1 _ ⟨_, rfl⟩
  refine Goes.bind (startSt_goes E hv ha hg) ?_
  intro s s' h2 _ hs
  refine Goes.bind Goes.same ?_
  rintro bs _ h3 _ ⟨rfl, rfl⟩
  have e1 : Search.printStart (ε := ε) bs s = Search.printStart bs s' := by
    cases bs with
    | nil => rfl
    | cons b bs => exact printList_eq (forall₂_slice b hs.shows.notExpanded)
  rw [e1]
  refine Goes.bind Goes.same ?_
  rintro _ _ h4 _ ⟨_, rfl⟩
  refine Goes.bind (searchRounds_goes hE verbose rounds bs hs) ?_
  intro t t' h5 _ ht
  have e2 : Search.printEnd (ε := ε) bs t = Search.printEnd bs t' := by
    cases bs with
    | nil => rfl
    | cons b bs => exact printList_eq (forall₂_slice b ht.shows.sorted)
  rw [e2]
  refine Goes.bind Goes.same ?_
  rintro _ _ h6 _ ⟨_, rfl⟩
  exact Goes.pure ht

end SearchObj
end GPyABCD
