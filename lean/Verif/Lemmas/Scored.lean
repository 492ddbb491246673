import Verif.Spec.Scored
import Verif.Lemmas.Search

/-!
# Lemmas about `sorted` and searches with any scoring function
-/

namespace GPyABCD
namespace Search

variable {α : Type}

/-! ## `sorted` permutes, whatever `<` is -/

theorem runDown_append (lt : α → α → Bool) : ∀ (p : α) (xs : List α), (runDown lt p xs).1 ++ (runDown lt p xs).2 = xs := by
  intro p xs
  induction xs generalizing p with
  | nil => rfl
  | cons x xs ih =>
    simp only [runDown]
    split
    · simp [ih]
    · rfl

theorem runUp_append (lt : α → α → Bool) : ∀ (p : α) (xs : List α), (runUp lt p xs).1 ++ (runUp lt p xs).2 = xs := by
  intro p xs
  induction xs generalizing p with
  | nil => rfl
  | cons x xs ih =>
    simp only [runUp]
    split
    · rfl
    · simp [ih]

theorem countRun_perm (lt : α → α → Bool) (xs : List α) : ((countRun lt xs).1 ++ (countRun lt xs).2).Perm xs := by
  match xs with
  | [] => exact .refl _
  | [x] => exact .refl _
  | x :: y :: xs =>
    simp only [countRun]
    split
    · refine ((List.reverse_perm _).append_right _).trans ?_
      simp [runDown_append]
    · simp [runUp_append]

theorem binarySort_perm (lt : α → α → Bool) : ∀ (xs done : List α), (binarySort lt done xs).Perm (done ++ xs) := by
  intro xs
  induction xs with
  | nil => intro done; simp [binarySort]
  | cons x xs ih =>
    intro done
    simp only [binarySort]
    refine (ih _).trans ?_
    have h : ∀ i, (done.take i ++ x :: done.drop i).Perm (x :: done) := fun i => by
      refine List.perm_middle.trans ?_
      rw [List.take_append_drop]
    exact ((h _).append_right _).trans (List.perm_middle (l₁ := done) (a := x) (l₂ := xs)).symm

theorem pySorted_perm {big : List α → List α} (hb : ∀ xs, (big xs).Perm xs) (lt : α → α → Bool) (xs : List α) :
    (pySorted big lt xs).Perm xs := by
  simp only [pySorted]
  split
  · exact (binarySort_perm _ _ _).trans (countRun_perm _ _)
  · exact hb xs

/-! ## For total preorders it is the stable sort -/

/-- `le` is a total preorder with strict part `lt`. -/
structure StrictOf (le : α → α → Prop) (lt : α → α → Bool) : Prop where
  lt_iff : ∀ a b, lt a b = true ↔ ¬ le b a
  trans : ∀ a b c, le a b → le b c → le a c
  total : ∀ a b, le a b ∨ le b a

variable {le : α → α → Prop} {lt : α → α → Bool}

theorem StrictOf.le_of_not (h : StrictOf le lt) {a b : α} (hl : lt a b = false) : le b a := by
  by_contra hc
  rw [(h.lt_iff a b).2 hc] at hl
  simp at hl

theorem StrictOf.le_of_lt (h : StrictOf le lt) {a b : α} (hl : lt a b = true) : le a b :=
  (h.total a b).resolve_right ((h.lt_iff a b).1 hl)

/-- Two sorted lists with the same members of every class in the same order are equal. -/
theorem sorted_unique (h : StrictOf le lt) [DecidableRel le] : ∀ {xs ys : List α}, xs.Pairwise le → ys.Pairwise le →
    (∀ c, xs.filter (fun x => le x c ∧ le c x) = ys.filter (fun x => le x c ∧ le c x)) → xs = ys := by
  have refl : ∀ a, le a a := fun a => by simpa using h.total a a
  intro xs
  induction xs with
  | nil =>
    intro ys _ _ hc
    cases ys with
    | nil => rfl
    | cons y ys =>
      have := hc y
      simp [refl y] at this
  | cons x xs ih =>
    intro ys hx hy hc
    cases ys with
    | nil =>
      have := hc x
      simp [refl x] at this
    | cons y ys =>
      have hx' := List.pairwise_cons.1 hx
      have hy' := List.pairwise_cons.1 hy
      have mx : x ∈ y :: ys := by
        have : x ∈ (y :: ys).filter (fun z => le z x ∧ le x z) := by rw [← hc x]; simp [refl x]
        exact (List.mem_filter.1 this).1
      have my : y ∈ x :: xs := by
        have : y ∈ (x :: xs).filter (fun z => le z y ∧ le y z) := by rw [hc y]; simp [refl y]
        exact (List.mem_filter.1 this).1
      have hyx : le y x := by
        rcases List.mem_cons.1 mx with e | m
        · rw [e]; exact refl y
        · exact hy'.1 x m
      have hxy : le x y := by
        rcases List.mem_cons.1 my with e | m
        · rw [e]; exact refl x
        · exact hx'.1 y m
      have e : x = y := by
        have := hc x
        simp only [List.filter_cons, refl x, hxy, hyx, and_self, decide_true, if_true, List.cons.injEq] at this
        exact this.1
      subst e
      rw [ih hx'.2 hy'.2 fun c => ?_]
      have := hc c
      simp only [List.filter_cons] at this
      split at this
      · exact (List.cons.inj this).2
      · exact this

theorem place_spec (h : StrictOf le lt) {xs : List α} (hs : xs.Pairwise le) (x : α) : ∀ (n l r : Nat), r - l = n → l ≤ r → r ≤ xs.length →
    (∀ y ∈ xs.take l, le y x) → (∀ y ∈ xs.drop r, lt x y = true) →
    place? lt xs x l r ≤ xs.length ∧ (∀ y ∈ xs.take (place? lt xs x l r), le y x) ∧ (∀ y ∈ xs.drop (place? lt xs x l r), lt x y = true) := by
  intro n
  induction n using Nat.strong_induction_on with
  | _ n ih =>
    intro l r hn hlr hr h1 h2
    rw [place?]
    split
    · rename_i hlt
      have hp : l + (r - l) / 2 < xs.length := by omega
      simp only [List.getElem?_eq_getElem hp]
      have hpw := List.pairwise_iff_getElem.1 hs
      split
      · rename_i hb
        refine ih (l + (r - l) / 2 - l) (by omega) l _ rfl (by omega) (by omega) h1 ?_
        intro y hy
        obtain ⟨i, hi, rfl⟩ := List.mem_iff_getElem.1 hy
        simp only [List.length_drop] at hi
        simp only [List.getElem_drop]
        rcases Nat.eq_zero_or_pos i with rfl | hpos
        · simpa using hb
        · have := hpw (l + (r - l) / 2) (l + (r - l) / 2 + i) hp (by omega) (by omega)
          refine (h.lt_iff _ _).2 fun hc => (h.lt_iff _ _).1 hb (h.trans _ _ _ this hc)
      · rename_i hb
        refine ih (r - (l + (r - l) / 2 + 1)) (by omega) _ r rfl (by omega) hr ?_ h2
        intro y hy
        obtain ⟨i, hi, rfl⟩ := List.mem_iff_getElem.1 hy
        simp only [List.length_take] at hi
        simp only [List.getElem_take]
        have hb' := h.le_of_not (by simpa using hb)
        rcases Nat.lt_or_ge i (l + (r - l) / 2) with hlt' | hge
        · exact h.trans _ _ _ (hpw i _ (by omega) hp hlt') hb'
        · have : i = l + (r - l) / 2 := by omega
          subst this; exact hb'
    · have : l = r := by omega
      subst this
      exact ⟨hr, h1, h2⟩

theorem insert_spec (h : StrictOf le lt) [DecidableRel le] {done : List α} (hs : done.Pairwise le) (x : α) {i : Nat}
    (h1 : ∀ y ∈ done.take i, le y x) (h2 : ∀ y ∈ done.drop i, lt x y = true) :
    (done.take i ++ x :: done.drop i).Pairwise le ∧
      ∀ c, (done.take i ++ x :: done.drop i).filter (fun z => le z c ∧ le c z) = (done ++ [x]).filter (fun z => le z c ∧ le c z) := by
  have hs' : (done.take i ++ done.drop i).Pairwise le := by rwa [List.take_append_drop]
  have hp := List.pairwise_append.1 hs'
  refine ⟨List.pairwise_append.2 ⟨hp.1, List.pairwise_cons.2 ⟨fun y hy => h.le_of_lt (h2 y hy), hp.2.1⟩, ?_⟩, ?_⟩
  · intro a ha b hb
    rcases List.mem_cons.1 hb with rfl | hb
    · exact h1 a ha
    · exact hp.2.2 a ha b hb
  · intro c
    conv_rhs => rw [← List.take_append_drop i done]
    simp only [List.filter_append, List.filter_cons, List.filter_nil]
    split
    · rename_i hx
      have : (done.drop i).filter (fun z => le z c ∧ le c z) = [] := by
        rw [List.filter_eq_nil_iff]
        intro y hy hc
        simp only [decide_eq_true_eq] at hx hc
        exact (h.lt_iff x y).1 (h2 y hy) (h.trans _ _ _ hc.1 hx.2)
      rw [this]; simp
    · simp

theorem binarySort_spec (h : StrictOf le lt) [DecidableRel le] : ∀ (xs done : List α), done.Pairwise le →
    (binarySort lt done xs).Pairwise le ∧
      ∀ c, (binarySort lt done xs).filter (fun z => le z c ∧ le c z) = (done ++ xs).filter (fun z => le z c ∧ le c z) := by
  intro xs
  induction xs with
  | nil => intro done hd; simpa [binarySort] using hd
  | cons x xs ih =>
    intro done hd
    simp only [binarySort]
    obtain ⟨_, h1, h2⟩ := place_spec h hd x _ 0 done.length rfl (by omega) (le_refl _) (by simp) (by simp)
    obtain ⟨g1, g2⟩ := insert_spec h hd x h1 h2
    obtain ⟨k1, k2⟩ := ih _ g1
    refine ⟨k1, fun c => ?_⟩
    rw [k2 c, List.filter_append, g2 c, ← List.filter_append]
    simp

theorem runUp_sorted (h : StrictOf le lt) : ∀ (p : α) (xs : List α), (p :: (runUp lt p xs).1).Pairwise le := by
  intro p xs
  induction xs generalizing p with
  | nil => simp [runUp]
  | cons x xs ih =>
    simp only [runUp]
    split
    · simp
    · rename_i hx
      have := ih x
      refine List.pairwise_cons.2 ⟨?_, this⟩
      have hpx := h.le_of_not (by simpa using hx)
      intro y hy
      rcases List.mem_cons.1 hy with rfl | hy
      · exact hpx
      · exact h.trans _ _ _ hpx ((List.pairwise_cons.1 this).1 y hy)

theorem runDown_sorted (h : StrictOf le lt) : ∀ (p : α) (xs : List α), (p :: (runDown lt p xs).1).Pairwise (fun a b => lt b a = true) := by
  intro p xs
  induction xs generalizing p with
  | nil => simp [runDown]
  | cons x xs ih =>
    simp only [runDown]
    split
    · rename_i hx
      have := ih x
      refine List.pairwise_cons.2 ⟨?_, this⟩
      intro y hy
      rcases List.mem_cons.1 hy with rfl | hy
      · exact hx
      · have hyx := (List.pairwise_cons.1 this).1 y hy
        exact (h.lt_iff _ _).2 fun hc => (h.lt_iff _ _).1 hx (h.trans _ _ _ hc (h.le_of_lt hyx))
    · simp

theorem filter_strict (h : StrictOf le lt) [DecidableRel le] (c : α) : ∀ {xs : List α}, xs.Pairwise (fun a b => lt b a = true) →
    (xs.filter (fun z => le z c ∧ le c z)).length ≤ 1 := by
  intro xs hx
  have := hx.filter (fun z => decide (le z c ∧ le c z))
  match hf : xs.filter (fun z => decide (le z c ∧ le c z)) with
  | [] => simp
  | [a] => simp
  | a :: b :: r =>
    exfalso
    rw [hf] at this
    have hlt := (List.pairwise_cons.1 this).1 b (by simp)
    have ma : a ∈ xs.filter (fun z => decide (le z c ∧ le c z)) := by rw [hf]; simp
    have mb : b ∈ xs.filter (fun z => decide (le z c ∧ le c z)) := by rw [hf]; simp
    simp only [List.mem_filter, decide_eq_true_eq] at ma mb
    exact (h.lt_iff _ _).1 hlt (h.trans _ _ _ ma.2.1 mb.2.2)

theorem countRun_spec (h : StrictOf le lt) [DecidableRel le] (xs : List α) : (countRun lt xs).1.Pairwise le ∧
    ∀ c, ((countRun lt xs).1 ++ (countRun lt xs).2).filter (fun z => le z c ∧ le c z) = xs.filter (fun z => le z c ∧ le c z) := by
  match xs with
  | [] => simp [countRun]
  | [x] => simp [countRun]
  | x :: y :: xs =>
    simp only [countRun]
    split
    · rename_i hyx
      have hd : (x :: y :: (runDown lt y xs).1).Pairwise (fun a b => lt b a = true) := by
        have := runDown_sorted h x (y :: xs)
        simpa [runDown, hyx] using this
      refine ⟨?_, fun c => ?_⟩
      · rw [List.pairwise_reverse]
        exact hd.imp fun {a b} hab => h.le_of_lt hab
      · have e : xs = (runDown lt y xs).1 ++ (runDown lt y xs).2 := (runDown_append lt y xs).symm
        have hl := filter_strict h c hd
        conv_rhs => rw [e]
        rw [show x :: y :: ((runDown lt y xs).1 ++ (runDown lt y xs).2) = (x :: y :: (runDown lt y xs).1) ++ (runDown lt y xs).2 from rfl,
          List.filter_append, List.filter_append, List.filter_reverse]
        congr 1
        generalize (x :: y :: (runDown lt y xs).1).filter (fun z => decide (le z c ∧ le c z)) = f at hl ⊢
        match f, hl with
        | [], _ => rfl
        | [a], _ => rfl
    · rename_i hyx
      refine ⟨?_, fun c => ?_⟩
      · have := runUp_sorted h x (y :: xs)
        simpa [runUp, hyx] using this
      · rw [List.cons_append, List.cons_append, runUp_append]

theorem insertionSort_class (h : StrictOf le lt) [DecidableRel le] (xs : List α) (c : α) :
    (xs.insertionSort le).filter (fun z => le z c ∧ le c z) = xs.filter (fun z => le z c ∧ le c z) := by
  have hi : ∀ (x : α) (ys : List α), (ys.orderedInsert le x).filter (fun z => le z c ∧ le c z) = (x :: ys).filter (fun z => le z c ∧ le c z) := by
    intro x ys
    induction ys with
    | nil => simp
    | cons y ys ih =>
      rw [List.orderedInsert]
      split
      · rfl
      · rename_i hxy
        rw [List.filter_cons, ih]
        simp only [List.filter_cons]
        split
        · rename_i hy
          split
          · rename_i hx
            simp only [decide_eq_true_eq] at hx hy
            exact absurd (h.trans _ _ _ hx.1 hy.2) hxy
          · rfl
        · rfl
  induction xs with
  | nil => rfl
  | cons x xs ih =>
    rw [List.insertionSort_cons, hi, List.filter_cons, List.filter_cons, ih]

theorem pySorted_eq (h : StrictOf le lt) [DecidableRel le] {big : List α → List α} {xs : List α} (hb : xs.length < 64 ∨ big xs = xs.insertionSort le) :
    pySorted big lt xs = xs.insertionSort le := by
  simp only [pySorted]
  split
  · obtain ⟨h1, h2⟩ := countRun_spec h xs
    obtain ⟨g1, g2⟩ := binarySort_spec h (countRun lt xs).2 _ h1
    have : Std.Total le := ⟨h.total⟩
    have : IsTrans α le := ⟨h.trans⟩
    refine sorted_unique h g1 (List.pairwise_insertionSort le xs) fun c => ?_
    rw [g2, h2, insertionSort_class h]
  · rename_i hl
    exact hb.resolve_left hl

/-! ## The search -/

variable {K D R ε : Type}

theorem ok_bind_iff {e : Type} {β γ : Type} {x : Except e β} {f : β → Except e γ} {c : γ} :
    (x >>= f) = .ok c ↔ ∃ a, x = .ok a ∧ f a = .ok c := by
  cases x with
  | error e => simp [bind, Except.bind]
  | ok a => simp [bind, Except.bind]

theorem unit_iff {p : Unit → Prop} : (∃ x, p x) ↔ p () := ⟨fun ⟨_, h⟩ => h, fun h => ⟨_, h⟩⟩

theorem sortS_eq [Inhabited R] {E : SEnv K D R ε} (h : Comparable E) (ms : List (Mod K D R)) : sortS E ms = sortMods E.plain ms := by
  have hs : StrictOf (fun a b : Mod K D R => E.plain.le a.cached b.cached = true) (fun a b => E.lt a.cached b.cached) :=
    ⟨fun a b => by simp [SEnv.plain], fun a b c => h.le.trans _ _ _, fun a b => by simpa using h.le.total a.cached b.cached⟩
  refine pySorted_eq hs ?_
  rcases Nat.lt_or_ge ms.length 64 with hl | hl
  · exact .inl hl
  · exact .inr (h.big ms hl)

/-- Fitting all and then scoring all. -/
def fitScore (E : SEnv K D R ε) (n : Nat) (ks : List K) : Except (Err (ScoreErr ε)) (List (Mod K D R)) := fitOnly E n ks >>= scoreOnly E

theorem fitScore_cons {E : SEnv K D R ε} {n : Nat} {k : K} {ks : List K} {ms : List (Mod K D R)} :
    fitScore E n (k :: ks) = .ok ms ↔ ∃ d u ms', E.fit n k = .ok d ∧ E.score d = .ok u ∧ E.named = true ∧
      fitScore E (n + 1) ks = .ok ms' ∧ ms = ⟨n, k, d, u⟩ :: ms' := by
  simp only [fitScore, ok_bind_iff, fitOnly]
  constructor
  · rintro ⟨a, h1, h2⟩
    split at h1
    · simp at h1
    · rename_i d hd
      split at h1
      · simp at h1
      · rename_i r hr
        simp only [Except.ok.injEq] at h1
        subst h1
        simp only [scoreOnly] at h2
        split at h2
        · simp at h2
        · rename_i u hu
          split at h2
          · rename_i hn
            split at h2
            · simp at h2
            · rename_i ms' hms
              simp only [Except.ok.injEq] at h2
              exact ⟨d, u, ms', hd, hu, hn, ⟨r, hr, hms⟩, h2.symm⟩
          · simp at h2
  · rintro ⟨d, u, ms', hd, hu, hn, ⟨r, hr, hms⟩, rfl⟩
    exact ⟨(n, k, d) :: r, by simp [hd, hr], by simp [scoreOnly, hu, hn, hms]⟩

theorem fitAll_cons [Inhabited R] {E : SEnv K D R ε} {n : Nat} {k : K} {ks : List K} {ms : List (Mod K D R)} :
    fitAll E.plain n (k :: ks) = .ok ms ↔ ∃ d u ms', E.fit n k = .ok d ∧ E.score d = .ok u ∧
      fitAll E.plain (n + 1) ks = .ok ms' ∧ ms = ⟨n, k, d, u⟩ :: ms' := by
  have hf : E.plain.fit n k = (match E.fit n k with
      | .error e => .error (.fit e)
      | .ok d => (match E.score d with
        | .error e => .error (.score e)
        | .ok _ => .ok d)) := rfl
  have hs : ∀ d, E.plain.score d = (match E.score d with | .ok u => u | .error _ => default) := fun _ => rfl
  rw [fitAll, hf]
  cases hk : E.fit n k with
  | error e => simp
  | ok d =>
    simp only [Except.ok.injEq]
    cases hu : E.score d with
    | error e =>
      simp only [reduceCtorEq, false_iff]
      rintro ⟨d', u, ms', rfl, hu', -⟩
      rw [hu] at hu'
      simp at hu'
    | ok u =>
      simp only
      cases hr : fitAll E.plain (n + 1) ks with
      | error e => simp
      | ok ms' =>
        simp only [Except.ok.injEq]
        constructor
        · rintro rfl
          exact ⟨d, u, ms', rfl, hu, rfl, by simp [hs, hu]⟩
        · rintro ⟨d', u', ms'', rfl, hu', rfl, rfl⟩
          rw [hu] at hu'
          simp only [Except.ok.injEq] at hu'
          simp [hs, hu, hu']

theorem fitScore_iff [Inhabited R] {E : SEnv K D R ε} (hn : E.named = true) : ∀ {ks : List K} {n : Nat} {ms : List (Mod K D R)},
    fitScore E n ks = .ok ms ↔ fitAll E.plain n ks = .ok ms := by
  intro ks
  induction ks with
  | nil => intro n ms; simp [fitScore, fitOnly, scoreOnly, fitAll, bind, Except.bind]
  | cons k ks ih =>
    intro n ms
    rw [fitScore_cons, fitAll_cons]
    simp only [hn, true_and, ih]

theorem fitSorted_iff {E : SEnv K D R ε} {n : Nat} {ks : List K} {ms : List (Mod K D R)} :
    fitSorted E n ks = .ok ms ↔ ∃ r, fitScore E n ks = .ok r ∧ ms = sortS E r := by
  simp only [fitSorted, fitScore, ok_bind_iff, pure, Except.pure, Except.ok.injEq]
  constructor
  · rintro ⟨a, h1, b, h2, rfl⟩; exact ⟨b, ⟨a, h1, h2⟩, rfl⟩
  · rintro ⟨b, ⟨a, h1, h2⟩, rfl⟩; exact ⟨a, h1, b, h2, rfl⟩

theorem startS_iff [Inhabited R] {E : SEnv K D R ε} (hn : E.named = true) (hc : Comparable E) {starts : List K} {s : St K D R} :
    startStS E starts = .ok s ↔ startSt E.plain starts = .ok s := by
  simp only [startStS, ok_bind_iff, fitSorted_iff, fitScore_iff hn, sortS_eq hc, pure, Except.pure, startSt]
  cases fitAll E.plain 0 starts with
  | error e => simp
  | ok r => simp

theorem roundS_iff [Inhabited R] {E : SEnv K D R ε} (hn : E.named = true) (hc : Comparable E) {b : Int} {s s' : St K D R} :
    roundStepS E b s = .ok s' ↔ roundStep E.plain b s = .ok s' := by
  have hk : newKexsS E b s = newKexs E.plain b s := rfl
  simp only [roundStepS, ok_bind_iff, fitSorted_iff, fitScore_iff hn, sortS_eq hc, pure, Except.pure, roundStep, hk]
  cases fitAll E.plain s.next (newKexs E.plain b s) with
  | error e => simp
  | ok r => simp

theorem roundsGoS_cons {E : SEnv K D R ε} {v : Bool} {b0 b : Int} {r : Nat} {bs : List Int} {s s' : St K D R} :
    roundsGoS E v b0 r (b :: bs) s = .ok s' ↔ ∃ t, roundStepS E b s = .ok t ∧ (v = true → printRound (ε := ScoreErr ε) r b0 b t = .ok ()) ∧
      roundsGoS E v b0 (r + 1) bs t = .ok s' := by
  cases v <;> simp [roundsGoS, ok_bind_iff, unit_iff]

theorem roundsGo_cons {E : Env K D R ε} {v : Bool} {b0 b : Int} {r : Nat} {bs : List Int} {s s' : St K D R} :
    roundsGo E v b0 r (b :: bs) s = .ok s' ↔ ∃ t, roundStep E b s = .ok t ∧ (v = true → printRound (ε := ε) r b0 b t = .ok ()) ∧
      roundsGo E v b0 (r + 1) bs t = .ok s' := by
  simp only [roundsGo]
  cases roundStep E b s with
  | error e => simp
  | ok t =>
    cases v with
    | false => simp
    | true =>
      cases hp : printRound (ε := ε) r b0 b t with
      | error e => simp [hp]
      | ok u => simp [hp]

theorem roundsS_iff [Inhabited R] {E : SEnv K D R ε} (hn : E.named = true) (hc : Comparable E) {v : Bool} {b0 : Int} :
    ∀ {bs : List Int} {r : Nat} {s s' : St K D R}, roundsGoS E v b0 r bs s = .ok s' ↔ roundsGo E.plain v b0 r bs s = .ok s' := by
  intro bs
  induction bs with
  | nil => intro r s s'; rfl
  | cons b bs ih =>
    intro r s s'
    rw [roundsGoS_cons, roundsGo_cons]
    simp only [roundS_iff hn hc, ih]

theorem exploreS_iff' {E : SEnv K D R ε} {v : Bool} {starts : List K} {rounds : Int} {beam : BeamArg} {s : St K D R} :
    exploreS E v starts rounds beam = .ok s ↔ (v = true → starts ≠ [] ∧ E.named = true) ∧ ∃ s0 bs, startStS E starts = .ok s0 ∧
      handleBeam (ε := ScoreErr ε) rounds beam = .ok bs ∧ roundsGoS E v (bs.headD 0) 1 (bs.take rounds.toNat) s0 = .ok s ∧
      (v = true → printStart (ε := ScoreErr ε) bs s0 = .ok () ∧ printEnd (ε := ScoreErr ε) bs s = .ok ()) := by
  cases v with
  | false => simp [exploreS, ok_bind_iff, pure, Except.pure]
  | true =>
    cases starts with
    | nil => simp [exploreS, printList, bind, Except.bind]
    | cons k ks =>
      cases hn : E.named with
      | false => simp [exploreS, ok_bind_iff, hn, throw, throwThe, MonadExceptOf.throw]
      | true =>
        simp only [exploreS, if_true, ok_bind_iff, hn, pure, Except.pure, unit_iff, printList, List.isEmpty_cons, Bool.not_true, Bool.false_eq_true, if_false, Except.ok.injEq]
        constructor
        · rintro ⟨-, s0, h1, bs, h2, h3, s', h4, h5, rfl⟩
          exact ⟨by simp, s0, bs, h1, h2, h4, fun _ => ⟨h3, h5⟩⟩
        · rintro ⟨-, s0, bs, h1, h2, h4, h5⟩
          exact ⟨trivial, s0, h1, bs, h2, (h5 trivial).1, s, h4, (h5 trivial).2, rfl⟩

theorem exploreS_eq [Inhabited R] {E : SEnv K D R ε} (hn : E.named = true) (hc : Comparable E) {v : Bool} {starts : List K} {rounds : Int}
    {beam : BeamArg} {s : St K D R} : exploreS E v starts rounds beam = .ok s ↔ explore E.plain v starts rounds beam = .ok s := by
  rw [exploreS_iff']
  constructor
  · rintro ⟨h0, s0, bs, h1, h2, h3, h4⟩
    refine explore_of ((startS_iff hn hc).1 h1) h2 ((roundsS_iff hn hc).1 h3) fun hv => ?_
    have hne := (h0 hv).1
    exact ⟨by cases starts <;> simp_all [printList], h4 hv⟩
  · intro h
    obtain ⟨s0, bs, h1, h2, h3, h4⟩ := explore_ok h
    refine ⟨fun hv => ⟨?_, hn⟩, s0, bs, (startS_iff hn hc).2 h1, h2, (roundsS_iff hn hc).2 h3, fun hv => (h4 hv).2⟩
    rintro rfl
    have := (h4 hv).1
    simp [printList] at this

/-! ## Whatever the order: nothing is lost -/

/-- What holds of every search, comparable or not. -/
structure InvS (E : SEnv K D R ε) (s : St K D R) : Prop where
  perm : s.sorted.Perm (Util.flatten s.tested)
  uids : ((Util.flatten s.tested).map (·.uid)).Perm (List.range s.next)
  part : (s.expanded ++ s.notExpanded).Perm s.sorted
  kexs : s.ktested.Perm ((Util.flatten s.tested).map (·.kex))
  fits : ∀ m ∈ Util.flatten s.tested, E.fit m.uid m.kex = .ok m.data ∧ E.score m.data = .ok m.cached

theorem fitScore_ok {E : SEnv K D R ε} : ∀ {ks : List K} {n : Nat} {ms : List (Mod K D R)}, fitScore E n ks = .ok ms →
    ms.map (·.kex) = ks ∧ ms.map (·.uid) = List.range' n ks.length ∧
      ∀ m ∈ ms, E.fit m.uid m.kex = .ok m.data ∧ E.score m.data = .ok m.cached := by
  intro ks
  induction ks with
  | nil => intro n ms h; simp only [fitScore, fitOnly, scoreOnly, bind, Except.bind, Except.ok.injEq] at h; subst h; simp
  | cons k ks ih =>
    intro n ms h
    obtain ⟨d, u, ms', h1, h2, -, h3, rfl⟩ := fitScore_cons.1 h
    obtain ⟨g1, g2, g3⟩ := ih h3
    refine ⟨by simp [g1], by simp [g2, List.range'_succ], ?_⟩
    intro m hm
    rcases List.mem_cons.1 hm with rfl | hm
    · exact ⟨h1, h2⟩
    · exact g3 m hm

theorem sortS_perm {E : SEnv K D R ε} (hb : ∀ ms, (E.big ms).Perm ms) (ms : List (Mod K D R)) : (sortS E ms).Perm ms :=
  pySorted_perm hb _ ms

theorem invS_start {E : SEnv K D R ε} (hb : ∀ ms, (E.big ms).Perm ms) {starts : List K} {s : St K D R} (h : startStS E starts = .ok s) : InvS E s := by
  simp only [startStS, ok_bind_iff, fitSorted_iff, pure, Except.pure, Except.ok.injEq] at h
  obtain ⟨_, ⟨ms, hms, rfl⟩, rfl⟩ := h
  obtain ⟨h1, h2, h3⟩ := fitScore_ok hms
  have hp := sortS_perm hb ms
  have e : Util.flatten [sortS E ms] = sortS E ms := by simp [flatten_eq]
  refine ⟨sortS_perm hb _, ?_, List.Perm.refl _, ?_, ?_⟩
  · simp only [e]
    refine (hp.map _).trans ?_
    rw [h2, ← List.range_eq_range']
  · simp only [e]
    refine List.Perm.trans ?_ (hp.map _).symm
    rw [h1]
  · intro m hm
    simp only [e] at hm
    exact h3 m (hp.subset hm)

theorem invS_round {E : SEnv K D R ε} (hb : ∀ ms, (E.big ms).Perm ms) {b : Int} {s s' : St K D R} (hi : InvS E s)
    (h : roundStepS E b s = .ok s') : InvS E s' := by
  simp only [roundStepS, ok_bind_iff, fitSorted_iff, pure, Except.pure, Except.ok.injEq] at h
  obtain ⟨_, ⟨ms, hms, rfl⟩, rfl⟩ := h
  obtain ⟨h1, h2, h3⟩ := fitScore_ok hms
  have hp := sortS_perm hb ms
  have hfl : Util.flatten (s.tested ++ [sortS E ms]) = Util.flatten s.tested ++ sortS E ms := flatten_snoc _ _
  have huid : ((Util.flatten (s.tested ++ [sortS E ms])).map (·.uid)).Perm (List.range (s.next + (newKexsS E b s).length)) := by
    rw [hfl, List.map_append, List.range_add]
    refine hi.uids.append ((hp.map _).trans ?_)
    rw [h2, List.range'_eq_map_range]
  have hperm : (sortS E (Util.flatten (s.tested ++ [sortS E ms]))).Perm (Util.flatten (s.tested ++ [sortS E ms])) := sortS_perm hb _
  have hnod := (hperm.map (·.uid)).symm.nodup (huid.symm.nodup List.nodup_range)
  have hpart : (s.expanded ++ s.notExpanded).Nodup := by
    refine hi.part.symm.nodup (List.Nodup.of_map (·.uid) ?_)
    exact (hi.perm.map _).symm.nodup (hi.uids.symm.nodup List.nodup_range)
  have hmem : s.expanded ++ slice s.notExpanded b ⊆ sortS E (Util.flatten (s.tested ++ [sortS E ms])) := by
    intro m hm
    refine hperm.symm.subset ?_
    rw [hfl]
    refine List.mem_append_left _ (hi.perm.subset ?_)
    rcases List.mem_append.1 hm with hm | hm
    · exact hi.part.subset (List.mem_append_left _ hm)
    · obtain ⟨n, e⟩ := slice_prefix s.notExpanded b
      rw [e] at hm
      exact hi.part.subset (List.mem_append_right _ (List.mem_of_mem_take hm))
  have hexp : (s.expanded ++ slice s.notExpanded b).Nodup := by
    obtain ⟨n, e⟩ := slice_prefix s.notExpanded b
    rw [e]
    exact hpart.sublist (List.Sublist.append (List.Sublist.refl _) (List.take_sublist _ _))
  obtain ⟨g1, _⟩ := diff_ids hnod hexp hmem
  refine ⟨hperm, huid, g1, ?_, ?_⟩
  · simp only
    rw [hfl, List.map_append]
    exact hi.kexs.append (by rw [← h1]; exact (hp.map _).symm)
  · intro m hm
    simp only at hm
    rw [hfl] at hm
    rcases List.mem_append.1 hm with hm | hm
    · exact hi.fits m hm
    · exact h3 m (hp.subset hm)

theorem invS_rounds {E : SEnv K D R ε} (hb : ∀ ms, (E.big ms).Perm ms) {v : Bool} {b0 : Int} : ∀ {bs : List Int} {r : Nat} {s s' : St K D R},
    InvS E s → roundsGoS E v b0 r bs s = .ok s' → InvS E s' := by
  intro bs
  induction bs with
  | nil => intro r s s' hs h; simp only [roundsGoS, Except.ok.injEq] at h; exact h ▸ hs
  | cons b bs ih =>
    intro r s s' hs h
    obtain ⟨t, h1, -, h3⟩ := roundsGoS_cons.1 h
    exact ih (invS_round hb hs h1) h3

theorem invS_explore {E : SEnv K D R ε} (hb : ∀ ms, (E.big ms).Perm ms) {v : Bool} {starts : List K} {rounds : Int} {beam : BeamArg} {s : St K D R}
    (h : exploreS E v starts rounds beam = .ok s) : InvS E s := by
  obtain ⟨-, s0, bs, h1, -, h3, -⟩ := exploreS_iff'.1 h
  exact invS_rounds hb (invS_start hb h1) h3

end Search
end GPyABCD
