import Verif.Spec.Interp
import Verif.Lemmas.Sops

/-!
# Lemmas: the sum-of-products form keeps properties of single terms
-/

namespace GPyABCD
namespace Sops

set_option linter.unusedSectionVars false

variable {α : Type} [Mul α] [One α] {comb : α → α → α}

theorem sbind_ok {β γ : Type} {x : Except SErr β} {f : β → Except SErr γ} {c : γ} :
    (x >>= f) = .ok c ↔ ∃ b, x = .ok b ∧ f b = .ok c := by
  cases x with
  | error e => simp [bind, Except.bind]
  | ok b => simp [bind, Except.bind]

theorem smap_ok {β γ : Type} {x : Except SErr β} {f : β → γ} {c : γ} :
    (f <$> x) = .ok c ↔ ∃ b, x = .ok b ∧ f b = c := by
  cases x with
  | error e => simp [Functor.map, Except.map]
  | ok b => simp [Functor.map, Except.map]

/-- `Q` is kept by what the form does to single terms. -/
structure Kept (Q : Base → PD α → Prop) : Prop where
  noVar : ∀ b p, Q b p → Q b p.noVar
  se : ∀ x, Q .SE { lengthscale := some x }
  c : Q .C {}

variable {Q : Base → PD α → Prop}

/-- In a dictionary. -/
def DictQ (Q : Base → PD α → Prop) (ps : PDict α) : Prop := ∀ e ∈ ps, ∀ p ∈ e.2, Q e.1 p

theorem DictQ.get {ps : PDict α} (h : DictQ Q ps) (b : Base) : ∀ p ∈ ps.get b, Q b p := by
  intro p hp
  have hne : ps.get b ≠ [] := by rintro e; rw [e] at hp; simp at hp
  exact h _ (PDict.mem_of_get hne) p hp

theorem DictQ.put {ps : PDict α} (h : DictQ Q ps) {b : Base} {l : List (PD α)} (hl : ∀ p ∈ l, Q b p) : DictQ Q (ps.put b l) := by
  intro e he p hp
  rcases PDict.mem_put he with rfl | he
  · exact hl p hp
  · exact h e he p hp

theorem DictQ.filter {ps : PDict α} (h : DictQ Q ps) (f) : DictQ Q (ps.filter f) :=
  fun e he => h e (List.mem_filter.1 he).1

theorem DictQ.append {ps : PDict α} (h : DictQ Q ps) {b : Base} {p : PD α} (hp : Q b p) : DictQ Q (ps.append b p) := by
  refine h.put ?_
  intro q hq
  rcases List.mem_append.1 hq with hq | hq
  · exact h.get b q hq
  · rw [List.mem_singleton] at hq; subst hq; exact hp

theorem addItem_Q (K : Kept Q) {n m : Prod α} {i : Item α} (h : DictQ Q n.ps) (hi : ∀ b, i.1 = some b → Q b i.2)
    (e : addItem n i = .ok m) : DictQ Q m.ps := by
  obtain ⟨b, p⟩ := i
  cases b with
  | none =>
    cases hv : p.variance with
    | none => simp [addItem, hv] at e
    | some v => simp only [addItem, hv, Except.ok.injEq] at e; subst e; exact h
  | some b =>
    have hq : Q b p := hi b rfl
    cases hv : p.variance with
    | none => simp only [addItem, hv, Except.ok.injEq] at e; subst e; exact h.append hq
    | some v => simp only [addItem, hv, Except.ok.injEq] at e; subst e; exact h.append (K.noVar b p hq)

theorem addItems_Q (K : Kept Q) {l : List (Item α)} {n m : Prod α} (h : DictQ Q n.ps) (hi : ∀ i ∈ l, ∀ b, i.1 = some b → Q b i.2)
    (e : addItems n l = .ok m) : DictQ Q m.ps := by
  induction l generalizing n with
  | nil => simp only [addItems, Except.ok.injEq] at e; subst e; exact h
  | cons i l ih =>
    simp only [addItems, sbind_ok] at e
    obtain ⟨n', e1, e⟩ := e
    exact ih (addItem_Q K h (hi i (by simp)) e1) (fun j hj => hi j (by simp [hj])) e

theorem simplifyParams_Q (K : Kept Q) {c : Counter} {ps qs : PDict α} (h : DictQ Q ps) (e : simplifyParams comb c ps = .ok qs) : DictQ Q qs := by
  have h1 : DictQ Q (dropWN ps) := by
    unfold dropWN; split
    · exact h.filter _
    · exact h
  have h2 : DictQ Q (dropC c (dropWN ps)) := by
    unfold dropC; split
    · split
      · exact h1.filter _
      · split
        · refine h1.put ?_
          intro p hp; rw [List.mem_singleton] at hp; subst hp; exact K.c
        · exact h1
    · exact h1
  unfold simplifyParams mergeSE at e
  split at e
  · simp only [sbind_ok] at e
    obtain ⟨ls, _, e⟩ := e
    cases ls with
    | nil => simp at e
    | cons x xs =>
      simp only [pure, Except.pure, Except.ok.injEq] at e
      subst e
      refine h2.put ?_
      intro p hp; rw [List.mem_singleton] at hp; subst hp; exact K.se _
  · simp only [Except.ok.injEq] at e; subst e; exact h2

theorem newBases_Q (K : Kept Q) {n m : Prod α} {l : List (Item α)} (h : DictQ Q n.ps) (hi : ∀ i ∈ l, ∀ b, i.1 = some b → Q b i.2)
    (e : newBases comb n l = .ok m) : DictQ Q m.ps := by
  simp only [newBases, sbind_ok, pure, Except.pure, Except.ok.injEq] at e
  obtain ⟨n', e1, ps, e2, rfl⟩ := e
  exact simplifyParams_Q K (addItems_Q K (n := { n with pv := some (n.pv.getD 1) }) h hi e1) e2

theorem items_Q {ps : PDict α} {pv : Option α} (h : DictQ Q ps) : ∀ i ∈ items ps pv, ∀ b, i.1 = some b → Q b i.2 := by
  intro i hi b hb
  rcases List.mem_append.1 hi with hi | hi
  · obtain ⟨e, he, hi⟩ := List.mem_flatMap.1 hi
    obtain ⟨p, hp, rfl⟩ := List.mem_map.1 hi
    cases hb; exact h e he p hp
  · obtain ⟨v, _, rfl⟩ := List.mem_map.1 hi
    cases hb

theorem everyTermL_iff {ks : List (PKE α)} : EveryTermL Q ks ↔ ∀ k ∈ ks, EveryTerm Q k := by
  induction ks with
  | nil => simp [EveryTermL]
  | cons k ks ih => simp [EveryTermL, ih]

theorem ke_Q {n : Prod α} (h : DictQ Q n.ps) : EveryTerm Q n.ke := by
  simp only [Prod.ke, EveryTerm, EveryTermL, and_true]; exact h

theorem asProds_Q {ks : List (PKE α)} {ns : List (Prod α)} (h : ∀ k ∈ ks, EveryTerm Q k) (e : asProds ks = .ok ns) :
    ∀ n ∈ ns, DictQ Q n.ps := by
  induction ks generalizing ns with
  | nil => simp only [asProds, Except.ok.injEq] at e; subst e; simp
  | cons k ks ih =>
    unfold asProds at e
    split at e
    · rename_i h0; cases h0
    · rename_i bts ps pv ks' h0
      cases h0
      simp only [sbind_ok, pure, Except.pure, Except.ok.injEq] at e
      obtain ⟨r, e1, rfl⟩ := e
      intro n hn
      rcases List.mem_cons.1 hn with rfl | hn
      · have := h _ (List.mem_cons_self ..)
        simp only [EveryTerm] at this
        exact this.1
      · exact ih (fun k hk => h k (by simp [hk])) e1 n hn
    · cases e

theorem multiplyPure_Q (K : Kept Q) {ps : PDict α} {pv : Option α} {ks : List (PKE α)} {k : PKE α} (h : DictQ Q ps)
    (hk : ∀ k ∈ ks, EveryTerm Q k) (e : multiplyPure comb ps pv ks = .ok k) : EveryTerm Q k := by
  simp only [multiplyPure, sbind_ok, pure, Except.pure, Except.ok.injEq] at e
  obtain ⟨ns, e1, r, e2, rfl⟩ := e
  refine ke_Q (newBases_Q K (n := Prod.empty) (by intro e he; simp [Prod.empty] at he) ?_ e2)
  intro i hi
  rcases List.mem_append.1 hi with hi | hi
  · exact items_Q h i hi
  · obtain ⟨n, hn, hi⟩ := List.mem_flatMap.1 hi
    exact items_Q (asProds_Q hk e1 n hn) i hi

theorem multiplyAll_Q (K : Kept Q) {ps : PDict α} {pv : Option α} {ts : List (List (PKE α))} {ks : List (PKE α)} (h : DictQ Q ps)
    (ht : ∀ t ∈ ts, ∀ k ∈ t, EveryTerm Q k) (e : multiplyAll comb ps pv ts = .ok ks) : ∀ k ∈ ks, EveryTerm Q k := by
  induction ts generalizing ks with
  | nil => simp only [multiplyAll, Except.ok.injEq] at e; subst e; simp
  | cons t ts ih =>
    simp only [multiplyAll, sbind_ok, pure, Except.pure, Except.ok.injEq] at e
    obtain ⟨k, e1, r, e2, rfl⟩ := e
    intro k' hk'
    rcases List.mem_cons.1 hk' with rfl | hk'
    · exact multiplyPure_Q K h (ht t (by simp)) e1
    · exact ih (fun t ht' => ht t (by simp [ht'])) e2 k' hk'

theorem cart_mem {β : Type} {ls : List (List β)} {t : List β} (ht : t ∈ cart ls) : ∀ x ∈ t, ∃ l ∈ ls, x ∈ l := by
  induction ls generalizing t with
  | nil => simp only [cart, List.mem_singleton] at ht; subst ht; simp
  | cons l ls ih =>
    simp only [cart, List.mem_flatMap, List.mem_map] at ht
    obtain ⟨y, hy, t', ht', rfl⟩ := ht
    intro x hx
    rcases List.mem_cons.1 hx with rfl | hx
    · exact ⟨l, by simp, hy⟩
    · obtain ⟨l', h1, h2⟩ := ih ht' x hx
      exact ⟨l', by simp [h1], h2⟩

theorem allSums_Q {ks : List (PKE α)} {ls : List (List (PKE α))} (h : ∀ k ∈ ks, EveryTerm Q k) (e : allSums ks = .ok ls) :
    ∀ l ∈ ls, ∀ k ∈ l, EveryTerm Q k := by
  induction ks generalizing ls with
  | nil => simp only [allSums, Except.ok.injEq] at e; subst e; simp
  | cons k ks ih =>
    unfold allSums at e
    split at e
    · cases e
    · rename_i l hl
      simp only [sbind_ok, pure, Except.pure, Except.ok.injEq] at e
      obtain ⟨r, e1, rfl⟩ := e
      intro l' hl'
      rcases List.mem_cons.1 hl' with rfl | hl'
      · have hk := h k (by simp)
        unfold sumTerms at hl
        split at hl
        · cases hl
          simp only [EveryTerm] at hk
          exact everyTermL_iff.1 hk.2
        · cases hl
      · exact ih (fun k hk => h k (by simp [hk])) e1 l' hl'

theorem prodForm_Q (K : Kept Q) {ps : PDict α} {pv : Option α} {cts : List (PKE α)} {k : PKE α} (h : DictQ Q ps)
    (hc : ∀ k ∈ cts, EveryTerm Q k) (e : prodForm comb ps pv cts = .ok k) : EveryTerm Q k := by
  simp only [prodForm, sbind_ok, pure, Except.pure, Except.ok.injEq] at e
  obtain ⟨ls, e1, r, e2, rfl⟩ := e
  simp only [EveryTerm, List.not_mem_nil, false_imp_iff, implies_true, true_and]
  refine everyTermL_iff.2 (multiplyAll_Q K h ?_ e2)
  intro t ht k hk
  obtain ⟨l, h1, h2⟩ := cart_mem ht k hk
  exact allSums_Q hc e1 l h1 k h2

theorem collect_Q {ks rs : List (PKE α)} (h : ∀ k ∈ ks, EveryTerm Q k) (e : collect ks = .ok rs) : ∀ k ∈ rs, EveryTerm Q k := by
  induction ks generalizing rs with
  | nil => simp only [collect, Except.ok.injEq] at e; subst e; simp
  | cons k ks ih =>
    have ih' := fun {rs} => ih (rs := rs) (fun k hk => h k (by simp [hk]))
    have hk := h k (by simp)
    unfold collect at e
    split at e
    · rename_i h0; cases h0
    · rename_i bts ps pv cts ks' h0
      cases h0
      simp only [sbind_ok] at e
      obtain ⟨r, e1, e⟩ := e
      split at e
      · cases e
        intro x hx
        rcases List.mem_append.1 hx with hx | hx
        · simp only [EveryTerm] at hk
          exact everyTermL_iff.1 hk.2 x hx
        · exact ih' e1 x hx
      · cases e
    · rename_i h0
      cases h0
      simp only [sbind_ok, pure, Except.pure, Except.ok.injEq] at e
      obtain ⟨r, e1, rfl⟩ := e
      intro x hx
      rcases List.mem_cons.1 hx with rfl | hx
      · exact hk
      · exact ih' e1 x hx

theorem moveBases_Q (K : Kept Q) {bs : List Base} {bts : Counter} {ps : PDict α} {acc : List (PKE α)} {r} (h : DictQ Q ps)
    (ha : ∀ k ∈ acc, EveryTerm Q k) (e : moveBases comb bts ps acc bs = .ok r) : ∀ k ∈ r.2.2, EveryTerm Q k := by
  induction bs generalizing bts ps acc with
  | nil => simp only [moveBases, Except.ok.injEq] at e; subst e; exact ha
  | cons b bs ih =>
    unfold moveBases at e
    split at e
    · cases e
    · rename_i p rest hp
      simp only [sbind_ok] at e
      obtain ⟨n, e1, e⟩ := e
      have hQ := h.get b
      rw [hp] at hQ
      refine ih ?_ ?_ e
      · split
        · exact h.filter _
        · exact h.put (fun q hq => hQ q (by simp [hq]))
      · intro k hk
        rcases List.mem_cons.1 hk with rfl | hk
        · refine ke_Q (newBases_Q K (n := Prod.empty) (by intro e he; simp [Prod.empty] at he) ?_ e1)
          intro i hi b' hb'
          rw [List.mem_singleton] at hi; subst hi; cases hb'
          exact hQ p (by simp)
        · exact ha k hk

theorem sumForm_Q (K : Kept Q) {bts : Counter} {ps : PDict α} {pv : Option α} {cts : List (PKE α)} {k : PKE α} (h : DictQ Q ps)
    (hc : ∀ k ∈ cts, EveryTerm Q k) (e : sumForm comb bts ps pv cts = .ok k) : EveryTerm Q k := by
  simp only [sumForm, sbind_ok] at e
  obtain ⟨acc, e1, r, e2, e⟩ := e
  split at e
  · split at e
    · cases e
      simp only [EveryTerm, List.not_mem_nil, false_imp_iff, implies_true, true_and]
      exact everyTermL_iff.2 (moveBases_Q K h (collect_Q hc e1) e2)
    · cases e
  · cases e

theorem addSig_Q (K : Kept Q) {i : Item α} (hi : ∀ b, i.1 = some b → Q b i.2) {ks rs : List (PKE α)}
    (h : ∀ k ∈ ks, EveryTerm Q k) (e : addSig comb i ks = .ok rs) : ∀ k ∈ rs, EveryTerm Q k := by
  induction ks generalizing rs with
  | nil => simp only [addSig, Except.ok.injEq] at e; subst e; simp
  | cons k ks ih =>
    have hk := h k (by simp)
    unfold addSig at e
    split at e
    · rename_i h0; cases h0
    · rename_i bts ps pv ks' h0
      cases h0
      simp only [sbind_ok, pure, Except.pure, Except.ok.injEq] at e
      obtain ⟨n, e1, r, e2, rfl⟩ := e
      intro x hx
      rcases List.mem_cons.1 hx with rfl | hx
      · simp only [EveryTerm] at hk
        refine ke_Q (newBases_Q K (n := ⟨bts, ps, pv⟩) hk.1 ?_ e1)
        intro j hj; rw [List.mem_singleton] at hj; subst hj; exact hi
      · exact ih (fun k hk => h k (by simp [hk])) e2 x hx
    · cases e

theorem branch_Q (K : Kept Q) {i : Item α} (hi : ∀ b, i.1 = some b → Q b i.2) {k n : PKE α} {rec : Except SErr (PKE α)}
    (hk : EveryTerm Q k) (hr : ∀ k', rec = .ok k' → EveryTerm Q k') (e : branch comb i k rec = .ok n) : EveryTerm Q n := by
  unfold branch at e
  split at e
  · rename_i b p hl
    rw [smap_ok] at e
    obtain ⟨m, e1, rfl⟩ := e
    cases k with
    | leaf b' p' =>
      cases hl
      refine ke_Q (newBases_Q K (n := Prod.empty) (by intro e he; simp [Prod.empty] at he) ?_ e1)
      intro j hj
      simp only [List.mem_cons, List.not_mem_nil, or_false] at hj
      rcases hj with rfl | rfl
      · rintro b'' hb; cases hb; exact hk
      · exact hi
    | comm => cases hl
    | change => cases hl
  · rw [sbind_ok] at e
    obtain ⟨m, e1, e⟩ := e
    have hm := hr m e1
    split at e
    · rename_i cts
      simp only [sbind_ok, pure, Except.pure, Except.ok.injEq] at e
      obtain ⟨r, e2, rfl⟩ := e
      simp only [EveryTerm, List.not_mem_nil, false_imp_iff, implies_true, true_and] at hm ⊢
      exact everyTermL_iff.2 (addSig_Q K hi (everyTermL_iff.1 hm) e2)
    · cases e

theorem childTerms_Q {k : PKE α} {ks : List (PKE α)} (h : EveryTerm Q k) (e : childTerms k = .ok ks) : ∀ x ∈ ks, EveryTerm Q x := by
  unfold childTerms at e
  split at e
  · cases e; simp only [EveryTerm] at h; exact everyTermL_iff.1 h.2
  · cases e; intro x hx; rw [List.mem_singleton] at hx; subst hx; exact h
  · cases e

theorem sumCtor_Q {cfg : Cfg} {ks : List (PKE α)} {k : PKE α} (h : ∀ k ∈ ks, EveryTerm Q k) (e : sumCtor cfg ks = .ok k) :
    EveryTerm Q k := by
  simp only [sumCtor, sbind_ok, pure, Except.pure, Except.ok.injEq] at e
  obtain ⟨ns, e1, rfl⟩ := e
  simp only [EveryTerm, List.not_mem_nil, false_imp_iff, implies_true, true_and]
  refine everyTermL_iff.2 ?_
  intro x hx
  obtain ⟨n, hn, rfl⟩ := List.mem_map.1 hx
  obtain ⟨m, hm, rfl⟩ := List.mem_map.1 (List.mem_filter.1 hn).1
  exact ke_Q (asProds_Q h e1 m hm)

mutual
theorem sops_Q (K : Kept Q) (cfg : Cfg) : (k k' : PKE α) → EveryTerm Q k → sops comb cfg k = .ok k' → EveryTerm Q k'
  | .leaf _ _, k', _, e => by rw [sops] at e; cases e
  | .comm .sum bts ps pv cts, k', h, e => by
    rw [sops] at e
    split at e
    · cases e
    · simp only [EveryTerm] at h
      rw [sbind_ok] at e
      obtain ⟨cts', e1, e⟩ := e
      exact sumForm_Q K h.1 (sopsL_Q K cfg cts cts' h.2 e1) e
  | .comm .prod bts ps pv [], k', h, e => by
    rw [sops] at e
    split at e
    · cases e
    · cases e
      simp only [EveryTerm] at h
      simp only [EveryTerm, List.not_mem_nil, false_imp_iff, implies_true, true_and, EveryTermL, and_true]
      exact h.1
  | .comm .prod bts ps pv (c :: cts), k', h, e => by
    rw [sops] at e
    split at e
    · cases e
    · simp only [EveryTerm] at h
      rw [sbind_ok] at e
      obtain ⟨cts', e1, e⟩ := e
      exact prodForm_Q K h.1 (sopsL_Q K cfg (c :: cts) cts' h.2 e1) e
  | .change c p l r, k', h, e => by
    rw [sops] at e
    simp only [EveryTerm] at h
    simp only [sbind_ok] at e
    obtain ⟨l', e1, r', e2, e⟩ := e
    have hl := branch_Q K (i := (some (sigL c), p)) (by rintro b hb; cases hb; rw [sigL_eq]; exact h.1) h.2.2.1
      (fun k' e => sops_Q K cfg l k' h.2.2.1 e) e1
    have hr := branch_Q K (i := (some (sigR c), p)) (by rintro b hb; cases hb; rw [sigR_eq]; exact h.2.1) h.2.2.2
      (fun k' e => sops_Q K cfg r k' h.2.2.2 e) e2
    simp only [addSums, sbind_ok] at e
    obtain ⟨a, e3, b, e4, e⟩ := e
    refine sumCtor_Q ?_ e
    intro x hx
    rcases List.mem_append.1 hx with hx | hx
    · exact childTerms_Q hl e3 x hx
    · exact childTerms_Q hr e4 x hx
theorem sopsL_Q (K : Kept Q) (cfg : Cfg) : (ks ks' : List (PKE α)) → EveryTermL Q ks → sopsL comb cfg ks = .ok ks' → ∀ k ∈ ks', EveryTerm Q k
  | [], ks', _, e => by rw [sopsL] at e; cases e; simp
  | k :: ks, ks', h, e => by
    rw [sopsL] at e
    simp only [sbind_ok, pure, Except.pure, Except.ok.injEq] at e
    obtain ⟨k', e1, r, e2, rfl⟩ := e
    simp only [EveryTermL] at h
    intro x hx
    rcases List.mem_cons.1 hx with rfl | hx
    · exact sops_Q K cfg k x h.1 e1
    · exact sopsL_Q K cfg ks r h.2 e2 x hx
end

end Sops
end GPyABCD
