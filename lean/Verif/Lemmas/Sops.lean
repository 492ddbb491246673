import Verif.Spec.Sops
import Verif.Lemmas.Counts
import Mathlib.Tactic.Ring

/-!
# Lemmas: adding base terms with parameters to a product
-/

namespace GPyABCD
namespace Sops

set_option linter.unusedSectionVars false

variable {α : Type}

/-- The code's names of the sigmoids are the right ones. -/
theorem sigL_eq (c : CC) : sigL c = firstWeight c := by cases c <;> rfl

theorem sigR_eq (c : CC) : sigR c = secondWeight c := by cases c <;> rfl

/-! ## Parameter dictionaries -/

/-- Distinct keys, no empty entries. -/
structure DOK (ps : PDict α) : Prop where
  nodup : (ps.map (fun e => e.1)).Nodup
  ne : ∀ e ∈ ps, e.2 ≠ []

namespace PDict

theorem get_put (ps : PDict α) (b x : Base) (l : List (PD α)) : (ps.put b l).get x = if b = x then l else ps.get x := by
  induction ps with
  | nil => simp [put, get]
  | cons e r ih =>
    obtain ⟨k, v⟩ := e
    by_cases h : k = b
    · subst h; by_cases h2 : k = x <;> simp [put, get, h2]
    · by_cases h2 : k = x
      · subst h2; simp [put, get, h, Ne.symm h]
      · simp [put, get, h, h2, ih]

theorem keys_put (ps : PDict α) (b : Base) (l : List (PD α)) :
    (ps.put b l).map (fun e => e.1) = if b ∈ ps.map (fun e => e.1) then ps.map (fun e => e.1) else ps.map (fun e => e.1) ++ [b] := by
  induction ps with
  | nil => simp [put]
  | cons e r ih =>
    obtain ⟨k, v⟩ := e
    by_cases h : k = b
    · subst h; simp [put]
    · rw [put, if_neg h, List.map_cons, ih]
      by_cases h2 : b ∈ r.map (fun e => e.1)
      · simp [h2]
      · simp [h2, Ne.symm h]

theorem mem_put {ps : PDict α} {b : Base} {l : List (PD α)} {e} (h : e ∈ ps.put b l) : e = (b, l) ∨ e ∈ ps := by
  induction ps with
  | nil => simp only [put, List.mem_singleton] at h; exact Or.inl h
  | cons a r ih =>
    obtain ⟨k, v⟩ := a
    by_cases hk : k = b
    · subst hk; simp only [put, if_true] at h
      rcases List.mem_cons.1 h with h | h
      · exact Or.inl h
      · exact Or.inr (by simp [h])
    · rw [put, if_neg hk] at h
      rcases List.mem_cons.1 h with h | h
      · exact Or.inr (by simp [h])
      · rcases ih h with h | h
        · exact Or.inl h
        · exact Or.inr (by simp [h])

theorem get_filter (ps : PDict α) (f : Base → Bool) (x : Base) :
    (get (ps.filter (fun e => f e.1)) x) = if f x then ps.get x else [] := by
  induction ps with
  | nil => simp [get]
  | cons e r ih =>
    obtain ⟨k, v⟩ := e
    by_cases hf : f k = true
    · simp only [List.filter_cons, hf, if_true, get]
      by_cases h : k = x
      · subst h; simp [hf]
      · simp [h, ih]
    · simp only [List.filter_cons, hf, get]
      by_cases h : k = x
      · subst h; simp [hf]; rw [ih]; simp [hf]
      · simp [h, ih]

theorem get_of_mem {ps : PDict α} (h : DOK ps) {e} (he : e ∈ ps) : ps.get e.1 = e.2 := by
  have hn := h.nodup
  clear h
  induction ps with
  | nil => simp at he
  | cons a r ih =>
    obtain ⟨k, v⟩ := a
    rw [List.map_cons, List.nodup_cons] at hn
    rcases List.mem_cons.1 he with rfl | he
    · simp [get]
    · have : k ≠ e.1 := fun hh => hn.1 (List.mem_map.2 ⟨e, he, hh.symm⟩)
      simp only [get, this, if_false]; exact ih he hn.2

theorem get_eq_nil {ps : PDict α} {b : Base} (h : b ∉ ps.map (fun e => e.1)) : ps.get b = [] := by
  induction ps with
  | nil => rfl
  | cons a r ih =>
    obtain ⟨k, v⟩ := a
    simp only [List.map_cons, List.mem_cons, not_or] at h
    rw [get, if_neg (Ne.symm h.1)]; exact ih h.2

theorem mem_of_get {ps : PDict α} {b : Base} (h : ps.get b ≠ []) : (b, ps.get b) ∈ ps := by
  induction ps with
  | nil => simp [get] at h
  | cons a r ih =>
    obtain ⟨k, v⟩ := a
    by_cases hk : k = b
    · subst hk; simp [get]
    · simp only [get, hk, if_false] at h ⊢
      exact List.mem_cons_of_mem _ (ih h)

theorem has_iff {ps : PDict α} (h : DOK ps) (b : Base) : ps.has b = true ↔ ps.get b ≠ [] := by
  have hne := h.ne
  clear h
  induction ps with
  | nil => simp [has, get]
  | cons a r ih =>
    obtain ⟨k, v⟩ := a
    by_cases hk : k = b
    · subst hk; simp only [has, get, if_true, true_iff]; exact hne (k, v) (by simp)
    · simp only [has, get, hk, if_false]; exact ih (fun e he => hne e (by simp [he]))

end PDict

theorem DOK.put {ps : PDict α} (h : DOK ps) (b : Base) {l : List (PD α)} (hl : l ≠ []) : DOK (ps.put b l) := by
  refine ⟨?_, ?_⟩
  · rw [PDict.keys_put]; split
    · exact h.nodup
    · next hb => exact List.nodup_append.2 ⟨h.nodup, by simp, by
        intro a ha c hc; rw [List.mem_singleton] at hc; subst hc; rintro rfl; exact hb ha⟩
  · intro e he
    rcases PDict.mem_put he with rfl | he
    · exact hl
    · exact h.ne e he

theorem DOK.filter {ps : PDict α} (h : DOK ps) (f : Base × List (PD α) → Bool) : DOK (ps.filter f) :=
  ⟨(List.filter_sublist.map _).nodup h.nodup, fun e he => h.ne e (List.mem_filter.1 he).1⟩

theorem DOK.nil : DOK ([] : PDict α) := ⟨by simp, by simp⟩

/-- The product over a dictionary, one base kernel after the other. -/
theorem prod_dict {R : Type} [CommRing R] (g : Base → PD α → R) {ps : PDict α} (h : DOK ps) :
    (ps.map (fun e => (e.2.map (g e.1)).prod)).prod = (Base.all.map (fun b => ((ps.get b).map (g b)).prod)).prod := by
  have hn := h.nodup
  clear h
  induction ps with
  | nil => simp [Base.all, PDict.get]
  | cons a r ih =>
    obtain ⟨k, v⟩ := a
    rw [List.map_cons, List.nodup_cons] at hn
    have hk := PDict.get_eq_nil hn.1
    rw [List.map_cons, List.prod_cons, ih hn.2]
    cases k <;> simp only at hk <;> simp [Base.all, PDict.get, hk] <;> ring

/-! ## Counters -/

theorem pos_put {c : Counter} (hc : c.Pos) (b : Base) {v : Int} (hv : 0 < v) : (c.put b v).Pos := by
  induction c with
  | nil => intro p hp; simp only [Counter.put, List.mem_singleton] at hp; subst hp; exact hv
  | cons a r ih =>
    obtain ⟨k, w⟩ := a
    have hr : Counter.Pos r := fun p hp => hc p (by simp [hp])
    by_cases hk : k = b
    · intro p hp; rw [Counter.put, if_pos hk] at hp
      rcases List.mem_cons.1 hp with rfl | hp
      · exact hv
      · exact hr p hp
    · intro p hp; rw [Counter.put, if_neg hk] at hp
      rcases List.mem_cons.1 hp with rfl | hp
      · exact hc _ (by simp)
      · exact ih hr p hp

theorem get_sbp {c : Counter} (hc : c.WF) (hp : c.Pos) (b : Base) : (KE.simplifyBaseProd c 0).get b = normal c.get b := by
  have := KE.get_simplifyBase (cfg := .default) (op := .prod) (n := 0) hc hp b
  simp only [KE.simplifyBase] at this
  rw [this]; simp [KE.normCount, normal]

theorem wf_sbp {c : Counter} (hc : c.WF) : (KE.simplifyBaseProd c 0).WF :=
  KE.wf_simplifyBase (cfg := .default) (op := .prod) (n := 0) hc

theorem pos_sbp {c : Counter} : (KE.simplifyBaseProd c 0).Pos :=
  KE.pos_simplifyBase (cfg := .default) (op := .prod) (n := 0)

theorem normal_nonneg {f : Base → Int} (hf : ∀ b, 0 ≤ f b) (b : Base) : 0 ≤ normal f b := by
  have := hf b; have := hf .C; have := hf .SE
  unfold normal; split_ifs <;> omega

/-- Normalising a part first changes nothing. -/
theorem normal_add {f g : Base → Int} (hf : ∀ b, 0 ≤ f b) (hg : ∀ b, 0 ≤ g b) (b : Base) :
    normal (fun x => normal f x + g x) b = normal (fun x => f x + g x) b := by
  have := hf .WN; have := hf .C; have := hf .SE; have := hf .LIN; have := hf .PER
  have := hg .WN; have := hg .C; have := hg .SE; have := hg .LIN; have := hg .PER
  by_cases h : 0 < f .WN
  · have h1 : 0 < f .WN + g .WN := by omega
    have h2 : 0 < 1 + g .WN := by omega
    cases b <;> simp [normal, h, h1, h2]
  · by_cases h1 : 0 < g .WN
    · have h2 : 0 < f .WN + g .WN := by omega
      cases b <;> simp [normal, h, h2]
    · have h2 : ¬ 0 < f .WN + g .WN := by omega
      cases b <;> simp [normal, h, h2] <;> (try split_ifs) <;> omega

theorem normal_normal {f : Base → Int} (hf : ∀ b, 0 ≤ f b) (b : Base) : normal (normal f) b = normal f b := by
  have := normal_add hf (g := fun _ => 0) (fun _ => le_refl _) b
  simpa using this

/-- Only the sign of the noise count matters. -/
theorem normal_congr {f g : Base → Int} (hW : 0 < f .WN ↔ 0 < g .WN) (h : ∀ b, b ≠ .WN → f b = g b)
    (hf : 0 ≤ f .WN) (hg : 0 ≤ g .WN) (b : Base) : normal f b = normal g b := by
  have hC := h .C (by decide); have hS := h .SE (by decide); have hL := h .LIN (by decide); have hP := h .PER (by decide)
  by_cases h0 : 0 < f .WN
  · have h1 := hW.1 h0
    cases b <;> simp [normal, h0, h1] <;> exact h _ (by decide)
  · have h1 : ¬ 0 < g .WN := fun x => h0 (hW.2 x)
    cases b <;> simp [normal, h0, h1, hC, hS, hL, hP] <;> first | omega | exact h _ (by decide)

/-! ## Adding items -/

section
variable [Mul α] [One α]

/-- The dictionaries added for `b`. -/
def ib (l : List (Item α)) (b : Base) : List (PD α) := (l.filter (fun i => decide (i.1 = some b))).map (fun i => i.2.noVar)

/-- The variance after the loop. -/
def mulVars (v : α) (l : List (Item α)) : α := l.foldl (fun v i => match i.2.variance with | some x => v * x | none => v) v

theorem noVar_self {p : PD α} (h : p.variance = none) : p.noVar = p := by
  obtain ⟨a1, a2, a3, a4, a5, a6, a7⟩ := p; simp only at h; subst h; rfl

theorem ib_cons (b : Base) (p : PD α) (l : List (Item α)) (x : Base) :
    ib ((some b, p) :: l) x = if b = x then p.noVar :: ib l x else ib l x := by
  by_cases h : b = x <;> simp [ib, h]

theorem ib_cons_none (p : PD α) (l : List (Item α)) (x : Base) : ib ((none, p) :: l) x = ib l x := by simp [ib]

theorem ib_append (l l' : List (Item α)) (x : Base) : ib (l ++ l') x = ib l x ++ ib l' x := by simp [ib]

theorem ib_flatMap {β : Type} (f : β → List (Item α)) (l : List β) (x : Base) : ib (l.flatMap f) x = l.flatMap (fun y => ib (f y) x) := by
  induction l with
  | nil => rfl
  | cons a r ih => simp only [List.flatMap_cons, ib_append, ih]

/-- Items the loop can take. -/
def ItemOK (P : α → Prop) (i : Item α) : Prop :=
  (i.1 = none → i.2.variance.isSome) ∧ (i.1 = some .SE → ∃ x, i.2.lengthscale = some x ∧ P x)

theorem addItem_some (n : Prod α) (b : Base) (p : PD α) :
    addItem n (some b, p) = .ok ⟨n.bts.put b (n.bts.get b + 1), n.ps.append b p.noVar,
      n.pv.map (fun v => match p.variance with | some x => v * x | none => v)⟩ := by
  cases h : p.variance with
  | some v => simp only [addItem, h]
  | none => simp [addItem, h, noVar_self h]

theorem addItem_none (n : Prod α) (p : PD α) (x : α) (h : p.variance = some x) :
    addItem n (none, p) = .ok ⟨n.bts, n.ps, n.pv.map (· * x)⟩ := by
  unfold addItem; simp [h]

theorem addItems_ok {P : α → Prop} (l : List (Item α)) (hl : ∀ i ∈ l, ItemOK P i) (n : Prod α) (v : α) (hpv : n.pv = some v)
    (hd : DOK n.ps) (hw : n.bts.WF) (hp : n.bts.Pos) :
    ∃ m, addItems n l = .ok m ∧ m.pv = some (mulVars v l) ∧ (∀ b, m.ps.get b = n.ps.get b ++ ib l b) ∧
      (∀ b, m.bts.get b = n.bts.get b + (ib l b).length) ∧ DOK m.ps ∧ m.bts.WF ∧ m.bts.Pos := by
  induction l generalizing n v with
  | nil => exact ⟨n, rfl, by simpa [mulVars] using hpv, by simp [ib], by simp [ib], hd, hw, hp⟩
  | cons i is ih =>
    obtain ⟨bo, p⟩ := i
    have hl' : ∀ i ∈ is, ItemOK P i := fun i hi => hl i (by simp [hi])
    cases bo with
    | some b =>
      have hne : n.ps.get b ++ [p.noVar] ≠ [] := by simp
      obtain ⟨m, h1, h2, h3, h4, h5⟩ := ih hl' ⟨n.bts.put b (n.bts.get b + 1), n.ps.append b p.noVar,
        n.pv.map (fun v => match p.variance with | some x => v * x | none => v)⟩ _ (by rw [hpv]; rfl) (hd.put b hne)
        (Counter.wf_put hw _ _) (pos_put hp _ (by have := hp.nonneg b; omega))
      refine ⟨m, ?_, ?_, ?_, ?_, h5⟩
      · rw [addItems, addItem_some]; exact h1
      · rw [h2]; simp [mulVars]
      · intro x; rw [h3, ib_cons, PDict.append, PDict.get_put]
        by_cases hx : b = x
        · subst hx; simp
        · simp [hx]
      · intro x; rw [h4, ib_cons, Counter.get_put]
        by_cases hx : b = x
        · subst hx; simp only [if_true, List.length_cons]; push_cast; omega
        · simp [hx]
    | none =>
      obtain ⟨x, hx⟩ := Option.isSome_iff_exists.1 ((hl (none, p) (by simp)).1 rfl)
      simp only at hx
      obtain ⟨m, h1, h2, h3, h4, h5⟩ := ih hl' ⟨n.bts, n.ps, n.pv.map (· * x)⟩ (v * x) (by rw [hpv]; rfl) hd hw hp
      refine ⟨m, ?_, ?_, ?_, ?_, h5⟩
      · rw [addItems, addItem_none n p x hx]; exact h1
      · rw [h2]; simp [mulVars, hx]
      · intro y; rw [h3, ib_cons_none]
      · intro y; rw [h4, ib_cons_none]

variable (comb : α → α → α)

theorem lengthscales_ok {P : α → Prop} {l : List (PD α)} (h : ∀ p ∈ l, ∃ x, p.lengthscale = some x ∧ P x) :
    ∃ xs, lengthscales l = .ok xs ∧ xs.length = l.length ∧ List.Forall₂ (fun p x => p.lengthscale = some x ∧ P x) l xs := by
  induction l with
  | nil => exact ⟨[], rfl, rfl, List.Forall₂.nil⟩
  | cons p r ih =>
    obtain ⟨x, hx⟩ := h p (by simp)
    obtain ⟨xs, h1, h2, h3⟩ := ih (fun q hq => h q (by simp [hq]))
    refine ⟨x :: xs, ?_, by simp [h2], List.Forall₂.cons hx h3⟩
    simp only [lengthscales, hx.1, h1]; rfl

/-- What `simplify_base_terms_params` does to the dictionaries. -/
structure SimpRel (P : α → Prop) (cC : Prop) (f g : Base → List (PD α)) : Prop where
  noise : f .WN ≠ [] → ∀ b, g b = if b = .WN ∨ b.isSigmoid = true then f b else []
  other : f .WN = [] → ∀ b, b ≠ .C → b ≠ .SE → g b = f b
  const : f .WN = [] → (¬ cC → g .C = []) ∧ (cC → f .C ≠ [] → (g .C).length = 1 ∧ ∀ p ∈ g .C, p = {} ∨ p ∈ f .C) ∧ (f .C = [] → g .C = [])
  se1 : f .WN = [] → (f .SE).length ≤ 1 → g .SE = f .SE
  se2 : f .WN = [] → 1 < (f .SE).length → ∃ x xs, List.Forall₂ (fun p x => p.lengthscale = some x ∧ P x) (f .SE) (x :: xs) ∧
    g .SE = [{ lengthscale := some (xs.foldl comb x) }]

theorem simplifyParams_ok {P : α → Prop} {c : Counter} {ps : PDict α} (hd : DOK ps)
    (hls : ∀ p ∈ ps.get .SE, ∃ x, p.lengthscale = some x ∧ P x) :
    ∃ qs, simplifyParams comb c ps = .ok qs ∧ DOK qs ∧ SimpRel comb P (c.has .C = true) ps.get qs.get := by
  unfold simplifyParams
  by_cases hW : ps.get .WN = []
  · have e1 : dropWN ps = ps := by
      unfold dropWN; rw [if_neg]; rw [PDict.has_iff hd]; simpa using hW
    rw [e1]
    -- the constants
    obtain ⟨d1, hd1, o1, c1⟩ : ∃ d, DOK d ∧ (∀ b, b ≠ .C → d.get b = ps.get b) ∧
        ((¬ c.has .C = true → d.get .C = []) ∧ (c.has .C = true → ps.get .C ≠ [] → (d.get .C).length = 1 ∧ ∀ p ∈ d.get .C, p = {} ∨ p ∈ ps.get .C)
          ∧ (ps.get .C = [] → d.get .C = [])) ∧ dropC c ps = d := by
      refine ⟨dropC c ps, ?_, ?_, ?_, rfl⟩
      · unfold dropC; split
        · split
          · exact hd.filter _
          · split
            · exact hd.put _ (by simp)
            · exact hd
        · exact hd
      · intro b hb; unfold dropC; split
        · split
          · have := PDict.get_filter ps (fun k => decide (k ≠ .C)) b
            unfold PDict.del; rw [this]; simp [hb]
          · split
            · rw [PDict.get_put, if_neg (Ne.symm hb)]
            · rfl
        · rfl
      · unfold dropC
        by_cases hC : ps.get .C = []
        · have : ps.has .C = false := by
            cases h : ps.has .C
            · rfl
            · exact absurd hC ((PDict.has_iff hd _).1 h)
          rw [this]; simp [hC]
        · rw [if_pos ((PDict.has_iff hd _).2 hC)]
          by_cases hc : c.has .C = true
          · rw [if_neg (by simp [hc])]
            by_cases hl : (ps.get .C).length > 1
            · rw [if_pos hl, PDict.get_put]; simp [hc, hC]
            · rw [if_neg hl]
              have : (ps.get .C).length ≠ 0 := by simpa using hC
              refine ⟨fun h => absurd hc h, fun _ _ => ⟨by omega, fun p hp => Or.inr hp⟩, fun h => absurd h hC⟩
          · have hc' : c.has .C = false := by simpa using hc
            have := PDict.get_filter ps (fun k => decide (k ≠ .C)) .C
            rw [if_pos (by simp [hc'])]; unfold PDict.del; rw [this]; simp [hc']
    obtain ⟨c1, e2⟩ := c1
    rw [e2]
    have hSE : d1.get .SE = ps.get .SE := o1 .SE (by decide)
    unfold mergeSE
    by_cases hl : (ps.get .SE).length > 1
    · have hne : d1.get .SE ≠ [] := by rw [hSE]; intro h; rw [h] at hl; simp at hl
      rw [if_pos (by simp [(PDict.has_iff hd1 _).2 hne, hSE, hl])]
      obtain ⟨xs, h1, h2, h3⟩ := lengthscales_ok hls
      rw [hSE, h1]
      cases xs with
      | nil => simp at h2; rw [← h2] at hl; simp at hl
      | cons x xs =>
        refine ⟨d1.put .SE [{ lengthscale := some (xs.foldl comb x) }], rfl, hd1.put _ (by simp), ?_⟩
        refine ⟨fun h => absurd hW h, fun _ b hb hs => ?_, fun _ => ?_, fun _ h => ?_, fun _ _ => ?_⟩
        · rw [PDict.get_put, if_neg (Ne.symm hs), o1 b hb]
        · rw [PDict.get_put, if_neg (by decide)]; exact c1
        · omega
        · exact ⟨x, xs, h3, by rw [PDict.get_put, if_pos rfl]⟩
    · rw [if_neg (by simp [hSE]; intro _; omega)]
      refine ⟨d1, rfl, hd1, ?_⟩
      refine ⟨fun h => absurd hW h, fun _ b hb hs => o1 b hb, fun _ => c1, fun _ _ => hSE, fun _ h => absurd h hl⟩
  · have e1 : dropWN ps = ps.filter (fun e => decide (e.1 = .WN) || e.1.isSigmoid) := by
      unfold dropWN; rw [if_pos ((PDict.has_iff hd _).2 hW)]
    have hg : ∀ b, PDict.get (ps.filter (fun e => decide (e.1 = .WN) || e.1.isSigmoid)) b =
        if b = .WN ∨ b.isSigmoid = true then ps.get b else [] := by
      intro b
      have := PDict.get_filter ps (fun k => decide (k = .WN) || k.isSigmoid) b
      rw [this]; simp
    rw [e1]
    have hd1 : DOK (ps.filter (fun e => decide (e.1 = .WN) || e.1.isSigmoid)) := hd.filter _
    have hC : PDict.has (ps.filter (fun e => decide (e.1 = .WN) || e.1.isSigmoid)) .C = false := by
      cases h : PDict.has (ps.filter (fun e => decide (e.1 = .WN) || e.1.isSigmoid)) .C
      · rfl
      · exact absurd (by rw [hg]; simp [Base.isSigmoid]) ((PDict.has_iff hd1 _).1 h)
    have hS : PDict.has (ps.filter (fun e => decide (e.1 = .WN) || e.1.isSigmoid)) .SE = false := by
      cases h : PDict.has (ps.filter (fun e => decide (e.1 = .WN) || e.1.isSigmoid)) .SE
      · rfl
      · exact absurd (by rw [hg]; simp [Base.isSigmoid]) ((PDict.has_iff hd1 _).1 h)
    refine ⟨_, ?_, hd1, ?_⟩
    · simp [dropC, hC, mergeSE, hS]
    · exact ⟨fun _ b => hg b, fun h => absurd h hW, fun h => absurd h hW, fun h => absurd h hW, fun h => absurd h hW⟩

/-- The invariant of products without composite terms. -/
structure Inv (P : α → Prop) (n : Prod α) : Prop where
  dok : DOK n.ps
  wf : n.bts.WF
  pos : n.bts.Pos
  novar : ∀ b, ∀ p ∈ n.ps.get b, p.variance = none
  ls : ∀ p ∈ n.ps.get .SE, ∃ x, p.lengthscale = some x ∧ P x
  nm : ∀ b, normal n.bts.get b = n.bts.get b
  cW : 0 < n.bts.get .WN ↔ n.ps.get .WN ≠ []
  cLle : ((n.ps.get .LIN).length : Int) ≤ n.bts.get .LIN
  cLeq : n.ps.get .WN = [] → ((n.ps.get .LIN).length : Int) = n.bts.get .LIN
  cO : ∀ b, b ≠ .WN → b ≠ .LIN → ((n.ps.get b).length : Int) = n.bts.get b

theorem Inv.empty (P : α → Prop) : Inv P (Prod.empty : Prod α) := by
  refine ⟨DOK.nil, by simp [Prod.empty, Counter.WF], by simp [Prod.empty, Counter.Pos], ?_, ?_, fun b => by cases b <;> rfl, ?_, ?_, ?_, ?_⟩ <;>
    simp [Prod.empty, PDict.get, Counter.get]

theorem fold_P {P : α → Prop} (hP : ∀ a b, P a → P b → P (comb a b)) {l : List (PD α)} {xs : List α} {x : α} (hx : P x)
    (h : List.Forall₂ (fun p x => p.lengthscale = some x ∧ P x) l xs) : P (xs.foldl comb x) := by
  induction h generalizing x with
  | nil => exact hx
  | cons h1 _ ih => exact ih (hP _ _ hx h1.2)

/-- `new_bases_with_parameters` succeeds, keeps the invariant, and normalises the base terms. -/
theorem newBases_ok {P : α → Prop} (hP : ∀ a b, P a → P b → P (comb a b)) {n : Prod α} (hn : Inv P n) {l : List (Item α)}
    (hl : ∀ i ∈ l, ItemOK P i) :
    ∃ m, newBases comb n l = .ok m ∧ Inv P m ∧ m.pv = some (mulVars (n.pv.getD 1) l) ∧
      (∀ b, m.bts.get b = normal (fun b => n.bts.get b + (ib l b).length) b) ∧
      ∃ cC, SimpRel comb P cC (fun b => n.ps.get b ++ ib l b) m.ps.get := by
  obtain ⟨m, h1, h2, h3, h4, h5, h6, h7⟩ := addItems_ok (P := P) l hl { n with pv := some (n.pv.getD 1) } _ rfl hn.dok hn.wf hn.pos
  have hibv : ∀ b, ∀ p ∈ ib l b, p.variance = none := by
    intro b p hp; obtain ⟨i, _, rfl⟩ := List.mem_map.1 hp; rfl
  have hmv : ∀ b, ∀ p ∈ m.ps.get b, p.variance = none := by
    intro b p hp; rw [h3] at hp
    rcases List.mem_append.1 hp with hp | hp
    · exact hn.novar b p hp
    · exact hibv b p hp
  have hls : ∀ p ∈ m.ps.get .SE, ∃ x, p.lengthscale = some x ∧ P x := by
    intro p hp; rw [h3] at hp
    rcases List.mem_append.1 hp with hp | hp
    · exact hn.ls p hp
    · obtain ⟨i, hi, rfl⟩ := List.mem_map.1 hp
      rw [List.mem_filter] at hi
      exact (hl i hi.1).2 (by simpa using hi.2)
  obtain ⟨qs, k1, k2, k3⟩ := simplifyParams_ok comb (c := KE.simplifyBaseProd m.bts 0) h5 hls
  have hb : ∀ b, (KE.simplifyBaseProd m.bts 0).get b = normal m.bts.get b := get_sbp h6 h7
  have hcC : (KE.simplifyBaseProd m.bts 0).has .C = true ↔ 0 < normal m.bts.get .C := by
    rw [Counter.Pos.has_iff_get (wf_sbp h6) pos_sbp, hb]
  have nn := h7.nonneg
  -- agreement before simplification
  have aW : 0 < m.bts.get .WN ↔ m.ps.get .WN ≠ [] := by
    rw [h3, h4]; have := hn.cW; have := hn.pos.nonneg .WN
    cases hh : ib l .WN with
    | nil => simpa using hn.cW
    | cons x xs => simp; omega
  have aLle : ((m.ps.get .LIN).length : Int) ≤ m.bts.get .LIN := by
    rw [h3, h4]; have := hn.cLle; simp only [List.length_append]; push_cast; omega
  have aLeq : m.ps.get .WN = [] → ((m.ps.get .LIN).length : Int) = m.bts.get .LIN := by
    intro h; rw [h3] at h; have := hn.cLeq (List.append_eq_nil_iff.1 h).1
    rw [h3, h4]; simp only [List.length_append]; push_cast; omega
  have aO : ∀ b, b ≠ .WN → b ≠ .LIN → ((m.ps.get b).length : Int) = m.bts.get b := by
    intro b hb1 hb2; have := hn.cO b hb1 hb2
    rw [h3, h4]; simp only [List.length_append]; push_cast; omega
  have hnm : ∀ b, normal (KE.simplifyBaseProd m.bts 0).get b = (KE.simplifyBaseProd m.bts 0).get b := by
    intro b; rw [funext hb]; exact normal_normal nn b
  have aC := aO .C (by decide) (by decide)
  have aS := aO .SE (by decide) (by decide)
  refine ⟨⟨KE.simplifyBaseProd m.bts 0, qs, m.pv⟩, ?_, ?_, h2, ?_, ?_⟩
  · unfold newBases; rw [h1]; simp only [bind, Except.bind, k1]; rfl
  · by_cases hW : m.ps.get .WN = []
    · have w0 : m.bts.get .WN = 0 := by
        have := nn .WN
        by_contra hh; exact (aW.1 (by omega)) hW
      have w0' : ¬ 0 < m.bts.get .WN := by omega
      obtain ⟨kc1, kc2, kc3⟩ := k3.const hW
      refine ⟨k2, wf_sbp h6, pos_sbp, ?_, ?_, ?_, ?_, ?_, ?_, ?_⟩
      · intro b p hp; simp only at hp
        by_cases bC : b = .C
        · subst bC
          by_cases hc : (KE.simplifyBaseProd m.bts 0).has .C = true
          · by_cases hf : m.ps.get .C = []
            · rw [kc3 hf] at hp; simp at hp
            · rcases (kc2 hc hf).2 p hp with rfl | h
              · rfl
              · exact hmv _ _ h
          · rw [kc1 hc] at hp; simp at hp
        · by_cases bS : b = .SE
          · subst bS
            by_cases hs : (m.ps.get .SE).length ≤ 1
            · rw [k3.se1 hW hs] at hp; exact hmv _ _ hp
            · obtain ⟨x, xs, _, e⟩ := k3.se2 hW (by omega)
              rw [e, List.mem_singleton] at hp; subst hp; rfl
          · rw [k3.other hW b bC bS] at hp; exact hmv _ _ hp
      · intro p hp; simp only at hp
        by_cases hs : (m.ps.get .SE).length ≤ 1
        · rw [k3.se1 hW hs] at hp; exact hls p hp
        · obtain ⟨x, xs, hf, e⟩ := k3.se2 hW (by omega)
          rw [e, List.mem_singleton] at hp; subst hp
          refine ⟨_, rfl, ?_⟩
          obtain ⟨_, _, hf1, hf2, _⟩ := List.forall₂_cons_right_iff.1 hf
          exact fold_P comb hP hf1.2 hf2
      · exact hnm
      · simp only [hb, k3.other hW .WN (by decide) (by decide), hW]; simp [normal, w0]
      · simp only [hb, k3.other hW .LIN (by decide) (by decide)]; simpa [normal, w0'] using aLle
      · intro _; simp only [hb, k3.other hW .LIN (by decide) (by decide)]; simpa [normal, w0'] using aLeq hW
      · intro b b1 b2; simp only [hb]
        by_cases bC : b = .C
        · subst bC
          by_cases hc : (KE.simplifyBaseProd m.bts 0).has .C = true
          · have hc' := hcC.1 hc
            have : m.ps.get .C ≠ [] := by
              intro h; rw [h] at aC; simp [normal, w0', ← aC] at hc'
            rw [(kc2 hc this).1]
            simp only [normal, w0'] at hc' ⊢
            simp only [if_false, if_true] at hc' ⊢
            split at hc' <;> split <;> first | omega | (exfalso; tauto)
          · rw [kc1 hc]
            have h0 := normal_nonneg nn .C
            have : ¬ 0 < normal m.bts.get .C := fun h => hc (hcC.2 h)
            simp; omega
        · by_cases bS : b = .SE
          · subst bS
            by_cases hs : (m.ps.get .SE).length ≤ 1
            · rw [k3.se1 hW hs, aS]; simp [normal, w0']; omega
            · obtain ⟨x, xs, hf, e⟩ := k3.se2 hW (by omega)
              rw [e]; simp [normal, w0']; omega
          · rw [k3.other hW b bC bS, aO b b1 b2]; simp [normal, w0', bC, bS]
    · have w1 : 0 < m.bts.get .WN := aW.2 hW
      have hg := k3.noise hW
      refine ⟨k2, wf_sbp h6, pos_sbp, ?_, ?_, ?_, ?_, ?_, ?_, ?_⟩
      · intro b p hp; simp only [hg] at hp; split at hp
        · exact hmv _ _ hp
        · simp at hp
      · intro p hp; simp [hg, Base.isSigmoid] at hp
      · exact hnm
      · simp only [hb, hg]; simp [normal, w1, hW]
      · simp only [hb, hg]; have := nn .LIN; simp [normal, w1, Base.isSigmoid]; omega
      · intro h; simp [hg, hW] at h
      · intro b b1 b2; simp only [hb, hg]
        by_cases hs : b.isSigmoid = true
        · have hO := aO b b1 b2
          rw [if_pos (Or.inr hs), hO]
          have : b ≠ .C ∧ b ≠ .SE ∧ b ≠ .PER := by refine ⟨?_, ?_, ?_⟩ <;> (rintro rfl; exact absurd hs (by decide))
          unfold normal; rw [if_pos w1, if_neg b1, if_neg (by tauto)]
        · rw [if_neg (by tauto)]
          have : b = .C ∨ b = .SE ∨ b = .PER := by cases b <;> first | exact absurd rfl b1 | exact absurd rfl b2 | exact absurd rfl hs | simp
          unfold normal; rw [if_pos w1, if_neg b1, if_pos this]; rfl
  · intro b; simp only [hb]; congr 1; funext x; exact h4 x
  · have e : m.ps.get = fun b => n.ps.get b ++ ib l b := funext h3
    rw [e] at k3; exact ⟨_, k3⟩

end

end Sops
end GPyABCD
