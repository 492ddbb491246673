import Verif.Lemmas.Interp
import Mathlib.Algebra.BigOperators.Group.List.Basic
import Mathlib.Data.List.Perm.Basic
import Mathlib.Algebra.Order.Ring.Int

/-!
# Lemmas: what is described are the components of the expression
-/

namespace GPyABCD
namespace Sops

set_option linter.unusedSectionVars false

variable {α : Type}

theorem forall₂_forall {β γ ι : Type} [Inhabited ι] {R : ι → β → γ → Prop} {l : List β} {r : List γ} (h : ∀ i, List.Forall₂ (R i) l r) :
    List.Forall₂ (fun b c => ∀ i, R i b c) l r := by
  induction l generalizing r with
  | nil => cases h default; exact .nil
  | cons a l ih =>
    cases h default with
    | cons h1 h2 =>
      refine .cons (fun i => ?_) (ih fun i => ?_)
      · cases h i with | cons h _ => exact h
      · cases h i with | cons _ h => exact h

open Classical in
theorem prod_two {β : Type} [BEq β] [LawfulBEq β] (a : β) (l : List β) : (l.map (fun x => if x = a then (2 : Int) else 1)).prod = 2 ^ l.count a := by
  induction l with
  | nil => rfl
  | cons x l ih =>
    rw [List.map_cons, List.prod_cons, ih, List.count_cons]
    by_cases h : x = a
    · simp [h, Int.pow_succ, Int.mul_comm]
    · simp [h]

open Classical in
/-- A shape that counts one term. -/
noncomputable def countShape (w : Int) (b₀ : Base) (p₀ : PD α) (b : Base) (p : PD α) : Int :=
  if b = b₀ ∧ p = p₀ then 2 else if b = .WN then w else 1

theorem count_one {β : Type} {l : List β} {f : β → Int} (h : ∀ x ∈ l, f x = 1) : (l.map f).prod = 1 := by
  induction l with
  | nil => rfl
  | cons x l ih => rw [List.map_cons, List.prod_cons, h x (by simp), ih (fun y hy => h y (by simp [hy]))]; rfl

open Classical in
theorem V_count {w : Int} {b₀ : Base} {p₀ : PD α} (hb : b₀ ≠ .WN) {f : Base → List (PD α)} (hw : w = 1 ∨ f .WN = []) :
    V (countShape w b₀ p₀) f = 2 ^ (f b₀).count p₀ := by
  have h0 : ((f b₀).map (countShape w b₀ p₀ b₀)).prod = 2 ^ (f b₀).count p₀ := by
    rw [← prod_two]
    congr 1
    refine List.map_congr_left fun x _ => ?_
    by_cases hx : x = p₀ <;> simp [countShape, hx, hb]
  have h1 : ∀ b, b ≠ b₀ → ((f b).map (countShape w b₀ p₀ b)).prod = 1 := by
    intro b hne
    by_cases hb' : b = .WN
    · rcases hw with rfl | hw
      · exact count_one (by simp [countShape, hne])
      · rw [hb', hw]; rfl
    · exact count_one (by simp [countShape, hne, hb'])
  cases b₀ <;> simp [V, Base.all, h0, h1]

open Classical in
theorem val_count {w : Int} {b₀ : Base} {p₀ : PD α} (hb : b₀ ≠ .WN) {c : Comp α} (hw : w = 1 ∨ c.count .WN = 0) :
    c.val (fun _ => 1) (countShape w b₀ p₀) = 2 ^ c.fs.count (b₀, p₀) := by
  unfold Comp.val
  rw [count_one (by simp), one_mul, ← prod_two]
  congr 1
  refine List.map_congr_left fun x hx => ?_
  obtain ⟨b, p⟩ := x
  by_cases h : b = b₀ ∧ p = p₀
  · simp [countShape, h]
  · have h' : ¬ (b, p) = (b₀, p₀) := by rintro e; cases e; exact h ⟨rfl, rfl⟩
    rw [if_neg h']
    simp only [countShape, h, if_false]
    split_ifs with hW
    · rcases hw with rfl | hw
      · rfl
      · subst hW
        simp only [Comp.count, Nat.cast_eq_zero] at hw
        rw [List.countP_eq_zero] at hw
        exact absurd (hw _ hx) (by simp)
    · rfl

variable [Mul α] [One α] {comb : α → α → α}

theorem countShape_laws {w : Int} {b₀ : Base} {p₀ : PD α} (h : w = 1 ∧ b₀.isSigmoid = true ∨ w = 0 ∧ b₀ ≠ .WN ∧ b₀ ≠ .C) :
    ShapeLaws (fun _ : α => (1 : Int)) (countShape w b₀ p₀) := by
  refine ⟨rfl, fun _ _ => rfl, ?_, ?_⟩
  · intro p
    rcases h with ⟨rfl, hs⟩ | ⟨rfl, h1, h2⟩
    · have : Base.C ≠ b₀ := by rintro rfl; cases hs
      simp [countShape, this]
    · simp [countShape, Ne.symm h2]
  · intro b p q hb
    rcases h with ⟨rfl, hs⟩ | ⟨rfl, h1, h2⟩
    · have h1 : Base.WN ≠ b₀ := by rintro rfl; cases hs
      have h2 : b ≠ b₀ := by rintro rfl; rcases hb with rfl | rfl | rfl <;> cases hs
      simp [countShape, h1, h2]
    · simp [countShape, Ne.symm h1]

theorem countShape_se {w : Int} {b₀ : Base} {p₀ : PD α} (hb : b₀ ≠ .SE) : SELaw (countShape w b₀ p₀) comb (fun _ => True) := by
  refine ⟨fun _ _ _ _ => trivial, ?_⟩
  intro p q a b _ _ _ _
  simp [countShape, Ne.symm hb]

open Classical in
theorem filter_count (l : List (Base × PD α)) (b : Base) (p : PD α) :
    ((l.filter (fun f => decide (f.1 = b))).map (fun f => f.2)).count p = l.count (b, p) := by
  induction l with
  | nil => rfl
  | cons x l ih =>
    obtain ⟨b', p'⟩ := x
    by_cases h : b' = b
    · subst h
      rw [List.filter_cons_of_pos (by simp), List.map_cons, List.count_cons, List.count_cons, ih]
      by_cases hp : p' = p <;> simp [hp]
    · rw [List.filter_cons_of_neg (by simp [h]), ih, List.count_cons]
      simp [h]

/-- What is known of a component of the form. -/
structure Holds (c : Comp α) (n : Prod α) : Prop where
  inv : Inv (fun _ => True) n
  plain : Plain n
  bts : c.Clean → ∀ b, n.bts.get b = normal c.count b
  noWN : c.Clean → c.count .WN = 0 → n.ps.get .WN = []
  noLIN : c.Clean → c.count .LIN = 0 → n.ps.get .LIN = []
  sig : ∀ b, b.isSigmoid = true → (n.ps.get b).Perm ((c.fs.filter (fun f => decide (f.1 = b))).map (fun f => f.2))
  dicts : c.Clean → ∀ b, b.isSigmoid = true ∨ c.count .WN = 0 ∧ (b = .PER ∨ b = .LIN ∨ b = .SE ∧ c.count .SE ≤ 1) →
    (n.ps.get b).Perm ((c.fs.filter (fun f => decide (f.1 = b))).map (fun f => f.2))

instance : Inhabited (Base × PD α) := ⟨(.C, {})⟩

theorem form_holds (cfg : Cfg) (k : PKE α) (hk : asLeaf k = none) (hf : Fitted (fun _ => True) k) {k' : PKE α} (h : sops comb cfg k = .ok k') :
    ∃ cts, k' = .comm .sum [] [] none cts ∧ List.Forall₂ (fun c t => ∃ n : Prod α, t = n.ke ∧ Holds c n) (comps k) cts := by
  classical
  have ho : OwnTerms k := by
    by_contra hn; rw [sops_raises (fun _ _ _ _ => trivial) cfg k hk hf hn] at h; cases h
  have main : ∀ (i : Bool × Base × PD α), ∃ cts, k' = .comm .sum [] [] none cts ∧
      List.Forall₂ (RelK (fun _ : α => (1 : Int)) (countShape (if i.1 then 1 else 0) i.2.1 i.2.2) comb (fun _ => True)) (comps k) cts := by
    intro i
    obtain ⟨k'', h1, cts, h2, h3⟩ := sops_ok (φ := fun _ : α => (1 : Int)) (shape := countShape (if i.1 then 1 else 0) i.2.1 i.2.2)
      (P := fun _ => True) (fun _ _ _ _ => trivial) cfg k hk hf ho
    rw [h1] at h; cases h
    exact ⟨cts, h2, h3⟩
  obtain ⟨cts, hcts, _⟩ := main default
  have all : ∀ i : Bool × Base × PD α, List.Forall₂ (RelK (fun _ : α => (1 : Int)) (countShape (if i.1 then 1 else 0) i.2.1 i.2.2) comb (fun _ => True)) (comps k) cts := by
    intro i
    obtain ⟨cts', h1, h2⟩ := main i
    rw [hcts] at h1
    cases h1
    exact h2
  refine ⟨cts, hcts, ?_⟩
  refine (forall₂_forall all).imp ?_
  intro c t hct
  obtain ⟨n, rfl, hrel, hplain⟩ := hct default
  have hrel' : ∀ i : Bool × Base × PD α, Rel (fun _ : α => (1 : Int)) (countShape (if i.1 then 1 else 0) i.2.1 i.2.2) comb (fun _ => True) c n := by
    intro i
    obtain ⟨m, hm, hr, _⟩ := hct i
    have : m = n := by
      obtain ⟨a, b, d⟩ := m
      obtain ⟨a', b', d'⟩ := n
      simp only [Prod.ke, PKE.comm.injEq, true_and, and_true] at hm
      obtain ⟨rfl, rfl, rfl⟩ := hm
      rfl
    rw [← this]; exact hr
  refine ⟨n, rfl, hrel.inv, hplain, hrel.bts, fun hc h0 => hrel.noWN hc h0, fun hc h0 => hrel.noLIN hc h0, hrel.sig, ?_⟩
  intro hc b hb
  rw [List.perm_iff_count]
  intro p
  rw [filter_count]
  have hbW : b ≠ .WN := by
    rintro rfl
    rcases hb with hb | ⟨_, hb | hb | ⟨hb, _⟩⟩
    · cases hb
    all_goals cases hb
  have key : ∀ w : Bool, (w = true ∧ b.isSigmoid = true ∨ w = false ∧ b ≠ .WN ∧ b ≠ .C ∧ c.count .WN = 0) → (b ≠ .SE ∨ c.count .SE ≤ 1) →
      (n.ps.get b).count p = c.fs.count (b, p) := by
    intro w hw hse
    have hv := (hrel' (w, b, p)).val (countShape_laws (by
      rcases hw with ⟨rfl, h⟩ | ⟨rfl, h1, h2, _⟩
      · exact Or.inl ⟨rfl, h⟩
      · exact Or.inr ⟨rfl, h1, h2⟩)) hc (by
        rcases hse with h | h
        · exact Or.inr (countShape_se h)
        · exact Or.inl h)
    rw [V_count hbW, val_count hbW] at hv
    · simp only [varVal] at hv
      have h2 : ∀ m m' : Nat, (2 : Int) ^ m = 2 ^ m' → m = m' := by
        intro m m' hmm
        have : ((2 ^ m : Nat) : Int) = ((2 ^ m' : Nat) : Int) := by exact_mod_cast hmm
        exact Nat.pow_right_injective (le_refl 2) (by exact_mod_cast this)
      apply h2
      obtain ⟨v, hpv⟩ := Option.isSome_iff_exists.1 hplain.1
      rw [hpv] at hv
      simpa using hv
    · rcases hw with ⟨rfl, h⟩ | ⟨rfl, h1, h2, h3⟩
      · exact Or.inl rfl
      · exact Or.inr h3
    · rcases hw with ⟨rfl, h⟩ | ⟨rfl, h1, h2, h3⟩
      · exact Or.inl rfl
      · exact Or.inr (hrel.noWN hc h3)
  rcases hb with hb | ⟨h0, hb | hb | ⟨hb, h1⟩⟩
  · exact key true (Or.inl ⟨rfl, hb⟩) (Or.inl (by rintro rfl; cases hb))
  · subst hb; exact key false (Or.inr ⟨rfl, by simp, by simp, h0⟩) (Or.inl (by simp))
  · subst hb; exact key false (Or.inr ⟨rfl, by simp, by simp, h0⟩) (Or.inl (by simp))
  · subst hb; exact key false (Or.inr ⟨rfl, by simp, by simp, h0⟩) (Or.inr h1)

end Sops
end GPyABCD

namespace GPyABCD
namespace Interp
open Sops Interval

set_option linter.unusedSectionVars false

variable {α : Type}

theorem entryFacts_key {cfg : Cfg} {e : Base × List (PD α)} {f} (h : f ∈ entryFacts cfg e) : f.1 = e.1 ∧ e.1.isSigmoid = false := by
  unfold entryFacts at h
  split at h
  · simp at h
  · rename_i hs
    split at h
    · rw [List.mem_singleton] at h; subst h; exact ⟨rfl, by simpa using hs⟩
    · obtain ⟨p, _, rfl⟩ := List.mem_map.1 h; exact ⟨rfl, by simpa using hs⟩

theorem filter_entry_ne {cfg : Cfg} {e : Base × List (PD α)} {b : Base} (h : e.1 ≠ b) :
    (entryFacts cfg e).filter (fun f => decide (f.1 = b)) = [] := by
  rw [List.filter_eq_nil_iff]
  intro f hf
  simp [(entryFacts_key hf).1, h]

theorem filter_entry_eq {cfg : Cfg} {e : Base × List (PD α)} {b : Base} (h : e.1 = b) :
    (entryFacts cfg e).filter (fun f => decide (f.1 = b)) = entryFacts cfg e := by
  rw [List.filter_eq_self]
  intro f hf
  simp [(entryFacts_key hf).1, h]

theorem filter_facts {cfg : Cfg} {ps : PDict α} (h : DOK ps) (b : Base) :
    (ps.flatMap (entryFacts cfg)).filter (fun f => decide (f.1 = b)) = if ps.get b = [] then [] else entryFacts cfg (b, ps.get b) := by
  obtain ⟨hn, hne⟩ := h
  induction ps with
  | nil => simp [PDict.get]
  | cons e ps ih =>
    obtain ⟨k, v⟩ := e
    rw [List.map_cons, List.nodup_cons] at hn
    have ih := ih hn.2 (fun e he => hne e (by simp [he]))
    rw [List.flatMap_cons, List.filter_append, ih]
    by_cases hk : k = b
    · subst hk
      rw [filter_entry_eq (e := (k, v)) (b := k) rfl, PDict.get_eq_nil hn.1]
      have : v ≠ [] := hne (k, v) (by simp)
      simp [PDict.get, this]
    · rw [filter_entry_ne hk]
      simp [PDict.get, hk]

variable [LinearOrder α] [Add α] [One α] [Mul α]

theorem _root_.GPyABCD.Sops.Holds.mem {c : Comp α} {n : Prod α} (h : Holds c n) (b : Base) (p : PD α) (hb : b.isSigmoid = true) : p ∈ n.ps.get b ↔ (b, p) ∈ c.fs := by
  rw [(h.sig b hb).mem_iff, List.mem_map]
  constructor
  · rintro ⟨⟨b', p'⟩, hf, rfl⟩
    have := (List.mem_filter.1 hf)
    simp only [decide_eq_true_eq] at this
    obtain ⟨h1, rfl⟩ := this
    exact h1
  · intro hf
    exact ⟨(b, p), List.mem_filter.2 ⟨hf, by simp⟩, rfl⟩

theorem _root_.GPyABCD.Sops.Holds.entries {c : Comp α} {n : Prod α} (h : Holds c n) : ∀ e ∈ n.ps, e.1.isSigmoid = true → ∀ p ∈ e.2, e.1.isSigmoid = true ∧ (e.1, p) ∈ c.fs := by
  intro e he hs p hp
  refine ⟨hs, (h.mem e.1 p hs).1 ?_⟩
  rw [PDict.get_of_mem h.inv.dok he]; exact hp

theorem located {cfg : Cfg} {c : Comp α} {n : Prod α} {s : Sentence α} (h : Holds c n) (t : Tells cfg n.ps n.pv s) : Located c s := by
  have sigs := h.mem
  have hmem : ∀ b p, p ∈ n.ps.get b → ∃ e ∈ n.ps, e.1 = b ∧ p ∈ e.2 := by
    intro b p hp
    refine ⟨_, PDict.mem_of_get ?_, rfl, hp⟩
    rintro e; rw [e] at hp; simp at hp
  have hget : ∀ e ∈ n.ps, n.ps.get e.1 = e.2 := fun e he => PDict.get_of_mem h.inv.dok he
  refine ⟨?_, ?_, t.free⟩
  · rw [t.bounded]
    constructor
    · rintro ⟨e, he, hs⟩
      obtain ⟨p, hp⟩ := List.exists_mem_of_ne_nil _ (h.inv.dok.ne e he)
      refine ⟨(e.1, p), (sigs e.1 p hs).1 ?_, hs⟩
      rw [hget e he]; exact hp
    · rintro ⟨⟨b, p⟩, hf, hs⟩
      obtain ⟨e, he, rfl, _⟩ := hmem b p ((sigs b p hs).2 hf)
      exact ⟨e, he, hs⟩
  · intro hbd x
    rw [t.region hbd x]
    constructor
    · rintro hall ⟨b, p⟩ hf
      cases hs : b.isSigmoid with
      | false => cases b <;> trivial
      | true =>
        obtain ⟨e, he, rfl, hp⟩ := hmem b p ((sigs b p hs).2 hf)
        exact hall e he p hp
    · intro hall e he p hp
      cases hs : e.1.isSigmoid with
      | false =>
        generalize e.1 = b at hs
        cases b <;> trivial
      | true =>
        refine hall (e.1, p) ((sigs e.1 p hs).1 ?_)
        rw [hget e he]; exact hp

theorem describes {cfg : Cfg} {c : Comp α} {n : Prod α} {s : Sentence α} (h : Holds c n) (hc : c.Clean) (t : Tells cfg n.ps n.pv s) : Describes cfg c s := by
  have hfil := fun b => (t.facts.filter (fun f => decide (f.1 = b))).trans (List.Perm.of_eq (filter_facts h.inv.dok b))
  refine { toLocated := located h t, counts := ?_, plain := ?_, numbers := ?_, orders := t.orders, decreasing := t.decreasing }
  · intro b hb
    rw [(hfil b).length_eq, ← h.bts hc b]
    have lenLe : ∀ b', b' = .C ∨ b' = .SE → n.bts.get b' ≤ 1 := by
      intro b' hb'
      rw [← h.inv.nm b']
      rcases hb' with rfl | rfl <;> simp only [normal, reduceCtorEq, or_true, true_or, if_true, if_false] <;> split_ifs <;> omega
    cases b with
    | WN =>
      have h1 := h.inv.cW
      have h2 := h.inv.nm .WN
      have h3 : n.bts.get .WN ≤ 1 := by
        rw [← h2]; simp only [normal, if_true, reduceCtorEq, if_false]; split_ifs <;> omega
      split_ifs with he
      · have : ¬ 0 < n.bts.get .WN := fun hp => h1.1 hp he
        have := h.inv.pos.nonneg .WN
        simp; omega
      · have := h1.2 he
        simp [entryFacts, Base.isSigmoid]; omega
    | C =>
      have h1 := h.inv.cO .C (by simp) (by simp)
      have h2 := lenLe .C (Or.inl rfl)
      split_ifs with he
      · rw [he] at h1; simpa using h1
      · have : 0 < (n.ps.get .C).length := List.length_pos_iff.2 he
        simp [entryFacts, Base.isSigmoid]; omega
    | SE =>
      have h1 := h.inv.cO .SE (by simp) (by simp)
      split_ifs with he
      · rw [he] at h1; simpa using h1
      · simpa [entryFacts, Base.isSigmoid] using h1
    | PER =>
      have h1 := h.inv.cO .PER (by simp) (by simp)
      split_ifs with he
      · rw [he] at h1; simpa using h1
      · simpa [entryFacts, Base.isSigmoid] using h1
    | LIN =>
      have h1 : ((n.ps.get .LIN).length : Int) = n.bts.get .LIN := by
        rcases hc with h0 | h0
        · exact h.inv.cLeq (h.noWN (Or.inl h0) h0)
        · rw [h.noLIN (Or.inr h0) h0, h.bts (Or.inr h0), normal_LIN, h0]; rfl
      split_ifs with he
      · rw [he] at h1; simpa using h1
      · simpa [entryFacts, Base.isSigmoid] using h1
    | S => cases hb
    | Sr => cases hb
    | SI => cases hb
    | SIr => cases hb
  · intro f hf
    obtain ⟨e, _, he⟩ := List.mem_flatMap.1 (t.facts.mem_iff.1 hf)
    rw [(entryFacts_key he).1]; exact (entryFacts_key he).2
  · intro b hb h0
    refine (hfil b).trans ?_
    have hd := (h.dicts hc b (Or.inr ⟨h0, hb⟩)).map (fun p => (b, told cfg b p))
    rw [List.map_map] at hd
    refine List.Perm.trans (List.Perm.of_eq ?_) hd
    split_ifs with he
    · rw [he]; rfl
    · rcases hb with rfl | rfl | ⟨rfl, _⟩ <;> simp [entryFacts, Base.isSigmoid]

/-! ## Change points only -/

/-- The kernel of a group. -/
def gkind : Interval.Group α → Base
  | .S _ => .S
  | .Sr _ => .Sr
  | .SI _ => .SI
  | .SIr _ => .SIr

/-- Its sigmoids. -/
def gpars : Interval.Group α → List (SigP α)
  | .S g => g
  | .Sr g => g
  | .SI g => g
  | .SIr g => g

theorem readAll_ne {β : Type} {f : PD α → Except PyErr β} {l : List (PD α)} {r : List β} (h : readAll f l = .ok r) (hl : l ≠ []) : r ≠ [] := by
  cases l with
  | nil => exact absurd rfl hl
  | cons p l =>
    simp only [readAll, bind_ok, pure, Except.pure, Except.ok.injEq] at h
    obtain ⟨x, _, xs, _, rfl⟩ := h
    simp

theorem groups_kinds {cfg : Cfg} {ps : PDict α} (hne : ∀ e ∈ ps, e.2 ≠ []) {gs : List (Interval.Group α)} (h : groups cfg ps = .ok gs) :
    gs.map gkind = (ps.map (fun e => e.1)).filter Base.isSigmoid ∧ ∀ g ∈ gs, gpars g ≠ [] := by
  induction ps generalizing gs with
  | nil => simp only [groups, Except.ok.injEq] at h; subst h; simp
  | cons e r ih =>
    obtain ⟨b, ps⟩ := e
    have hp : ps ≠ [] := hne (b, ps) (by simp)
    have ih := fun {gs} => ih (fun e he => hne e (by simp [he])) (gs := gs)
    cases b <;> simp only [groups, bind_ok, pure, Except.pure, Except.ok.injEq] at h
    all_goals first
      | (obtain ⟨g, h1, gs', h2, rfl⟩ := h
         have := ih h2
         refine ⟨by rw [List.map_cons, List.map_cons, this.1]; rfl, ?_⟩
         rw [List.forall_mem_cons]
         exact ⟨readAll_ne h1 hp, this.2⟩)
      | (have := ih h
         exact ⟨by rw [this.1]; rfl, this.2⟩)

theorem sOverlap_points {g : List (SigP α)} (hg : g ≠ []) : ∃ p, sOverlap (g.map (fun p => some (sInterval p))) = .ok (some (sInterval p)) := by
  obtain ⟨r, hr⟩ := sOverlap_total (ps := g.map (fun p => some (sInterval p))) (by simpa using hg) (by
    intro v hv
    obtain ⟨p, _, rfl⟩ := List.mem_map.1 hv
    exact ⟨_, _, rfl, rfl⟩)
  obtain ⟨p, hp, rfl⟩ := List.mem_map.1 (sOverlap_ok hr).1
  exact ⟨p, hr⟩

theorem srOverlap_points {g : List (SigP α)} (hg : g ≠ []) : ∃ p, srOverlap (g.map (fun p => some (srInterval p))) = .ok (some (srInterval p)) := by
  obtain ⟨r, hr⟩ := srOverlap_total (ps := g.map (fun p => some (srInterval p))) (by simpa using hg) (by
    intro v hv
    obtain ⟨p, _, rfl⟩ := List.mem_map.1 hv
    exact ⟨_, _, rfl, rfl⟩)
  obtain ⟨p, hp, rfl⟩ := List.mem_map.1 (srOverlap_ok hr).1
  exact ⟨p, hr⟩

/-- Change points only are always reduced. -/
theorem points_reduce {gs : List (Interval.Group α)} (h0 : gs ≠ []) (hk : ∀ g ∈ gs, gkind g = .S ∨ gkind g = .Sr) (hn : (gs.map gkind).Nodup)
    (hne : ∀ g ∈ gs, gpars g ≠ []) : ∃ l, sigmoidIntervals gs = .ok l ∧ none ∉ l := by
  match gs, h0 with
  | [g], _ =>
    have h1 := hne g (by simp)
    have h2 := hk g (by simp)
    cases g with
    | S g =>
      obtain ⟨p, hp⟩ := sOverlap_points h1
      exact ⟨[some (sInterval p)], by simp [sigmoidIntervals, reduceGroups, reduceGroup, gpars] at hp ⊢; simp [hp, simplifyAll, simplifyGo, bind, Except.bind, pure, Except.pure, Functor.map, Except.map], by simp⟩
    | Sr g =>
      obtain ⟨p, hp⟩ := srOverlap_points h1
      exact ⟨[some (srInterval p)], by simp [sigmoidIntervals, reduceGroups, reduceGroup, gpars] at hp ⊢; simp [hp, simplifyAll, simplifyGo, bind, Except.bind, pure, Except.pure, Functor.map, Except.map], by simp⟩
    | SI g => simp [gkind] at h2
    | SIr g => simp [gkind] at h2
  | [g, g'], _ =>
    have h1 := hne g (by simp)
    have h2 := hk g (by simp)
    have h3 := hne g' (by simp)
    have h4 := hk g' (by simp)
    have two : ∀ p q : SigP α, ∃ r, pairEnds (some (sInterval p)) (some (srInterval q)) = .ok r ∧
        (r = .list [] ∨ r = .ivl (merge (sInterval p) (srInterval q))) := by
      intro p q
      by_cases hlt : p.loc < q.loc
      · exact ⟨_, by simp [pairEnds, Interval.sub, Interval.get, sInterval, srInterval, bind, Except.bind, hlt, pure, Except.pure], Or.inr rfl⟩
      · exact ⟨_, by simp [pairEnds, Interval.sub, Interval.get, sInterval, srInterval, bind, Except.bind, hlt, pure, Except.pure], Or.inl rfl⟩
    have hid : ∀ p q : SigP α, identify (merge (sInterval p) (srInterval q)) = .flat .SI (some (merge (sInterval p) (srInterval q))) := fun _ _ => rfl
    cases g <;> cases g' <;> simp [gkind] at h2 h4 hn
    · obtain ⟨p, hp⟩ := sOverlap_points h1
      obtain ⟨q, hq⟩ := srOverlap_points h3
      obtain ⟨r, hr, hcase⟩ := two p q
      simp only [gpars] at hp hq
      rcases hcase with rfl | rfl
      · exact ⟨[], by simp [sigmoidIntervals, reduceGroups, reduceGroup, hp, hq, simplifyAll, simplifyGo, simplifyStep, pair, pairFlat, hr, stepRes, bind, Except.bind, pure, Except.pure, Functor.map, Except.map], by simp⟩
      · exact ⟨[some (merge (sInterval p) (srInterval q))], by simp [sigmoidIntervals, reduceGroups, reduceGroup, hp, hq, simplifyAll, simplifyGo, simplifyStep, pair, pairFlat, hr, stepRes, hid, bind, Except.bind, pure, Except.pure, Functor.map, Except.map], by simp⟩
    · obtain ⟨p, hp⟩ := srOverlap_points h1
      obtain ⟨q, hq⟩ := sOverlap_points h3
      obtain ⟨r, hr, hcase⟩ := two q p
      simp only [gpars] at hp hq
      rcases hcase with rfl | rfl
      · exact ⟨[], by simp [sigmoidIntervals, reduceGroups, reduceGroup, hp, hq, simplifyAll, simplifyGo, simplifyStep, pair, pairFlat, hr, stepRes, bind, Except.bind, pure, Except.pure, Functor.map, Except.map], by simp⟩
      · exact ⟨[some (merge (sInterval q) (srInterval p))], by simp [sigmoidIntervals, reduceGroups, reduceGroup, hp, hq, simplifyAll, simplifyGo, simplifyStep, pair, pairFlat, hr, stepRes, hid, bind, Except.bind, pure, Except.pure, Functor.map, Except.map], by simp⟩
  | g1 :: g2 :: g3 :: r, _ =>
    have h1 := hk g1 (by simp)
    have h2 := hk g2 (by simp)
    have h3 := hk g3 (by simp)
    simp only [List.map_cons, List.nodup_cons, List.mem_cons, not_or] at hn
    obtain ⟨⟨a, b, _⟩, ⟨c, _⟩, _⟩ := hn
    rcases h1 with h1 | h1 <;> rcases h2 with h2 | h2 <;> rcases h3 with h3 | h3 <;> rw [h1] at a b <;> rw [h2] at a c <;> rw [h3] at b c <;> simp at a b c

/-! ## One sigmoid only -/

theorem readAll_length {β : Type} {f : PD α → Except PyErr β} {l : List (PD α)} {r : List β} (h : readAll f l = .ok r) : r.length = l.length := by
  induction l generalizing r with
  | nil => simp only [readAll, Except.ok.injEq] at h; subst h; rfl
  | cons p l ih =>
    simp only [readAll, bind_ok, pure, Except.pure, Except.ok.injEq] at h
    obtain ⟨x, _, xs, hx, rfl⟩ := h
    simp [ih hx]

/-- Whether the group is of windows. -/
def gwindow : Interval.Group α → Bool
  | .S _ => false
  | .Sr _ => false
  | .SI _ => true
  | .SIr _ => true

theorem groups_read {cfg : Cfg} {ps : PDict α} {gs : List (Interval.Group α)} (h : groups cfg ps = .ok gs) :
    ∀ g ∈ gs, ∃ e ∈ ps, e.1 = gkind g ∧ readAll (readSig cfg (gwindow g)) e.2 = .ok (gpars g) := by
  induction ps generalizing gs with
  | nil => simp only [groups, Except.ok.injEq] at h; subst h; simp
  | cons e r ih =>
    obtain ⟨b, ps⟩ := e
    have up : ∀ gs', groups cfg r = .ok gs' → ∀ g ∈ gs', ∃ e ∈ (b, ps) :: r, e.1 = gkind g ∧ readAll (readSig cfg (gwindow g)) e.2 = .ok (gpars g) := by
      intro gs' h' g hg
      obtain ⟨e, he, h1⟩ := ih h' g hg
      exact ⟨e, by simp [he], h1⟩
    cases b <;> simp only [groups, bind_ok, pure, Except.pure, Except.ok.injEq] at h
    all_goals first
      | (obtain ⟨g, h1, gs', h2, rfl⟩ := h
         intro g' hg'
         rcases List.mem_cons.1 hg' with rfl | hg'
         · exact ⟨_, List.mem_cons_self, rfl, h1⟩
         · exact up gs' h2 g' hg')
      | exact up gs h

theorem readSig_fields {cfg : Cfg} {w : Bool} {p : PD α} {q : SigP α} (h : readSig cfg w p = .ok q) :
    p.location = some q.loc ∧ (w = true → p.width = some q.width) := by
  obtain ⟨_, _, _, _, loc, sl, wd⟩ := p
  cases hfix : cfg.fixSlope <;> cases w <;> cases loc <;> cases sl <;> cases wd <;>
    simp [readSig, hfix, Interval.get, bind, Except.bind, pure, Except.pure] at h ⊢ <;> subst h <;> simp

/-- The sigmoids of a component, kind by kind. -/
theorem sigs_length (l : List (Base × PD α)) : (l.filter (fun f => f.1.isSigmoid)).length =
    (l.filter (fun f => decide (f.1 = .S))).length + (l.filter (fun f => decide (f.1 = .Sr))).length +
      ((l.filter (fun f => decide (f.1 = .SI))).length + (l.filter (fun f => decide (f.1 = .SIr))).length) := by
  induction l with
  | nil => rfl
  | cons x l ih =>
    obtain ⟨b, p⟩ := x
    cases b <;> simp [List.filter_cons, Base.isSigmoid] at ih ⊢ <;> omega

/-- One sigmoid is always reduced. -/
theorem single_reduce {cfg : Cfg} {c : Comp α} {n : Prod α} (h : Holds c n) {gs : List (Interval.Group α)} (hg : groups cfg n.ps = .ok gs) (h0 : gs ≠ [])
    (h1 : (c.fs.filter (fun f => f.1.isSigmoid)).length ≤ 1) (hw : ∀ f ∈ c.fs, f.1 = .SI → ∀ l ∈ f.2.location, ∀ w ∈ f.2.width, l < l + w) :
    ∃ l, sigmoidIntervals gs = .ok l ∧ none ∉ l := by
  obtain ⟨k1, k2⟩ := groups_kinds h.inv.dok.ne hg
  have kr := groups_read hg
  have hlen : ∀ b, b.isSigmoid = true → (n.ps.get b).length = (c.fs.filter (fun f => decide (f.1 = b))).length := by
    intro b hb; rw [(h.sig b hb).length_eq, List.length_map]
  rw [sigs_length, ← hlen .S rfl, ← hlen .Sr rfl, ← hlen .SI rfl, ← hlen .SIr rfl] at h1
  have hsig : ∀ g ∈ gs, (gkind g).isSigmoid = true := by intro g _; cases g <;> rfl
  have hpos : ∀ g ∈ gs, 0 < (n.ps.get (gkind g)).length ∧ (gpars g).length = (n.ps.get (gkind g)).length := by
    intro g hg'
    obtain ⟨e, he, e1, e2⟩ := kr g hg'
    have := PDict.get_of_mem h.inv.dok he
    rw [e1] at this
    rw [this, ← readAll_length e2]
    exact ⟨List.length_pos_iff.2 (k2 g hg'), rfl⟩
  have hn : (gs.map gkind).Nodup := by rw [k1]; exact h.inv.dok.nodup.filter _
  obtain ⟨g, rfl⟩ : ∃ g, gs = [g] := by
    match gs, h0 with
    | [g], _ => exact ⟨g, rfl⟩
    | g :: g' :: r, _ =>
      exfalso
      have a := (hpos g (by simp)).1
      have b := (hpos g' (by simp)).1
      have hne : gkind g ≠ gkind g' := by
        simp only [List.map_cons, List.nodup_cons, List.mem_cons, not_or] at hn
        exact hn.1.1
      cases g <;> cases g' <;> simp only [gkind, ne_eq, not_true_eq_false, reduceCtorEq, not_false_eq_true] at a b hne <;> omega
  have hone : (gpars g).length = 1 := by
    have a := (hpos g (by simp)).2
    have b := (hpos g (by simp)).1
    rw [a]
    cases g <;> simp only [gkind] at b ⊢ <;> omega
  obtain ⟨p, hp⟩ := List.length_eq_one_iff.1 hone
  obtain ⟨e, he, e1, e2⟩ := kr g (by simp)
  cases g with
  | S ps => exact points_reduce (by simp) (by simp [gkind]) (by simp) k2
  | Sr ps => exact points_reduce (by simp) (by simp [gkind]) (by simp) k2
  | SI ps =>
    simp only [gpars] at hp
    subst hp
    simp only [gpars, gwindow, gkind] at e1 e2
    have hlt : p.loc < p.loc + p.width := by
      match hq : e.2, e2 with
      | [], e2 => simp [readAll] at e2
      | q :: r, e2 =>
        simp only [readAll, bind_ok, pure, Except.pure, Except.ok.injEq] at e2
        obtain ⟨x, hx, xs, _, e3⟩ := e2
        simp only [List.cons.injEq] at e3
        obtain ⟨rfl, _⟩ := e3
        obtain ⟨f1, f2⟩ := readSig_fields hx
        have := h.entries e he (by rw [e1]; rfl) q (by rw [hq]; simp)
        exact hw _ this.2 e1 _ f1 _ (f2 rfl)
    refine ⟨[some (siInterval p)], ?_, by simp⟩
    simp [sigmoidIntervals, reduceGroups, reduceGroup, siOverlap, sOverlap, srOverlap, maxBy, minBy, maxGo, minGo, Interval.sub, Interval.get, siInterval, hlt,
      simplifyAll, simplifyGo, bind, Except.bind, pure, Except.pure, Functor.map, Except.map]
  | SIr ps =>
    simp only [gpars] at hp
    subst hp
    exact ⟨_, rfl, by simp⟩

end Interp
end GPyABCD
