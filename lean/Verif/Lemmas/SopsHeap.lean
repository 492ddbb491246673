import Verif.Model.SopsHeap
import Mathlib.Order.Basic
import Mathlib.Data.Nat.Basic
import Mathlib.Tactic.Set
import Mathlib.Tactic.Tauto

/-!
# Lemmas: the sum-of-products form with dictionaries and lists as objects
-/

namespace GPyABCD
namespace Sops
namespace Hp

variable {α : Type} {β γ β' γ' : Type}

/-! ## Two runs -/

/-- Both fail in the same way, or both succeed with `Q`. -/
def Sim (x : Except SErr (Store α × β)) (y : Except SErr γ) (Q : Store α → β → γ → Prop) : Prop :=
  match x, y with
  | .ok (s, b), .ok c => Q s b c
  | .error e, .error e' => e = e'
  | _, _ => False

theorem Sim.bind {x : Except SErr (Store α × β)} {y : Except SErr γ} {Q : Store α → β → γ → Prop}
    {f : Store α × β → Except SErr (Store α × β')} {g : γ → Except SErr γ'} {Q' : Store α → β' → γ' → Prop}
    (h : Sim x y Q) (hf : ∀ s b c, Q s b c → Sim (f (s, b)) (g c) Q') : Sim (x >>= f) (y >>= g) Q' := by
  rcases x with e | ⟨s, b⟩ <;> rcases y with e' | c <;> simp [Sim] at h
  · subst h; simp [Bind.bind, Except.bind, Sim]
  · exact hf s b c h

theorem Sim.mono {x : Except SErr (Store α × β)} {y : Except SErr γ} {Q Q' : Store α → β → γ → Prop}
    (h : Sim x y Q) (hf : ∀ s b c, Q s b c → Q' s b c) : Sim x y Q' := by
  rcases x with e | ⟨s, b⟩ <;> rcases y with e' | c <;> simp [Sim] at h ⊢
  · exact h
  · exact hf _ _ _ h

/-! ## Frames -/

/-- From `s` to `s'` at most the dictionaries `A` and the lists `B` have changed, besides new ones. -/
structure Fr (A B : Nat → Prop) (s s' : Store α) : Prop where
  nd : s.nd ≤ s'.nd
  nl : s.nl ≤ s'.nl
  d : ∀ r, r < s.nd → ¬ A r → s'.d r = s.d r
  l : ∀ r, r < s.nl → ¬ B r → s'.l r = s.l r

theorem Fr.refl {A B : Nat → Prop} (s : Store α) : Fr A B s s := ⟨le_refl _, le_refl _, fun _ _ _ => rfl, fun _ _ _ => rfl⟩

theorem Fr.trans {A B : Nat → Prop} {s t u : Store α} (h : Fr A B s t) (h' : Fr A B t u) : Fr A B s u := by
  refine ⟨h.nd.trans h'.nd, h.nl.trans h'.nl, fun r hr ha => ?_, fun r hr ha => ?_⟩
  · rw [h'.d r (by have := h.nd; omega) ha, h.d r hr ha]
  · rw [h'.l r (by have := h.nl; omega) ha, h.l r hr ha]

theorem Fr.mono {A B A' B' : Nat → Prop} {s t : Store α} (h : Fr A B s t) (ha : ∀ r, r < s.nd → A r → A' r)
    (hb : ∀ r, r < s.nl → B r → B' r) : Fr A' B' s t :=
  ⟨h.nd, h.nl, fun r hr h' => h.d r hr (fun h'' => h' (ha r hr h'')), fun r hr h' => h.l r hr (fun h'' => h' (hb r hr h''))⟩

theorem fr_newD (s : Store α) (p : PD α) {A B : Nat → Prop} : Fr A B s (s.newD p) :=
  ⟨by simp [Store.newD], by simp [Store.newD], fun r hr _ => by simp [Store.newD]; omega, fun _ _ _ => rfl⟩

theorem fr_newL (s : Store α) (x : List Nat) {A B : Nat → Prop} : Fr A B s (s.newL x) :=
  ⟨by simp [Store.newL], by simp [Store.newL], fun _ _ _ => rfl, fun r hr _ => by simp [Store.newL]; omega⟩

theorem fr_setD (s : Store α) (a : Nat) (p : PD α) {A B : Nat → Prop} (h : A a) : Fr A B s (s.setD a p) :=
  ⟨le_refl _, le_refl _, fun r _ h' => by
    simp only [Store.setD]
    rw [if_neg]
    rintro rfl; exact h' h, fun _ _ _ => rfl⟩

theorem fr_setL (s : Store α) (a : Nat) (x : List Nat) {A B : Nat → Prop} (h : B a) : Fr A B s (s.setL a x) :=
  ⟨le_refl _, le_refl _, fun _ _ _ => rfl, fun r _ h' => by
    simp only [Store.setL]
    rw [if_neg]
    rintro rfl; exact h' h⟩

theorem fr_dup (s : Store α) {A B : Nat → Prop} : Fr A B s s.dup :=
  ⟨by simp [Store.dup], by simp [Store.dup], fun r hr _ => by simp [Store.dup, hr], fun r hr _ => by simp [Store.dup, hr]⟩

/-! ## Parameters -/

/-- The addresses of the lists. -/
def lr (ps : HDict) : List Nat := ps.map (fun e => e.2)

/-- The addresses of the dictionaries. -/
def dr (s : Store α) (ps : HDict) : List Nat := ps.flatMap (fun e => s.l e.2)

theorem mem_dr {s : Store α} {ps : HDict} {r : Nat} : r ∈ dr s ps ↔ ∃ a ∈ lr ps, r ∈ s.l a := by
  simp only [dr, lr, List.mem_flatMap, List.mem_map]
  exact ⟨fun ⟨e, h1, h2⟩ => ⟨_, ⟨e, h1, rfl⟩, h2⟩, fun ⟨_, ⟨e, h1, rfl⟩, h2⟩ => ⟨e, h1, h2⟩⟩

theorem rdPs_congr {s s' : Store α} {ps : HDict} (hl : ∀ a ∈ lr ps, s'.l a = s.l a) (hd : ∀ r ∈ dr s ps, s'.d r = s.d r) :
    rdPs s' ps = rdPs s ps := by
  unfold rdPs
  apply List.map_congr_left
  intro e he
  have h1 : e.2 ∈ lr ps := List.mem_map_of_mem he
  simp only [rdL, hl _ h1]
  congr 1
  exact List.map_congr_left (fun r hr => hd r (mem_dr.2 ⟨_, h1, hr⟩))

theorem dr_congr {s s' : Store α} {ps : HDict} (hl : ∀ a ∈ lr ps, s'.l a = s.l a) : dr s' ps = dr s ps := by
  unfold dr
  rw [List.flatMap_def, List.flatMap_def, List.map_congr_left (fun e he => hl _ (List.mem_map_of_mem he))]

theorem get_rdPs (s : Store α) (ps : HDict) (b : Base) : (rdPs s ps).get b = ((ps.find b).map (rdL s)).getD [] := by
  induction ps with
  | nil => rfl
  | cons e ps ih =>
    obtain ⟨k, v⟩ := e
    simp only [rdPs, List.map_cons, PDict.get, HDict.find] at ih ⊢
    split
    · simp
    · exact ih

theorem has_rdPs (s : Store α) (ps : HDict) (b : Base) : (rdPs s ps).has b = (ps.find b).isSome := by
  induction ps with
  | nil => rfl
  | cons e ps ih =>
    obtain ⟨k, v⟩ := e
    simp only [rdPs, List.map_cons, PDict.has, HDict.find] at ih ⊢
    split
    · simp
    · exact ih

theorem find_mem {ps : HDict} {b : Base} {a : Nat} (h : ps.find b = some a) : a ∈ lr ps := by
  induction ps with
  | nil => simp [HDict.find] at h
  | cons e ps ih =>
    obtain ⟨k, v⟩ := e
    simp only [HDict.find] at h
    split at h
    · cases h; simp [lr]
    · simp only [lr, List.map_cons, List.mem_cons]; right; exact ih h

theorem rdPs_filter (s : Store α) (ps : HDict) (f : Base → Bool) :
    rdPs s (ps.filter (fun e => f e.1)) = (rdPs s ps).filter (fun e => f e.1) := by
  simp only [rdPs, List.filter_map]; rfl

theorem lr_filter (ps : HDict) (f : Base × Nat → Bool) : (lr (ps.filter f)).Sublist (lr ps) :=
  List.Sublist.map _ List.filter_sublist

theorem dr_of_lr {s : Store α} {ps ps' : HDict} (h : ∀ a ∈ lr ps', a ∈ lr ps) : ∀ r ∈ dr s ps', r ∈ dr s ps := by
  intro r hr
  obtain ⟨a, ha, h'⟩ := mem_dr.1 hr
  exact mem_dr.2 ⟨a, h a ha, h'⟩

/-- Changing a list in place is assigning to its entry. -/
theorem rdPs_setL (s : Store α) (ps : HDict) (b : Base) (a : Nat) (x : List Nat) (h : ps.find b = some a) (hn : (lr ps).Nodup) :
    rdPs (s.setL a x) ps = (rdPs s ps).put b (x.map s.d) := by
  induction ps with
  | nil => simp [HDict.find] at h
  | cons e ps ih =>
    obtain ⟨k, v⟩ := e
    simp only [HDict.find] at h
    simp only [lr, List.map_cons, List.nodup_cons] at hn
    simp only [rdPs, List.map_cons, PDict.put]
    split at h
    · rename_i hk
      rw [if_pos hk]
      have h : v = a := by simpa using h
      subst h
      congr 1
      · simp [rdL, Store.setL]
      · exact rdPs_congr (s := s) (s' := s.setL v x) (fun c hc => by
          simp only [Store.setL]; rw [if_neg]; rintro rfl; exact hn.1 hc) (fun _ _ => rfl)
    · rename_i hk
      rw [if_neg hk]
      have hav : v ≠ a := by rintro rfl; exact hn.1 (find_mem h)
      congr 1
      · simp [rdL, Store.setL, hav]
      · exact ih h hn.2

/-- Assigning a new list. -/
theorem rdPs_put (s : Store α) (ps : HDict) (b : Base) (x : List Nat) (hl : ∀ a ∈ lr ps, a < s.nl) :
    rdPs (s.newL x) (ps.put b s.nl) = (rdPs s ps).put b (x.map s.d) := by
  induction ps with
  | nil => simp [HDict.put, rdPs, PDict.put, rdL, Store.newL]
  | cons e ps ih =>
    obtain ⟨k, v⟩ := e
    simp only [lr, List.map_cons, List.mem_cons, forall_eq_or_imp] at hl
    have hc : rdPs (s.newL x) ps = rdPs s ps := rdPs_congr (fun c hc => by
      simp only [Store.newL]; rw [if_neg]; have := hl.2 c hc; omega) (fun _ _ => rfl)
    simp only [HDict.put]
    by_cases hk : k = b
    · rw [if_pos hk]
      simp only [rdPs, List.map_cons, PDict.put, if_pos hk]
      congr 1
      simp [rdL, Store.newL]
    · rw [if_neg hk]
      simp only [rdPs, List.map_cons, PDict.put, if_neg hk]
      congr 1
      · have : v ≠ s.nl := by omega
        simp [rdL, Store.newL, this]
      · exact ih hl.2

theorem lr_put {ps : HDict} {b : Base} {x : Nat} : ∀ a ∈ lr (ps.put b x), a ∈ lr ps ∨ a = x := by
  induction ps with
  | nil => simp [HDict.put, lr]
  | cons e ps ih =>
    obtain ⟨k, v⟩ := e
    intro a ha
    simp only [HDict.put] at ha
    split at ha <;> simp only [lr, List.map_cons, List.mem_cons] at ha ⊢
    · tauto
    · rcases ha with h | h
      · tauto
      · rcases ih a h with h | h
        · left; right; exact h
        · right; exact h

theorem lr_put_nodup {ps : HDict} {b : Base} {x : Nat} (hn : (lr ps).Nodup) (hx : x ∉ lr ps) : (lr (ps.put b x)).Nodup := by
  induction ps with
  | nil => simp [HDict.put, lr]
  | cons e ps ih =>
    obtain ⟨k, v⟩ := e
    simp only [lr, List.map_cons, List.nodup_cons, List.mem_cons, not_or] at hn hx
    simp only [HDict.put]
    split <;> simp only [lr, List.map_cons, List.nodup_cons]
    · exact ⟨hx.2, hn.2⟩
    · refine ⟨fun h => ?_, ih hn.2 hx.2⟩
      rcases lr_put v h with h | h
      · exact hn.1 h
      · exact hx.1 h.symm

/-- Lists of their own, dictionaries without variance. -/
structure Ps (s : Store α) (ps : HDict) : Prop where
  nodup : (lr ps).Nodup
  lt : ∀ a ∈ lr ps, a < s.nl
  db : ∀ r ∈ dr s ps, r < s.nd ∧ (s.d r).variance = none

/-- A product as `new_bases_with_parameters` leaves it. -/
structure Good (s : Store α) (n : HProd) : Prop where
  ps : Ps s n.ps
  pv : ∃ a, n.pv = some a ∧ a < s.nd ∧ (s.d a).variance ≠ none

theorem Ps.fr {A B : Nat → Prop} {s s' : Store α} {ps : HDict} (h : Ps s ps) (f : Fr A B s s') (ha : ∀ r ∈ dr s ps, ¬ A r)
    (hb : ∀ a ∈ lr ps, ¬ B a) : Ps s' ps ∧ rdPs s' ps = rdPs s ps ∧ dr s' ps = dr s ps := by
  have hl : ∀ a ∈ lr ps, s'.l a = s.l a := fun a h' => f.l a (h.lt a h') (hb a h')
  have hd : ∀ r ∈ dr s ps, s'.d r = s.d r := fun r h' => f.d r (h.db r h').1 (ha r h')
  have hr := dr_congr (s := s) (s' := s') hl
  refine ⟨⟨h.nodup, fun a h' => (h.lt a h').trans_le f.nl, fun r h' => ?_⟩, rdPs_congr hl hd, hr⟩
  rw [hr] at h'
  rw [hd r h']
  exact ⟨(h.db r h').1.trans_le f.nd, (h.db r h').2⟩

theorem Good.fr {A B : Nat → Prop} {s s' : Store α} {n : HProd} (h : Good s n) (f : Fr A B s s') (ha : ∀ r ∈ dr s n.ps, ¬ A r)
    (hp : ∀ a, n.pv = some a → ¬ A a) (hb : ∀ a ∈ lr n.ps, ¬ B a) : Good s' n ∧ rdP s' n = rdP s n := by
  obtain ⟨h1, h2, _⟩ := h.ps.fr f ha hb
  obtain ⟨a, e, h3, h4⟩ := h.pv
  have := f.d a h3 (hp a e)
  exact ⟨⟨h1, a, e, h3.trans_le f.nd, by rw [this]; exact h4⟩, by simp [rdP, h2, rdPv, e, this]⟩

/-! ## Adding terms to a product -/

theorem append_sim {s : Store α} {ps : HDict} (b : Base) {p : Nat} (h : Ps s ps) (hp : p < s.nd) (hv : (s.d p).variance = none) :
    rdPs (appendH s ps b p).1 (appendH s ps b p).2 = (rdPs s ps).append b (s.d p) ∧ Ps (appendH s ps b p).1 (appendH s ps b p).2 ∧
    Fr (fun _ => False) (fun a => a ∈ lr ps) s (appendH s ps b p).1 ∧ (∀ a ∈ lr (appendH s ps b p).2, a ∈ lr ps ∨ s.nl ≤ a) ∧
    (∀ r ∈ dr (appendH s ps b p).1 (appendH s ps b p).2, r ∈ dr s ps ∨ r = p) := by
  unfold appendH
  cases hf : ps.find b with
  | some a =>
    have hd : ∀ r ∈ dr (s.setL a (s.l a ++ [p])) ps, r ∈ dr s ps ∨ r = p := by
      intro r hr
      obtain ⟨c, hc, h'⟩ := mem_dr.1 hr
      simp only [Store.setL] at h'
      split at h'
      · rename_i e; subst e
        rcases List.mem_append.1 h' with h' | h'
        · exact Or.inl (mem_dr.2 ⟨_, hc, h'⟩)
        · exact Or.inr (by simpa using h')
      · exact Or.inl (mem_dr.2 ⟨_, hc, h'⟩)
    refine ⟨?_, ⟨h.nodup, h.lt, fun r hr => ?_⟩, fr_setL _ _ _ (find_mem hf), fun a ha => Or.inl ha, hd⟩
    · show rdPs (s.setL a (s.l a ++ [p])) ps = _
      rw [rdPs_setL _ _ _ _ _ hf h.nodup, PDict.append, get_rdPs, hf]
      simp [rdL]
    · rcases hd r hr with h' | rfl
      · exact h.db r h'
      · exact ⟨hp, hv⟩
  | none =>
    have hl : ∀ a ∈ lr (ps.put b s.nl), a ∈ lr ps ∨ a = s.nl := lr_put
    have hd : ∀ r ∈ dr (s.newL [p]) (ps.put b s.nl), r ∈ dr s ps ∨ r = p := by
      intro r hr
      obtain ⟨c, hc, h'⟩ := mem_dr.1 hr
      simp only [Store.newL] at h'
      split at h'
      · exact Or.inr (by simpa using h')
      · rcases hl c hc with h'' | h''
        · exact Or.inl (mem_dr.2 ⟨_, h'', h'⟩)
        · contradiction
    refine ⟨?_, ⟨lr_put_nodup h.nodup (fun h' => by have := h.lt _ h'; omega), fun a ha => ?_, fun r hr => ?_⟩, fr_newL _ _, fun a ha => ?_, hd⟩
    · show rdPs (s.newL [p]) (ps.put b s.nl) = _
      rw [rdPs_put _ _ _ _ h.lt, PDict.append, get_rdPs, hf]
      simp
    · rcases hl a ha with h' | rfl
      · have := h.lt a h'; simp [Store.newL]; omega
      · simp [Store.newL]
    · rcases hd r hr with h' | rfl
      · exact h.db r h'
      · exact ⟨hp, hv⟩
    · rcases hl a ha with h' | rfl
      · exact Or.inl h'
      · right; exact le_refl _

section
variable [Mul α] [One α]

/-- Where the addresses of a product come from: from `n`, from `I`, or they are new. -/
structure From (s : Store α) (n : HProd) (I : Nat → Prop) (s' : Store α) (n' : HProd) : Prop where
  l : ∀ a ∈ lr n'.ps, a ∈ lr n.ps ∨ s.nl ≤ a
  d : ∀ r ∈ dr s' n'.ps, r ∈ dr s n.ps ∨ I r ∨ s.nd ≤ r

theorem addItem_sim {s : Store α} {n : HProd} (hn : Good s n) (i : HItem) (hi : i.2 < s.nd) (hp : n.pv ≠ some i.2) :
    Sim (addItemH s n i) (addItem (rdP s n) (i.1, s.d i.2)) (fun s' n' m => m = rdP s' n' ∧ Good s' n' ∧ n'.pv = n.pv ∧
      Fr (fun r => n.pv = some r ∨ (i.1 ≠ none ∧ i.2 = r ∧ (s.d r).variance ≠ none)) (fun a => a ∈ lr n.ps) s s' ∧
      From s n (fun r => r = i.2) s' n') := by
  obtain ⟨a, ea, ha, hv⟩ := hn.pv
  obtain ⟨x, hx⟩ := Option.ne_none_iff_exists'.1 hv
  have hpa : i.2 ≠ a := fun h => hp (by rw [ea, h])
  have hda : a ∉ dr s n.ps := fun h => hv (hn.ps.db a h).2
  rcases i with ⟨_ | b, p⟩
  · -- the variance of another product
    simp only [addItemH, addItem]
    cases hvp : (s.d p).variance with
    | none => simp [Sim]
    | some v =>
      simp only [Sim, timesH, ea]
      have f : Fr (fun r => r = a) (fun _ => False) s (s.setD a { s.d a with variance := (s.d a).variance.map (· * v) }) := fr_setD _ _ _ rfl
      obtain ⟨h1, h2, h3⟩ := hn.ps.fr f (fun r hr e => hda (e ▸ hr)) (fun _ _ => id)
      refine ⟨?_, ⟨h1, a, ea, ha, by simp [Store.setD, hx]⟩, by trivial, f.mono (fun r _ e => Or.inl (by rw [e])) (fun _ _ => False.elim), ⟨fun _ h => Or.inl h, fun r hr => ?_⟩⟩
      · simp only [rdP, h2, rdPv, ea, Option.bind_some]
        simp [Store.setD]
      · rw [h3] at hr; exact Or.inl hr
  · simp only [addItemH, addItem]
    simp only at hpa hi
    cases hvp : (s.d p).variance with
    | none =>
      obtain ⟨h1, h2, h3, h4, h5⟩ := append_sim b hn.ps hi hvp
      simp only [Sim]
      refine ⟨?_, ⟨h2, a, ea, ha.trans_le h3.nd, by rw [h3.d a ha id]; exact hv⟩, by trivial, h3.mono (fun _ _ => False.elim) (fun _ _ => id), ⟨h4, fun r hr => ?_⟩⟩
      · simp only [rdP, h1, rdPv, ea, Option.bind_some, h3.d a ha id]
      · rcases h5 r hr with h | h
        · exact Or.inl h
        · exact Or.inr (Or.inl h)
    | some v =>
      simp only [Sim, timesH, ea]
      have hdp : p ∉ dr s n.ps := fun h => by have := (hn.ps.db p h).2; rw [hvp] at this; simp at this
      set t := s.setD a { s.d a with variance := (s.d a).variance.map (· * v) } with ht
      have etp : t.d p = s.d p := by simp [ht, Store.setD, hpa]
      have eta : (t.d a).variance = some (x * v) := by simp [ht, Store.setD, hx]
      set u := t.setD p (t.d p).noVar with hu
      have f : Fr (fun r => r = a ∨ r = p) (fun _ => False) s u := (fr_setD _ _ _ (Or.inl rfl)).trans (fr_setD _ _ _ (Or.inr rfl))
      obtain ⟨h1, h2, h3⟩ := hn.ps.fr f (fun r hr e => by rcases e with rfl | rfl; exacts [hda hr, hdp hr]) (fun _ _ => id)
      have eup : u.d p = (s.d p).noVar := by simp [hu, Store.setD, etp]
      have eua : (u.d a).variance = some (x * v) := by simp [hu, Store.setD, Ne.symm hpa, eta]
      have hia : p < u.nd := hi.trans_le f.nd
      obtain ⟨k1, k2, k3, k4, k5⟩ := append_sim b h1 hia (by rw [eup]; rfl)
      have ha' : a < u.nd := ha.trans_le f.nd
      refine ⟨?_, ⟨k2, a, by first | rfl | exact ea, ha'.trans_le k3.nd, by rw [k3.d a ha' id, eua]; simp⟩, by trivial, ?_, ⟨k4, fun r hr => ?_⟩⟩
      · simp only [rdP, k1, rdPv, ea, Option.bind_some, k3.d a ha' id, eua, h2, eup, hx, Option.map_some]
      · refine (f.mono (fun r _ e => ?_) (fun _ _ => False.elim)).trans (k3.mono (fun _ _ => False.elim) (fun _ _ => id))
        rcases e with rfl | rfl
        · exact Or.inl (by first | rfl | exact ea)
        · exact Or.inr ⟨by simp, rfl, by rw [hvp]; simp⟩
      · rcases k5 r hr with h | h
        · rw [h3] at h; exact Or.inl h
        · exact Or.inr (Or.inl h)

/-- What a list of items may change: those that have a variance and are not the variance of a product. -/
def Touch (s : Store α) (l : List HItem) (r : Nat) : Prop := ∃ i ∈ l, i.1 ≠ none ∧ i.2 = r ∧ (s.d r).variance ≠ none

theorem addItems_sim : ∀ (l : List HItem) {s : Store α} {n : HProd}, Good s n → (∀ i ∈ l, i.2 < s.nd) → (∀ i ∈ l, n.pv ≠ some i.2) →
    l.Pairwise (fun i j => i.1 ≠ none → (s.d i.2).variance ≠ none → i.2 ≠ j.2) →
    Sim (addItemsH s n l) (addItems (rdP s n) (l.map (fun i => (i.1, s.d i.2)))) (fun s' n' m => m = rdP s' n' ∧ Good s' n' ∧ n'.pv = n.pv ∧
      Fr (fun r => n.pv = some r ∨ Touch s l r) (fun a => a ∈ lr n.ps) s s' ∧ From s n (fun r => r ∈ l.map (fun i => i.2)) s' n')
  | [], s, n, hn, _, _, _ => by
    simp only [addItemsH, addItems, List.map_nil, Sim]
    exact ⟨by trivial, hn, by trivial, Fr.refl _, ⟨fun _ h => Or.inl h, fun _ h => Or.inl h⟩⟩
  | i :: l, s, n, hn, hi, hp, hw => by
    simp only [addItemsH, addItems, List.map_cons]
    refine (addItem_sim hn i (hi i (by simp)) (hp i (by simp))).bind ?_
    rintro s1 n1 m ⟨rfl, h2, h3, h4, h5⟩
    have hw' := List.pairwise_cons.1 hw
    have same : ∀ j ∈ l, s1.d j.2 = s.d j.2 := by
      intro j hj
      refine h4.d j.2 (hi j (by simp [hj])) ?_
      rintro (h | ⟨a, b, c⟩)
      · exact hp j (by simp [hj]) h
      · exact hw'.1 j hj a (by rw [b]; exact c) b
    have e : l.map (fun i => (i.1, s1.d i.2)) = l.map (fun i => (i.1, s.d i.2)) :=
      List.map_congr_left (fun j hj => by rw [same j hj])
    have ih := addItems_sim l h2 (fun j hj => (hi j (by simp [hj])).trans_le h4.nd) (fun j hj => by rw [h3]; exact hp j (by simp [hj]))
      (hw'.2.imp_of_mem (fun {j k} hj _ h a b => h a (by rw [← same j hj]; exact b)))
    rw [e] at ih
    refine ih.mono ?_
    rintro s2 n2 m ⟨rfl, k2, k3, k4, k5⟩
    refine ⟨rfl, k2, k3.trans h3, ?_, ⟨fun a ha => ?_, fun r hr => ?_⟩⟩
    · have g1 : Fr (fun r => n.pv = some r ∨ Touch s (i :: l) r) (fun a => a ∈ lr n.ps) s s1 := h4.mono (fun r _ h => by
        rcases h with h | ⟨a, b, c⟩
        · exact Or.inl h
        · exact Or.inr ⟨i, by simp, a, b, c⟩) (fun _ _ => id)
      refine ⟨g1.nd.trans k4.nd, g1.nl.trans k4.nl, fun r hr ha => ?_, fun r hr ha => ?_⟩
      · rw [k4.d r (hr.trans_le g1.nd), g1.d r hr ha]
        rintro (h | ⟨j, hj, a, b, c⟩)
        · exact ha (Or.inl (by rw [← h3, h]))
        · rw [← b, same j hj, b] at c
          exact ha (Or.inr ⟨j, by simp [hj], a, b, c⟩)
      · rw [k4.l r (hr.trans_le g1.nl), g1.l r hr ha]
        intro h
        rcases h5.l r h with h | h
        · exact ha h
        · omega
    · rcases k5.l a ha with h | h
      · exact h5.l a h
      · right; have := h4.nl; omega
    · rcases k5.d r hr with h | h | h
      · rcases h5.d r h with h | h | h
        · exact Or.inl h
        · right; left; simp [h]
        · right; right; exact h
      · right; left; simp only [List.map_cons, List.mem_cons]; right; exact h
      · right; right; have := h4.nd; omega

theorem put_new {s : Store α} {ps : HDict} (b : Base) (p : PD α) (h : Ps s ps) (hp : p.variance = none) :
    rdPs ((s.newD p).newL [s.nd]) (ps.put b s.nl) = (rdPs s ps).put b [p] ∧ Ps ((s.newD p).newL [s.nd]) (ps.put b s.nl) ∧
    Fr (fun _ => False) (fun _ => False) s ((s.newD p).newL [s.nd]) ∧ (∀ a ∈ lr (ps.put b s.nl), a ∈ lr ps ∨ s.nl ≤ a) ∧
    (∀ r ∈ dr ((s.newD p).newL [s.nd]) (ps.put b s.nl), r ∈ dr s ps ∨ s.nd ≤ r) := by
  have f : Fr (fun _ => False) (fun _ => False) s (s.newD p) := fr_newD _ _
  obtain ⟨h1, h2, h3⟩ := h.fr f (fun _ _ => id) (fun _ _ => id)
  have hl : ∀ a ∈ lr (ps.put b s.nl), a ∈ lr ps ∨ a = s.nl := lr_put
  have hd : ∀ r ∈ dr ((s.newD p).newL [s.nd]) (ps.put b s.nl), r ∈ dr s ps ∨ r = s.nd := by
    intro r hr
    obtain ⟨c, hc, h'⟩ := mem_dr.1 hr
    rcases hl c hc with h'' | rfl
    · have : c ≠ s.nl := by have := h.lt c h''; omega
      simp [Store.newL, Store.newD, this] at h'
      exact Or.inl (mem_dr.2 ⟨_, h'', h'⟩)
    · simp [Store.newL, Store.newD] at h'
      exact Or.inr h'
  refine ⟨?_, ⟨lr_put_nodup h.nodup (fun h' => by have := h.lt _ h'; omega), fun a ha => ?_, fun r hr => ?_⟩, f.trans (fr_newL _ _), fun a ha => ?_, fun r hr => ?_⟩
  · have := rdPs_put (s.newD p) ps b [s.nd] h1.lt
    rw [show (s.newD p).nl = s.nl from rfl] at this
    rw [this, h2]
    simp [Store.newD]
  · rcases hl a ha with h' | rfl
    · have := h.lt a h'; simp [Store.newL, Store.newD]; omega
    · simp [Store.newL, Store.newD]
  · rcases hd r hr with h' | rfl
    · have := (h.db r h').1
      have hne : r ≠ s.nd := by omega
      simp only [Store.newL, Store.newD, if_neg hne]
      exact ⟨by omega, (h.db r h').2⟩
    · simp [Store.newL, Store.newD, hp]
  · rcases hl a ha with h' | rfl
    · exact Or.inl h'
    · right; exact le_refl _
  · rcases hd r hr with h' | rfl
    · exact Or.inl h'
    · right; exact le_refl _

/-- What the three blocks of `simplify_base_terms_params` do to the parameters: nothing old is changed. -/
structure Kept (s : Store α) (ps : HDict) (s' : Store α) (ps' : HDict) : Prop where
  ok : Ps s' ps'
  fr : Fr (fun _ => False) (fun _ => False) s s'
  l : ∀ a ∈ lr ps', a ∈ lr ps ∨ s.nl ≤ a
  d : ∀ r ∈ dr s' ps', r ∈ dr s ps ∨ s.nd ≤ r

theorem Kept.trans {s t u : Store α} {p q r : HDict} (h : Kept s p t q) (h' : Kept t q u r) : Kept s p u r := by
  refine ⟨h'.ok, h.fr.trans h'.fr, fun a ha => ?_, fun a ha => ?_⟩
  · rcases h'.l a ha with h'' | h''
    · exact h.l a h''
    · right; have := h.fr.nl; omega
  · rcases h'.d a ha with h'' | h''
    · exact h.d a h''
    · right; have := h.fr.nd; omega

theorem Kept.sub {s : Store α} {ps ps' : HDict} (h : Ps s ps) (hs : (lr ps').Sublist (lr ps)) : Kept s ps s ps' := by
  have hl : ∀ a ∈ lr ps', a ∈ lr ps := fun a ha => hs.subset ha
  exact ⟨⟨hs.nodup h.nodup, fun a ha => h.lt a (hl a ha), fun r hr => h.db r (dr_of_lr hl r hr)⟩, Fr.refl _,
    fun a ha => Or.inl (hl a ha), fun r hr => Or.inl (dr_of_lr hl r hr)⟩

theorem dropWN_sim {s : Store α} {ps : HDict} (h : Ps s ps) : rdPs s (dropWNH ps) = dropWN (rdPs s ps) ∧ Kept s ps s (dropWNH ps) := by
  unfold dropWNH dropWN
  rw [has_rdPs]
  cases hf : (ps.find .WN).isSome with
  | false => exact ⟨rfl, Kept.sub h (List.Sublist.refl _)⟩
  | true =>
    simp only [if_true]
    exact ⟨rdPs_filter s ps (fun b => decide (b = .WN) || b.isSigmoid), Kept.sub h (lr_filter _ _)⟩

theorem dropC_sim {s : Store α} {ps : HDict} (c : Counter) (h : Ps s ps) :
    rdPs (dropCH s c ps).1 (dropCH s c ps).2 = dropC c (rdPs s ps) ∧ Kept s ps (dropCH s c ps).1 (dropCH s c ps).2 := by
  unfold dropCH dropC
  rw [has_rdPs]
  cases hf : ps.find .C with
  | none => exact ⟨by simp, Kept.sub h (List.Sublist.refl _)⟩
  | some a =>
    simp only [Option.isSome_some, if_true]
    have hg : (rdPs s ps).get .C = rdL s a := by rw [get_rdPs, hf]; rfl
    rw [hg]
    cases hc : c.has .C with
    | false =>
      simp only [Bool.not_false, if_true]
      exact ⟨rdPs_filter s ps (fun b => decide (b ≠ .C)), Kept.sub h (lr_filter _ _)⟩
    | true =>
      simp only [Bool.not_true, Bool.false_eq_true, if_false]
      have hlen : (rdL s a).length = (s.l a).length := by simp [rdL]
      rw [hlen]
      split
      · obtain ⟨h1, h2, h3, h4, h5⟩ := put_new .C ({} : PD α) h rfl
        exact ⟨h1, h2, h3, h4, h5⟩
      · exact ⟨rfl, Kept.sub h (List.Sublist.refl _)⟩

variable (comb : α → α → α)

theorem mergeSE_sim {s : Store α} {ps : HDict} (h : Ps s ps) :
    Sim (mergeSEH comb s ps) (mergeSE comb (rdPs s ps)) (fun s' ps' q => q = rdPs s' ps' ∧ Kept s ps s' ps') := by
  unfold mergeSEH mergeSE
  rw [has_rdPs]
  cases hf : ps.find .SE with
  | none => simpa [Sim] using Kept.sub h (List.Sublist.refl _)
  | some a =>
    have hg : (rdPs s ps).get .SE = (s.l a).map s.d := by rw [get_rdPs, hf]; rfl
    rw [hg]
    simp only [Option.isSome_some, Bool.true_and, List.length_map, decide_eq_true_eq]
    split
    · cases hl : lengthscales ((s.l a).map s.d) with
      | error e => simp [Sim, Bind.bind, Except.bind]
      | ok ls =>
        cases ls with
        | nil => simp [Sim, Bind.bind, Except.bind]
        | cons x xs =>
          obtain ⟨h1, h2, h3, h4, h5⟩ := put_new .SE ({ lengthscale := some (xs.foldl comb x) } : PD α) h rfl
          exact ⟨h1.symm, h2, h3, h4, h5⟩
    · simpa [Sim] using Kept.sub h (List.Sublist.refl _)

theorem simplifyParams_sim {s : Store α} {ps : HDict} (c : Counter) (h : Ps s ps) :
    Sim (simplifyParamsH comb s c ps) (simplifyParams comb c (rdPs s ps)) (fun s' ps' q => q = rdPs s' ps' ∧ Kept s ps s' ps') := by
  unfold simplifyParamsH simplifyParams
  obtain ⟨h1, h2⟩ := dropWN_sim h
  obtain ⟨h3, h4⟩ := dropC_sim c h2.ok
  rw [← h1, ← h3]
  exact (mergeSE_sim comb h4.ok).mono (fun _ _ _ h => ⟨h.1, (h2.trans h4).trans h.2⟩)

/-- `new_bases_with_parameters` on objects does what it does on values. -/
theorem newBases_sim {s : Store α} {n : HProd} (hn : n = HProd.empty ∨ Good s n) (l : List HItem) (hi : ∀ i ∈ l, i.2 < s.nd)
    (hp : ∀ i ∈ l, n.pv ≠ some i.2) (hw : l.Pairwise (fun i j => i.1 ≠ none → (s.d i.2).variance ≠ none → i.2 ≠ j.2)) :
    Sim (newBasesH comb s n l) (newBases comb (rdP s n) (l.map (fun i => (i.1, s.d i.2)))) (fun s' n' m => m = rdP s' n' ∧ Good s' n' ∧
      (n'.pv = n.pv ∨ n.pv = none ∧ ∃ a, n'.pv = some a ∧ s.nd ≤ a) ∧
      Fr (fun r => n.pv = some r ∨ Touch s l r) (fun a => a ∈ lr n.ps) s s' ∧ From s n (fun r => r ∈ l.map (fun i => i.2)) s' n') := by
  -- with a variance of its own
  have key : ∀ {s : Store α} {n : HProd}, Good s n → (∀ i ∈ l, i.2 < s.nd) → (∀ i ∈ l, n.pv ≠ some i.2) →
      l.Pairwise (fun i j => i.1 ≠ none → (s.d i.2).variance ≠ none → i.2 ≠ j.2) →
      Sim (newBasesH comb s n l) (newBases comb (rdP s n) (l.map (fun i => (i.1, s.d i.2)))) (fun s' n' m => m = rdP s' n' ∧ Good s' n' ∧
      n'.pv = n.pv ∧ Fr (fun r => n.pv = some r ∨ Touch s l r) (fun a => a ∈ lr n.ps) s s' ∧ From s n (fun r => r ∈ l.map (fun i => i.2)) s' n') := by
    intro s n hn hi hp hw
    obtain ⟨a, ea, ha, hv⟩ := hn.pv
    obtain ⟨x, hx⟩ := Option.ne_none_iff_exists'.1 hv
    have e : ({ rdP s n with pv := some ((rdP s n).pv.getD 1) } : Prod α) = rdP s n := by simp [rdP, rdPv, ea, hx]
    unfold newBasesH newBases
    rw [e]
    simp only [ea]
    refine (addItems_sim l hn hi hp hw).bind ?_
    rintro s1 m1 m ⟨rfl, h2, h3, h4, h5⟩
    refine (simplifyParams_sim comb (KE.simplifyBaseProd m1.bts 0) h2.ps).bind ?_
    rintro s2 ps2 q ⟨rfl, k⟩
    obtain ⟨a', ea', ha', hv'⟩ := h2.pv
    have ed := k.fr.d a' ha' id
    show _ ∧ _
    refine ⟨?_, ⟨k.ok, a', ea', ha'.trans_le k.fr.nd, by rw [ed]; exact hv'⟩, h3.trans ea, ?_, ⟨fun b hb => ?_, fun r hr => ?_⟩⟩
    · simp [rdP, rdPv, ea', ed]
    · rw [← ea]
      exact h4.trans (k.fr.mono (fun _ _ => False.elim) (fun _ _ => False.elim))
    · rcases k.l b hb with h | h
      · exact h5.l b h
      · right; have := h4.nl; omega
    · rcases k.d r hr with h | h
      · exact h5.d r h
      · right; right; have := h4.nd; omega
  rcases hn with rfl | hn
  · have hg : Good (s.newD { variance := some 1 }) { HProd.empty with pv := some s.nd } :=
      ⟨⟨by simp [HProd.empty, lr], by simp [HProd.empty, lr], by simp [HProd.empty, dr]⟩, s.nd, rfl, by simp [Store.newD], by simp [Store.newD]⟩
    have same : ∀ i ∈ l, (s.newD { variance := some 1 }).d i.2 = s.d i.2 := fun i h => (fr_newD s _ (A := fun _ => False) (B := fun _ => False)).d _ (hi i h) id
    have := key hg (fun i h => (hi i h).trans_le (by simp [Store.newD])) (fun i h e => by
      have := hi i h
      simp [HProd.empty] at e
      omega) (hw.imp_of_mem (fun {i j} h _ k a b => k a (by rw [← same i h]; exact b)))
    have e1 : newBasesH comb (s.newD { variance := some 1 }) { HProd.empty with pv := some s.nd } l = newBasesH comb s HProd.empty l := rfl
    have e2 : newBases comb (rdP (s.newD { variance := some 1 }) { HProd.empty with pv := some s.nd }) (l.map (fun i => (i.1, (s.newD { variance := some 1 }).d i.2)))
        = newBases comb (rdP s HProd.empty) (l.map (fun i => (i.1, s.d i.2))) := by
      rw [List.map_congr_left (fun i h => by rw [same i h])]
      simp [newBases, rdP, rdPv, rdPs, HProd.empty, Store.newD]
    rw [e1, e2] at this
    refine this.mono ?_
    rintro s' n' m ⟨h1, h2, h3, h4, h5⟩
    refine ⟨h1, h2, Or.inr ⟨rfl, s.nd, h3, le_refl _⟩, ?_, ⟨fun a ha => ?_, fun r hr => ?_⟩⟩
    · have g : Fr (fun _ => False) (fun _ => False) s (s.newD { variance := some 1 }) := fr_newD _ _
      refine ⟨g.nd.trans h4.nd, g.nl.trans h4.nl, fun r hr ha => ?_, fun r hr ha => ?_⟩
      · rw [h4.d r (hr.trans_le g.nd), g.d r hr id]
        rintro (h | ⟨i, h, a, b, c⟩)
        · simp at h; omega
        · rw [g.d r hr id] at c
          exact ha (Or.inr ⟨i, h, a, b, c⟩)
      · rw [h4.l r (hr.trans_le g.nl) ha, g.l r hr id]
    · exact h5.l a ha
    · rcases h5.d r hr with h | h | h
      · simp [HProd.empty, dr] at h
      · exact Or.inr (Or.inl h)
      · right; right; simp [Store.newD] at h; omega
  · exact (key hn hi hp hw).mono (fun _ _ _ h => ⟨h.1, h.2.1, Or.inl h.2.2.1, h.2.2.2⟩)

end
end Hp
end Sops
end GPyABCD
