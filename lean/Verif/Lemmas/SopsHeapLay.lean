import Verif.Lemmas.SopsHeapForm
import Verif.Spec.SopsHeap

/-!
# Lemmas: objects which hold a fitted expression
-/

namespace GPyABCD
namespace Sops
namespace Hp

variable {α : Type}

mutual
/-- An expression read through two stores which agree on its objects. -/
theorem rd_congr {s s' : Store α} : ∀ (k : HKE), (∀ a ∈ lists k, s'.l a = s.l a) → (∀ r ∈ dicts s k, s'.d r = s.d r) →
    rd s' k = rd s k ∧ dicts s' k = dicts s k
  | .leaf b p, _, hd => by simp only [rd, dicts, hd p (by simp [dicts]), and_self]
  | .comm op bts ps pv cts, hl, hd => by
    simp only [lists, dicts, List.mem_append] at hl hd
    obtain ⟨h1, h2⟩ := rdAll_congr cts (fun a ha => hl a (Or.inr ha)) (fun r hr => hd r (Or.inr hr))
    have el : ∀ a ∈ lr ps, s'.l a = s.l a := fun a ha => hl a (Or.inl ha)
    have e1 : dr s' ps = dr s ps := dr_congr el
    have e2 : rdPs s' ps = rdPs s ps := rdPs_congr el (fun r hr => hd r (Or.inl (Or.inl hr)))
    have e3 : rdPv s' pv = rdPv s pv := by
      cases pv with
      | none => rfl
      | some a => simp only [rdPv, Option.bind_some, hd a (Or.inl (Or.inr (by simp)))]
    refine ⟨by simp only [rd, e2, e3, h1], ?_⟩
    simp only [dicts, h2]
    rw [show ps.flatMap (fun e => s'.l e.2) = ps.flatMap (fun e => s.l e.2) from e1]
  | .change c p l r, hl, hd => by
    simp only [lists, dicts, List.mem_append, List.mem_cons] at hl hd
    obtain ⟨h1, h2⟩ := rd_congr l (fun a ha => hl a (Or.inl ha)) (fun r hr => hd r (Or.inr (Or.inl hr)))
    obtain ⟨h3, h4⟩ := rd_congr r (fun a ha => hl a (Or.inr ha)) (fun r hr => hd r (Or.inr (Or.inr hr)))
    simp only [rd, dicts, h1, h2, h3, h4, hd p (Or.inl rfl), and_self]
theorem rdAll_congr {s s' : Store α} : ∀ (ks : List HKE), (∀ a ∈ listsL ks, s'.l a = s.l a) → (∀ r ∈ dictsL s ks, s'.d r = s.d r) →
    rdAll s' ks = rdAll s ks ∧ dictsL s' ks = dictsL s ks
  | [], _, _ => ⟨rfl, rfl⟩
  | k :: ks, hl, hd => by
    simp only [listsL, dictsL, List.mem_append] at hl hd
    obtain ⟨h1, h2⟩ := rd_congr k (fun a ha => hl a (Or.inl ha)) (fun r hr => hd r (Or.inl hr))
    obtain ⟨h3, h4⟩ := rdAll_congr ks (fun a ha => hl a (Or.inr ha)) (fun r hr => hd r (Or.inr hr))
    simp only [rdAll, dictsL, h1, h2, h3, h4, and_self]
end

theorem rdPs_nil {s : Store α} {ps : HDict} : rdPs s ps = [] ↔ ps = [] := by simp [rdPs]

mutual
/-- A fitted expression held by distinct objects. -/
theorem laid_of {P : α → Prop} {s : Store α} : ∀ (k : HKE), Fitted P (rd s k) → (∀ r ∈ dicts s k, r < s.nd) → (∀ a ∈ lists k, a < s.nl) →
    (lists k).Nodup → Filled s k → Laid s k
  | .leaf b p, _, h, _, _, _ => by simpa [Laid, dicts] using h
  | .comm .sum bts ps pv cts, hf, hd, hl, hn, hx => by
    simp only [rd, Fitted] at hf
    simp only [dicts, lists, List.mem_append] at hd hl hn
    simp only [Filled] at hx
    rw [List.nodup_append] at hn
    have hpv : pv = none := by
      cases pv with
      | none => rfl
      | some a => exact absurd hf.2.1 (hx.1 a rfl)
    exact ⟨hpv, fun a ha => hl a (Or.inl ha), fun r hr => hd r (Or.inl (Or.inl hr)),
      laidL_of cts hf.2.2 (fun r hr => hd r (Or.inr hr)) (fun a ha => hl a (Or.inr ha)) hn.2.1 hx.2⟩
  | .comm .prod bts ps pv cts, hf, hd, hl, hn, hx => by
    simp only [rd, Fitted, rdPs_nil] at hf
    simp only [dicts, lists, List.mem_append] at hd hl hn
    simp only [Filled] at hx
    rw [List.nodup_append] at hn
    obtain ⟨_, h2, h3, _, h5⟩ := hf
    refine ⟨?_, laidL_of cts h5 (fun r hr => hd r (Or.inr hr)) (fun a ha => hl a (Or.inr ha)) hn.2.1 hx.2⟩
    by_cases hps : ps = []
    · left
      refine ⟨hps, ?_⟩
      cases pv with
      | none => rfl
      | some a => exact absurd (h2.1 hps) (hx.1 a rfl)
    · right
      refine ⟨⟨hn.1, fun a ha => hl a (Or.inl ha), fun r hr => ⟨hd r (Or.inl (Or.inl hr)), ?_⟩⟩, ?_⟩
      · simp only [dr, List.mem_flatMap] at hr
        obtain ⟨e, he, hr⟩ := hr
        exact h3 (e.1, rdL s e.2) (List.mem_map.2 ⟨e, he, rfl⟩) _ (List.mem_map.2 ⟨r, hr, rfl⟩)
      · cases pv with
        | none => exact absurd (h2.2 rfl) hps
        | some a => exact ⟨a, rfl, hd a (Or.inl (Or.inr (by simp))), hx.1 a rfl⟩
  | .change c p l r, hf, hd, hl, hn, hx => by
    simp only [rd, Fitted] at hf
    simp only [dicts, lists, List.mem_append, List.mem_cons] at hd hl hn
    simp only [Filled] at hx
    rw [List.nodup_append] at hn
    exact ⟨hd p (Or.inl rfl), hf.1, laid_of l hf.2.1 (fun x hr => hd x (Or.inr (Or.inl hr))) (fun a ha => hl a (Or.inl ha)) hn.1 hx.1,
      laid_of r hf.2.2 (fun x hr => hd x (Or.inr (Or.inr hr))) (fun a ha => hl a (Or.inr ha)) hn.2.1 hx.2⟩
theorem laidL_of {P : α → Prop} {s : Store α} : ∀ (ks : List HKE), FittedL P (rdAll s ks) → (∀ r ∈ dictsL s ks, r < s.nd) →
    (∀ a ∈ listsL ks, a < s.nl) → (listsL ks).Nodup → FilledL s ks → LaidL s ks
  | [], _, _, _, _, _ => trivial
  | k :: ks, hf, hd, hl, hn, hx => by
    simp only [rdAll, FittedL] at hf
    simp only [dictsL, listsL, List.mem_append] at hd hl hn
    simp only [FilledL] at hx
    rw [List.nodup_append] at hn
    exact ⟨laid_of k hf.1.2 (fun x hr => hd x (Or.inl hr)) (fun a ha => hl a (Or.inl ha)) hn.1 hx.1,
      laidL_of ks hf.2 (fun x hr => hd x (Or.inr hr)) (fun a ha => hl a (Or.inr ha)) hn.2.1 hx.2⟩
end

/-! ## New objects -/

/-- Nothing but new objects. -/
abbrev New (s s' : Store α) : Prop := Fr (fun _ => False) (fun _ => False) s s'

/-- Distinct addresses made between two states. -/
structure Rng (x : List Nat) (lo hi : Nat) : Prop where
  nodup : x.Nodup
  rng : ∀ r ∈ x, lo ≤ r ∧ r < hi

theorem Rng.nil (lo hi : Nat) : Rng [] lo hi := ⟨by simp, by simp⟩

theorem Rng.append {x y : List Nat} {a b c : Nat} (h : Rng x a b) (h' : Rng y b c) (hab : a ≤ b) (hbc : b ≤ c) : Rng (x ++ y) a c := by
  refine ⟨?_, fun r hr => ?_⟩
  · rw [List.nodup_append]
    exact ⟨h.nodup, h'.nodup, fun u hu v hv => by have := h.rng u hu; have := h'.rng v hv; omega⟩
  · rcases List.mem_append.1 hr with hr | hr
    · have := h.rng r hr; omega
    · have := h'.rng r hr; omega

theorem layDs_ok : ∀ (ps : List (PD α)) (s : Store α), New s (layDs s ps).1 ∧ (layDs s ps).1.nl = s.nl ∧ Rng (layDs s ps).2 s.nd (layDs s ps).1.nd ∧
    (layDs s ps).2.map (layDs s ps).1.d = ps
  | [], s => ⟨Fr.refl _, rfl, Rng.nil _ _, rfl⟩
  | p :: ps, s => by
    obtain ⟨h1, h2, h3, h4⟩ := layDs_ok ps (s.newD p)
    have hnd : (s.newD p).nd = s.nd + 1 := rfl
    have h5 := h1.nd
    refine ⟨(fr_newD s p).trans h1, h2, ?_, ?_⟩
    · have : Rng [s.nd] s.nd (s.newD p).nd := ⟨by simp, by simp [hnd]⟩
      exact this.append h3 (by omega) h5
    · simp only [layDs, List.map_cons, h4]
      rw [h1.d s.nd (by omega) id]
      simp [Store.newD]

theorem layPs_ok : ∀ (ps : PDict α) (s : Store α), New s (layPs s ps).1 ∧ Rng (dr (layPs s ps).1 (layPs s ps).2) s.nd (layPs s ps).1.nd ∧
    Rng (lr (layPs s ps).2) s.nl (layPs s ps).1.nl ∧ rdPs (layPs s ps).1 (layPs s ps).2 = ps
  | [], s => ⟨Fr.refl _, Rng.nil _ _, Rng.nil _ _, rfl⟩
  | (b, ds) :: r, s => by
    obtain ⟨h1, h2, h3, h4⟩ := layDs_ok ds s
    set x := layDs s ds with hx
    have fl : New x.1 (x.1.newL x.2) := fr_newL _ _
    obtain ⟨k1, k2, k3, k4⟩ := layPs_ok r (x.1.newL x.2)
    set y := layPs (x.1.newL x.2) r with hy
    have e : layPs s ((b, ds) :: r) = (y.1, (b, x.1.nl) :: y.2) := by simp only [layPs, ← hx, ← hy]
    have hnl : (x.1.newL x.2).nl = x.1.nl + 1 := rfl
    have hnd : (x.1.newL x.2).nd = x.1.nd := rfl
    have el : y.1.l x.1.nl = x.2 := by rw [k1.l x.1.nl (by omega) id]; simp [Store.newL]
    have g1 := k1.nd
    have g2 := k1.nl
    have g3 := h1.nd
    rw [e]
    refine ⟨(h1.trans fl).trans k1, ?_, ?_, ?_⟩
    · simp only [dr_cons, el]
      exact h3.append k2 g3 g1
    · have : Rng [x.1.nl] s.nl (x.1.newL x.2).nl := ⟨by simp, by simp [hnl, h2]⟩
      exact this.append k3 (by omega) g2
    · simp only [rdPs, List.map_cons, rdL, el] at k4 ⊢
      rw [k4]
      congr 2
      rw [← h4]
      exact List.map_congr_left (fun r hr => by
        rw [k1.d r (by have := h3.rng r hr; omega) id]; rfl)

theorem layPv_ok (s : Store α) (pv : Option α) : New s (layPv s pv).1 ∧ (layPv s pv).1.nl = s.nl ∧ Rng (layPv s pv).2.toList s.nd (layPv s pv).1.nd ∧
    rdPv (layPv s pv).1 (layPv s pv).2 = pv ∧ ∀ a, (layPv s pv).2 = some a → a < (layPv s pv).1.nd ∧ ((layPv s pv).1.d a).variance ≠ none := by
  cases pv with
  | none => exact ⟨Fr.refl _, rfl, Rng.nil _ _, rfl, by simp [layPv]⟩
  | some v =>
    refine ⟨fr_newD _ _, rfl, ⟨by simp [layPv], by simp [layPv, Store.newD]⟩, by simp [layPv, rdPv, Store.newD], ?_⟩
    intro a h
    simp only [layPv, Option.some.injEq] at h
    subst h
    simp [layPv, Store.newD]

mutual
theorem Filled.congr {s s' : Store α} : ∀ (k : HKE), (∀ r ∈ dicts s k, s'.d r = s.d r) → Filled s k → Filled s' k
  | .leaf _ _, _, _ => trivial
  | .comm op bts ps pv cts, hd, h => by
    simp only [Filled, dicts, List.mem_append] at h hd ⊢
    exact ⟨fun a e => by rw [hd a (Or.inl (Or.inr (by simp [e])))]; exact h.1 a e, FilledL.congr cts (fun r hr => hd r (Or.inr hr)) h.2⟩
  | .change c p l r, hd, h => by
    simp only [Filled, dicts, List.mem_append, List.mem_cons] at h hd ⊢
    exact ⟨Filled.congr l (fun r hr => hd r (Or.inr (Or.inl hr))) h.1, Filled.congr r (fun r hr => hd r (Or.inr (Or.inr hr))) h.2⟩
theorem FilledL.congr {s s' : Store α} : ∀ (ks : List HKE), (∀ r ∈ dictsL s ks, s'.d r = s.d r) → FilledL s ks → FilledL s' ks
  | [], _, _ => trivial
  | k :: ks, hd, h => by
    simp only [FilledL, dictsL, List.mem_append] at h hd ⊢
    exact ⟨Filled.congr k (fun r hr => hd r (Or.inl hr)) h.1, FilledL.congr ks (fun r hr => hd r (Or.inr hr)) h.2⟩
end

/-- What a layout gives. -/
structure LayOk (s s' : Store α) (k : HKE) (f : PKE α) : Prop where
  new : New s s'
  d : Rng (dicts s' k) s.nd s'.nd
  l : Rng (lists k) s.nl s'.nl
  rd : rd s' k = f
  filled : Filled s' k

/-- What a layout of a list gives. -/
structure LayLOk (s s' : Store α) (ks : List HKE) (fs : List (PKE α)) : Prop where
  new : New s s'
  d : Rng (dictsL s' ks) s.nd s'.nd
  l : Rng (listsL ks) s.nl s'.nl
  rd : rdAll s' ks = fs
  filled : FilledL s' ks

theorem LayOk.later {s s' s2 : Store α} {k : HKE} {f : PKE α} (h : LayOk s s' k f) (n : New s' s2) :
    Sops.rd s2 k = f ∧ dicts s2 k = dicts s' k ∧ Filled s2 k := by
  have hd : ∀ r ∈ dicts s' k, s2.d r = s'.d r := fun r hr => n.d r (h.d.rng r hr).2 id
  obtain ⟨h1, h2⟩ := rd_congr k (fun a ha => n.l a (h.l.rng a ha).2 id) hd
  exact ⟨h1.trans h.rd, h2, Filled.congr k hd h.filled⟩

mutual
theorem lay_ok : ∀ (f : PKE α) (s : Store α), LayOk s (lay s f).1 (lay s f).2 f
  | .leaf b p, s => by
    refine ⟨fr_newD _ _, ⟨by simp [lay, dicts], by simp [lay, dicts, Store.newD]⟩, Rng.nil _ _, ?_, trivial⟩
    simp [lay, rd, Store.newD]
  | .comm op bts ps pv cts, s => by
    obtain ⟨a1, a2, a3, a4⟩ := layPs_ok ps s
    set x := layPs s ps with hx
    obtain ⟨b1, b2, b3, b4, b5⟩ := layPv_ok x.1 pv
    set y := layPv x.1 pv with hy
    have z := layL_ok cts y.1
    set w := layL y.1 cts with hw
    have e : lay s (.comm op bts ps pv cts) = (w.1, .comm op bts x.2 y.2 w.2) := by simp only [lay, ← hx, ← hy, ← hw]
    rw [e]
    have g1 := a1.nd
    have g2 := b1.nd
    have g3 := z.new.nd
    have g4 := a1.nl
    have g5 := z.new.nl
    have el : ∀ a ∈ lr x.2, w.1.l a = x.1.l a := fun a ha => by
      have := (a3.rng a ha).2
      rw [z.new.l a (by omega) id, b1.l a this id]
    have e1 : dr w.1 x.2 = dr x.1 x.2 := dr_congr el
    have e2 : rdPs w.1 x.2 = ps := by
      rw [rdPs_congr el (fun r hr => by
        have := (a2.rng r hr).2
        rw [z.new.d r (by omega) id, b1.d r this id]), a4]
    have e3 : rdPv w.1 y.2 = pv := by
      rw [← b4]
      cases hp : y.2 with
      | none => rfl
      | some a => simp only [rdPv, Option.bind_some]; rw [z.new.d a (b5 a hp).1 id]
    refine ⟨(a1.trans b1).trans z.new, ?_, ?_, by simp only [rd, e2, e3, z.rd], ⟨fun a ha => ?_, z.filled⟩⟩
    · simp only [dicts]
      rw [show x.2.flatMap (fun e => w.1.l e.2) = dr x.1 x.2 from e1]
      exact (a2.append b3 g1 g2).append z.d (by omega) g3
    · simp only [lists]
      rw [b2] at g5
      exact a3.append (b2 ▸ z.l) g4 g5
    · rw [z.new.d a (b5 a ha).1 id]; exact (b5 a ha).2
  | .change c p l r, s => by
    have hL := lay_ok l (s.newD p)
    set x := lay (s.newD p) l with hx
    have hR := lay_ok r x.1
    set y := lay x.1 r with hy
    have e : lay s (.change c p l r) = (y.1, .change c s.nd x.2 y.2) := by simp only [lay, ← hx, ← hy]
    rw [e]
    have hnd : (s.newD p).nd = s.nd + 1 := rfl
    have hnl : (s.newD p).nl = s.nl := rfl
    have g1 := hL.new.nd
    have g2 := hR.new.nd
    have g3 := hL.new.nl
    have g4 := hR.new.nl
    obtain ⟨h1, h2, h3⟩ := hL.later hR.new
    refine ⟨((fr_newD s p).trans hL.new).trans hR.new, ?_, ?_, ?_, ⟨h3, hR.filled⟩⟩
    · simp only [dicts, h2]
      have : Rng [s.nd] s.nd (s.newD p).nd := ⟨by simp, by simp [hnd]⟩
      exact this.append (hL.d.append hR.d g1 g2) (by omega) (by omega)
    · simp only [lists]; exact hL.l.append hR.l g3 g4
    · simp only [rd, h1, hR.rd]
      rw [hR.new.d s.nd (by omega) id, hL.new.d s.nd (by omega) id]
      simp [Store.newD]
theorem layL_ok : ∀ (fs : List (PKE α)) (s : Store α), LayLOk s (layL s fs).1 (layL s fs).2 fs
  | [], s => ⟨Fr.refl _, Rng.nil _ _, Rng.nil _ _, rfl, trivial⟩
  | f :: fs, s => by
    have hL := lay_ok f s
    set x := lay s f with hx
    have hR := layL_ok fs x.1
    set y := layL x.1 fs with hy
    have e : layL s (f :: fs) = (y.1, x.2 :: y.2) := by simp only [layL, ← hx, ← hy]
    rw [e]
    obtain ⟨h1, h2, h3⟩ := hL.later hR.new
    refine ⟨hL.new.trans hR.new, ?_, ?_, by simp only [rdAll, h1, hR.rd], ⟨h3, hR.filled⟩⟩
    · simp only [dictsL, h2]; exact hL.d.append hR.d hL.new.nd hR.new.nd
    · simp only [listsL]; exact hL.l.append hR.l hL.new.nl hR.new.nl
end

/-- A layout is made of distinct objects. -/
theorem lay_apart (f : PKE α) (s : Store α) : Apart (lay s f).1 (lay s f).2 :=
  have h := lay_ok f s
  ⟨h.d.nodup, h.l.nodup, fun r hr => (h.d.rng r hr).2, fun a ha => (h.l.rng a ha).2, h.filled⟩

end Hp
end Sops
end GPyABCD
