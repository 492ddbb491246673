import Verif.Lemmas.SopsHeapLay
import Verif.Props.Params

/-!
# Property C94: shared parameter dictionaries do not spoil the components
-/

namespace GPyABCD
open Sops Params KE

variable {α : Type} [Mul α] [One α]

/-- C94. The sum-of-products form computed on objects, changed in place as the code does, fails when the one on values does and in the same way, and otherwise
holds its value; the objects of the fitted expression have to be distinct, those of the components need not be (`C94_shares`). -/
theorem C94_same (comb : α → α → α) (cfg : Cfg) (P : α → Prop) (s : Store α) (k : HKE) (hf : Fitted P (rd s k)) (ha : Apart s k) :
    (∀ e, sopsH comb cfg s k = .error e ↔ sops comb cfg (rd s k) = .error e) ∧
      ∀ f', sops comb cfg (rd s k) = .ok f' ↔ ∃ s' k', sopsH comb cfg s k = .ok (s', k') ∧ rd s' k' = f' := by
  have h := Hp.sops_sim comb cfg k (Hp.laid_of k hf ha.dlt ha.llt ha.lists ha.filled) ha.dicts ha.lists
  revert h
  rcases sopsH comb cfg s k with e | ⟨s', k'⟩ <;> rcases sops comb cfg (rd s k) with e' | f'
  · intro h
    have h : e = e' := h
    subst h
    refine ⟨fun _ => by simp, fun f' => ⟨fun h => (by cases h), ?_⟩⟩
    rintro ⟨_, _, h, _⟩
    cases h
  · exact fun h => h.elim
  · exact fun h => h.elim
  · rintro ⟨u, rfl, rfl, _⟩
    refine ⟨fun e => (by simp), fun f => ?_⟩
    constructor
    · intro h
      injection h with h
      subst h
      exact ⟨_, _, rfl, Hp.rd_sumH s' u⟩
    · rintro ⟨s2, k2, h, rfl⟩
      injection h with h
      injection h with h1 h2
      subst h1; subst h2
      rw [Hp.rd_sumH]

/-- C94. Writing to the variance of a component, or changing one of its lists, does not change another component. -/
theorem C94_independent (comb : α → α → α) (cfg : Cfg) (P : α → Prop) (s : Store α) (k : HKE) (hf : Fitted P (rd s k)) (ha : Apart s k) (s' : Store α) (k' : HKE)
    (h : sopsH comb cfg s k = .ok (s', k')) :
    ∃ (c : Counter) (ts : List HKE), k' = .comm .sum c [] none ts ∧ ∀ (i : Nat) (bts : Counter) (ps : HDict) (a : Nat) (cts : List HKE), ts[i]? = some (.comm .prod bts ps (some a) cts) → ∀ j t, j ≠ i → ts[j]? = some t →
      (∀ p, rd (s'.setD a p) t = rd s' t) ∧ ∀ e ∈ ps, ∀ x, rd (s'.setL e.2 x) t = rd s' t := by
  have hsim := Hp.sops_sim comb cfg k (Hp.laid_of k hf ha.dlt ha.llt ha.lists ha.filled) ha.dicts ha.lists
  rw [h] at hsim
  revert hsim
  rcases sops comb cfg (rd s k) with e' | f' <;> intro hsim
  · exact hsim.elim
  · obtain ⟨⟨c, ts⟩, rfl, _, hok, _⟩ := hsim
    refine ⟨c, Hp.kes ts, rfl, fun i bts ps a cts hi j t hj ht => ?_⟩
    simp only [Hp.kes, List.getElem?_map, Option.map_eq_some_iff] at hi ht
    obtain ⟨n, hn, hne⟩ := hi
    obtain ⟨m, hm, rfl⟩ := ht
    simp only [HProd.ke, HKE.comm.injEq] at hne
    obtain ⟨_, _, e2, e3, _⟩ := hne
    have gm := hok.good m (List.mem_of_getElem? hm)
    have gn := hok.good n (List.mem_of_getElem? hn)
    -- what the two components refer to
    have hpv : m.pv ≠ some a := by
      intro e
      have hl := hok.pv
      have h1 : (ts.map (fun t => t.pv))[i]? = some (some a) := by rw [List.getElem?_map, hn]; exact congrArg some e3
      have h2 : (ts.map (fun t => t.pv))[j]? = some (some a) := by rw [List.getElem?_map, hm]; exact congrArg some e
      exact hj ((List.getElem?_inj (by
        rw [List.getElem?_eq_some_iff] at h2; exact h2.1) hl).1 (h2.trans h1.symm))
    have hls : ∀ e ∈ ps, e.2 ∉ Hp.lr m.ps := by
      intro e he hc
      have hd : ∀ {ts : List HProd} {i j : Nat} {n m : HProd}, (ts.flatMap (fun t => Hp.lr t.ps)).Nodup → ts[i]? = some n → ts[j]? = some m → j ≠ i →
          ∀ a, a ∈ Hp.lr n.ps → a ∉ Hp.lr m.ps := by
        intro ts
        induction ts with
        | nil => intro i j n m _ h; simp at h
        | cons t ts ih =>
          intro i j n m hnd hi hj hne a ha hb
          rw [List.flatMap_cons, List.nodup_append] at hnd
          cases i with
          | zero =>
            cases j with
            | zero => exact hne rfl
            | succ j =>
              simp at hi hj
              subst hi
              exact hnd.2.2 a ha a (List.mem_flatMap.2 ⟨m, List.mem_of_getElem? hj, hb⟩) rfl
          | succ i =>
            cases j with
            | zero =>
              simp at hi hj
              subst hj
              exact hnd.2.2 a hb a (List.mem_flatMap.2 ⟨n, List.mem_of_getElem? hi, ha⟩) rfl
            | succ j =>
              simp at hi hj
              exact ih hnd.2.1 hi hj (by omega) a ha hb
      refine hd hok.l hn hm hj e.2 ?_ hc
      rw [e2]; exact List.mem_map.2 ⟨e, he, rfl⟩
    have hdr : a ∉ Hp.dr s' m.ps := by
      intro hr
      obtain ⟨b, hb, _, hv⟩ := gn.pv
      rw [e3] at hb
      injection hb with hb
      subst hb
      exact hv (gm.ps.db a hr).2
    constructor
    · intro p
      refine (Hp.rd_congr (s := s') (s' := s'.setD a p) _ (fun _ _ => rfl) (fun r hr => ?_)).1
      simp only [HProd.ke, dicts, dictsL, List.append_nil, List.mem_append] at hr
      simp only [Store.setD]
      rw [if_neg]
      rintro rfl
      rcases hr with hr | hr
      · exact hdr hr
      · exact hpv (by simpa using hr)
    · intro e he x
      refine (Hp.rd_congr (s := s') (s' := s'.setL e.2 x) _ (fun b hb => ?_) (fun _ _ => rfl)).1
      simp only [HProd.ke, lists, listsL, List.append_nil] at hb
      simp only [Store.setL]
      rw [if_neg]
      rintro rfl
      exact hls e he hb

/-- C94. Whatever else is held by other objects reads as before. -/
theorem C94_elsewhere (comb : α → α → α) (cfg : Cfg) (P : α → Prop) (s : Store α) (k : HKE) (hf : Fitted P (rd s k)) (ha : Apart s k) (s' : Store α) (k' : HKE)
    (h : sopsH comb cfg s k = .ok (s', k')) (o : HKE) (hd : ∀ r ∈ dicts s o, r < s.nd ∧ r ∉ dicts s k) (hl : ∀ a ∈ lists o, a < s.nl ∧ a ∉ lists k) :
    rd s' o = rd s o := by
  have hsim := Hp.sops_sim comb cfg k (Hp.laid_of k hf ha.dlt ha.llt ha.lists ha.filled) ha.dicts ha.lists
  rw [h] at hsim
  revert hsim
  rcases sops comb cfg (rd s k) with e' | f' <;> intro hsim
  · exact hsim.elim
  · obtain ⟨_, _, _, _, hfr, _⟩ := hsim
    exact (Hp.rd_congr o (fun a h' => hfr.l a (hl a h').1 (hl a h').2) (fun r h' => hfr.d r (hd r h').1 (hd r h').2)).1

/-- C94. `match_up_fit_parameters` makes distinct objects, whatever was there before; so for a simplified expression and a kernel fitted from it the
sum-of-products form on objects is the one on values. -/
theorem C94_fit {α : Type} [LinearOrder α] [Mul α] [One α] [Add α] (comb : α → α → α) (cfg : Cfg) (k : KE) (hk : k.isBase = false) (hw : wf k = true) (he : noEmpty k = true)
    (hs : ∀ x ∈ bases k, x.isSigmoid = false) (h : keq (simplify cfg k) k = true) :
    ∃ g0, toKernel cfg k = .ok g0 ∧ ∀ g : GK α, erase g = g0 → ∃ f, fitParams cfg g k = .ok f ∧ ∀ s : Store α,
      rd (lay s f).1 (lay s f).2 = f ∧
      (∀ e, sopsH comb cfg (lay s f).1 (lay s f).2 = .error e ↔ sops comb cfg f = .error e) ∧
      ∀ f', sops comb cfg f = .ok f' ↔ ∃ s' k', sopsH comb cfg (lay s f).1 (lay s f).2 = .ok (s', k') ∧ rd s' k' = f' := by
  obtain ⟨g0, h1, h2⟩ := C40_matched (α := α) cfg k hk hw he hs h
  refine ⟨g0, h1, fun g hg => ?_⟩
  obtain ⟨f, h3, _⟩ := h2 g hg
  obtain ⟨h6, _⟩ := C40_fitted (fun _ => True) cfg k hk hw he hs h g0 h1 g hg (se_true g) f h3
  refine ⟨f, h3, fun s => ?_⟩
  have e := (Hp.lay_ok f s).rd
  have := C94_same comb cfg (fun _ => True) (lay s f).1 (lay s f).2 (by rw [e]; exact h6) (Hp.lay_apart f s)
  rw [e] at this
  exact ⟨e, this⟩

-- the hypotheses, for the expression of `Props/Params.lean`
example : ∃ f, fitParams Cfg.default exampleGK exampleKE = .ok f ∧ ∀ s : Store Nat, rd (lay s f).1 (lay s f).2 = f := by
  obtain ⟨h1, h2, h3, h4, h5, h6⟩ := exampleKE_ok
  obtain ⟨g0, h7, h8⟩ := C94_fit (α := Nat) (fun a _ => a) Cfg.default exampleKE h1 h2 h3 h4 h5
  rw [h6] at h7
  obtain ⟨f, h9, h10⟩ := h8 exampleGK (Except.ok.inj h7)
  exact ⟨f, h9, fun s => (h10 s).1⟩

/-! ## Examples -/

/-- `CP(LIN, PER)` after a fit. -/
def sharedFit : PKE Nat := .change .CP { location := some 5 } (.leaf .LIN { variance := some 2, offset := some 1 }) (.leaf .PER { variance := some 3, period := some 4 })

/-- Hypotheses are met. -/
theorem sharedFit_fitted : Fitted (fun _ => True) sharedFit := by
  simp [sharedFit, Fitted, Base.isSigmoid]

/-- What `sum_of_prods_form` gives for it. -/
def sharedForm : Except SErr (Store Nat × HKE) := sopsH (fun a _ => a) Cfg.default (lay Store.empty sharedFit).1 (lay Store.empty sharedFit).2

/-- C94. Components do share dictionaries: the two of `CP(LIN, PER)` have one for their sigmoids. -/
theorem C94_shares : ∃ s' k', sharedForm = .ok (s', k') ∧ ¬ (dicts s' k').Nodup ∧
    rd s' k' = .comm .sum [] [] none [.comm .prod [(.LIN, 1), (.Sr, 1)] [(.LIN, [{ offset := some 1 }]), (.Sr, [{ location := some 5 }])] (some 2) [],
      .comm .prod [(.PER, 1), (.S, 1)] [(.PER, [{ period := some 4 }]), (.S, [{ location := some 5 }])] (some 3) []] :=
  ⟨_, _, rfl, by decide, rfl⟩

/-- The general theorem applies to it. -/
example (s : Store Nat) : ∃ s' k', sopsH (fun a _ => a) Cfg.default (lay s sharedFit).1 (lay s sharedFit).2 = .ok (s', k') ∧
    rd s' k' = .comm .sum [] [] none [.comm .prod [(.LIN, 1), (.Sr, 1)] [(.LIN, [{ offset := some 1 }]), (.Sr, [{ location := some 5 }])] (some 2) [],
      .comm .prod [(.PER, 1), (.S, 1)] [(.PER, [{ period := some 4 }]), (.S, [{ location := some 5 }])] (some 3) []] := by
  have e := (Hp.lay_ok sharedFit s).rd
  have h := C94_same (fun a _ => a) Cfg.default (fun _ => True) (lay s sharedFit).1 (lay s sharedFit).2 (by rw [e]; exact sharedFit_fitted) (Hp.lay_apart _ s)
  rw [e] at h
  exact (h.2 _).1 rfl

/-- So do the others: its two components are independent, and another copy of the fitted expression made before is left alone. -/
example : ∃ s' k', sopsH (fun a _ => a) Cfg.default (lay Store.empty sharedFit).1 (lay Store.empty sharedFit).2 = .ok (s', k') ∧
    (∃ (c : Counter) (ts : List HKE), k' = .comm .sum c [] none ts ∧ ts.length = 2) := ⟨_, _, rfl, _, _, rfl, rfl⟩

example (s' : Store Nat) (k' : HKE)
    (h : sopsH (fun a _ => a) Cfg.default (lay (lay Store.empty sharedFit).1 sharedFit).1 (lay (lay Store.empty sharedFit).1 sharedFit).2 = .ok (s', k')) :
    rd s' (lay Store.empty sharedFit).2 = sharedFit := by
  have e := (Hp.lay_ok sharedFit (lay Store.empty sharedFit).1).rd
  rw [C94_elsewhere _ _ (fun _ => True) _ _ (by rw [e]; exact sharedFit_fitted) (Hp.lay_apart _ _) s' k' h _ (by decide) (by decide)]
  rfl

/-- The objects of `LIN * (PER + SE)` with a variance left in the dictionary of `LIN`, which `match_up_fit_parameters` does not do. -/
def leftVariance : PKE Nat :=
  .comm .prod [(.LIN, 1)] [(.LIN, [{ variance := some 2, offset := some 1 }])] (some 3)
    [.comm .sum [(.PER, 1), (.SE, 1)] [(.PER, [{ variance := some 5, period := some 1 }]), (.SE, [{ variance := some 7, lengthscale := some 1 }])] none []]

/-- Values and objects differ without the hypothesis: the variance of the shared dictionary is taken by the first component and missing in the second. -/
theorem C94_needs_fitted : (match sops (fun a _ => a) Cfg.default leftVariance with
    | .ok (.comm _ _ _ _ [.comm _ _ _ v _, .comm _ _ _ w _]) => some (v, w)
    | _ => none) = some (some 42, some 30) ∧
    (match sopsH (fun a _ => a) Cfg.default (lay Store.empty leftVariance).1 (lay Store.empty leftVariance).2 with
    | .ok (s', .comm _ _ _ _ [.comm _ _ _ (some v) _, .comm _ _ _ (some w) _]) => some ((s'.d v).variance, (s'.d w).variance)
    | _ => none) = some (some 42, some 15) := ⟨rfl, rfl⟩

end GPyABCD
