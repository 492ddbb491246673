import Verif.Lemmas.ParamsCov
import Verif.Lemmas.Interp

/-!
# The terms of matched expressions
-/

namespace GPyABCD
namespace Params
open Sops KE Interp

variable {α : Type}

theorem GEveryL_iff {Q : Base → PD α → Prop} {l : List (GK α)} : GEveryL Q l ↔ ∀ g ∈ l, GEvery Q g := by
  induction l with
  | nil => simp [GEveryL]
  | cons g l ih => simp [GEveryL, ih]

theorem every_parts {Q : Base → PD α → Prop} {g : GK α} (op : Op) (h : GEvery Q g) : ∀ x ∈ partsOf op g, GEvery Q x := by
  cases g with
  | base => intro x hx; simp only [partsOf, List.mem_singleton] at hx; subst hx; exact h
  | change => intro x hx; simp only [partsOf, List.mem_singleton] at hx; subst hx; exact h
  | comb o ps =>
    intro x hx
    rw [partsOf] at hx
    by_cases ho : o = op
    · rw [if_pos ho] at hx; rw [GEvery] at h; exact GEveryL_iff.1 h x hx
    · rw [if_neg ho] at hx; simp only [List.mem_singleton] at hx; subst hx; exact h

theorem mem_dictsOf {b : Base} {p : PD α} {parts : List (GK α)} (h : p ∈ dictsOf b parts) : .base b p ∈ parts := by
  obtain ⟨j, hj⟩ := List.getElem?_of_mem h
  obtain ⟨xs, ys, rfl, _⟩ := dictsOf_split hj
  simp

theorem composites_subset {parts : List (GK α)} {g : GK α} (h : g ∈ composites parts) : g ∈ parts := by
  induction parts with
  | nil => simp [composites] at h
  | cons x parts ih =>
    cases x with
    | base => rw [composites] at h; exact List.mem_cons_of_mem _ (ih h)
    | comb =>
      rw [composites] at h
      · rcases List.mem_cons.1 h with rfl | h
        · exact List.mem_cons_self ..
        · exact List.mem_cons_of_mem _ (ih h)
      · simp
    | change =>
      rw [composites] at h
      · rcases List.mem_cons.1 h with rfl | h
        · exact List.mem_cons_self ..
        · exact List.mem_cons_of_mem _ (ih h)
      · simp

mutual
theorem every_carries {Q : Base → PD α → Prop} (hQ : ∀ b p, Q b p → Q b p.noVar) (f : PKE α) (g : GK α) (h : Carries f g) (hg : GEvery Q g) :
    EveryTerm Q f := by
  cases f with
  | leaf b p => rw [Carries] at h; subst h; rw [GEvery] at hg; rw [EveryTerm]; exact hg
  | change c p l r =>
    rw [Carries] at h
    obtain ⟨a, b, rfl, h1, h2⟩ := h
    rw [GEvery] at hg
    rw [EveryTerm]
    exact ⟨hg.1, hg.2.1, every_carries hQ l a h1 hg.2.2.1, every_carries hQ r b h2 hg.2.2.2⟩
  | comm op b ps pv cts =>
    cases op with
    | sum =>
      rw [Carries] at h
      obtain ⟨h1, h2, _, h4⟩ := h
      have hp := every_parts .sum hg
      rw [EveryTerm]
      refine ⟨?_, every_carriesL hQ cts _ h4 (GEveryL_iff.2 fun x hx => hp x (composites_subset hx))⟩
      intro e he p hm
      rw [← dict_get h1 he, h2] at hm
      have := hp _ (mem_dictsOf hm)
      rwa [GEvery] at this
    | prod =>
      rw [Carries] at h
      obtain ⟨h1, h2, _, h4⟩ := h
      have hp := every_parts .prod hg
      rw [EveryTerm]
      refine ⟨?_, every_carriesL hQ cts _ h4 (GEveryL_iff.2 fun x hx => hp x (composites_subset hx))⟩
      intro e he p hm
      rw [← dict_get h1 he, h2] at hm
      obtain ⟨q, hq, rfl⟩ := List.mem_map.1 hm
      have := hp _ (mem_dictsOf hq)
      rw [GEvery] at this
      exact hQ _ _ this
theorem every_carriesL {Q : Base → PD α → Prop} (hQ : ∀ b p, Q b p → Q b p.noVar) (fs : List (PKE α)) (gs : List (GK α)) (h : CarriesL fs gs)
    (hg : GEveryL Q gs) : EveryTermL Q fs := by
  cases fs with
  | nil => rw [EveryTermL]; trivial
  | cons f fs =>
    rw [CarriesL] at h
    obtain ⟨g, r, rfl, h1, h2⟩ := h
    rw [GEveryL] at hg
    rw [EveryTermL]
    exact ⟨every_carries hQ f g h1 hg.1, every_carriesL hQ fs r h2 hg.2⟩
end

/-! ## Keys -/

theorem keys_noVar (cfg : Cfg) (b : Base) (p : PD α) (h : Keys cfg b p) : Keys cfg b p.noVar := by
  cases b <;> simpa [Keys, PD.noVar] using h

theorem keys_map (cfg : Cfg) (b : Base) (p : PD α) : Keys cfg b (mapPD (fun _ => ()) p) ↔ Keys cfg b p := by
  cases b <;> simp [Keys, mapPD]

mutual
theorem keys_erase (cfg : Cfg) (g : GK α) (h : GEvery (Keys cfg) (erase g)) : GEvery (Keys cfg) g := by
  cases g with
  | base b p => rw [erase, GEvery, keys_map] at h; rwa [GEvery]
  | comb op ps => rw [erase, GEvery] at h; rw [GEvery]; exact keys_eraseL cfg ps h
  | change c p l r =>
    rw [erase, GEvery, keys_map, keys_map] at h
    rw [GEvery]
    exact ⟨h.1, h.2.1, keys_erase cfg l h.2.2.1, keys_erase cfg r h.2.2.2⟩
theorem keys_eraseL (cfg : Cfg) (gs : List (GK α)) (h : GEveryL (Keys cfg) (eraseL gs)) : GEveryL (Keys cfg) gs := by
  cases gs with
  | nil => rw [GEveryL]; trivial
  | cons g gs =>
    rw [eraseL, GEveryL] at h
    rw [GEveryL]
    exact ⟨keys_erase cfg g h.1, keys_eraseL cfg gs h.2⟩
end

theorem every_combine {Q : Base → PD α → Prop} (op : Op) {a b : GK α} (ha : GEvery Q a) (hb : GEvery Q b) : GEvery Q (combine op a b) := by
  rw [combine, GEvery, GEveryL_iff]
  intro x hx
  rcases List.mem_append.1 hx with hx | hx
  · exact every_parts op ha x hx
  · exact every_parts op hb x hx

theorem every_reduce {Q : Base → PD α → Prop} (op : Op) {l : List (GK α)} (h : ∀ g ∈ l, GEvery Q g) {s : GK α} (hs : reduceK op l = .ok s) : GEvery Q s := by
  cases l with
  | nil => simp [reduceK] at hs
  | cons k l =>
    simp only [reduceK, Except.ok.injEq] at hs
    subst hs
    have : ∀ (l : List (GK α)) (k : GK α), GEvery Q k → (∀ g ∈ l, GEvery Q g) → GEvery Q (l.foldl (combine op) k) := by
      intro l
      induction l with
      | nil => intro k hk _; exact hk
      | cons x l ih =>
        intro k hk hl
        rw [List.foldl_cons]
        exact ih _ (every_combine op hk (hl x (List.mem_cons_self ..))) (fun g hg => hl g (List.mem_cons_of_mem _ hg))
    exact this l k (h k (List.mem_cons_self ..)) (fun g hg => h g (List.mem_cons_of_mem _ hg))

theorem keys_base {cfg : Cfg} {b : Base} {s : GK Unit} (h : baseKer cfg b = .ok s) : GEvery (Keys cfg) s := by
  have e : s = .base b (linked (basePars cfg b)) ∧ b.isSigmoid = false := by
    cases b <;> simp [baseKer, baseName] at h <;> subst h <;> exact ⟨rfl, rfl⟩
  obtain ⟨rfl, hb⟩ := e
  rw [GEvery]
  cases b <;> simp [Base.isSigmoid] at hb <;> simp [Keys, linked, basePars, Par.put]
  intro hc; simp [hc]

theorem keys_bases {cfg : Cfg} {bs : List Base} {l : List (GK Unit)} (h : baseKers cfg bs = .ok l) : ∀ g ∈ l, GEvery (Keys cfg) g := by
  induction bs generalizing l with
  | nil => simp only [baseKers, Except.ok.injEq] at h; subst h; simp
  | cons b bs ih =>
    simp only [baseKers, bind, Except.bind] at h
    cases h1 : baseKer cfg b with
    | error e => simp [h1] at h
    | ok a =>
      cases h2 : baseKers cfg bs with
      | error e => simp [h1, h2] at h
      | ok r =>
        simp only [h1, h2, pure, Except.pure, Except.ok.injEq] at h
        subst h
        intro g hg
        rcases List.mem_cons.1 hg with rfl | hg
        · exact keys_base h1
        · exact ih h2 g hg

theorem keys_unlink {cfg : Cfg} {l : List (GK Unit)} (h : ∀ g ∈ l, GEvery (Keys cfg) g) : ∀ g ∈ unlinkTail l, GEvery (Keys cfg) g := by
  cases l with
  | nil => simp [unlinkTail]
  | cons x l =>
    intro g hg
    rw [unlinkTail] at hg
    rcases List.mem_cons.1 hg with rfl | hg
    · exact h _ (List.mem_cons_self ..)
    · obtain ⟨y, hy, rfl⟩ := List.mem_map.1 hg
      have := h y (List.mem_cons_of_mem _ hy)
      cases y with
      | base b p => rw [GEvery] at this; rw [unlinkVar, GEvery]; exact keys_noVar cfg b p this
      | comb => exact this
      | change => exact this

theorem keys_change (cfg : Cfg) (c : CC) : Keys cfg (firstWeight c) (linked (changePars cfg c)) ∧ Keys cfg (secondWeight c) (linked (changePars cfg c)) := by
  cases c <;> cases h : cfg.fixSlope <;> simp [firstWeight, secondWeight, Keys, changePars, h, linked, Par.put]

mutual
theorem keys_toKernel (cfg : Cfg) (k : KE) (s : GK Unit) (h : toKernel cfg k = .ok s) : GEvery (Keys cfg) s := by
  cases k with
  | base b => rw [toKernel] at h; exact keys_base h
  | comm op b cs =>
    cases h1 : baseKers cfg (orderBase b.elements) with
    | error e => cases op <;> simp [toKernel, h1, bind, Except.bind] at h
    | ok bs =>
      cases h2 : toKernelL cfg cs with
      | error e => cases op <;> simp [toKernel, h1, h2, bind, Except.bind] at h
      | ok ks =>
        have hk := keys_toKernelL cfg cs ks h2
        have hb := keys_bases h1
        cases op with
        | sum =>
          simp only [toKernel, h1, h2, bind, Except.bind] at h
          refine every_reduce .sum ?_ h
          intro g hg
          rcases List.mem_append.1 hg with hg | hg
          · exact hb g hg
          · exact hk g hg
        | prod =>
          simp only [toKernel, h1, h2, bind, Except.bind] at h
          refine every_reduce .prod ?_ h
          intro g hg
          rcases List.mem_append.1 hg with hg | hg
          · exact keys_unlink hb g hg
          · exact hk g hg
  | change c l r =>
    cases h1 : toKernel cfg l with
    | error e => simp [toKernel, h1, bind, Except.bind] at h
    | ok a =>
      cases h2 : toKernel cfg r with
      | error e => simp [toKernel, h1, h2, bind, Except.bind] at h
      | ok b =>
        simp only [toKernel, h1, h2, bind, Except.bind, pure, Except.pure, Except.ok.injEq] at h
        subst h
        rw [GEvery]
        exact ⟨(keys_change cfg c).1, (keys_change cfg c).2, keys_toKernel cfg l a h1, keys_toKernel cfg r b h2⟩
theorem keys_toKernelL (cfg : Cfg) (cs : List KE) (ks : List (GK Unit)) (h : toKernelL cfg cs = .ok ks) : ∀ g ∈ ks, GEvery (Keys cfg) g := by
  cases cs with
  | nil => simp only [toKernelL, Except.ok.injEq] at h; subst h; simp
  | cons k cs =>
    cases h1 : toKernel cfg k with
    | error e => simp [toKernelL, h1, bind, Except.bind] at h
    | ok a =>
      cases h2 : toKernelL cfg cs with
      | error e => simp [toKernelL, h1, h2, bind, Except.bind] at h
      | ok r =>
        simp only [toKernelL, h1, h2, bind, Except.bind, pure, Except.pure, Except.ok.injEq] at h
        subst h
        intro g hg
        rcases List.mem_cons.1 hg with rfl | hg
        · exact keys_toKernel cfg k _ h1
        · exact keys_toKernelL cfg cs r h2 g hg
end

/-! ## Own terms and windows -/

mutual
theorem own_of {P : α → Prop} (f : PKE α) (hf : Fitted P f) (h : allNodes ownNode (forget f) = true) : OwnTerms f := by
  cases f with
  | leaf => rw [OwnTerms]; trivial
  | change c p l r =>
    rw [forget] at h
    simp only [allNodes, Bool.and_eq_true] at h
    rw [Fitted] at hf
    rw [OwnTerms]
    exact ⟨own_of l hf.2.1 h.1.2, own_of r hf.2.2 h.2⟩
  | comm op b ps pv cts =>
    rw [forget] at h
    simp only [allNodes, Bool.and_eq_true, ownNode, Bool.not_eq_true', List.isEmpty_eq_false_iff] at h
    rw [OwnTerms]
    have hn : NodeFit P b ps ∧ FittedL P cts := by
      cases op <;> rw [Fitted] at hf
      · exact ⟨hf.1, hf.2.2⟩
      · exact ⟨hf.1, hf.2.2.2.2⟩
    refine ⟨?_, own_ofL cts hn.2 h.2⟩
    rintro rfl
    exact h.1 hn.1.aligned
theorem own_ofL {P : α → Prop} (fs : List (PKE α)) (hf : FittedL P fs) (h : allNodesL ownNode (forgetL fs) = true) : OwnTermsL fs := by
  cases fs with
  | nil => rw [OwnTermsL]; trivial
  | cons f fs =>
    rw [forgetL] at h
    simp only [allNodesL, Bool.and_eq_true] at h
    rw [FittedL] at hf
    rw [OwnTermsL]
    exact ⟨own_of f hf.1.2 h.1, own_ofL fs hf.2 h.2⟩
end

mutual
theorem of_own {P : α → Prop} (f : PKE α) (hf : Fitted P f) (h : OwnTerms f) : allNodes ownNode (forget f) = true := by
  cases f with
  | leaf => rfl
  | change c p l r =>
    rw [Fitted] at hf
    rw [OwnTerms] at h
    rw [forget]
    simp only [allNodes, Bool.and_eq_true]
    exact ⟨⟨rfl, of_own l hf.2.1 h.1⟩, of_own r hf.2.2 h.2⟩
  | comm op b ps pv cts =>
    rw [OwnTerms] at h
    have hn : NodeFit P b ps ∧ FittedL P cts := by
      cases op <;> rw [Fitted] at hf
      · exact ⟨hf.1, hf.2.2⟩
      · exact ⟨hf.1, hf.2.2.2.2⟩
    rw [forget]
    simp only [allNodes, Bool.and_eq_true, ownNode, Bool.not_eq_true', List.isEmpty_eq_false_iff]
    refine ⟨?_, of_ownL cts hn.2 h.2⟩
    rintro rfl
    exact h.1 (List.map_eq_nil_iff.1 hn.1.aligned.symm)
theorem of_ownL {P : α → Prop} (fs : List (PKE α)) (hf : FittedL P fs) (h : OwnTermsL fs) : allNodesL ownNode (forgetL fs) = true := by
  cases fs with
  | nil => rfl
  | cons f fs =>
    rw [FittedL] at hf
    rw [OwnTermsL] at h
    rw [forgetL]
    simp only [allNodesL, Bool.and_eq_true]
    exact ⟨of_own f hf.1.2 h.1, of_ownL fs hf.2 h.2⟩
end

mutual
theorem noWindow_of (f : PKE α) (h : CC.CW ∉ changes (forget f)) : NoWindow f := by
  cases f with
  | leaf => rw [NoWindow]; trivial
  | change c p l r =>
    rw [forget] at h
    simp only [changes, List.mem_cons, List.mem_append, not_or] at h
    rw [NoWindow]
    refine ⟨?_, noWindow_of l h.2.1, noWindow_of r h.2.2⟩
    cases c
    · rfl
    · exact absurd rfl h.1
  | comm op b ps pv cts =>
    rw [forget] at h
    simp only [changes] at h
    rw [NoWindow]
    exact noWindow_ofL cts h
theorem noWindow_ofL (fs : List (PKE α)) (h : CC.CW ∉ changesL (forgetL fs)) : NoWindowL fs := by
  cases fs with
  | nil => rw [NoWindowL]; trivial
  | cons f fs =>
    rw [forgetL] at h
    simp only [changesL, List.mem_append, not_or] at h
    rw [NoWindowL]
    exact ⟨noWindow_of f h.1, noWindow_ofL fs h.2⟩
end

/-- The sigmoids of a component. -/
def sigKinds (c : Comp α) : List Base := (c.fs.map (fun f => f.1)).filter Base.isSigmoid

theorem sigKinds_mul (c d : Comp α) : sigKinds (c.mul d) = sigKinds c ++ sigKinds d := by simp [sigKinds, Comp.mul]

theorem sigKinds_one {b : Base} (p : PD α) (h : b.isSigmoid = true) : sigKinds (Comp.one b p) = [b] := by simp [sigKinds, Comp.one, h]

theorem sigKinds_plain {b : Base} (p : PD α) (h : b.isSigmoid = false) : sigKinds (Comp.one b p) = [] := by simp [sigKinds, Comp.one, h]

mutual
theorem weights_of (f : PKE α) (hf : Fitted (fun _ => True) f) : ∀ c ∈ comps f, ∃ w ∈ weights (forget f), (sigKinds c).Perm w := by
  cases f with
  | leaf b p =>
    simp only [Fitted] at hf
    simp only [comps, List.mem_singleton, forall_eq, forget, weights]
    exact ⟨[], rfl, by rw [sigKinds_plain p hf.1]⟩
  | change cc p l r =>
    simp only [Fitted] at hf
    simp only [comps, List.mem_append, List.mem_map, forget, weights]
    rintro c (⟨d, hd, rfl⟩ | ⟨d, hd, rfl⟩)
    · obtain ⟨w, hw, h⟩ := weights_of l hf.2.1 d hd
      refine ⟨_, Or.inl ⟨w, hw, rfl⟩, ?_⟩
      rw [sigKinds_mul, sigKinds_one p (by cases cc <;> rfl)]
      exact (List.perm_append_comm).trans (h.cons _)
    · obtain ⟨w, hw, h⟩ := weights_of r hf.2.2 d hd
      refine ⟨_, Or.inr ⟨w, hw, rfl⟩, ?_⟩
      rw [sigKinds_mul, sigKinds_one p (by cases cc <;> rfl)]
      exact (List.perm_append_comm).trans (h.cons _)
  | comm op bts ps pv cts =>
    cases op with
    | sum =>
      simp only [Fitted] at hf
      simp only [comps, List.mem_append, List.mem_reverse, List.mem_flatMap, List.mem_map, forget, weights, List.mem_cons]
      rintro c (⟨e, he, p, hp, rfl⟩ | hc)
      · exact ⟨[], Or.inl rfl, by rw [sigKinds_plain p (hf.1.plain e he)]⟩
      · obtain ⟨w, hw, h⟩ := weights_ofS cts hf.2.2 c hc
        exact ⟨w, Or.inr hw, h⟩
    | prod =>
      simp only [Fitted] at hf
      simp only [comps, List.mem_map, forget, weights]
      rintro c ⟨d, hd, rfl⟩
      obtain ⟨w, hw, h⟩ := weights_ofP cts hf.2.2.2.2 d hd
      refine ⟨w, hw, ?_⟩
      rw [sigKinds_mul]
      have : sigKinds (⟨pv.toList, ps.flatMap (fun e => e.2.map (fun p => (e.1, p)))⟩ : Comp α) = [] := by
        simp only [sigKinds, List.filter_eq_nil_iff, List.mem_map, List.mem_flatMap]
        rintro b ⟨x, ⟨e, he, p, hp, rfl⟩, rfl⟩
        simp [hf.1.plain e he]
      rw [this]; exact h
theorem weights_ofS (fs : List (PKE α)) (hf : FittedL (fun _ => True) fs) : ∀ c ∈ compsSum fs, ∃ w ∈ weightsSum (forgetL fs), (sigKinds c).Perm w := by
  cases fs with
  | nil => simp [compsSum]
  | cons f fs =>
    simp only [FittedL] at hf
    simp only [compsSum, List.mem_append, forgetL, weightsSum]
    rintro c (hc | hc)
    · obtain ⟨w, hw, h⟩ := weights_of f hf.1.2 c hc
      exact ⟨w, Or.inl hw, h⟩
    · obtain ⟨w, hw, h⟩ := weights_ofS fs hf.2 c hc
      exact ⟨w, Or.inr hw, h⟩
theorem weights_ofP (fs : List (PKE α)) (hf : FittedL (fun _ => True) fs) : ∀ c ∈ compsProd fs, ∃ w ∈ weightsProd (forgetL fs), (sigKinds c).Perm w := by
  cases fs with
  | nil => simp [compsProd, forgetL, weightsProd, sigKinds]
  | cons f fs =>
    simp only [FittedL] at hf
    simp only [compsProd, List.mem_flatMap, List.mem_map, forgetL, weightsProd]
    rintro c ⟨x, hx, y, hy, rfl⟩
    obtain ⟨w, hw, h⟩ := weights_of f hf.1.2 x hx
    obtain ⟨w', hw', h'⟩ := weights_ofP fs hf.2 y hy
    exact ⟨_, ⟨w, hw, w', hw', rfl⟩, by rw [sigKinds_mul]; exact h.append h'⟩
end

/-- Where windows are alone, every component is tellable. -/
theorem tellable_of [LT α] [Add α] (f : PKE α) (hf : Fitted (fun _ => True) f) (ha : aloneWindows (forget f) = true)
    (hw : ∀ c ∈ comps f, ∀ g ∈ c.fs, g.1 = .SI → ∀ l ∈ g.2.location, ∀ w ∈ g.2.width, l < l + w) : ∀ c ∈ comps f, Tellable c := by
  intro c hc
  obtain ⟨w, hwm, hp⟩ := weights_of f hf c hc
  have := List.all_eq_true.1 ha w hwm
  simp only [Bool.or_eq_true, decide_eq_true_eq, List.all_eq_true, Bool.and_eq_true] at this
  rcases this with h | h
  · refine Or.inr (Or.inl ⟨?_, hw c hc⟩)
    rw [← hp.length_eq] at h
    simpa [sigKinds, List.filter_map, Function.comp_def] using h
  · refine Or.inl fun g hg => ?_
    by_cases hs : g.1.isSigmoid = true
    · exact h _ (hp.mem_iff.1 (List.mem_filter.2 ⟨List.mem_map_of_mem hg, hs⟩))
    · constructor <;> intro e <;> rw [e] at hs <;> exact hs rfl

end Params
end GPyABCD
