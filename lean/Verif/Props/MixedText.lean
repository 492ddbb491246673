import Verif.Props.Mixed
import Verif.Props.EndToEnd

/-!
# Which fitted models have a text (C75, C88 continued)
-/

namespace GPyABCD
open KE Sops Params Interp Search

section
variable {α : Type} [LinearOrder α] [DenselyOrdered α] [NoMinOrder α] [NoMaxOrder α] [Add α] [One α] [Mul α]

/-- C75: a fitted model of a stable expression with base terms at every node is interpreted exactly if the sigmoids of every component suit; otherwise telling
the intervals raises. The text has one sentence for every component of the matched expression, each says what it should of its component, and the covariances of
the components add up to that of the fitted kernel. -/
theorem C75_iff {R : Type} [CommRing R] (φ : α → R) (shape : Base → PD α → R) (comb : α → α → α) (fmt : α → String) (cfg : Cfg) (k : KE)
    (hk : k.isBase = false) (hw : wf k = true) (he : noEmpty k = true) (hs : ∀ x ∈ bases k, x.isSigmoid = false)
    (h : keq (simplify cfg k) k = true) (ho : allNodes ownNode k = true) :
    ∃ s, toKernel cfg k = .ok s ∧ ∀ g : GK α, erase g = s → WindowsOK g → ∃ f cts, fitParams cfg g k = .ok f ∧ Carries f g ∧
      sops comb cfg f = .ok (.comm .sum [] [] none cts) ∧
      ((∀ bts ps pv, .comm .prod bts ps pv [] ∈ cts → Suited cfg ps) →
        ∃ ss, List.Forall₂ (fun c t => Relates cfg c t) (comps f) ss ∧ ((comps f).map (Comp.val φ shape)).sum = gval φ shape g ∧
          interpret comb fmt cfg g k = .ok ("The fit kernel consists of " ++ toString (comps f).length ++ " components:" ++
            String.join (ss.map (fun t => "\n\t" ++ t.text fmt)))) ∧
      (¬ (∀ bts ps pv, .comm .prod bts ps pv [] ∈ cts → Suited cfg ps) → ∃ e, interpret comb fmt cfg g k = .error (.telling e)) := by
  obtain ⟨s, h1, h2⟩ := C40_matched (α := α) cfg k hk hw he hs h
  refine ⟨s, h1, fun g hg hwin => ?_⟩
  obtain ⟨f, h3, h4, h5⟩ := h2 g hg
  obtain ⟨h6, h7⟩ := C40_fitted (fun _ => True) cfg k hk hw he hs h s h1 g hg (se_true g) f h3
  have hl := asLeaf_of h4 hk
  have hsen : EveryTerm (Sensible cfg) f := every_and f h7 (every_carries (fun _ _ hq => hq) f g h5 hwin)
  obtain ⟨cts, h8, h9, h10⟩ := C47_text_iff comb fmt cfg f hl h6 (own_of f h6 (by rw [h4]; exact ho)) hsen
  refine ⟨f, cts, h3, h5, h8, fun hall => ?_, fun hn => ?_⟩
  · obtain ⟨ss, e1, e2, e3⟩ := h9 hall
    have hlen : ss.length = (comps f).length := e2.length_eq.symm
    refine ⟨ss, e2, ?_, ?_⟩
    · rw [← eval_comps f h6, eval_carries φ shape f g h5]
    · simp only [interpret, h3, h8, e3, ← hlen, e1]
  · obtain ⟨e, he⟩ := h10 hn
    exact ⟨e, by simp only [interpret, h3, h8, he]⟩

/-- C88 (partial: a sum directly in a sum or a product in a product is left out, see `C88_wrong_variances`): what becomes of every other model a search returns
whose sums and products all have base terms of their own (those without raise, `C88_raises`). -/
theorem C88_iff_partial {D V ε : Type} {cfg : Cfg} {o : Orders} {rules : List RuleName} {le : V → V → Bool} {score : D → V} {fit : Nat → KE → Except ε D}
    {S : Type} [CommRing S] (φ : α → S) (shape : Base → Sops.PD α → S) (comb : α → α → α) (fmt : α → String)
    (ho : o.OK cfg) (bs : List Base) (hbs : bs.Perm [.WN, .C, .LIN, .PER]) (ps : List Pseudo)
    (hp : ps ∈ startGroups cfg bs) (starts : List KE) (hst : makeSimpleKexs cfg ps = some starts) (ker : D → GK α) (hfit : FitsKernel cfg ker fit)
    (v : Bool) (n : Nat) (beam : BeamArg) (s : St KE D V) (h : explore (keEnv cfg o rules le score fit) v starts n beam = .ok s)
    (m : Mod KE D V) (hm : m ∈ s.sorted) (ha : alternating m.kex = true) (hown : allNodes ownNode m.kex = true) (hwin : WindowsOK (ker m.data)) :
    ∃ f cts, fitParams cfg (ker m.data) m.kex = .ok f ∧ Carries f (ker m.data) ∧ sops comb cfg f = .ok (.comm .sum [] [] none cts) ∧
      ((∀ bts ps pv, .comm .prod bts ps pv [] ∈ cts → Suited cfg ps) →
        ∃ ss, List.Forall₂ (fun c t => Relates cfg c t) (comps f) ss ∧ ((comps f).map (Comp.val φ shape)).sum = gval φ shape (ker m.data) ∧
          interpret comb fmt cfg (ker m.data) m.kex = .ok ("The fit kernel consists of " ++ toString (comps f).length ++ " components:" ++
            String.join (ss.map (fun t => "\n\t" ++ t.text fmt)))) ∧
      (¬ (∀ bts ps pv, .comm .prod bts ps pv [] ∈ cts → Suited cfg ps) → ∃ e, interpret comb fmt cfg (ker m.data) m.kex = .error (.telling e)) := by
  obtain ⟨h1, h2, h3, h4, h5, h6⟩ := tested_stable ho hbs hp hst h hm
  obtain ⟨t, ht, hall⟩ := C75_iff φ shape comb fmt cfg m.kex h2 h3 h4 h5 (h6 ha) hown
  have := hfit _ _ _ h1
  rw [this] at ht
  exact hall _ (Except.ok.inj ht) hwin

end

/-- A window in a window, with its kernel, which is interpreted. -/
example : let k := change .CW (base .LIN) (change .CW (base .PER) (base .LIN))
    let g : GK Rat := .change .CW { location := some 0, width := some 4 } (.base .LIN { variance := some 4, offset := some 5 })
      (.change .CW { location := some 1, width := some 1 } (.base .PER { variance := some 20, lengthscale := some 21, period := some 7 })
        (.base .LIN { variance := some 22, offset := some 23 }))
    wf k = true ∧ noEmpty k = true ∧ (∀ x ∈ bases k, x.isSigmoid = false) ∧ keq (simplify Cfg.default k) k = true ∧ allNodes ownNode k = true ∧
      aloneWindows k = false ∧ toKernel Cfg.default k = .ok (erase g) ∧ WindowsOK g ∧
      (interpret (fun a _ => a) (fun _ => "n") Cfg.default g k).toOption.isSome = true := by
  refine ⟨by decide, by decide, by decide, by decide, by decide, by decide, by rfl, ?_, by decide +kernel⟩
  simp [WindowsOK, GEvery, GEveryL, firstWeight, secondWeight]

/-- The same with windows that do not meet is not. -/
example : let k := change .CW (base .LIN) (change .CW (base .PER) (base .LIN))
    let g : GK Rat := .change .CW { location := some 0, width := some 4 } (.base .LIN { variance := some 4, offset := some 5 })
      (.change .CW { location := some 7, width := some 1 } (.base .PER { variance := some 20, lengthscale := some 21, period := some 7 })
        (.base .LIN { variance := some 22, offset := some 23 }))
    toKernel Cfg.default k = .ok (erase g) ∧ WindowsOK g ∧ interpret (fun a _ => a) (fun _ => "n") Cfg.default g k = .error (.telling .type) := by
  refine ⟨by rfl, ?_, by decide +kernel⟩
  simp [WindowsOK, GEvery, GEveryL, firstWeight, secondWeight]

end GPyABCD
