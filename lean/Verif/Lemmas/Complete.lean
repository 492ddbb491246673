import Verif.Props.Expand
import Verif.Lemmas.Moves

/-!
# Every simplified expression can be reached: lemmas for C104

Growing an expression in place: a node inside a context is turned into another step by step, every intermediate tree being simplified.
-/

namespace GPyABCD
open KE

/-- What an operand of the grown expressions looks like: simplified, no node with fewer than two terms, searched base kernels only. -/
structure Op1 (cfg : Cfg) (k : KE) : Prop where
  wf : wf k = true
  noEmpty : noEmpty k = true
  canon : allNodes (canonNode cfg) k = true
  many : allNodes (fun n => !n.isSingleton) k = true
  alt : alternating k = true
  bases : ∀ x ∈ bases k, Searched cfg x

theorem op1_base {cfg : Cfg} {b : Base} (h : Searched cfg b) : Op1 cfg (base b) :=
  ⟨rfl, rfl, rfl, rfl, rfl, by simpa [KE.bases] using h⟩

theorem op1_comm {cfg : Cfg} {o : Op} {b : Counter} {cs : List KE} : Op1 cfg (comm o b cs) ↔
    b.WF ∧ b.Pos ∧ canonNode cfg (comm o b cs) = true ∧ 2 ≤ b.elements.length + cs.length ∧ (∀ x ∈ b.elements, Searched cfg x) ∧
      ∀ k ∈ cs, k.isBase = false ∧ isComm o k = false ∧ Op1 cfg k := by
  constructor
  · rintro ⟨h1, h2, h3, h4, h5, h6⟩
    obtain ⟨a1, a2, a3⟩ := wf_comm.1 h1
    simp only [KE.noEmpty, alternating, allNodes, Bool.and_eq_true, allNodesL_iff, isEmptyNode, isSingleton, altNode, Bool.not_eq_true',
      List.all_eq_true, decide_eq_false_iff_not, Bool.and_eq_false_iff] at h2 h3 h4 h5
    refine ⟨a1, a2, h3.1, ?_, fun x hx => h6 x (bases_mem_comm.2 (Or.inl hx)), fun k hk => ⟨(a3 k hk).1, h5.1 k hk, ⟨(a3 k hk).2, ?_, h3.2 k hk, ?_, ?_,
      fun x hx => h6 x (bases_mem_comm.2 (Or.inr ⟨k, hk, hx⟩))⟩⟩⟩
    · have h0 : ¬ (b.elements.length = 0 ∧ cs.length = 0) := by
        rintro ⟨e1, e2⟩
        rcases h2.1 with h | h
        · exact h (List.length_eq_zero_iff.1 e1)
        · rw [List.length_eq_zero_iff.1 e2] at h; simp at h
      have := h4.1
      omega
    · have := h2.2 k hk; simpa [KE.noEmpty, isEmptyNode] using this
    · simpa [isSingleton] using h4.2 k hk
    · simpa [alternating, altNode] using h5.2 k hk
  · rintro ⟨h1, h2, h3, h4, h5, h6⟩
    refine ⟨wf_comm.2 ⟨h1, h2, fun k hk => ⟨(h6 k hk).1, (h6 k hk).2.2.wf⟩⟩, ?_, ?_, ?_, ?_, ?_⟩
    · simp only [KE.noEmpty, allNodes, Bool.and_eq_true, allNodesL_iff]
      refine ⟨?_, fun k hk => (h6 k hk).2.2.noEmpty⟩
      simp only [isEmptyNode, Bool.not_eq_true', Bool.and_eq_false_iff, decide_eq_false_iff_not]
      by_contra hc
      simp only [not_or, not_not, Bool.not_eq_false] at hc
      rw [hc.1, List.isEmpty_iff.1 hc.2] at h4
      simp at h4
    · simp only [allNodes, Bool.and_eq_true, allNodesL_iff]
      exact ⟨h3, fun k hk => (h6 k hk).2.2.canon⟩
    · simp only [allNodes, Bool.and_eq_true, allNodesL_iff]
      refine ⟨?_, fun k hk => (h6 k hk).2.2.many⟩
      simp only [isSingleton, Bool.not_eq_true', decide_eq_false_iff_not]; omega
    · simp only [alternating, allNodes, Bool.and_eq_true, allNodesL_iff]
      refine ⟨?_, fun k hk => (h6 k hk).2.2.alt⟩
      simp only [altNode, List.all_eq_true]
      intro k hk; simp [(h6 k hk).2.1]
    · intro x hx
      rcases bases_mem_comm.1 hx with h | ⟨k, hk, h⟩
      · exact h5 x h
      · exact (h6 k hk).2.2.bases x h

theorem op1_change {cfg : Cfg} {c : CC} {l r : KE} : Op1 cfg (change c l r) ↔ Op1 cfg l ∧ Op1 cfg r := by
  constructor
  · rintro ⟨h1, h2, h3, h4, h5, h6⟩
    obtain ⟨a1, a2⟩ := wf_change.1 h1
    simp only [KE.noEmpty, alternating, allNodes, Bool.and_eq_true] at h2 h3 h4 h5
    exact ⟨⟨a1, h2.1.2, h3.1.2, h4.1.2, h5.1.2, fun x hx => h6 x (by simp [KE.bases, hx])⟩,
      ⟨a2, h2.2, h3.2, h4.2, h5.2, fun x hx => h6 x (by simp [KE.bases, hx])⟩⟩
  · rintro ⟨⟨a1, a2, a3, a4, a5, a6⟩, ⟨b1, b2, b3, b4, b5, b6⟩⟩
    refine ⟨wf_change.2 ⟨a1, b1⟩, ?_, ?_, ?_, ?_, ?_⟩
    · simp only [KE.noEmpty, allNodes, Bool.and_eq_true]; exact ⟨⟨rfl, a2⟩, b2⟩
    · simp only [allNodes, Bool.and_eq_true]; exact ⟨⟨rfl, a3⟩, b3⟩
    · simp only [allNodes, Bool.and_eq_true]; exact ⟨⟨rfl, a4⟩, b4⟩
    · simp only [alternating, allNodes, Bool.and_eq_true]; exact ⟨⟨rfl, a5⟩, b5⟩
    · intro x hx
      simp only [KE.bases, List.mem_append] at hx
      exact hx.elim (a6 x) (b6 x)

theorem Op1.normal {cfg : Cfg} {k : KE} (h : Op1 cfg k) : normal cfg k = true := by
  refine normal_iff.2 ⟨h.wf, h.canon, ?_, h.alt⟩
  cases k with
  | base b => rfl
  | comm o b cs =>
    have := h.many
    simp only [allNodes, Bool.and_eq_true] at this
    exact this.2
  | change c l r =>
    have := h.many
    simp only [allNodes, Bool.and_eq_true] at this
    simp only [allBelow, Bool.and_eq_true]
    exact ⟨this.1.2, this.2⟩

theorem Op1.simplify {cfg : Cfg} {k : KE} (h : Op1 cfg k) : simplify cfg k = k := simplify_of_normal h.normal

theorem Op1.notSingle {cfg : Cfg} {k : KE} (h : Op1 cfg k) : isSingleton k = false := by
  have := h.many
  cases k <;> simp_all [allNodes, isSingleton]

theorem extractsSelf_of {k : KE} (hw : wf k = true) (h : isSingleton k = false) : extractsSelf k = true := by
  cases k with
  | base b => rfl
  | change c l r => rfl
  | comm o b cs =>
    have hp := (wf_comm.1 hw).2.1
    have hl := Counter.length_elements hp
    simp only [isSingleton, decide_eq_false_iff_not] at h
    simp only [extractsSelf, Bool.not_eq_true', Bool.or_eq_false_iff, Bool.and_eq_false_iff, decide_eq_false_iff_not]
    constructor
    · by_contra hc
      simp only [not_or, not_not, Bool.not_eq_false, List.isEmpty_iff] at hc
      rw [hc.2] at h; simp at h; omega
    · omega

theorem Op1.standardise {cfg : Cfg} {k : KE} (h : Op1 cfg k) : standardise cfg k = k := by
  have e : standardiseF cfg (standardise.nodes' k + 1) k = some k := by
    rw [standardiseF]
    simp only [h.simplify]
    rw [if_pos (extractsSelf_of h.wf h.notSingle)]
  rw [KE.standardise, e, Option.getD_some]

/-- Where the hole of a context is. -/
inductive Place
  | root | term (o : Op) | branch

/-- Where the hole of a context is, the context being at `p`. -/
def place : Place → Ctx → Place
  | p, .hole => p
  | _, .comm o _ _ C _ => place (.term o) C
  | _, .left _ C _ => place .branch C
  | _, .right _ _ C => place .branch C

/-- What a simplified tree can have there. -/
def Place.fits : Place → KE → Bool
  | .root, y => !y.isBase
  | .term o, y => !y.isBase && !isComm o y
  | .branch, _ => true

theorem place_comp (p : Place) (C D : Ctx) : place p (C.comp D) = place (place p C) D := by
  induction C generalizing p with
  | hole => rfl
  | comm o b l1 C l2 ih => exact ih _
  | left c C r ih => exact ih _
  | right c l C ih => exact ih _

theorem plug_comp (C D : Ctx) (x : KE) : (C.comp D).plug x = C.plug (D.plug x) := by
  induction C with
  | hole => rfl
  | comm o b l1 C l2 ih => simp only [Ctx.comp, Ctx.plug, ih]
  | left c C r ih => simp only [Ctx.comp, Ctx.plug, ih]
  | right c l C ih => simp only [Ctx.comp, Ctx.plug, ih]

theorem op1_plug {cfg : Cfg} (C : Ctx) {x y : KE} : ∀ (p : Place), Op1 cfg (C.plug x) → p.fits (C.plug x) = true → Op1 cfg y →
    (place p C).fits y = true → Op1 cfg (C.plug y) ∧ p.fits (C.plug y) = true := by
  induction C with
  | hole => exact fun p _ _ hy hf => ⟨hy, hf⟩
  | comm o b l1 C l2 ih =>
    intro p h hp hy hf
    simp only [Ctx.plug] at h hp ⊢
    obtain ⟨h1, h2, h3, h4, h5, h6⟩ := op1_comm.1 h
    have hc := h6 (C.plug x) (by simp)
    obtain ⟨i1, i2⟩ := ih (.term o) hc.2.2 (by simp [Place.fits, hc.1, hc.2.1]) hy hf
    simp only [Place.fits, Bool.and_eq_true, Bool.not_eq_true'] at i2
    refine ⟨op1_comm.2 ⟨h1, h2, ?_, by simpa using h4, h5, ?_⟩, ?_⟩
    · cases o <;> simpa [canonNode] using h3
    · intro k hk
      simp only [List.mem_append, List.mem_cons] at hk
      rcases hk with hk | rfl | hk
      · exact h6 k (by simp [hk])
      · exact ⟨i2.1, i2.2, i1⟩
      · exact h6 k (by simp [hk])
    · cases p <;> simpa [Place.fits, isBase, isComm] using hp
  | left c C r ih =>
    intro p h hp hy hf
    simp only [Ctx.plug] at h hp ⊢
    obtain ⟨h1, h2⟩ := op1_change.1 h
    refine ⟨op1_change.2 ⟨(ih .branch h1 rfl hy hf).1, h2⟩, ?_⟩
    cases p <;> simp [Place.fits, isBase, isComm]
  | right c l C ih =>
    intro p h hp hy hf
    simp only [Ctx.plug] at h hp ⊢
    obtain ⟨h1, h2⟩ := op1_change.1 h
    refine ⟨op1_change.2 ⟨h1, (ih .branch h2 rfl hy hf).1⟩, ?_⟩
    cases p <;> simp [Place.fits, isBase, isComm]

theorem op1_hole {cfg : Cfg} (C : Ctx) {x : KE} : ∀ (p : Place), Op1 cfg (C.plug x) → p.fits (C.plug x) = true →
    Op1 cfg x ∧ (place p C).fits x = true := by
  induction C with
  | hole => exact fun p h hp => ⟨h, hp⟩
  | comm o b l1 C l2 ih =>
    intro p h hp
    have hc := (op1_comm.1 h).2.2.2.2.2 (C.plug x) (by simp)
    exact ih (.term o) hc.2.2 (by simp [Place.fits, hc.1, hc.2.1])
  | left c C r ih => exact fun p h hp => ih .branch (op1_change.1 h).1 rfl
  | right c l C ih => exact fun p h hp => ih .branch (op1_change.1 h).2 rfl

/-- The tree with `x` in the hole is an expression of the kind above. -/
def At (cfg : Cfg) (C : Ctx) (x : KE) : Prop := Op1 cfg (C.plug x) ∧ (C.plug x).isBase = false

theorem At.set {cfg : Cfg} {C : Ctx} {x y : KE} (h : At cfg C x) (hy : Op1 cfg y) (hf : (place .root C).fits y = true) : At cfg C y := by
  obtain ⟨h1, h2⟩ := op1_plug C .root h.1 (by simp [Place.fits, h.2]) hy hf
  exact ⟨h1, by simpa [Place.fits] using h2⟩

theorem At.op1 {cfg : Cfg} {C : Ctx} {x : KE} (h : At cfg C x) : Op1 cfg x := (op1_hole C .root h.1 (by simp [Place.fits, h.2])).1
theorem At.fits {cfg : Cfg} {C : Ctx} {x : KE} (h : At cfg C x) : (place .root C).fits x = true := (op1_hole C .root h.1 (by simp [Place.fits, h.2])).2
theorem At.isExpr {cfg : Cfg} {C : Ctx} {x : KE} (h : At cfg C x) : IsExpr (C.plug x) := ⟨h.1.wf, h.2⟩

theorem At.comp {cfg : Cfg} {C D : Ctx} {x : KE} (h : At cfg C (D.plug x)) : At cfg (C.comp D) x := by
  unfold At; rw [plug_comp]; exact h

theorem At.uncomp {cfg : Cfg} {C D : Ctx} {x : KE} (h : At cfg (C.comp D) x) : At cfg C (D.plug x) := by
  unfold At at h; rw [plug_comp] at h; exact h

/-! ## Steps -/

/-- At most `n` expansions lead from `X` to `Y`, up to the order of terms. -/
inductive Within (cfg : Cfg) (o : Orders) (rules : List RuleName) : Nat → KE → KE → Prop
  | same {n : Nat} {X Y : KE} (h : Same X Y) : Within cfg o rules n X Y
  | step {n : Nat} {X r Y : KE} (h : r ∈ expandNamed cfg o rules X) (h' : Within cfg o rules n r Y) : Within cfg o rules (n + 1) X Y

variable {cfg : Cfg} {o : Orders} {rules : List RuleName}

theorem Within.mono {m n : Nat} {X Y : KE} (h : Within cfg o rules m X Y) (hmn : m ≤ n) : Within cfg o rules n X Y := by
  induction h generalizing n with
  | same h => exact .same h
  | step h _ ih =>
    obtain ⟨n, rfl⟩ : ∃ n', n = n' + 1 := ⟨n - 1, by omega⟩
    exact .step h (ih (by omega))

theorem Within.of_same (ho : o.OK cfg) {n : Nat} {X X' Y : KE} (hX : IsExpr X) (hX' : IsExpr X') (hs : Same X X')
    (h : Within cfg o rules n X' Y) : Within cfg o rules n X Y := by
  induction h generalizing X with
  | same h => exact .same (hs.trans h)
  | @step n X' r Y h h' ih =>
    obtain ⟨r', h1, h2⟩ := C67_expand cfg o ho rules X' X hX' hX ((keq_iff _ _).2 hs.symm) r h
    have g := C20_builtin_rules cfg o ho rules
    exact .step h1 (ih (C24_shape cfg _ g _ hX r' h1).1 (C24_shape cfg _ g _ hX' r h).1 ((keq_iff _ _).1 h2).symm)

theorem Within.trans (ho : o.OK cfg) {m n : Nat} {X Y Z : KE} (hX : IsExpr X) (hY : IsExpr Y) (h : Within cfg o rules m X Y)
    (h' : Within cfg o rules n Y Z) : Within cfg o rules (m + n) X Z := by
  induction h with
  | same h => exact (Within.of_same ho hX hY h h').mono (by omega)
  | @step m X r Y h h1 ih =>
    have g := C20_builtin_rules cfg o ho rules
    exact (Within.step h (ih (C24_shape cfg _ g _ hX r h).1 hY h')).mono (by omega)

/-- Going on from a tree to another with the same context. -/
theorem Within.next (ho : o.OK cfg) {m n : Nat} {C : Ctx} {x y : KE} {Z : KE} (hx : At cfg C x) (hy : At cfg C y)
    (h : Within cfg o rules m (C.plug x) (C.plug y)) (h' : Within cfg o rules n (C.plug y) Z) : Within cfg o rules (m + n) (C.plug x) Z :=
  Within.trans ho hx.isExpr hy.isExpr h h'

/-- One rule at one node. -/
theorem move (ho : o.OK cfg) {C : Ctx} {x y new : KE} (hx : At cfg C x) (hy : At cfg C y) (hl : (C.endsLeft && x.isBase) = false) {n : RuleName}
    (hr : n ∈ rules) (h : new ∈ n.rule cfg o (nodeOf x)) (hs : Same new y) : Within cfg o rules 1 (C.plug x) (C.plug y) := by
  have hmem : n.rule cfg o ∈ rules.map (RuleName.rule cfg o) := List.mem_map.2 ⟨n, hr, rfl⟩
  have g := C20_builtin_rules cfg o ho rules
  obtain ⟨r, h1, h2⟩ := C21_complete_partial cfg _ g C x hx.isExpr hl _ hmem new h
  have hwx : wf (nodeOf x) = true ∧ (nodeOf x).isBase = false := by
    have := hx.op1.wf
    cases x with
    | base b => exact ⟨by cases b <;> rfl, rfl⟩
    | comm _ _ _ => exact ⟨this, rfl⟩
    | change _ _ _ => exact ⟨this, rfl⟩
  have hn := g _ hmem _ hwx.1 hwx.2 new h
  have hs' := standardise_same (cfg := cfg) (wf_plug hx.1.wf hn.1 hn.2).1 hy.1.wf (Ctx.plug_same C hs)
  rw [hy.1.standardise] at hs'
  exact .step h1 (.same (h2.trans hs'))

/-- The same where the result is simplified by a constructor. -/
theorem moveW (ho : o.OK cfg) {C : Ctx} {x y W : KE} (hx : At cfg C x) (hy : Op1 cfg y) (hf : (place .root C).fits y = true) (hb : x.isBase = false)
    {n : RuleName} (hr : n ∈ rules) (hW : wf W = true) (h : simplify cfg W ∈ n.rule cfg o x) (hs : Same W y) :
    At cfg C y ∧ Within cfg o rules 1 (C.plug x) (C.plug y) := by
  have hy' := hx.set hy hf
  refine ⟨hy', move ho hx hy' (by simp [hb]) hr (new := simplify cfg W) ?_ ?_⟩
  · have : nodeOf x = x := by cases x <;> simp_all [nodeOf, isBase]
    rw [this]; exact h
  · have := simplify_same cfg W y hW hy.wf hs
    rwa [hy.simplify] at this


/-- At most `n` expansions lead from `x` to `y` at the hole of `C`, if `x` can be there. -/
def Go (cfg : Cfg) (o : Orders) (rules : List RuleName) (n : Nat) (C : Ctx) (x y : KE) : Prop :=
  At cfg C x → At cfg C y ∧ Within cfg o rules n (C.plug x) (C.plug y)

theorem Go.trans (ho : o.OK cfg) {m n : Nat} {C : Ctx} {x y z : KE} (h : Go cfg o rules m C x y) (h' : Go cfg o rules n C y z) :
    Go cfg o rules (m + n) C x z := by
  intro hx
  obtain ⟨hy, w⟩ := h hx
  obtain ⟨hz, w'⟩ := h' hy
  exact ⟨hz, Within.next ho hx hy w w'⟩

theorem Go.mono {m n : Nat} {C : Ctx} {x y : KE} (h : Go cfg o rules m C x y) (hmn : m ≤ n) : Go cfg o rules n C x y :=
  fun hx => ⟨(h hx).1, (h hx).2.mono hmn⟩

theorem Go.same {C : Ctx} {x y : KE} (hs : Same x y) (hy : Op1 cfg y) : Go cfg o rules 0 C x y := by
  intro hx
  refine ⟨hx.set hy ?_, .same (Ctx.plug_same C hs)⟩
  have h := hx.fits
  cases hp : place .root C <;> rw [hp] at h <;> simp only [Place.fits, isBase_same hs, isComm_same hs] at h ⊢ <;> exact h

/-- A step inside the node. -/
theorem Go.inside {n : Nat} {C D : Ctx} {x y : KE} (h : Go cfg o rules n (C.comp D) x y) : Go cfg o rules n C (D.plug x) (D.plug y) := by
  intro hx
  obtain ⟨h1, h2⟩ := h hx.comp
  rw [plug_comp, plug_comp] at h2
  exact ⟨h1.uncomp, h2⟩

theorem fits_comm (p : Place) (op : Op) (b b' : Counter) (cs cs' : List KE) : p.fits (comm op b cs) = p.fits (comm op b' cs') := by
  cases p <;> simp [Place.fits, isBase, isComm]

/-! ## Sums and products written with lists of base kernels -/

/-- A sum or product of these base kernels and composite terms. -/
def N (op : Op) (l : List Base) (cs : List KE) : KE := comm op (Counter.ofList l) cs

/-- Base terms of a simplified sum. -/
def okS (cfg : Cfg) (l : List Base) : Prop :=
  l.count .WN ≤ 1 ∧ l.count .C ≤ 1 ∧ (cfg.linOffset = true → 0 < l.count .LIN → l.count .C = 0)

/-- Base terms of a simplified product of several factors. -/
def okP (l : List Base) : Prop :=
  l.count .C = 0 ∧ l.count .WN ≤ 1 ∧ (0 < l.count .WN → l.count .SE = 0 ∧ l.count .PER = 0) ∧ l.count .SE ≤ 1

/-- Base terms of a simplified node. -/
def okL (cfg : Cfg) : Op → List Base → Prop
  | .sum, l => okS cfg l
  | .prod, l => okP l

theorem searched_noSig {b : Base} (h : Searched cfg b) : b.isSigmoid = false := by
  rcases h with h | ⟨rfl, _⟩
  · revert h; cases b <;> simp [Base.isSigmoid]
  · rfl

theorem canon_iff {op : Op} {l : List Base} {cs : List KE} (h2 : 2 ≤ l.length + cs.length) (hs : ∀ x ∈ l, Searched cfg x) :
    canonNode cfg (N op l cs) = true ↔ okL cfg op l := by
  cases op with
  | sum =>
    simp only [N, canonNode, okL, okS, Counter.get_ofList, Bool.and_eq_true, decide_eq_true_eq, Bool.or_eq_true, Bool.not_eq_true',
      Bool.and_eq_false_iff, decide_eq_false_iff_not]
    have c1 : ((l.count .WN : Int) ≤ 1) ↔ l.count .WN ≤ 1 := by omega
    have c2 : ((l.count .C : Int) ≤ 1) ↔ l.count .C ≤ 1 := by omega
    have c3 : (¬ (0 : Int) < (l.count .LIN : Int)) ↔ ¬ 0 < l.count .LIN := by omega
    have c4 : ((l.count .C : Int) = 0) ↔ l.count .C = 0 := by omega
    rw [c1, c2, c3, c4]
    cases cfg.linOffset
    · simp
    · simp only [and_assoc, Bool.true_eq_false, false_or, true_implies]
      have : (¬ 0 < l.count .LIN ∨ l.count .C = 0) ↔ (0 < l.count .LIN → l.count .C = 0) := by omega
      rw [this]
  | prod =>
    have hz : ∀ b : Base, b.isSigmoid = true → l.count b = 0 := by
      intro b hb
      rw [List.count_eq_zero]
      intro hm
      rw [searched_noSig (hs b hm)] at hb; cases hb
    have hlen : (l.length : Int) = l.count .WN + l.count .C + l.count .LIN + l.count .SE + l.count .PER := by
      have h1 := Counter.length_elements (Counter.pos_ofList l)
      have h3 := Counter.total_eq (Counter.wf_ofList l)
      have h4 : (Counter.ofList l).elements.length = l.length := by
        apply List.Perm.length_eq
        rw [List.perm_iff_count]
        intro b
        rw [Counter.count_elements (Counter.wf_ofList l), Counter.get_ofList]; simp
      simp only [Counter.get_ofList, hz .S rfl, hz .Sr rfl, hz .SI rfl, hz .SIr rfl] at h3
      omega
    have hcs : cs.isEmpty = true ↔ cs.length = 0 := by simp
    simp only [N, canonNode, okL, okP, Counter.get_ofList, Bool.and_eq_true, decide_eq_true_eq]
    by_cases hW : 0 < l.count .WN
    · rw [if_pos (by omega)]
      simp only [Bool.and_eq_true, decide_eq_true_eq]
      omega
    · rw [if_neg (by omega)]
      simp only [Bool.and_eq_true, decide_eq_true_eq, Bool.or_eq_true, hcs]
      omega

theorem elements_ofList (l : List Base) : (Counter.ofList l).elements.Perm l := by
  rw [List.perm_iff_count]
  intro b
  rw [Counter.count_elements (Counter.wf_ofList l), Counter.get_ofList]; simp

theorem op1_N {op : Op} {l : List Base} {cs : List KE} : Op1 cfg (N op l cs) ↔
    okL cfg op l ∧ 2 ≤ l.length + cs.length ∧ (∀ x ∈ l, Searched cfg x) ∧ ∀ k ∈ cs, k.isBase = false ∧ isComm op k = false ∧ Op1 cfg k := by
  have hp := elements_ofList l
  rw [N, op1_comm]
  constructor
  · rintro ⟨_, _, h3, h4, h5, h6⟩
    rw [hp.length_eq] at h4
    have h5' : ∀ x ∈ l, Searched cfg x := fun x hx => h5 x (hp.symm.subset hx)
    exact ⟨(canon_iff h4 h5').1 h3, h4, h5', h6⟩
  · rintro ⟨h3, h4, h5, h6⟩
    exact ⟨Counter.wf_ofList l, Counter.pos_ofList l, (canon_iff h4 h5).2 h3, by rw [hp.length_eq]; exact h4, fun x hx => h5 x (hp.subset hx), h6⟩

theorem same_N {op : Op} {b : Counter} {l : List Base} {cs : List KE} (hg : ∀ x, b.get x = (l.count x : Int)) : Same (comm op b cs) (N op l cs) :=
  SameL.same (fun x => by rw [hg, Counter.get_ofList]) (SameL.refl _)

theorem same_perm {op : Op} {l l' : List Base} {cs : List KE} (h : l.Perm l') : Same (N op l cs) (N op l' cs) :=
  SameL.same (fun x => by rw [Counter.get_ofList, Counter.get_ofList, h.count_eq]) (SameL.refl _)

theorem op1_perm {op : Op} {l l' : List Base} {cs : List KE} (h : l.Perm l') (h1 : Op1 cfg (N op l cs)) : Op1 cfg (N op l' cs) := by
  obtain ⟨a1, a2, a3, a4⟩ := op1_N.1 h1
  refine op1_N.2 ⟨?_, by rw [← h.length_eq]; exact a2, fun x hx => a3 x (h.symm.subset hx), a4⟩
  cases op <;> simp only [okL, okS, okP, h.count_eq] at a1 ⊢ <;> exact a1

theorem Go.perm {C : Ctx} {op : Op} {l l' : List Base} {cs : List KE} (h : l.Perm l') : Go cfg o rules 0 C (N op l cs) (N op l' cs) :=
  fun hx => Go.same (same_perm h) (op1_perm h hx.op1) hx

theorem okL_tail {op : Op} {a : Base} {l : List Base} (h : okL cfg op (a :: l)) : okL cfg op l := by
  cases op <;> simp only [okL, okS, okP, List.count_cons] at h ⊢ <;> [skip; skip] <;>
    refine ⟨by omega, by omega, ?_⟩
  · intro h1 h2; have := h.2.2 h1 (by omega); omega
  · exact ⟨fun h1 => by have := h.2.2.1 (by omega); omega, by omega⟩

/-- `+` for sums, `*` for products. -/
def opRule : Op → RuleName
  | .sum => .plus_base
  | .prod => .times_base

theorem mem_all (ho : o.OK cfg) {B : Base} (h : Searched cfg B) : B ∈ o.all := ho.1.symm.subset (searched_iff.1 h)

theorem mem_noC (ho : o.OK cfg) {B : Base} (h : Searched cfg B) (hC : B ≠ .C) : B ∈ o.noC :=
  ho.2.symm.subset (List.mem_filter.2 ⟨searched_iff.1 h, by simpa using hC⟩)

/-- One more base kernel. -/
theorem Go.add (ho : o.OK cfg) {C : Ctx} {op : Op} {a : Base} {l : List Base} {cs : List KE} (hr : opRule op ∈ rules)
    (hy : Op1 cfg (N op (a :: l) cs)) : Go cfg o rules 1 C (N op l cs) (N op (a :: l) cs) := by
  intro hx
  have hw := hx.op1.wf
  have ha : Searched cfg a := (op1_N.1 hy).2.2.1 a (by simp)
  have hWF : ((Counter.ofList l).pos.add (Counter.ofList [a])).WF := Counter.wf_add (Counter.wf_pos (Counter.wf_ofList l)) (Counter.wf_ofList _)
  refine moveW (W := comm op ((Counter.ofList l).pos.add (Counter.ofList [a])) cs) ho hx hy
    ((fits_comm _ _ _ _ _ _).trans hx.fits) rfl hr (wf_comm.2 ⟨hWF, Counter.pos_add _ _, (wf_comm.1 hw).2.2⟩) ?_ ?_
  · cases op with
    | sum =>
      exact List.mem_flatMap.2 ⟨a, mem_all ho ha, List.mem_cons_self⟩
    | prod =>
      have hC : a ≠ .C := by
        rintro rfl
        have := (op1_N.1 hy).1.1
        simp at this
      exact List.mem_flatMap.2 ⟨a, mem_noC ho ha hC, List.mem_cons_self⟩
  · refine same_N (fun x => ?_)
    rw [Counter.get_add (Counter.wf_pos (Counter.wf_ofList l)) (Counter.wf_ofList _), Counter.get_pos' (Counter.wf_ofList l), Counter.get_ofList,
      Counter.get_ofList]
    simp only [List.count_cons, List.count_nil]
    omega

/-- Several more base kernels. -/
theorem Go.addMany (ho : o.OK cfg) {C : Ctx} {op : Op} {l : List Base} {cs : List KE} (hr : opRule op ∈ rules) (hl : 2 ≤ l.length + cs.length) :
    ∀ xs : List Base, Op1 cfg (N op (xs ++ l) cs) → Go cfg o rules xs.length C (N op l cs) (N op (xs ++ l) cs)
  | [], h => Go.same (Same.refl _) h
  | x :: xs, h => by
    obtain ⟨h1, h2, h3, h4⟩ := op1_N.1 h
    have h' : Op1 cfg (N op (xs ++ l) cs) := op1_N.2 ⟨okL_tail h1, by simp; omega, fun y hy => h3 y (by simp only [List.cons_append, List.mem_cons]; exact Or.inr hy), h4⟩
    exact Go.trans ho (Go.addMany ho hr hl xs h') (Go.add ho hr h)

/-- One base kernel less. -/
theorem Go.drop (ho : o.OK cfg) {C : Ctx} {op : Op} {a : Base} {l : List Base} {cs : List KE} (hr : RuleName.remove_some_term ∈ rules)
    (hl : 2 ≤ l.length + cs.length) : Go cfg o rules 1 C (N op (a :: l) cs) (N op l cs) := by
  intro hx
  have hw := hx.op1.wf
  obtain ⟨h1, h2, h3, h4⟩ := op1_N.1 hx.op1
  have hy : Op1 cfg (N op l cs) := op1_N.2 ⟨okL_tail h1, hl, fun y hy => h3 y (by simp [hy]), h4⟩
  have w1 := Counter.wf_ofList (a :: l)
  have hn : Counter.WF [(a, -1)] := by simp [Counter.WF]
  have hWF : ((Counter.ofList (a :: l)).pos.add [(a, -1)]).WF := Counter.wf_add (Counter.wf_pos w1) hn
  refine moveW (W := comm op ((Counter.ofList (a :: l)).pos.add [(a, -1)]) cs) ho hx hy ((fits_comm _ _ _ _ _ _).trans hx.fits) rfl hr
    (wf_comm.2 ⟨hWF, Counter.pos_add _ _, (wf_comm.1 hw).2.2⟩) ?_ ?_
  · have htc : termCount (Counter.ofList (a :: l)) cs > 1 := by
      have := Counter.length_elements (Counter.pos_ofList (a :: l))
      rw [(elements_ofList (a :: l)).length_eq] at this
      simp only [List.length_cons] at this
      simp only [termCount]; push_cast at this; omega
    show _ ∈ removeATerm cfg (comm op _ cs)
    rw [removeATerm, if_pos htc]
    refine List.mem_append_left _ (List.mem_map.2 ⟨(a, (Counter.ofList (a :: l)).get a), ?_, rfl⟩)
    rw [Counter.pos_eq_self (Counter.pos_ofList _)]
    exact Counter.mem_of_get_ne w1 (by rw [Counter.get_ofList, List.count_cons_self]; omega)
  · refine same_N (fun x => ?_)
    rw [Counter.get_add (Counter.wf_pos w1) hn, Counter.get_pos' w1, Counter.get_ofList, Counter.get_cons, Counter.get_nil]
    simp only [List.count_cons]
    by_cases hxa : a = x <;> simp [hxa] <;> omega

/-- The only composite term goes. -/
theorem Go.dropTerm (ho : o.OK cfg) {C : Ctx} {op : Op} {l : List Base} {k : KE} (hr : RuleName.remove_some_term ∈ rules)
    (hl : 2 ≤ l.length) : Go cfg o rules 1 C (N op l [k]) (N op l []) := by
  intro hx
  obtain ⟨h1, h2, h3, h4⟩ := op1_N.1 hx.op1
  have hy : Op1 cfg (N op l []) := op1_N.2 ⟨h1, hl, h3, by simp⟩
  have w1 := Counter.wf_ofList l
  refine moveW (W := comm op (Counter.ofList l).pos []) ho hx hy ((fits_comm _ _ _ _ _ _).trans hx.fits) rfl hr
    (wf_comm.2 ⟨Counter.wf_pos w1, Counter.pos_pos _, by simp⟩) ?_ ?_
  · have htc : termCount (Counter.ofList l) [k] > 1 := by
      have := Counter.length_elements (Counter.pos_ofList l)
      rw [(elements_ofList l).length_eq] at this
      simp only [termCount, List.length_cons, List.length_nil]; omega
    show _ ∈ removeATerm cfg (comm op _ [k])
    rw [removeATerm, if_pos htc]
    exact List.mem_append_right _ (List.mem_map.2 ⟨0, by simp, rfl⟩)
  · rw [Counter.pos_eq_self (Counter.pos_ofList _)]; exact Same.refl _


/-! ## The moves that change the kind of a node -/

/-- The rule making changes to or from LIN. -/
def linRule : CC → RuleName
  | .CP => .change_point_linear
  | .CW => .change_window_linear

/-- The rules the growing of expressions uses. -/
structure Rich (rules : List RuleName) : Prop where
  plus : RuleName.plus_base ∈ rules
  times : RuleName.times_base ∈ rules
  exchange : RuleName.replace_base ∈ rules
  shifted : RuleName.times_shifted_base ∈ rules
  single : RuleName.replace_with_singleton ∈ rules
  remove : RuleName.remove_some_term ∈ rules
  change : ∀ x, RuleName.change_same ∈ rules ∨ linRule x ∈ rules

theorem Rich.op (h : Rich rules) (op : Op) : opRule op ∈ rules := by
  cases op
  · exact h.plus
  · exact h.times

theorem searched_LIN : Searched cfg .LIN := Or.inl (by decide)
theorem searched_PER : Searched cfg .PER := Or.inl (by decide)
theorem searched_C : Searched cfg .C := Or.inl (by decide)

/-- The sum everything that is a sum grows from. -/
def S0 : KE := N .sum [.LIN, .PER] []
/-- The product everything that is a product grows from. -/
def P0 : KE := N .prod [.LIN, .LIN] []

theorem okS_seed (l : List Base) (h : l.count .C = 0) (hW : l.count .WN ≤ 1) : okS cfg l := ⟨hW, by omega, fun _ _ => h⟩

theorem op1_S0 : Op1 cfg S0 := op1_N.2 ⟨okS_seed _ (by decide) (by decide), by decide, by
  intro x hx; simp at hx; rcases hx with rfl | rfl
  · exact searched_LIN
  · exact searched_PER, by simp⟩

theorem op1_P0 : Op1 cfg P0 := op1_N.2 ⟨⟨by decide, by decide, by decide, by decide⟩, by decide, by
  intro x hx; simp at hx; subst hx; exact searched_LIN, by simp⟩

/-- One of the two. -/
def Seed (s : KE) : Prop := s = S0 ∨ s = P0

theorem Seed.op1 {s : KE} (h : Seed s) : Op1 cfg s := by
  rcases h with rfl | rfl
  · exact op1_S0
  · exact op1_P0

theorem Seed.notBase {s : KE} (h : Seed s) : s.isBase = false := by
  rcases h with rfl | rfl <;> rfl

theorem Seed.nodeOf {s : KE} (h : Seed s) : KE.nodeOf s = s := by
  rcases h with rfl | rfl <;> rfl

/-- A product becomes a term of a sum. -/
theorem Go.plusNode (ho : o.OK cfg) (hr : Rich rules) {C : Ctx} (hf : (place .root C).fits S0 = true) :
    Go cfg o rules 1 C P0 (N .sum [.PER] [P0]) := by
  intro hx
  have hy : Op1 cfg (N .sum [.PER] [P0]) := op1_N.2 ⟨okS_seed _ (by decide) (by decide), by decide, by
    intro x hx; simp at hx; subst hx; exact searched_PER, by
    intro k hk; simp at hk; subst hk; exact ⟨rfl, rfl, op1_P0⟩⟩
  exact moveW (W := comm .sum (Counter.ofList [.PER]) [P0]) ho hx hy ((fits_comm _ _ _ _ _ _).trans hf) rfl hr.plus hy.wf
    (List.mem_flatMap.2 ⟨.PER, mem_all ho searched_PER, List.mem_cons_self⟩) (Same.refl _)

/-- A sum becomes a factor of a product. -/
theorem Go.timesNode (ho : o.OK cfg) (hr : Rich rules) {C : Ctx} (hf : (place .root C).fits P0 = true) :
    Go cfg o rules 1 C S0 (N .prod [.LIN] [S0]) := by
  intro hx
  have hy : Op1 cfg (N .prod [.LIN] [S0]) := op1_N.2 ⟨⟨by decide, by decide, by decide, by decide⟩, by decide, by
    intro x hx; simp at hx; subst hx; exact searched_LIN, by
    intro k hk; simp at hk; subst hk; exact ⟨rfl, rfl, op1_S0⟩⟩
  exact moveW (W := comm .prod (Counter.ofList [.LIN]) [S0]) ho hx hy ((fits_comm _ _ _ _ _ _).trans hf) rfl hr.times hy.wf
    (List.mem_flatMap.2 ⟨.LIN, mem_noC ho searched_LIN (by decide), List.mem_cons_self⟩) (Same.refl _)

theorem Go.toSum (ho : o.OK cfg) (hr : Rich rules) {C : Ctx} (hf : (place .root C).fits S0 = true) : Go cfg o rules 3 C P0 S0 := by
  have hy : Op1 cfg (N .sum [.LIN, .PER] [P0]) := op1_N.2 ⟨okS_seed _ (by decide) (by decide), by decide, (op1_N.1 op1_S0).2.2.1, by
    intro k hk; simp at hk; subst hk; exact ⟨rfl, rfl, op1_P0⟩⟩
  exact Go.trans ho (Go.trans ho (Go.plusNode ho hr hf) (Go.add ho hr.plus hy)) (Go.dropTerm ho hr.remove (by decide))

theorem Go.toProd (ho : o.OK cfg) (hr : Rich rules) {C : Ctx} (hf : (place .root C).fits P0 = true) : Go cfg o rules 3 C S0 P0 := by
  have hy : Op1 cfg (N .prod [.LIN, .LIN] [S0]) := op1_N.2 ⟨⟨by decide, by decide, by decide, by decide⟩, by decide, (op1_N.1 op1_P0).2.2.1, by
    intro k hk; simp at hk; subst hk; exact ⟨rfl, rfl, op1_S0⟩⟩
  exact Go.trans ho (Go.trans ho (Go.timesNode ho hr hf) (Go.add ho hr.times hy)) (Go.dropTerm ho hr.remove (by decide))

/-- A term LIN of a sum becomes LIN * LIN. -/
theorem Go.newProd (ho : o.OK cfg) (hr : Rich rules) {C : Ctx} {cs : List KE} :
    Go cfg o rules 1 C (N .sum [.LIN, .LIN, .PER] cs) (N .sum [.LIN, .PER] (cs ++ [P0])) := by
  intro hx
  obtain ⟨_, _, _, h4⟩ := op1_N.1 hx.op1
  have hy : Op1 cfg (N .sum [.LIN, .PER] (cs ++ [P0])) := op1_N.2 ⟨okS_seed _ (by decide) (by decide), by simp, (op1_N.1 op1_S0).2.2.1, by
    intro k hk
    rcases List.mem_append.1 hk with hk | hk
    · exact h4 k hk
    · simp at hk; subst hk; exact ⟨rfl, rfl, op1_P0⟩⟩
  have hW : Counter.WF ((Counter.ofList [Base.LIN, .LIN, .PER]).pos.sub (Counter.ofList [.LIN])) := by decide
  refine moveW (W := comm .sum ((Counter.ofList [Base.LIN, .LIN, .PER]).pos.sub (Counter.ofList [.LIN])) (cs ++ [P0])) ho hx hy
    ((fits_comm _ _ _ _ _ _).trans hx.fits) rfl hr.times (wf_comm.2 ⟨hW, Counter.pos_sub _ _, (wf_comm.1 hy.wf).2.2⟩) ?_ ?_
  · refine List.mem_flatMap.2 ⟨.LIN, mem_noC ho searched_LIN (by decide), List.mem_cons_of_mem _ ?_⟩
    show _ ∈ mulNestedAt cfg .LIN (Counter.ofList [.LIN, .LIN, .PER]) cs
    refine List.mem_map.2 ⟨.LIN, by decide, ?_⟩
    have e : mkL cfg .prod [.LIN, .LIN] [] = P0 := by
      obtain ⟨a, b, c⟩ := cfg
      cases b <;> rfl
    rw [e]; rfl
  · exact same_N (fun x => by cases x <;> decide)

/-- PER + C -/
def SC : KE := N .sum [.PER, .C] []

theorem op1_SC : Op1 cfg SC := op1_N.2 ⟨⟨by decide, by decide, fun _ h => absurd h (by decide)⟩, by decide, by
  intro x hx; simp at hx; rcases hx with rfl | rfl
  · exact searched_PER
  · exact searched_C, by simp⟩

/-- A product is multiplied by PER + C. -/
theorem Go.newSum (ho : o.OK cfg) (hr : Rich rules) {C : Ctx} {l : List Base} {cs : List KE} :
    Go cfg o rules 1 C (N .prod l cs) (N .prod l (cs ++ [SC])) := by
  intro hx
  obtain ⟨h1, h2, h3, h4⟩ := op1_N.1 hx.op1
  have hy : Op1 cfg (N .prod l (cs ++ [SC])) := op1_N.2 ⟨h1, by simp; omega, h3, by
    intro k hk
    rcases List.mem_append.1 hk with hk | hk
    · exact h4 k hk
    · simp at hk; subst hk; exact ⟨rfl, rfl, op1_SC⟩⟩
  refine moveW (W := comm .prod (Counter.ofList l).pos (cs ++ [SC])) ho hx hy
    ((fits_comm _ _ _ _ _ _).trans hx.fits) rfl hr.shifted (wf_comm.2 ⟨Counter.wf_pos (Counter.wf_ofList l), Counter.pos_pos _, (wf_comm.1 hy.wf).2.2⟩) ?_ ?_
  · refine List.mem_flatMap.2 ⟨.PER, mem_noC ho searched_PER (by decide), ?_⟩
    have e : mkL cfg .sum [.PER, .C] [] = SC := by
      obtain ⟨a, b, c⟩ := cfg
      cases b <;> rfl
    rw [e]
    exact List.mem_cons_self
  · rw [Counter.pos_eq_self (Counter.pos_ofList _)]; exact Same.refl _

/-- PER + C becomes PER + LIN. -/
theorem Go.exchange (ho : o.OK cfg) (hr : Rich rules) {C : Ctx} : Go cfg o rules 1 C SC S0 := by
  intro hx
  have hW : wf (comm .sum ((Counter.ofList [Base.PER, .C]).pos.add (swapDict .C .LIN)) []) = true := by decide
  refine moveW (W := comm .sum ((Counter.ofList [Base.PER, .C]).pos.add (swapDict .C .LIN)) []) ho hx op1_S0
    ((fits_comm _ _ _ _ _ _).trans hx.fits) rfl hr.exchange hW ?_ ?_
  · refine List.mem_flatMap.2 ⟨.LIN, mem_all ho searched_LIN, ?_⟩
    exact List.mem_map.2 ⟨(.C, 1), by decide, rfl⟩
  · exact same_N (fun x => by cases x <;> decide)

theorem endsLeft_right (C : Ctx) (x : CC) (l : KE) : (C.comp (.right x l .hole)).endsLeft = false := by
  induction C with
  | hole => rfl
  | comm o b l1 C l2 ih => exact ih
  | right c l C ih => exact ih
  | left c C r ih =>
    have hne : C.comp (.right x l .hole) ≠ .hole := by cases C <;> simp [Ctx.comp]
    show (Ctx.left c (C.comp (.right x l .hole)) r).endsLeft = false
    generalize C.comp (.right x l .hole) = D at ih hne
    cases D with
    | hole => exact absurd rfl hne
    | comm _ _ _ _ _ => exact ih
    | left _ _ _ => exact ih
    | right _ _ _ => exact ih

/-- A bare LIN on the right becomes LIN * LIN. -/
theorem Go.leaf (ho : o.OK cfg) (hr : Rich rules) {C : Ctx} {x : CC} {l : KE} :
    Go cfg o rules 1 (C.comp (.right x l .hole)) (base .LIN) P0 := by
  intro hx
  have hf : (place .root (C.comp (.right x l .hole))).fits P0 = true := by rw [place_comp]; rfl
  have hy := hx.set op1_P0 hf
  refine ⟨hy, move ho hx hy (by rw [endsLeft_right]; rfl) hr.times (new := mulRes cfg (nodeOf (base .LIN)) (base .LIN))
    (List.mem_flatMap.2 ⟨.LIN, mem_noC ho searched_LIN (by decide), List.mem_cons_self⟩) ?_⟩
  have e : mulRes cfg (nodeOf (base .LIN)) (base .LIN) = P0 := by
    show simplify cfg (comm .prod (Counter.ofList [.LIN]) [comm .sum [(.LIN, 1)] []]) = _
    have e : simplify cfg (comm .sum [(.LIN, 1)] []) = comm .sum [(.LIN, 1)] [] := mkL_one cfg .LIN
    rw [KE.simplify, simplifyL, simplifyL, e]
    rfl
  rw [e]; exact Same.refl _

/-- A node becomes the left branch of a change operator, the right one being a product or the same. -/
theorem Go.change (ho : o.OK cfg) (hr : Rich rules) {C : Ctx} {s : KE} (hs : Seed s) (x : CC) :
    ∃ s', Seed s' ∧ Go cfg o rules 2 C s (change x s s') := by
  have hfit : ∀ r, (place .root C).fits (KE.change x s r) = true := by
    intro r; cases place .root C <;> simp [Place.fits, isBase, isComm]
  rcases hr.change x with h | h
  · refine ⟨s, hs, fun hx => ?_⟩
    have hy : Op1 cfg (KE.change x s s) := op1_change.2 ⟨hs.op1, hs.op1⟩
    obtain ⟨h1, h2⟩ := moveW (W := KE.change x s s) ho hx hy (hfit s) hs.notBase h hy.wf (by
      show mkChange cfg x s s ∈ bothChanges cfg s none
      cases x <;> simp [bothChanges]) (Same.refl _)
    exact ⟨h1, h2.mono (by omega)⟩
  · refine ⟨P0, Or.inr rfl, ?_⟩
    have h0 : Go cfg o rules 1 C s (KE.change x s (base .LIN)) := by
      intro hx
      have hy : Op1 cfg (KE.change x s (base .LIN)) := op1_change.2 ⟨hs.op1, op1_base searched_LIN⟩
      have hk : keq (base .LIN) s = false := by
        rcases hs with rfl | rfl <;> rfl
      refine moveW (W := KE.change x s (base .LIN)) ho hx hy (hfit _) hs.notBase h hy.wf ?_ (Same.refl _)
      have : mkChange cfg x s (base .LIN) ∈ oneChange cfg s x (some (base .LIN)) := by simp [oneChange, hk]
      cases x <;> exact this
    exact Go.trans ho h0 (Go.inside (D := .right x s .hole) (Go.leaf ho hr))

/-! ## A node becomes a bare base kernel -/

theorem standardise_of_simplify {A B : KE} (h : simplify cfg A = B) (hB : Op1 cfg B) : standardise cfg A = B := by
  have e : standardiseF cfg (standardise.nodes' A + 1) A = some B := by
    rw [standardiseF]
    simp only [h]
    rw [if_pos (extractsSelf_of hB.wf hB.notSingle)]
  rw [KE.standardise, e, Option.getD_some]

theorem simplify_leaf {f : Base} (C : Ctx) : ∀ p : Place, place p C = .branch → Op1 cfg (C.plug (base f)) →
    extract (simplify cfg (C.plug (comm .sum [(f, 1)] []))) = C.plug (base f) ∧
      (C ≠ .hole → simplify cfg (C.plug (comm .sum [(f, 1)] [])) = C.plug (base f)) := by
  induction C with
  | hole =>
    intro p _ _
    refine ⟨?_, fun h => absurd rfl h⟩
    have := mkL_one cfg f
    simp only [mkL, mkC, Counter.ofList, Counter.updateList, List.foldl, Counter.put, Counter.get] at this
    show extract (simplify cfg (comm .sum [(f, 1)] [])) = base f
    have e : simplify cfg (comm .sum [(f, 1)] []) = comm .sum [(f, 1)] [] := this
    rw [e]; rfl
  | comm op b l1 C l2 ih =>
    intro p hp h
    have hne : C ≠ .hole := by rintro rfl; simp [place] at hp
    have hc := ((op1_comm.1 h).2.2.2.2.2 (C.plug (base f)) (by simp)).2.2
    have e := (ih (.term op) hp hc).2 hne
    have e2 : simplify cfg ((Ctx.comm op b l1 C l2).plug (comm .sum [(f, 1)] [])) = (Ctx.comm op b l1 C l2).plug (base f) := by
      conv_rhs => rw [← h.simplify]
      simp only [Ctx.plug, KE.simplify, simplifyL_eq, List.map_append, List.map_cons, e, hc.simplify]
    exact ⟨by rw [e2]; exact extract_of_not_singleton h.wf h.notSingle, fun _ => e2⟩
  | left c C r ih =>
    intro p hp h
    obtain ⟨h1, h2⟩ := op1_change.1 h
    have e2 : simplify cfg ((Ctx.left c C r).plug (comm .sum [(f, 1)] [])) = (Ctx.left c C r).plug (base f) := by
      simp only [Ctx.plug, KE.simplify, (ih .branch hp h1).1, h2.simplify, extract_of_not_singleton h2.wf h2.notSingle]
    exact ⟨by rw [e2]; exact extract_of_not_singleton h.wf h.notSingle, fun _ => e2⟩
  | right c l C ih =>
    intro p hp h
    obtain ⟨h1, h2⟩ := op1_change.1 h
    have e2 : simplify cfg ((Ctx.right c l C).plug (comm .sum [(f, 1)] [])) = (Ctx.right c l C).plug (base f) := by
      simp only [Ctx.plug, KE.simplify, (ih .branch hp h2).1, h1.simplify, extract_of_not_singleton h1.wf h1.notSingle]
    exact ⟨by rw [e2]; exact extract_of_not_singleton h.wf h.notSingle, fun _ => e2⟩

/-- A branch becomes a bare base kernel. -/
theorem Go.single (ho : o.OK cfg) (hr : Rich rules) {C : Ctx} (hC : place .root C = .branch) {s : KE} (hs : Seed s) {f : Base}
    (hf : Searched cfg f) : Go cfg o rules 1 C s (base f) := by
  intro hx
  have hy := hx.set (op1_base hf) (by rw [hC]; rfl)
  refine ⟨hy, ?_⟩
  have hne : C ≠ .hole := by rintro rfl; simp [place] at hC
  have hmem : RuleName.replace_with_singleton.rule cfg o ∈ rules.map (RuleName.rule cfg o) := List.mem_map.2 ⟨_, hr.single, rfl⟩
  have g := C20_builtin_rules cfg o ho rules
  have hnew : comm .sum [(f, 1)] [] ∈ RuleName.replace_with_singleton.rule cfg o (nodeOf s) := by
    refine List.mem_flatMap.2 ⟨f, mem_all ho hf, ?_⟩
    rw [mkL_one]; exact List.mem_cons_self
  obtain ⟨r, h1, h2⟩ := C21_complete_partial cfg _ g C s hx.isExpr (by rw [hs.notBase]; simp) _ hmem _ hnew
  rw [standardise_of_simplify ((simplify_leaf C .root hC hy.1).2 hne) hy.1] at h2
  exact .step h1 (.same h2)


/-! ## Growing any node -/

mutual
/-- A number of expansions that grows a node from a seed. -/
def cost : KE → Nat
  | KE.base _ => 1
  | KE.comm _ b cs => costL cs + b.elements.length + 6
  | KE.change _ l r => cost l + cost r + 2
/-- The same for the composite terms, with the making of the seeds. -/
def costL : List KE → Nat
  | [] => 0
  | k :: ks => cost k + 2 + costL ks
end

/-- What is to be shown of every node. -/
def Grows (cfg : Cfg) (o : Orders) (rules : List RuleName) (T : KE) : Prop :=
  ∀ (C : Ctx) (s : KE), Seed s → (place .root C).fits T = true → Go cfg o rules (cost T) C s T

theorem grow_terms_sum (ho : o.OK cfg) (hr : Rich rules) {C : Ctx} : ∀ (rest done : List KE),
    (∀ k ∈ rest, k.isBase = false ∧ isComm .sum k = false ∧ Op1 cfg k ∧ Grows cfg o rules k) →
    Go cfg o rules (costL rest) C (N .sum [.LIN, .PER] done) (N .sum [.LIN, .PER] (done ++ rest))
  | [], done, _ => by
    intro hx
    rw [List.append_nil]
    exact ⟨hx, .same (Same.refl _)⟩
  | k :: rest, done, h => by
    obtain ⟨k1, k2, k3, k4⟩ := h k (by simp)
    have h1 : Go cfg o rules 1 C (N .sum [.LIN, .PER] done) (N .sum [.LIN, .LIN, .PER] done) := by
      intro hx
      obtain ⟨_, a2, a3, a4⟩ := op1_N.1 hx.op1
      exact Go.add ho hr.plus (op1_N.2 ⟨okS_seed _ (by decide) (by decide), by simp; omega, fun x hx => a3 x (by simp at hx ⊢; tauto), a4⟩) hx
    have h2 : Go cfg o rules (cost k) C (N .sum [.LIN, .PER] (done ++ [P0])) (N .sum [.LIN, .PER] (done ++ [k])) :=
      Go.inside (D := .comm .sum (Counter.ofList [.LIN, .PER]) done .hole [])
        (k4 _ P0 (Or.inr rfl) (by rw [place_comp]; simp [place, Place.fits, k1, k2]))
    have h3 := grow_terms_sum ho hr (C := C) rest (done ++ [k]) (fun x hx => h x (by simp [hx]))
    have h4 := Go.trans ho (Go.trans ho (Go.trans ho h1 (Go.newProd ho hr)) h2) h3
    rw [List.append_assoc, List.singleton_append] at h4
    exact h4.mono (by simp only [costL]; omega)

theorem grow_terms_prod (ho : o.OK cfg) (hr : Rich rules) {C : Ctx} : ∀ (rest done : List KE),
    (∀ k ∈ rest, k.isBase = false ∧ isComm .prod k = false ∧ Op1 cfg k ∧ Grows cfg o rules k) →
    Go cfg o rules (costL rest) C (N .prod [.LIN, .LIN] done) (N .prod [.LIN, .LIN] (done ++ rest))
  | [], done, _ => by
    intro hx
    rw [List.append_nil]
    exact ⟨hx, .same (Same.refl _)⟩
  | k :: rest, done, h => by
    obtain ⟨k1, k2, k3, k4⟩ := h k (by simp)
    have h1 : Go cfg o rules 1 C (N .prod [.LIN, .LIN] (done ++ [SC])) (N .prod [.LIN, .LIN] (done ++ [S0])) :=
      Go.inside (D := .comm .prod (Counter.ofList [.LIN, .LIN]) done .hole []) (Go.exchange ho hr)
    have h2 : Go cfg o rules (cost k) C (N .prod [.LIN, .LIN] (done ++ [S0])) (N .prod [.LIN, .LIN] (done ++ [k])) :=
      Go.inside (D := .comm .prod (Counter.ofList [.LIN, .LIN]) done .hole [])
        (k4 _ S0 (Or.inl rfl) (by rw [place_comp]; simp [place, Place.fits, k1, k2]))
    have h3 := grow_terms_prod ho hr (C := C) rest (done ++ [k]) (fun x hx => h x (by simp [hx]))
    have h4 := Go.trans ho (Go.trans ho (Go.trans ho (Go.newSum ho hr) h1) h2) h3
    rw [List.append_assoc, List.singleton_append] at h4
    exact h4.mono (by simp only [costL]; omega)

theorem op1_elements {op : Op} {b : Counter} {cs : List KE} (h : Op1 cfg (comm op b cs)) :
    Op1 cfg (N op b.elements cs) ∧ Same (N op b.elements cs) (comm op b cs) := by
  obtain ⟨h1, h2, h3, h4, h5, h6⟩ := op1_comm.1 h
  have hg : ∀ x, b.get x = (b.elements.count x : Int) := by
    intro x
    rw [Counter.count_elements h1]
    have := h2.nonneg x
    omega
  have hs : Same (comm op b cs) (N op b.elements cs) := same_N hg
  refine ⟨op1_N.2 ⟨?_, h4, h5, h6⟩, hs.symm⟩
  refine (canon_iff (cs := cs) h4 h5).1 ?_
  rw [← h3]
  cases op <;> simp only [N, canonNode, Counter.get_ofList, hg]

/-- The base terms of a sum, once its composite terms are there. -/
theorem grow_bases_sum (ho : o.OK cfg) (hr : Rich rules) {C : Ctx} {l : List Base} {cs : List KE} (h : Op1 cfg (N .sum l cs)) :
    Go cfg o rules (l.length + 3) C (N .sum [.LIN, .PER] cs) (N .sum l cs) := by
  obtain ⟨h1, h2, h3, h4⟩ := op1_N.1 h
  simp only [okL, okS] at h1
  have hcC : (l.filter (· ≠ .C)).count .C = 0 := by rw [List.count_eq_zero]; simp
  have hc : ∀ b : Base, b ≠ .C → (l.filter (· ≠ .C)).count b = l.count b := by
    intro b hb; rw [List.count_filter]; simpa using hb
  have hlen : (l.filter (· ≠ .C)).length + l.count .C = l.length := by
    have := List.length_eq_length_filter_add (l := l) (fun b => decide (b ≠ Base.C))
    rw [this]
    congr 1
    rw [List.count, List.countP_eq_length_filter]
    congr 1
    apply List.filter_congr
    intro x _
    cases x <;> decide
  generalize hl' : l.filter (· ≠ .C) = l' at hcC hc hlen
  have hs' : ∀ x ∈ l', Searched cfg x := fun x hx => h3 x (by rw [← hl'] at hx; exact (List.mem_filter.1 hx).1)
  have hWN := hc .WN (by decide)
  have hLIN := hc .LIN (by decide)
  have g1 : Go cfg o rules l'.length C (N .sum [.LIN, .PER] cs) (N .sum (l' ++ [.LIN, .PER]) cs) := by
    refine Go.addMany ho hr.plus (by simp) l' (op1_N.2 ⟨okS_seed _ ?_ ?_, by simp; omega, ?_, h4⟩)
    · simp [List.count_append, hcC]
    · simp [List.count_append]; omega
    · intro x hx
      rcases List.mem_append.1 hx with hx | hx
      · exact hs' x hx
      · simp at hx; rcases hx with rfl | rfl
        · exact searched_LIN
        · exact searched_PER
  have g2 : Go cfg o rules 1 C (N .sum (.LIN :: .PER :: l') cs) (N .sum (.PER :: l') cs) := Go.drop ho hr.remove (by simp only [List.length_cons]; omega)
  have p1 : (l' ++ [Base.LIN, Base.PER]).Perm (.LIN :: .PER :: l') := by
    rw [List.perm_iff_count]; intro b; simp [List.count_append, List.count_cons]; omega
  have g3 := Go.trans ho (Go.trans ho g1 (Go.perm p1)) g2
  by_cases hC : l.count .C = 0
  · have e : l'.Perm l := by
      rw [List.perm_iff_count]; intro b
      by_cases hb : b = .C
      · subst hb; omega
      · exact hc b hb
    have g4 : Go cfg o rules 1 C (N .sum (.PER :: l') cs) (N .sum l' cs) := Go.drop ho hr.remove (by omega)
    exact (Go.trans ho (Go.trans ho g3 g4) (Go.perm e)).mono (by omega)
  · have hC1 : l.count .C = 1 := by omega
    have e : (.C :: l').Perm l := by
      rw [List.perm_iff_count]; intro b
      by_cases hb : b = .C
      · subst hb; rw [List.count_cons_self]; omega
      · rw [List.count_cons_of_ne (fun e => hb e.symm)]; exact hc b hb
    have g4 : Go cfg o rules 1 C (N .sum (.PER :: l') cs) (N .sum (.C :: .PER :: l') cs) := by
      refine Go.add ho hr.plus (op1_N.2 ⟨⟨?_, ?_, ?_⟩, by simp only [List.length_cons]; omega, ?_, h4⟩)
      · simp [List.count_cons]; omega
      · simp [List.count_cons]; omega
      · intro a b
        have hb : 0 < l.count .LIN := by simp [List.count_cons] at b; rw [← hLIN, List.count_pos_iff]; exact b
        have := h1.2.2 a hb
        omega
      · intro x hx
        simp only [List.mem_cons] at hx
        rcases hx with rfl | rfl | hx
        · exact searched_C
        · exact searched_PER
        · exact hs' x hx
    have g5 : Go cfg o rules 1 C (N .sum (.PER :: .C :: l') cs) (N .sum (.C :: l') cs) := Go.drop ho hr.remove (by simp only [List.length_cons]; omega)
    exact (Go.trans ho (Go.trans ho (Go.trans ho (Go.trans ho g3 g4) (Go.perm (List.Perm.swap _ _ _))) g5) (Go.perm e)).mono (by omega)

/-- The base terms of a product. -/
theorem grow_bases_prod (ho : o.OK cfg) (hr : Rich rules) {C : Ctx} {l : List Base} {cs : List KE} (h : Op1 cfg (N .prod l cs)) :
    Go cfg o rules (l.length + 2) C (N .prod [.LIN, .LIN] cs) (N .prod l cs) := by
  obtain ⟨h1, h2, h3, h4⟩ := op1_N.1 h
  simp only [okL, okP] at h1
  have g1 : Go cfg o rules l.length C (N .prod [.LIN, .LIN] cs) (N .prod (l ++ [.LIN, .LIN]) cs) := by
    refine Go.addMany ho hr.times (by simp) l (op1_N.2 ⟨?_, by simp; omega, ?_, h4⟩)
    · simp only [okL, okP, List.count_append]
      simpa using h1
    · intro x hx
      rcases List.mem_append.1 hx with hx | hx
      · exact h3 x hx
      · simp at hx; subst hx; exact searched_LIN
  have p1 : (l ++ [Base.LIN, Base.LIN]).Perm (.LIN :: .LIN :: l) := by
    rw [List.perm_iff_count]; intro b; simp [List.count_append, List.count_cons]; omega
  have g2 : Go cfg o rules 1 C (N .prod (.LIN :: .LIN :: l) cs) (N .prod (.LIN :: l) cs) := Go.drop ho hr.remove (by simp only [List.length_cons]; omega)
  have g3 : Go cfg o rules 1 C (N .prod (.LIN :: l) cs) (N .prod l cs) := Go.drop ho hr.remove h2
  exact (Go.trans ho (Go.trans ho (Go.trans ho g1 (Go.perm p1)) g2) g3).mono (by omega)

/-- Every node grows from a seed. -/
theorem grows (ho : o.OK cfg) (hr : Rich rules) (T : KE) : Op1 cfg T → Grows cfg o rules T := by
  induction T using KE.ind with
  | base f =>
    intro h C s hs hf
    have e : cost (base f) = 1 := by simp only [cost]
    rw [e]
    refine Go.single ho hr ?_ hs (h.bases f (by simp [KE.bases]))
    cases hp : place .root C with
    | root => rw [hp] at hf; simp [Place.fits, isBase] at hf
    | term _ => rw [hp] at hf; simp [Place.fits, isBase] at hf
    | branch => rfl
  | change x l r hl hrr =>
    intro h C s hs hf
    obtain ⟨h1, h2⟩ := op1_change.1 h
    obtain ⟨s', hs', g⟩ := Go.change (cfg := cfg) (o := o) (rules := rules) ho hr (C := C) hs x
    have g1 : Go cfg o rules (cost r) C (KE.change x s s') (KE.change x s r) :=
      Go.inside (D := .right x s .hole) (hrr h2 _ s' hs' (by rw [place_comp]; rfl))
    have g2 : Go cfg o rules (cost l) C (KE.change x s r) (KE.change x l r) :=
      Go.inside (D := .left x .hole r) (hl h1 _ s hs (by rw [place_comp]; rfl))
    exact (Go.trans ho (Go.trans ho g g1) g2).mono (by simp only [cost]; omega)
  | comm op b cs ih =>
    intro h C s hs hf
    obtain ⟨e1, e2⟩ := op1_elements h
    have hcs := (op1_comm.1 h).2.2.2.2.2
    have hih : ∀ k ∈ cs, k.isBase = false ∧ isComm op k = false ∧ Op1 cfg k ∧ Grows cfg o rules k :=
      fun k hk => ⟨(hcs k hk).1, (hcs k hk).2.1, (hcs k hk).2.2, ih k hk (hcs k hk).2.2⟩
    cases op with
    | sum =>
      have h0 : Go cfg o rules 3 C s S0 := by
        rcases hs with rfl | rfl
        · exact (Go.same (Same.refl _) op1_S0).mono (by omega)
        · exact Go.toSum ho hr ((fits_comm _ _ _ _ _ _).trans hf)
      have g1 := grow_terms_sum ho hr (C := C) cs [] hih
      have g2 := grow_bases_sum ho hr (C := C) e1
      exact (Go.trans ho (Go.trans ho (Go.trans ho h0 g1) g2) (Go.same e2 h)).mono (by simp only [cost]; omega)
    | prod =>
      have h0 : Go cfg o rules 3 C s P0 := by
        rcases hs with rfl | rfl
        · exact Go.toProd ho hr ((fits_comm _ _ _ _ _ _).trans hf)
        · exact (Go.same (Same.refl _) op1_P0).mono (by omega)
      have g1 := grow_terms_prod ho hr (C := C) cs [] hih
      have g2 := grow_bases_prod ho hr (C := C) e1
      exact (Go.trans ho (Go.trans ho (Go.trans ho h0 g1) g2) (Go.same e2 h)).mono (by simp only [cost]; omega)

/-! ## From anywhere -/

theorem standardise_one (f : Base) : standardise cfg (comm .sum [(f, 1)] []) = comm .sum [(f, 1)] [] := by
  have e : simplify cfg (comm .sum [(f, 1)] []) = comm .sum [(f, 1)] [] := mkL_one cfg f
  have e2 : standardiseF cfg (standardise.nodes' (comm .sum [(f, 1)] []) + 1) (comm .sum [(f, 1)] []) = some (comm .sum [(f, 1)] []) := by
    rw [standardiseF]
    simp only [e]
    rw [if_neg (by cases f <;> decide)]
    show some (mkL cfg .sum [f] []) = _
    rw [mkL_one]
  rw [KE.standardise, e2, Option.getD_some]

/-- Any expression is replaced by one base kernel. -/
theorem toSingle (ho : o.OK cfg) (hr : RuleName.replace_with_singleton ∈ rules) {k : KE} (hk : IsExpr k) {f : Base} (hf : Searched cfg f) :
    ∃ r ∈ expandNamed cfg o rules k, Same r (comm .sum [(f, 1)] []) := by
  have hmem : RuleName.replace_with_singleton.rule cfg o ∈ rules.map (RuleName.rule cfg o) := List.mem_map.2 ⟨_, hr, rfl⟩
  have hn : nodeOf k = k := by cases k <;> simp_all [nodeOf, IsExpr, isBase]
  obtain ⟨r, h1, h2⟩ := C21_complete_partial cfg _ (C20_builtin_rules cfg o ho rules) .hole k hk (by simp [Ctx.endsLeft]) _ hmem (comm .sum [(f, 1)] []) (by
    rw [hn]
    refine List.mem_flatMap.2 ⟨f, mem_all ho hf, ?_⟩
    rw [mkL_one]; exact List.mem_cons_self)
  refine ⟨r, h1, ?_⟩
  have e : standardise cfg (comm .sum [(f, 1)] []) = comm .sum [(f, 1)] [] := standardise_one f
  rw [Ctx.plug, e] at h2
  exact h2

theorem toP0 (ho : o.OK cfg) (hr : Rich rules) {k : KE} (hk : IsExpr k) : Within cfg o rules 2 k P0 := by
  obtain ⟨r, h1, h2⟩ := toSingle ho hr.single hk (f := .LIN) searched_LIN
  have hmem : RuleName.times_base.rule cfg o ∈ rules.map (RuleName.rule cfg o) := List.mem_map.2 ⟨_, hr.times, rfl⟩
  obtain ⟨r', h3, h4⟩ := C21_complete_partial cfg _ (C20_builtin_rules cfg o ho rules) .hole (comm .sum [(.LIN, 1)] []) ⟨by decide, rfl⟩ (by decide) _ hmem
    (mulRes cfg (nodeOf (base .LIN)) (base .LIN)) (List.mem_flatMap.2 ⟨.LIN, mem_noC ho searched_LIN (by decide), List.mem_cons_self⟩)
  have e : mulRes cfg (nodeOf (base .LIN)) (base .LIN) = P0 := by
    show simplify cfg (comm .prod (Counter.ofList [.LIN]) [comm .sum [(.LIN, 1)] []]) = _
    have e : simplify cfg (comm .sum [(.LIN, 1)] []) = comm .sum [(.LIN, 1)] [] := mkL_one cfg .LIN
    rw [KE.simplify, simplifyL, simplifyL, e]
    rfl
  rw [Ctx.plug, e, op1_P0.standardise] at h4
  have w : Within cfg o rules 1 (comm .sum [(.LIN, 1)] []) P0 := .step h3 (.same h4)
  exact .step h1 (Within.of_same ho (C24_shape cfg _ (C20_builtin_rules cfg o ho rules) _ hk r h1).1 ⟨by decide, rfl⟩ h2 w)

/-! ## The cost -/

theorem cost_le (k : KE) : wf k = true → cost k + (if k.isBase then 0 else 2) ≤ 8 * KE.nodes k + 4 * (changes k).length + (bases k).length := by
  induction k using KE.ind with
  | base b => intro _; simp [cost, isBase, KE.nodes, changes, bases]
  | change x l r hl hr =>
    intro h
    obtain ⟨h1, h2⟩ := wf_change.1 h
    have := hl h1
    have := hr h2
    simp only [cost, isBase, KE.nodes, changes, bases, List.length_append, List.length_cons]
    simp
    omega
  | comm o b cs ih =>
    intro h
    have h3 := (wf_comm.1 h).2.2
    have : costL cs ≤ 8 * nodesL cs + 4 * (changesL cs).length + (basesL cs).length := by
      clear h
      induction cs with
      | nil => simp [costL]
      | cons k ks ih2 =>
        have h1 := ih k (by simp) (h3 k (by simp)).2
        have h2 := ih2 (fun x hx => ih x (by simp [hx])) (fun x hx => h3 x (by simp [hx]))
        rw [(h3 k (by simp)).1] at h1
        simp only [costL, nodesL, changesL, basesL, List.length_append]
        simp at h1
        omega
    simp only [cost, isBase, KE.nodes, changes, bases, List.length_append]
    simp
    omega

end GPyABCD
