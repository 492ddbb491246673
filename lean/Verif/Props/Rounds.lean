import Verif.Props.Ops
import Verif.Props.Expand
import Verif.Lemmas.SemSame
import Verif.Lemmas.Moves

/-!
# What an expansion explores (C71, C72) and the meaning of equality (C74)

`Explores cfg o rules k e`: some result of expanding `k` represents exactly the covariances of `e`, which need not be simplified, in every
reading: with LIN as it is where it does not meet C, and with LIN standing for LIN plus a constant everywhere.
-/

namespace GPyABCD
open scoped Pointwise
open KE Kern

/-! ## C74 -/

/-- C74: expressions that compare equal represent the same covariances. -/
theorem C74_equal_expressions (cfg : Cfg) (V : Set ℝ) (a b : KE) (ha : wf a = true) (hb : wf b = true) (h : keq a b = true) :
    den (realI cfg V) a = den (realI cfg V) b :=
  den_same _ a b ha hb ((keq_iff a b).1 h)

example : keq (comm .prod [(.LIN, 1), (.PER, 2)] [comm .sum [(.SE, 1), (.WN, 1)] [], change .CP (base .C) (base .SE)])
    (comm .prod [(.PER, 2), (.LIN, 1)] [change .CP (base .C) (base .SE), comm .sum [(.WN, 1), (.SE, 1)] []]) = true := by decide

/-! ## C72 -/

/-- Some expression of the expansion represents the covariances of `e`, in every reading of the base kernels of `k` and `e`. -/
def Explores (cfg : Cfg) (o : Orders) (rules : List RuleName) (k e : KE) : Prop :=
  ∃ r ∈ expandNamed cfg o rules k, ∀ I, Reading cfg (bases k ++ bases e) I → den I r = den I e

theorem den_plug (I : Interp) (C : Ctx) {a b : KE} (h : den I a = den I b) : den I (C.plug a) = den I (C.plug b) := by
  induction C with
  | hole => exact h
  | comm o c l1 C l2 ih => simp only [Ctx.plug, den, denL_eq, List.map_append, List.map_cons, ih]
  | left c C r ih => simp only [Ctx.plug, den, ih]
  | right c l C ih => simp only [Ctx.plug, den, ih]

theorem bases_plug (C : Ctx) (x : KE) : ∀ y ∈ bases x, y ∈ bases (C.plug x) := by
  induction C with
  | hole => exact fun y hy => hy
  | comm o c l1 C l2 ih => intro y hy; simp only [Ctx.plug]; exact bases_child (k := C.plug x) (by simp) y (ih y hy)
  | left c C r ih => intro y hy; simp [Ctx.plug, bases, ih y hy]
  | right c l C ih => intro y hy; simp [Ctx.plug, bases, ih y hy]

private theorem explore {cfg : Cfg} {o : Orders} (ho : o.OK cfg) {rules : List RuleName} {C : Ctx} {x : KE}
    (hk : settled cfg (C.plug x) = true) (hb : (C.plug x).isBase = false) (hn : NoSig (C.plug x))
    (hl : (C.endsLeft && x.isBase) = false) {n : RuleName} (hr : n ∈ rules) {new e : KE} (h : new ∈ n.rule cfg o (nodeOf x))
    {E : List Base} (hE : ∀ y ∈ bases new, y ∈ bases (C.plug x) ∨ y ∈ E) (hEe : ∀ y ∈ E, y ∈ bases e)
    (he : ∀ I, Reading cfg (bases (C.plug x) ++ E) I → den I new = den I e) :
    Explores cfg o rules (C.plug x) (C.plug e) := by
  have hw := (settled_iff.1 hk).1
  have hmem : n.rule cfg o ∈ rules.map (RuleName.rule cfg o) := List.mem_map.2 ⟨n, hr, rfl⟩
  obtain ⟨r, h1, h2⟩ := C21_complete_partial cfg _ (C20_builtin_rules cfg o ho rules) C x ⟨hw, hb⟩ hl _ hmem new h
  obtain ⟨p, hp, _, hO⟩ := occ_traverse (cfg := cfg) C hw hb
  have hS := traverse_node hw hp
  have hrr := rr_rule (orders_noC ho) n hS.1 (traverse_not_base hp) new h
  obtain ⟨o1, o2⟩ := hrr.op (hS.2.2 hk) (fun x hx => hn x (hS.2.1 x hx))
  obtain ⟨q1, q2, _⟩ := repl_operand (repl_of_traverse hp) hk hn hS.1 hrr.notBase o1 o2
  have wR := (operand_iff.1 q1).1
  have wP := (wf_plug hw hrr.wf hrr.notBase)
  have hsame := hO.repl hl new
  refine ⟨r, h1, fun I hI => ?_⟩
  have hc : Reading cfg (bases (C.plug x) ++ E) I := hI.sub (fun y hy => by
    rcases List.mem_append.1 hy with h | h
    · exact List.mem_append_left _ h
    · exact List.mem_append_right _ (bases_plug C e y (hEe y h)))
  have wr := (C24_shape cfg _ (C20_builtin_rules cfg o ho rules) _ ⟨hw, hb⟩ r h1).1.1
  have ws := standardise_wf (cfg := cfg) wP.1 wP.2
  rw [den_same _ _ _ wr ws.1 h2,
    ← den_same _ _ _ (standardise_wf (cfg := cfg) wR q2).1 ws.1 (standardise_same wR wP.1 hsame),
    C24_meaning cfg _ q1 q2 I (hc.sub ?_), den_same _ _ _ wR wP.1 hsame]
  · exact den_plug _ C (he I hc)
  · intro y hy
    rcases repl_bases (repl_of_traverse hp) y hy with h | h
    · simp [h]
    · rcases hE y h with h | h <;> simp [h]

private theorem bases_nodeOf (x : KE) : bases (nodeOf x) = bases x := by
  cases x <;> simp [nodeOf, bases, basesL, Counter.elements]

private theorem den_nodeOf (I : Interp) (x : KE) : den I (nodeOf x) = den I x := by
  cases x <;> simp [nodeOf, den, denL, opFold, Counter.elements]

/-- C72 (partial: no bare left branch of a change operator; where LIN meets C while LIN absorbs constants, the
covariances are those with LIN standing for LIN plus a constant): anywhere in a simplified expression,
one expansion with the rules of the code's default adds and multiplies each searched base kernel, replaces by it, multiplies by it plus a
constant, and makes change-points and -windows with LIN on either side. -/
theorem C72_default_partial (cfg : Cfg) (o : Orders) (ho : o.OK cfg) (C : Ctx) (x : KE)
    (hk : settled cfg (C.plug x) = true) (hb : (C.plug x).isBase = false) (hn : NoSig (C.plug x)) (hl : (C.endsLeft && x.isBase) = false)
    (B : Base) (hB : Searched cfg B) :
    (Explores cfg o rulesDefault (C.plug x) (C.plug (comm .sum [(B, 1)] [x])) ∧
      (B ≠ .C → Explores cfg o rulesDefault (C.plug x) (C.plug (comm .prod [(B, 1)] [x]))) ∧
      Explores cfg o rulesDefault (C.plug x) (C.plug (base B))) ∧
    (B ≠ .C →
      Explores cfg o rulesDefault (C.plug x) (C.plug (comm .prod [] [x, comm .sum [(B, 1), (.C, 1)] []]))) ∧
    (∀ c : CC,
      Explores cfg o rulesDefault (C.plug x) (C.plug (change c x (base .LIN))) ∧
      Explores cfg o rulesDefault (C.plug x) (C.plug (change c (base .LIN) x))) := by
  have hw := (settled_iff.1 hk).1
  obtain ⟨p, hp, _, _⟩ := occ_traverse (cfg := cfg) C hw hb
  have hS := traverse_node hw hp
  have hop : operand (nodeOf x) = true := operand_of_settled (hS.2.2 hk)
  have hwS := hS.1
  have hsub : ∀ y ∈ bases (nodeOf x), y ∈ bases (C.plug x) := hS.2.1
  have hBa : B ∈ o.all := ho.1.symm.subset (searched_iff.1 hB)
  have hBn : B ≠ .C → B ∈ o.noC := fun h => ho.2.symm.subset (List.mem_filter.2 ⟨searched_iff.1 hB, by simpa using h⟩)
  refine ⟨⟨?_, ?_, ?_⟩, ?_, ?_⟩
  · obtain ⟨R, e, hj⟩ := addRes_raw cfg (nodeOf x) (base B) hwS rfl
    refine explore ho hk hb hn hl (n := .plus_base) (by simp [rulesDefault]) (new := addRes cfg (nodeOf x) (base B)) ?_ (E := [B]) ?_ (by simp [bases, basesL, Counter.elements]) ?_
    · exact List.mem_flatMap.2 ⟨B, hBa, by simp [add]⟩
    · rw [e]; intro y hy
      have := (bases_joins hj.joins).subset ((bases_simplify cfg R hj.wf).subset hy)
      rcases List.mem_append.1 this with h | h
      · exact Or.inl (hsub y h)
      · exact Or.inr (by simpa [bases] using h)
    · intro I hc; rw [e, den_rawJoin_simplify hc.laws cfg hj hop rfl (hc.safe.sub ?_)]
      · rw [den_nodeOf]; simp [opFold, den, denL, Counter.elements]; rw [add_comm]
      · intro y hy; rcases List.mem_append.1 hy with h | h
        · simp [hsub y h]
        · simp only [bases] at h; simp [h]
  · intro hBC
    obtain ⟨R, e, hj⟩ := mulRes_raw cfg (nodeOf x) (base B) hwS rfl
    refine explore ho hk hb hn hl (n := .times_base) (by simp [rulesDefault]) (new := mulRes cfg (nodeOf x) (base B)) ?_ (E := [B]) ?_ (by simp [bases, basesL, Counter.elements]) ?_
    · exact List.mem_flatMap.2 ⟨B, hBn hBC, by simp [multiply]⟩
    · rw [e]; intro y hy
      have := (bases_joins hj.joins).subset ((bases_simplify cfg R hj.wf).subset hy)
      rcases List.mem_append.1 this with h | h
      · exact Or.inl (hsub y h)
      · exact Or.inr (by simpa [bases] using h)
    · intro I hc; rw [e, den_rawJoin_simplify hc.laws cfg hj hop rfl (hc.safe.sub ?_)]
      · rw [den_nodeOf]; simp [opFold, den, denL, Counter.elements]; rw [mul_comm]
      · intro y hy; rcases List.mem_append.1 hy with h | h
        · simp [hsub y h]
        · simp only [bases] at h; simp [h]
  · have e := mkL_one cfg B
    refine explore ho hk hb hn hl (n := .replace_with_singleton) (by simp [rulesDefault]) (new := comm .sum [(B, 1)] []) ?_ (E := [B]) ?_ (by simp [bases, basesL, Counter.elements]) ?_
    · refine List.mem_flatMap.2 ⟨B, hBa, ?_⟩
      rw [e]; simp [replaceNode]
    · intro y hy; right; simpa [bases, basesL, Counter.elements] using hy
    · intro I _; rw [den_one]; rfl
  · intro hBC
    have hwB : wf (mkL cfg .sum [B, .C] []) = true := (operand_iff.1 (operand_mkL_names cfg .sum (by simp))).1
    obtain ⟨R, e, hj⟩ := mulRes_raw cfg (nodeOf x) (mkL cfg .sum [B, .C] []) hwS hwB
    have hbB : ∀ y ∈ bases (mkL cfg .sum [B, .C] []), y ∈ [B, Base.C] := by
      intro y hy
      have := (bases_simplify cfg _ (by rw [wf_comm]; exact ⟨Counter.wf_ofList _, Counter.pos_ofList _, by simp⟩)).subset hy
      simp only [bases, basesL, List.append_nil] at this
      exact (Counter.elements_ofList [B, .C]).subset this
    refine explore ho hk hb hn hl (n := .times_shifted_base) (by simp [rulesDefault]) (new := mulRes cfg (nodeOf x) (mkL cfg .sum [B, .C] [])) ?_
      (E := [B, .C]) ?_ (by simp [bases, basesL, Counter.elements]) ?_
    · exact List.mem_flatMap.2 ⟨B, hBn hBC, by simp [multiply]⟩
    · rw [e]; intro y hy
      have := (bases_joins hj.joins).subset ((bases_simplify cfg R hj.wf).subset hy)
      rcases List.mem_append.1 this with h | h
      · exact Or.inl (hsub y h)
      · exact Or.inr (hbB y h)
    · intro I hc; rw [e, den_rawJoin_simplify hc.laws cfg hj hop (operand_mkL_names cfg .sum (by simp)) (hc.safe.sub ?_)]
      · rw [den_nodeOf, den_mkL_names hc.laws cfg .sum (by simp) (hc.safe.sub (by intro y hy; simp at hy; simp [hy]))]
        simp [opFold, den, denL, Counter.elements]
      · intro y hy; rcases List.mem_append.1 hy with h | h
        · simp [hsub y h]
        · have := hbB y h; simp at this; simp [this]
  · intro c
    have hne : keq (base .LIN) (nodeOf x) = false := by cases x <;> rfl
    have hnS : ¬ Same (base .LIN) (nodeOf x) := by rw [← keq_iff, hne]; simp
    have hd := fun (I : Interp) (hc : Reading cfg (bases (C.plug x) ++ [.LIN]) I) =>
      (C18_both_changes_partial cfg (nodeOf x) (base .LIN) hop rfl I (hc.sub (by
        intro y hy; rcases List.mem_append.1 hy with h | h
        · simp [hsub y h]
        · simp [bases] at h; simp [h])) hnS).2 c
    have hone : oneChange cfg (nodeOf x) c (some (base .LIN)) = [mkChange cfg c (nodeOf x) (base .LIN), mkChange cfg c (base .LIN) (nodeOf x)] := by
      simp [oneChange, hne]
    rw [hone] at hd
    simp only [List.map_cons, List.map_nil, List.cons.injEq, and_true] at hd
    obtain ⟨n, hn1, hn2⟩ : ∃ n ∈ rulesDefault, ∀ S, n.rule cfg o S = oneChange cfg S c (some (base .LIN)) := by
      cases c
      · exact ⟨.change_point_linear, by simp [rulesDefault], fun _ => rfl⟩
      · exact ⟨.change_window_linear, by simp [rulesDefault], fun _ => rfl⟩
    have hbs : ∀ l r : KE, wf l = true → wf r = true → ∀ y ∈ bases (mkChange cfg c l r), y ∈ bases l ∨ y ∈ bases r := by
      intro l r hl hr y hy
      have := (bases_simplify cfg _ (wf_change.2 ⟨hl, hr⟩)).subset hy
      simpa [bases] using this
    constructor
    · refine explore ho hk hb hn hl hn1 (new := mkChange cfg c (nodeOf x) (base .LIN)) (by rw [hn2, hone]; simp) (E := [.LIN]) ?_ (by simp [bases]) ?_
      · intro y hy
        rcases hbs _ _ hwS rfl y hy with h | h
        · exact Or.inl (hsub y h)
        · exact Or.inr (by simpa [bases] using h)
      · intro I hI; rw [(hd I hI).1, den_nodeOf]; simp only [den, hI.chg]
    · refine explore ho hk hb hn hl hn1 (new := mkChange cfg c (base .LIN) (nodeOf x)) (by rw [hn2, hone]; simp) (E := [.LIN]) ?_ (by simp [bases]) ?_
      · intro y hy
        rcases hbs _ _ rfl hwS y hy with h | h
        · exact Or.inr (by simpa [bases] using h)
        · exact Or.inl (hsub y h)
      · intro I hI; rw [(hd I hI).2, den_nodeOf]; simp only [den, hI.chg]

/-- C72, removals and exchanges (partial as `C72_default_partial`): anywhere in a simplified expression, one expansion takes any one term of a sum
or product of several away, and exchanges any base kernel of a sum or product for any other searched one. -/
theorem C72_terms_partial (cfg : Cfg) (o : Orders) (ho : o.OK cfg) (C : Ctx) (op : Op) (b : Counter) (c : List KE)
    (hk : settled cfg (C.plug (comm op b c)) = true) (hb : (C.plug (comm op b c)).isBase = false) (hn : NoSig (C.plug (comm op b c))) :
    (1 < b.elements.length + c.length →
      (∀ (bt : Base) (b' : Counter), (bt :: b'.elements).Perm b.elements →
        Explores cfg o rulesDefault (C.plug (comm op b c)) (C.plug (comm op b' c))) ∧
      (∀ i, i < c.length → Explores cfg o rulesDefault (C.plug (comm op b c)) (C.plug (comm op b (c.eraseIdx i))))) ∧
    (∀ (bt B : Base) (b' : Counter), Searched cfg B → bt ∈ b.elements → bt ≠ B → (bt :: b'.elements).Perm (B :: b.elements) →
      Explores cfg o rulesDefault (C.plug (comm op b c)) (C.plug (comm op b' c))) := by
  have hw := (settled_iff.1 hk).1
  obtain ⟨p, hp, _, _⟩ := occ_traverse (cfg := cfg) C hw hb
  have hS := traverse_node hw hp
  have hop : operand (comm op b c) = true := operand_of_settled (hS.2.2 hk)
  have hsub : ∀ y ∈ bases (comm op b c), y ∈ bases (C.plug (comm op b c)) := hS.2.1
  obtain ⟨wb, pb, hne, hch⟩ := operand_comm.1 hop
  have hl : (C.endsLeft && (comm op b c).isBase) = false := by simp [isBase]
  -- a node with fewer or exchanged terms, before simplification
  have key : ∀ (n : RuleName) (_ : n ∈ rulesDefault) (E : List Base) (b'' : Counter) (c' : List KE) (e : KE),
      simplify cfg (comm op b'' c') ∈ n.rule cfg o (comm op b c) → operand (comm op b'' c') = true →
      (∀ y ∈ bases (comm op b'' c'), y ∈ bases (comm op b c) ∨ y ∈ E) → (∀ y ∈ E, y ∈ bases e) →
      (∀ I, den I (comm op b'' c') = den I e) →
      Explores cfg o rulesDefault (C.plug (comm op b c)) (C.plug e) := by
    intro n hn1 E b'' c' e h1 h2 h3 h4 h5
    refine explore ho hk hb hn hl hn1 h1 (E := E) ?_ h4 ?_
    · intro y hy
      rcases h3 y ((bases_simplify cfg _ (operand_iff.1 h2).1).subset hy) with h | h
      · exact Or.inl (hsub y h)
      · exact Or.inr h
    · intro I hI; rw [den_simplify_operand hI.laws cfg h2 (hI.safe.sub ?_)]
      · exact h5 I
      · intro y hy; rcases h3 y hy with h | h
        · simp [hsub y h]
        · simp [h]
  have hden : ∀ (b1 b2 : Counter) (c' : List KE), b1.elements.Perm b2.elements →
      ∀ I, den I (comm op b1 c') = den I (comm op b2 c') := by
    intro b1 b2 c' h I
    rw [den, den]
    exact opFold_perm op ((h.map _).append_right _)
  refine ⟨fun h1 => ⟨?_, ?_⟩, ?_⟩
  · intro bt b' hperm
    have hws : Counter.WF [(bt, (-1 : Int))] := by simp [Counter.WF]
    have hbt : bt ∈ b.elements := hperm.subset (by simp)
    have hg := (Counter.mem_elements wb bt).1 hbt
    have hp2 : (b.add [(bt, -1)]).elements.Perm b'.elements := by
      rw [List.perm_iff_count]; intro x
      have h3 := hperm.count_eq x
      rw [Counter.count_elements wb, List.count_cons] at h3
      rw [Counter.count_elements (Counter.wf_add wb hws), Counter.get_add wb hws]
      have hx := pb.nonneg x
      simp only [Counter.get]
      by_cases h2 : bt = x
      · subst h2; simp at h3 ⊢; omega
      · simp [h2] at h3 ⊢; omega
    have ht : termCount b c > 1 := by have := Counter.length_elements pb; unfold termCount; omega
    refine key .remove_some_term (by simp [rulesDefault]) [] (b.add [(bt, -1)]) c _ ?_ ?_ ?_ (by simp) (hden _ _ _ hp2)
    · simp only [RuleName.rule, removeATerm, ht, if_true, Counter.pos_eq_self pb]
      refine List.mem_append_left _ (List.mem_map.2 ?_)
      obtain ⟨v, hv⟩ := Counter.has_iff.1 ((Counter.Pos.has_iff_get wb pb bt).2 hg)
      exact ⟨_, hv, rfl⟩
    · refine operand_comm.2 ⟨Counter.wf_add wb hws, Counter.pos_add _ _, ?_, hch⟩
      by_cases hcn : c = []
      · left
        intro h0
        have := hperm.length_eq
        rw [List.length_cons, ← hp2.length_eq, h0] at this
        rw [hcn] at h1; simp at h1 this; omega
      · exact Or.inr hcn
    · intro y hy
      left
      simp only [bases, List.mem_append] at hy ⊢
      rcases hy with h | h
      · exact Or.inl (hperm.subset (List.mem_cons_of_mem _ (hp2.subset h)))
      · exact Or.inr h
  · intro i hi
    have ht : termCount b c > 1 := by have := Counter.length_elements pb; unfold termCount; omega
    refine key .remove_some_term (by simp [rulesDefault]) [] b (c.eraseIdx i) _ ?_ ?_ ?_ (by simp) (fun _ => rfl)
    · simp only [RuleName.rule, removeATerm, ht, if_true, Counter.pos_eq_self pb]
      refine List.mem_append_right _ (List.mem_map.2 ⟨i, by simpa using hi, ?_⟩)
      rw [mkC, List.eraseIdx_eq_take_drop_succ]
    · refine operand_comm.2 ⟨wb, pb, ?_, fun k hk => hch k (List.mem_of_mem_eraseIdx hk)⟩
      by_cases hbn : b.elements = []
      · right
        intro h0
        have := List.length_eraseIdx_of_lt hi
        rw [h0] at this
        rw [hbn] at h1; simp at h1 this; omega
      · exact Or.inl hbn
    · intro y hy
      left
      rcases bases_mem_comm.1 hy with h | ⟨k, hk, h⟩
      · exact bases_mem_comm.2 (Or.inl h)
      · exact bases_mem_comm.2 (Or.inr ⟨k, List.mem_of_mem_eraseIdx hk, h⟩)
  · intro bt B b' hB hbt hne' hperm
    have hBa : B ∈ o.all := ho.1.symm.subset (searched_iff.1 hB)
    have hg := (Counter.mem_elements wb bt).1 hbt
    have hws : (swapDict bt B).WF := Counter.wf_put (by simp [Counter.WF]) _ _
    have hgs : ∀ x, (swapDict bt B).get x = if B = x then 1 else if bt = x then -1 else 0 := by
      intro x; rw [swapDict, Counter.get_put]; simp [Counter.get]
    have hp2 : (b.add (swapDict bt B)).elements.Perm b'.elements := by
      rw [List.perm_iff_count]; intro x
      have h3 := hperm.count_eq x
      rw [List.count_cons, List.count_cons, Counter.count_elements wb] at h3
      rw [Counter.count_elements (Counter.wf_add wb hws), Counter.get_add wb hws, hgs]
      have hx := pb.nonneg x
      by_cases h1 : B = x
      · subst h1; simp [hne'] at h3 ⊢; omega
      · by_cases h2 : bt = x
        · subst h2; simp [h1] at h3 ⊢; omega
        · simp [h1, h2] at h3 ⊢; omega
    have hmem : ∀ y ∈ (b.add (swapDict bt B)).elements, y = B ∨ y ∈ b.elements := by
      intro y hy
      have := hperm.subset (List.mem_cons_of_mem _ (hp2.subset hy))
      simpa using this
    refine key .replace_base (by simp [rulesDefault]) [B] (b.add (swapDict bt B)) c _ ?_ ?_ ?_ ?_ (hden _ _ _ hp2)
    · simp only [RuleName.rule]
      refine List.mem_flatMap.2 ⟨B, hBa, ?_⟩
      simp only [swapBase, Counter.pos_eq_self pb]
      obtain ⟨v, hv⟩ := Counter.has_iff.1 ((Counter.Pos.has_iff_get wb pb bt).2 hg)
      exact List.mem_map.2 ⟨_, hv, rfl⟩
    · refine operand_comm.2 ⟨Counter.wf_add wb hws, Counter.pos_add _ _, Or.inl ?_, hch⟩
      intro h0
      have : B ∈ (b.add (swapDict bt B)).elements := by
        have := hperm.symm.subset (List.mem_cons_self (a := B))
        rcases List.mem_cons.1 this with h | h
        · exact absurd h.symm hne'
        · exact hp2.symm.subset h
      rw [h0] at this; simp at this
    · intro y hy
      rcases bases_mem_comm.1 hy with h | h
      · rcases hmem y h with rfl | h
        · exact Or.inr (by simp)
        · exact Or.inl (bases_mem_comm.2 (Or.inl h))
      · exact Or.inl (bases_mem_comm.2 (Or.inr h))
    · intro y hy
      rw [List.mem_singleton.1 hy]
      refine bases_mem_comm.2 (Or.inl ?_)
      rcases List.mem_cons.1 (hperm.symm.subset (List.mem_cons_self (a := B))) with h | h
      · exact absurd h.symm hne'
      · exact h

-- three levels down in PER * (C + CP(LIN * PER, SE)), all hypotheses are met
example : let C := Ctx.comm .prod [(.PER, 1)] [] (.comm .sum [(.C, 1)] [] (.left .CP .hole (base .SE)) []) []
    let x := comm .prod [(.LIN, 1), (.PER, 1)] []
    settled .default (C.plug x) = true ∧ (C.plug x).isBase = false ∧ NoSig (C.plug x) ∧ (C.endsLeft && x.isBase) = false ∧
      Searched .default .PER ∧ 1 < (Counter.elements [(.LIN, 1), (.PER, 1)]).length + 0 := by
  refine ⟨by decide, rfl, ?_, by decide, Or.inl (by simp), by decide⟩
  show ∀ x ∈ [Base.PER, .C, .LIN, .PER, .SE], _
  decide

/-! ## C71 -/

/-- C71, sums (partial: the sum is simplified): the results are the sum without its SE terms plus a quadratic and plus a cubic. -/
theorem C71_sum_partial (cfg : Cfg) (b b' : Counter) (c : List KE) (h : normal cfg (comm .sum b c) = true)
    (hb' : b'.elements.Perm (b.elements.filter (fun x => decide (x ≠ .SE)))) :
    (higherCurves cfg (comm .sum b c)).map (den (realI cfg posV)) =
      [den (realI cfg posV) (comm .sum b' c) + realF cfg posV .LIN * realF cfg posV .LIN,
       den (realI cfg posV) (comm .sum b' c) + realF cfg posV .LIN * realF cfg posV .LIN * realF cfg posV .LIN] := by
  obtain ⟨wb, pb, hc, hch⟩ := normal_child h
  have hq : ∀ n : Int, (n = 2 ∨ n = 3) → simplify cfg (comm .sum b (c ++ [comm .prod [(.LIN, n)] []])) = comm .sum b (c ++ [comm .prod [(.LIN, n)] []]) := by
    intro n hn
    refine simplify_comm wb pb ?_ hc
    intro k hk
    rcases List.mem_append.1 hk with hk | hk
    · exact hch k hk
    · simp only [List.mem_singleton] at hk; subst hk
      rcases hn with rfl | rfl <;> exact ⟨rfl, by rfl, by decide, rfl⟩
  have hden : ∀ (b1 : Counter) (n : Int), b1.elements.Perm b'.elements → den (realI cfg posV) (comm .sum b1 (c ++ [comm .prod [(.LIN, n)] []])) =
      den (realI cfg posV) (comm .sum b' c) + (List.replicate n.toNat (realF cfg posV .LIN)).prod := by
    intro b1 n hp
    rw [den, opFold_perm .sum ((hp.map _).append_right _), den]
    simp only [denL_eq, List.map_append, opFold, List.sum_append, List.map_cons, List.map_nil, den, Counter.elements, List.flatMap_cons,
      List.flatMap_nil, List.append_nil, List.map_replicate, List.sum_cons, List.sum_nil, add_zero, denL, add_assoc]
    rfl
  have hno : b.has .SE = false → b.elements.Perm b'.elements := by
    intro hs
    refine List.Perm.trans ?_ hb'.symm
    rw [List.filter_eq_self.2]
    intro x hx
    simp only [decide_eq_true_eq]
    rintro rfl
    rw [Counter.mem_elements wb, ← Counter.Pos.has_iff_get wb pb, hs] at hx
    simp at hx
  simp only [higherCurves, Counter.pos_eq_self pb, higherKers_eq, List.map_cons, List.map_nil, mkC, hq 2 (Or.inl rfl), hq 3 (Or.inr rfl)]
  cases hs : b.has .SE with
  | true =>
    simp only [if_true, List.map_cons, List.map_nil, delSE]
    rw [hden _ 2 (by rw [elements_del]; exact hb'.symm), hden _ 3 (by rw [elements_del]; exact hb'.symm)]
    simp [List.replicate_succ, mul_assoc]
  | false =>
    simp only [Bool.false_eq_true, if_false, List.map_cons, List.map_nil]
    rw [hden _ 2 (hno hs), hden _ 3 (hno hs)]
    simp [List.replicate_succ, mul_assoc]

private theorem c_mul_prod {cfg : Cfg} {l : List Base} (h : l ≠ []) :
    realF cfg posV .C * (l.map (realI cfg posV).F).prod = (l.map (realI cfg posV).F).prod := by
  cases l with
  | nil => simp at h
  | cons a l => rw [List.map_cons, List.prod_cons, ← mul_assoc]; congr 1; exact (realLaws varSet_pos).c_base a

private theorem ne_nil_of_get {b : Counter} (wb : b.WF) {x : Base} (h : 0 < b.get x) : b.elements ≠ [] :=
  List.ne_nil_of_mem ((Counter.mem_elements wb x).2 h)

/-- C71, products (partial: the product is simplified): the results are the product without SE times a quadratic, times a cubic, and times one more
periodic kernel, or two if it has none. -/
theorem C71_product_partial (cfg : Cfg) (b b' : Counter) (c : List KE) (h : normal cfg (comm .prod b c) = true)
    (hb' : b'.elements.Perm (b.elements.filter (fun x => decide (x ≠ .SE)))) :
    (higherCurves cfg (comm .prod b c)).map (den (realI cfg posV)) =
      [den (realI cfg posV) (comm .prod b' c) * (realF cfg posV .LIN * realF cfg posV .LIN),
       den (realI cfg posV) (comm .prod b' c) * (realF cfg posV .LIN * realF cfg posV .LIN * realF cfg posV .LIN),
       den (realI cfg posV) (comm .prod b' c) *
         (if Base.PER ∈ b.elements then realF cfg posV .PER else realF cfg posV .PER * realF cfg posV .PER)] := by
  obtain ⟨wb, pb, hc, hch⟩ := normal_child h
  have h0 := pb.nonneg
  -- one result
  have key : ∀ (x : Base) (n : Int), 0 < n → (x = .LIN ∨ x = .PER) →
      den (realI cfg posV) (if b.has .SE then delSE (mkC cfg .prod (b.add [(x, n)]) c) else mkC cfg .prod (b.add [(x, n)]) c) =
        den (realI cfg posV) (comm .prod b' c) * (List.replicate n.toNat (realF cfg posV x)).prod := by
    intro x n hn hx
    have hwx : Counter.WF [(x, n)] := by simp [Counter.WF]
    have hpx : Counter.Pos [(x, n)] := by intro p hp; simp only [List.mem_singleton] at hp; subst hp; exact hn
    have wA := Counter.wf_add wb hwx
    have pA := Counter.pos_add b [(x, n)]
    have hel := Counter.elements_add wb hwx pb hpx
    have hget : ∀ y, (b.add [(x, n)]).get y = b.get y + if x = y then n else 0 := by
      intro y; rw [Counter.get_add wb hwx]; simp only [Counter.get]
      have := h0 y
      split_ifs <;> omega
    have hfin : ∀ b1 : Counter, b1.elements.Perm (b'.elements ++ List.replicate n.toNat x) →
        den (realI cfg posV) (comm .prod b1 c) = den (realI cfg posV) (comm .prod b' c) * (List.replicate n.toNat (realF cfg posV x)).prod := by
      intro b1 hp
      rw [den, opFold_perm .prod ((hp.map _).append_right _), den]
      simp only [List.map_append, opFold, List.prod_append, List.map_replicate]
      rw [mul_right_comm]; rfl
    cases hs : b.has .SE with
    | true =>
      have hSE : 0 < b.get .SE := (Counter.Pos.has_iff_get wb pb .SE).1 hs
      have hcan : canonNode cfg (comm .prod (b.add [(x, n)]) c) = true := by
        have hW := h0 .WN
        simp only [canonNode, hget, Bool.and_eq_true, decide_eq_true_eq] at hc ⊢
        by_cases hw : 0 < b.get .WN
        · rw [if_pos hw] at hc; simp only [Bool.and_eq_true, decide_eq_true_eq] at hc; omega
        · rw [if_neg hw] at hc
          simp only [Bool.and_eq_true, Bool.or_eq_true, decide_eq_true_eq] at hc
          have hC : b.get .C = 0 := by omega
          have e1 : ¬ (0 < b.get .WN + if x = .WN then n else 0) := by
            rcases hx with rfl | rfl <;> simp <;> omega
          rw [if_neg e1]
          simp only [Bool.and_eq_true, Bool.or_eq_true, decide_eq_true_eq]
          rcases hx with rfl | rfl <;> simp <;> omega
      rw [if_pos rfl, mkC, simplify_comm wA pA hch hcan, delSE]
      refine hfin _ ?_
      rw [elements_del]
      refine ((hel.filter _).trans ?_)
      rw [List.filter_append]
      refine List.Perm.append hb'.symm ?_
      simp only [Counter.elements, List.flatMap_cons, List.flatMap_nil, List.append_nil]
      rw [List.filter_eq_self.2]
      intro y hy; rw [(List.mem_replicate.1 hy).2]; rcases hx with rfl | rfl <;> rfl
    | false =>
      rw [if_neg (by simp)]
      have hp : (b.add [(x, n)]).elements.Perm (b'.elements ++ List.replicate n.toNat x) := by
        refine hel.trans (List.Perm.append ?_ (by simp [Counter.elements]))
        refine List.Perm.trans ?_ hb'.symm
        rw [List.filter_eq_self.2]
        intro y hy
        simp only [decide_eq_true_eq]
        rintro rfl
        rw [Counter.mem_elements wb, ← Counter.Pos.has_iff_get wb pb, hs] at hy
        simp at hy
      rw [← hfin _ hp]
      -- only the base terms of the node change
      have hnx : 0 < (b.add [(x, n)]).get x := by rw [hget, if_pos rfl]; have := h0 x; omega
      have solid : ∀ d : Counter, d.WF → d.Pos → (0 < d.get .LIN ∨ 0 < d.get .PER ∨ 0 < d.get .WN) →
          (0 < (simplifyBaseProd d c.length).get .LIN ∨ 0 < (simplifyBaseProd d c.length).get .PER ∨ 0 < (simplifyBaseProd d c.length).get .WN) := by
        intro d wd pd hd
        have hg := fun y => get_simplifyBase (cfg := cfg) (op := .prod) (n := c.length) wd pd y
        simp only [simplifyBase] at hg
        rw [hg, hg, hg]
        simp only [normCount]
        by_cases hw : 0 < d.get .WN
        · simp [hw]
        · simp only [hw, if_false]; simp; omega
      have ne : ∀ d : Counter, d.WF → (0 < d.get .LIN ∨ 0 < d.get .PER ∨ 0 < d.get .WN) → d.elements ≠ [] := by
        intro d wd hd
        rcases hd with h | h | h <;> exact ne_nil_of_get wd h
      have step : ∀ d : Counter, d.WF → d.Pos → (0 < d.get .LIN ∨ 0 < d.get .PER ∨ 0 < d.get .WN) →
          ((simplifyBaseProd d c.length).elements.map (realI cfg posV).F).prod = (d.elements.map (realI cfg posV).F).prod := by
        intro d wd pd hd
        have w' : (simplifyBaseProd d c.length).WF := wf_simplifyBase (cfg := cfg) (op := .prod) (n := c.length) wd
        have := prod_simplifyBase (realLaws (cfg := cfg) varSet_pos) (n := c.length) wd pd
        have e : (realI cfg posV).F .C = realF cfg posV .C := rfl
        rw [e, c_mul_prod (ne _ w' (solid d wd pd hd)), c_mul_prod (ne _ wd hd)] at this
        exact this
      have hin : 0 < (b.add [(x, n)]).get .LIN ∨ 0 < (b.add [(x, n)]).get .PER ∨ 0 < (b.add [(x, n)]).get .WN := by
        rcases hx with rfl | rfl
        · exact Or.inl hnx
        · exact Or.inr (Or.inl hnx)
      have e : mkC cfg .prod (b.add [(x, n)]) c = comm .prod (simplifyBaseProd (simplifyBaseProd (b.add [(x, n)]) c.length) c.length) c := by
        rw [mkC, simplify, simplifyL_eq, simplify_children (fun k hk => (hch k hk).2.1)]
        obtain ⟨ns, e1, e⟩ := absorb_eq cfg .prod (b.add [(x, n)]) c
        have hf : c.filter (isComm .prod) = [] := by
          rw [List.filter_eq_nil_iff]; intro k hk; simp [(hch k hk).2.2.2]
        rw [hf] at e1
        have hns : ns = [] := by simpa using e1
        subst hns
        have hpl := restOf_of_plain (fun k hk => ⟨(hch k hk).1, (normal_iff.1 (hch k hk).2.1).1⟩) (fun k hk => (hch k hk).2.2.1)
        rw [e, flat_of_alt (fun k hk => (hch k hk).2.2.2), hpl.1, hpl.2]
        simp only [absorbBts, Counter.updateList, List.foldl_nil, simplifyBase]
      have w1 : (simplifyBaseProd (b.add [(x, n)]) c.length).WF := wf_simplifyBase (cfg := cfg) (op := .prod) (n := c.length) wA
      have p1 : (simplifyBaseProd (b.add [(x, n)]) c.length).Pos := pos_simplifyBase (cfg := cfg) (op := .prod) (n := c.length)
      rw [e, den, den]
      simp only [opFold, List.prod_append]
      rw [step _ w1 p1 (solid _ wA pA hin), step _ wA pA hin]
  have hper : b.has .PER = true ↔ Base.PER ∈ b.elements := by rw [Counter.mem_elements wb, ← Counter.Pos.has_iff_get wb pb]
  have k2 := key .LIN 2 (by omega) (Or.inl rfl)
  have k3 := key .LIN 3 (by omega) (Or.inl rfl)
  have k4 := key .PER 1 (by omega) (Or.inr rfl)
  have k5 := key .PER 2 (by omega) (Or.inr rfl)
  simp only [higherCurves, Counter.pos_eq_self pb]
  by_cases hP : Base.PER ∈ b.elements
  · rw [if_pos hP, if_pos (hper.2 hP)]
    cases hs : b.has .SE <;> simp only [hs, Bool.false_eq_true, if_false, if_true] at k2 k3 k4 k5 ⊢ <;>
      simp only [List.map_cons, List.map_nil, List.cons_append, List.nil_append, k2, k3, k4] <;> simp [List.replicate_succ, mul_assoc]
  · rw [if_neg hP, if_neg (fun h => hP (hper.1 h))]
    cases hs : b.has .SE <;> simp only [hs, Bool.false_eq_true, if_false, if_true] at k2 k3 k4 k5 ⊢ <;>
      simp only [List.map_cons, List.map_nil, List.cons_append, List.nil_append, k2, k3, k5] <;> simp [List.replicate_succ, mul_assoc]

/-- C71, change operators (partial: simplified): a branch that is a bare base kernel is exchanged for a quadratic and a cubic; no other branch is. -/
theorem C71_change_partial (cfg : Cfg) (x : CC) (l r : KE) (h : normal cfg (change x l r) = true) :
    let D := den (realI cfg posV)
    let L := realF cfg posV .LIN
    (higherCurves cfg (change x l r)).map D =
      (if l.isBase then [chgFam cfg x (L * L) (D r), chgFam cfg x (L * L * L) (D r)] else []) ++
      (if r.isBase then [chgFam cfg x (D l) (L * L), chgFam cfg x (D l) (L * L * L)] else []) := by
  obtain ⟨hw, hc, hs, ha⟩ := normal_iff.1 h
  have hw' := wf_change.1 hw
  simp only [allNodes, Bool.and_eq_true] at hc
  simp only [allBelow, Bool.and_eq_true] at hs
  simp only [alternating, allNodes, Bool.and_eq_true] at ha
  have hb : ∀ k, allNodes (fun n => !n.isSingleton) k = true → allBelow (fun n => !n.isSingleton) k = true ∧ isSingleton k = false := by
    intro k this
    cases k <;> simp_all [allNodes, allBelow, isSingleton]
  have el : extract (simplify cfg l) = l := by
    rw [simplify_of_all l hw'.1 hc.1.2 (hb l hs.1).1 ha.1.2, extract_of_not_singleton hw'.1 (hb l hs.1).2]
  have er : extract (simplify cfg r) = r := by
    rw [simplify_of_all r hw'.2 hc.2 (hb r hs.2).1 ha.2, extract_of_not_singleton hw'.2 (hb r hs.2).2]
  have e2 : extract (simplify cfg (comm .prod [(.LIN, 2)] [])) = comm .prod [(.LIN, 2)] [] := rfl
  have e3 : extract (simplify cfg (comm .prod [(.LIN, 3)] [])) = comm .prod [(.LIN, 3)] [] := rfl
  have d2 : den (realI cfg posV) (comm .prod [(.LIN, 2)] []) = realF cfg posV .LIN * realF cfg posV .LIN := by
    simp [den, denL, opFold, Counter.elements, List.replicate_succ]; rfl
  have d3 : den (realI cfg posV) (comm .prod [(.LIN, 3)] []) = realF cfg posV .LIN * realF cfg posV .LIN * realF cfg posV .LIN := by
    simp [den, denL, opFold, Counter.elements, List.replicate_succ]; rw [mul_assoc]; rfl
  have dch : ∀ a b, den (realI cfg posV) (change x a b) = (realI cfg posV).chg x (den (realI cfg posV) a) (den (realI cfg posV) b) := fun a b => by rw [den]
  intro D L
  simp only [higherCurves, higherKers_eq, List.map_append, mkChange, List.map_cons, List.map_nil, simplify, el, er]
  simp only [← simplify.eq_2, e2, e3]
  cases l.isBase <;> cases r.isBase <;>
    simp only [Bool.false_eq_true, if_false, if_true, List.map_cons, List.map_nil, List.nil_append, D, L, dch, d2, d3] <;> rfl

/-- C71: every result is a well-formed expression, for every node. -/
theorem C71_valid (cfg : Cfg) (S : KE) (h : wf S = true) : ∀ r ∈ higherCurves cfg S, wf r = true ∧ r.isBase = false ∧
    (∀ x ∈ bases r, x ∈ bases S ∨ x = .LIN ∨ x = .PER) := by
  intro r hr
  have := rr_higher (E := [.LIN, .PER]) h (by simp) (by simp) r hr
  exact ⟨this.wf, this.notBase, fun x hx => by simpa using this.bases x hx⟩

-- LIN * SE * (PER + WN) and SE + CP(LIN, PER)
example : normal .default (comm .prod [(.LIN, 1), (.SE, 1)] [comm .sum [(.PER, 1), (.WN, 1)] []]) = true ∧
    normal .default (comm .sum [(.SE, 1)] [change .CP (base .LIN) (base .PER)]) = true ∧
    normal .default (change .CW (base .LIN) (comm .sum [(.PER, 1), (.WN, 1)] [])) = true := by decide

end GPyABCD
