import Verif.Lemmas.ParamsTerms

/-!
# Parameters that are not found

GPy takes a sum in a sum and a product in a product apart, the expression does not, so the names that are looked up for the inner one do not exist.
-/

namespace GPyABCD
namespace Params
open Sops KE Interp

variable {α : Type}

theorem hasParamsL_iff {cfg : Cfg} {l : List (PKE α)} : HasParamsL cfg l ↔ ∀ f ∈ l, HasParams cfg f := by
  induction l with
  | nil => simp [HasParamsL]
  | cons f l ih => simp [HasParamsL, ih]

/-! ## Names that do not exist -/

/-- What `Nice` says besides that kinds alternate. -/
def Shape (k : KE) : Prop :=
  k.wf = true ∧ k.noEmpty = true ∧ KE.allNodes (fun n => !n.isSingleton) k = true ∧ ∀ x ∈ KE.bases k, x.isSigmoid = false

theorem lookup_lost {d : Str → Option α} {skip : Bool} {pre : Str} (hd : ∀ key, d (pre ++ key) = none) (ps : List Par) {p : PD α}
    (h : lookupPars d skip pre ps = .ok p) : p = {} ∧ (ps = [] ∨ skip = true) := by
  induction ps with
  | nil => simp only [lookupPars, Except.ok.injEq] at h; exact ⟨h.symm, Or.inl rfl⟩
  | cons q qs ih =>
    simp only [lookupPars, hd] at h
    by_cases hs : (skip && decide (q = .variance)) = true
    · rw [if_pos hs] at h
      simp only [Bool.and_eq_true] at hs
      exact ⟨(ih h).1, Or.inr hs.1⟩
    · rw [if_neg hs] at h; simp at h

/-- No dictionary has a variance. -/
def NoVars (ps : PDict α) : Prop := ∀ e ∈ ps, ∀ p ∈ e.2, p.variance = none

theorem NoVars.get {ps : PDict α} (h : NoVars ps) (b : Base) : ∀ p ∈ ps.get b, p.variance = none := by
  intro p hp
  exact h _ (PDict.mem_of_get (b := b) (by intro h0; rw [h0] at hp; simp at hp)) p hp

theorem NoVars.append {ps : PDict α} (h : NoVars ps) {b : Base} {p : PD α} (hp : p.variance = none) : NoVars (ps.append b p) := by
  intro e he q hq
  rcases PDict.mem_put he with rfl | he
  · rcases List.mem_append.1 hq with hq | hq
    · exact h.get b q hq
    · simp only [List.mem_singleton] at hq; subst hq; exact hp
  · exact h e he q hq

theorem bases_lost {cfg : Cfg} {d : Str → Option α} {pre : Str} (hd : ∀ key, d (pre ++ key) = none) (bs : List Base) (seen : Seen) (ps : PDict α)
    (h0 : NoVars ps) {seen' : Seen} {ps' : PDict α} (h : matchBases cfg d pre seen ps bs = .ok (seen', ps')) : NoVars ps' := by
  induction bs generalizing seen ps with
  | nil => simp only [matchBases, Except.ok.injEq, Prod.mk.injEq] at h; obtain ⟨_, rfl⟩ := h; exact h0
  | cons b bs ih =>
    simp only [matchBases] at h
    cases hn : baseName cfg b with
    | none => simp [hn] at h
    | some n =>
      simp only [hn, bind, Except.bind] at h
      cases hl : lookupPars d true (pre ++ n ++ postfixOf (List.count (Key.bt b) (Key.bt b :: seen))) (basePars cfg b) with
      | error e => rw [hl] at h; simp at h
      | ok p =>
        rw [hl] at h
        refine ih _ _ (h0.append ?_) h
        rw [(lookup_lost (fun key => by rw [List.append_assoc, List.append_assoc]; exact hd _) _ hl).1]

theorem takeVar_lost {ps : PDict α} (h : NoVars ps) : takeVar ps = none := by
  induction ps with
  | nil => rfl
  | cons e ps ih =>
    obtain ⟨b, l⟩ := e
    have h1 : l.filterMap (fun p => p.variance) = [] := by
      rw [List.filterMap_eq_nil_iff]
      exact fun p hp => h (b, l) (List.mem_cons_self ..) p hp
    rw [takeVar, (takeVarL_none h1).1, ih (fun e he => h e (List.mem_cons_of_mem _ he))]
    rfl

/-- The steps of matching a sum or product. -/
theorem matchUp_comm_inv {cfg : Cfg} {d : Str → Option α} {root : Bool} {pre pre' : Str} {op : Op} {b : Counter} {cs : List KE} {f : PKE α}
    (hp : startPrefix root pre (if b.total + cs.length = 1 then [] else opName op ++ ['.']) = .ok pre')
    (h : matchUp cfg d root pre (comm op b cs) = .ok f) :
    ∃ seen ps cts, matchBases cfg d pre' [] [] b.elements = .ok (seen, ps) ∧ matchUpL cfg d pre' seen cs = .ok cts ∧ finish op b ps cts = .ok f := by
  cases hb : matchBases cfg d pre' [] [] b.elements with
  | error e => simp [matchUp, hp, hb, bind, Except.bind] at h
  | ok x =>
    obtain ⟨seen, ps⟩ := x
    cases hc : matchUpL cfg d pre' seen cs with
    | error e => simp [matchUp, hp, hb, hc, bind, Except.bind] at h
    | ok cts =>
      rw [matchUp_comm hp hb hc] at h
      exact ⟨seen, ps, cts, rfl, hc, h⟩

theorem finish_has {cfg : Cfg} {op : Op} {b : Counter} {ps : PDict α} {cts : List (PKE α)} {f : PKE α} (h : finish op b ps cts = .ok f)
    (hf : HasParams cfg f) : HasParamsL cfg cts := by
  cases op with
  | sum => simp only [finish, Except.ok.injEq] at h; subst h; rw [HasParams] at hf; exact hf.2.2
  | prod =>
    rw [finish] at h
    split at h
    · cases ht : takeVar ps with
      | none => rw [ht] at h; simp at h
      | some x => rw [ht] at h; simp only [Except.ok.injEq] at h; subst h; rw [HasParams] at hf; exact hf.2.2.2
    · simp only [Except.ok.injEq] at h; subst h; rw [HasParams] at hf; exact hf.2.2.2

/-- Every composite term is matched with some prefix. -/
theorem matchUpL_mem {cfg : Cfg} {d : Str → Option α} {pre : Str} {cs : List KE} {seen : Seen} {cts : List (PKE α)}
    (h : matchUpL cfg d pre seen cs = .ok cts) {k : KE} (hk : k ∈ cs) :
    ∃ n m f, kname cfg k = some n ∧ f ∈ cts ∧ matchUp cfg d false (pre ++ n ++ postfixOf (m + 1)) k = .ok f := by
  induction cs generalizing seen cts with
  | nil => simp at hk
  | cons c cs ih =>
    simp only [matchUpL] at h
    cases hn : kname cfg c with
    | none => simp [hn] at h
    | some n =>
      simp only [hn, bind, Except.bind] at h
      cases h1 : matchUp cfg d false (pre ++ n ++ postfixOf (List.count (Key.ct n) (Key.ct n :: seen))) c with
      | error e => rw [h1] at h; simp at h
      | ok a =>
        rw [h1] at h
        cases h2 : matchUpL cfg d pre (Key.ct n :: seen) cs with
        | error e => simp only [h2] at h; simp at h
        | ok as =>
          simp only [h2, pure, Except.pure, Except.ok.injEq] at h
          subst h
          rcases List.mem_cons.1 hk with rfl | hk
          · rw [List.count_cons_self] at h1
            exact ⟨n, _, a, hn, List.mem_cons_self .., h1⟩
          · obtain ⟨n', m, f, e1, e2, e3⟩ := ih h2 hk
            exact ⟨n', m, f, e1, List.mem_cons_of_mem _ e2, e3⟩

mutual
/-- Below a name that does not exist nothing gets all its parameters. -/
theorem lost (cfg : Cfg) (k : KE) (hw : k.wf = true) (he : k.noEmpty = true) (hs : ∀ x ∈ KE.bases k, x.isSigmoid = false) {d : Str → Option α}
    {pre : Str} (hpre : pre ≠ []) (hd : ∀ key, d (pre ++ key) = none) {f : PKE α} (h : matchUp cfg d false pre k = .ok f) : ¬ HasParams cfg f := by
  intro hf
  cases k with
  | base b =>
    simp only [matchUp, bind, Except.bind] at h
    cases hl : lookupPars d false pre (basePars cfg b) with
    | error e => rw [hl] at h; simp at h
    | ok p =>
      have := (lookup_lost hd _ hl).2
      have hv := basePars_variance cfg (hs b (by simp [bases]))
      rcases this with h0 | h0
      · rw [h0] at hv; simp at hv
      · simp at h0
  | change c l r =>
    simp only [matchUp, startPrefix, hpre, if_false, bind, Except.bind, Bool.false_eq_true] at h
    cases hl : lookupPars d false pre (changePars cfg c) with
    | error e => rw [hl] at h; simp at h
    | ok p =>
      have := (lookup_lost hd _ hl).2
      rcases this with h0 | h0
      · cases c <;> simp only [changePars] at h0 <;> split at h0 <;> simp at h0
      · simp at h0
  | comm op b cs =>
    rw [wf_comm] at hw
    obtain ⟨seen, ps, cts, h1, h2, h3⟩ := matchUp_comm_inv (pre' := pre) (by rw [startPrefix]; simp [hpre]) h
    have hno := bases_lost hd _ _ _ (by intro e he; simp at he) h1
    by_cases hb : b.elements = []
    · have hne : cs ≠ [] := by
        rintro rfl
        simp [noEmpty, allNodes, isEmptyNode, hb] at he
      obtain ⟨c, cs', rfl⟩ := List.exists_cons_of_ne_nil hne
      exact lostL cfg (c :: cs') (by simp) (fun k hk => ⟨(hw.2.2 k hk).2, by
          simp only [noEmpty, allNodes, Bool.and_eq_true, allNodesL_iff] at he; exact he.2 k hk, fun x hx => hs x (by
          simp only [bases, basesL_eq, List.mem_append, List.mem_flatMap]; exact Or.inr ⟨k, hk, hx⟩)⟩) hd h2 (finish_has h3 hf)
    · obtain ⟨x, hx⟩ := List.exists_mem_of_ne_nil _ hb
      cases op with
      | sum =>
        simp only [finish, Except.ok.injEq] at h3
        subst h3
        rw [HasParams] at hf
        have hpos : 0 < b.get x := (Counter.mem_elements hw.1 x).1 hx
        have hl := hf.1 x
        obtain ⟨p, hp⟩ := List.exists_mem_of_ne_nil (ps.get x) (by intro h0; rw [h0] at hl; simp at hl; omega)
        exact hf.2.1 x p hp .variance (basePars_variance cfg (hs x (by simp [bases, hx]))) (hno.get x p hp)
      | prod =>
        rw [finish, takeVar_lost hno] at h3
        have : b.total > 0 := by
          rw [← Counter.length_elements hw.2.1]
          have := List.length_pos_iff.2 hb
          omega
        rw [if_pos this] at h3
        simp at h3
theorem lostL (cfg : Cfg) (cs : List KE) (hne : cs ≠ []) (h0 : ∀ k ∈ cs, k.wf = true ∧ k.noEmpty = true ∧ ∀ x ∈ KE.bases k, x.isSigmoid = false)
    {d : Str → Option α} {pre : Str} (hd : ∀ key, d (pre ++ key) = none) {seen : Seen} {cts : List (PKE α)}
    (h : matchUpL cfg d pre seen cs = .ok cts) : ¬ HasParamsL cfg cts := by
  intro hf
  cases cs with
  | nil => exact hne rfl
  | cons k cs =>
    obtain ⟨n, m, f, h1, h2, h3⟩ := matchUpL_mem h (List.mem_cons_self ..)
    have hk := h0 k (List.mem_cons_self ..)
    exact lost cfg k hk.1 hk.2.1 hk.2.2 (by rw [postfixOf]; split <;> simp) (fun key => by rw [List.append_assoc, List.append_assoc]; exact hd _) h3
      (hasParamsL_iff.1 hf f h2)
end

/-! ## Kernels of nested sums and products -/

theorem shape_comm {op : Op} {b : Counter} {cs : List KE} (h : Shape (comm op b cs)) :
    b.WF ∧ b.Pos ∧ (∀ x ∈ b.elements, x.isSigmoid = false) ∧ 2 ≤ b.elements.length + cs.length ∧ ∀ k ∈ cs, k.isBase = false ∧ Shape k := by
  obtain ⟨h1, h2, h3, h5⟩ := h
  rw [wf_comm] at h1
  simp only [noEmpty, allNodes, Bool.and_eq_true, allNodesL_iff, isEmptyNode, isSingleton, Bool.not_eq_true',
    Bool.and_eq_false_iff, decide_eq_false_iff_not] at h2 h3
  simp only [bases, basesL_eq, List.mem_append, List.mem_flatMap] at h5
  refine ⟨h1.1, h1.2.1, fun x hx => h5 x (Or.inl hx), ?_, ?_⟩
  · have h6 := h3.1
    rcases Nat.lt_or_ge (b.elements.length + cs.length) 2 with h7 | h7
    · have h8 : b.elements.length = 0 ∧ cs.length = 0 := by omega
      rw [List.length_eq_zero_iff, List.length_eq_zero_iff] at h8
      rcases h2.1 with h9 | h9
      · exact absurd h8.1 h9
      · rw [h8.2] at h9; simp at h9
    · exact h7
  · intro k hk
    exact ⟨(h1.2.2 k hk).1, (h1.2.2 k hk).2, h2.2 k hk, h3.2 k hk, fun x hx => h5 x (Or.inr ⟨k, hk, hx⟩)⟩

theorem shape_change {c : CC} {l r : KE} (h : Shape (change c l r)) : Shape l ∧ Shape r := by
  obtain ⟨h1, h2, h3, h5⟩ := h
  rw [wf_change] at h1
  simp only [noEmpty, allNodes, Bool.and_eq_true] at h2 h3
  simp only [bases, List.mem_append] at h5
  exact ⟨⟨h1.1, h2.1.2, h3.1.2, fun x hx => h5 x (Or.inl hx)⟩, h1.2, h2.2, h3.2, fun x hx => h5 x (Or.inr hx)⟩

theorem foldl_combine_any {op : Op} (L : List (GK α)) (A : List (GK α)) :
    L.foldl (combine op) (.comb op A) = .comb op (A ++ L.flatMap (partsOf op)) := by
  induction L generalizing A with
  | nil => simp
  | cons x L ih => rw [List.foldl_cons, combine, partsOf, if_pos rfl, ih]; simp

/-- `reduce` over two parts or more. -/
theorem reduceK_two {op : Op} {L : List (GK α)} (h : 2 ≤ L.length) : reduceK op L = .ok (.comb op (L.flatMap (partsOf op))) := by
  cases L with
  | nil => simp at h
  | cons x L =>
    cases L with
    | nil => simp at h
    | cons y L => rw [reduceK, List.foldl_cons, combine, foldl_combine_any]; simp

/-- No part has the name of the sum or product it is a part of. -/
def TopFlat (cfg : Cfg) (s : GK α) : Prop := ∀ op, ∀ x ∈ partsOf op s, gname cfg x ≠ opName op

theorem flat_base (cfg : Cfg) (b : Base) (p : PD α) : TopFlat cfg (.base b p) := by
  intro op x hx
  simp only [partsOf, List.mem_singleton] at hx
  subst hx
  simp only [gname]
  cases hn : baseName cfg b with
  | none => cases op <;> simp [opName]
  | some n => exact name_base_ne_op hn op

theorem op_ne_change (op : Op) (c : CC) : changeName c ≠ opName op := by cases op <;> cases c <;> decide

theorem flat_change (cfg : Cfg) (c : CC) (p : PD α) (l r : GK α) : TopFlat cfg (.change c p l r) := by
  intro op x hx
  simp only [partsOf, List.mem_singleton] at hx
  subst hx
  exact op_ne_change op c

theorem flat_comb {cfg : Cfg} {op : Op} {L : List (GK α)} (h : ∀ x ∈ L, TopFlat cfg x) : TopFlat cfg (.comb op (L.flatMap (partsOf op))) := by
  intro op' x hx
  rw [partsOf] at hx
  by_cases ho : op = op'
  · subst ho
    rw [if_pos rfl] at hx
    obtain ⟨y, hy, hx⟩ := List.mem_flatMap.1 hx
    exact h y hy op x hx
  · rw [if_neg ho] at hx
    simp only [List.mem_singleton] at hx
    subst hx
    intro h0
    simp only [gname] at h0
    revert h0 ho
    cases op <;> cases op' <;> decide

theorem baseParts_flat (cfg : Cfg) (op : Op) (es : List Base) : ∀ g ∈ baseParts cfg op es, TopFlat cfg g := by
  cases op with
  | sum => intro g hg; obtain ⟨b, _, rfl⟩ := List.mem_map.1 hg; exact flat_base cfg _ _
  | prod =>
    cases es with
    | nil => simp [baseParts, unlinkTail]
    | cons b es =>
      intro g hg
      simp only [baseParts, List.map_cons, unlinkTail, List.mem_cons, List.map_map, List.mem_map] at hg
      rcases hg with rfl | ⟨x, _, rfl⟩
      · exact flat_base cfg _ _
      · exact flat_base cfg _ _

mutual
theorem built (cfg : Cfg) (k : KE) (h : Shape k) : ∃ s, Built cfg k s ∧ TopFlat cfg s := by
  cases k with
  | base b =>
    have hb : b.isSigmoid = false := h.2.2.2 b (by simp [bases])
    refine ⟨.base b (linked (basePars cfg b)), ⟨?_, ?_, rfl, fun _ _ => rfl⟩, flat_base cfg _ _⟩
    · cases b <;> simp [Base.isSigmoid] at hb <;> rfl
    · cases b <;> simp [Base.isSigmoid] at hb <;> rfl
  | comm op b cs =>
    obtain ⟨h1, h2, h3, h4, h6⟩ := shape_comm h
    obtain ⟨ks, k1, k2, k3, k4, k5⟩ := builtL cfg cs h6
    have hlen : (orderBase b.elements).length = b.elements.length := (List.perm_insertionSort _ _).length_eq
    have hL2 : 2 ≤ (baseParts cfg op (orderBase b.elements) ++ ks).length := by
      rw [List.length_append, baseParts_length, hlen, k4]; omega
    refine ⟨_, ⟨by rw [toKernel_comm h3 k1, reduceK_two hL2], rfl, rfl, ?_⟩, flat_comb ?_⟩
    · intro op' ho
      have : op ≠ op' := by simpa [isComm] using ho
      rw [partsOf, if_neg this]
    · intro x hx
      rcases List.mem_append.1 hx with hx | hx
      · exact baseParts_flat cfg op _ x hx
      · exact k5 x hx
  | change c l r =>
    obtain ⟨h1, h2⟩ := shape_change h
    obtain ⟨sl, bl, _⟩ := built cfg l h1
    obtain ⟨sr, br, _⟩ := built cfg r h2
    refine ⟨.change c (linked (changePars cfg c)) sl sr, ⟨?_, rfl, rfl, fun _ _ => rfl⟩, flat_change cfg _ _ _ _⟩
    simp only [toKernel, bl.ok, br.ok, bind, Except.bind]; rfl
theorem builtL (cfg : Cfg) (cs : List KE) (h : ∀ k ∈ cs, k.isBase = false ∧ Shape k) :
    ∃ ks, toKernelL cfg cs = .ok ks ∧ (∀ s ∈ ks, isBaseK s = false) ∧ (∀ op, (∀ k ∈ cs, isComm op k = false) → ∀ s ∈ ks, partsOf op s = [s]) ∧
      ks.length = cs.length ∧ ∀ s ∈ ks, TopFlat cfg s := by
  cases cs with
  | nil => exact ⟨[], rfl, by simp, by simp, rfl, by simp⟩
  | cons k cs =>
    have hk := h k (List.mem_cons_self ..)
    obtain ⟨s, bs, fs⟩ := built cfg k hk.2
    obtain ⟨ks, k1, k2, k3, k4, k5⟩ := builtL cfg cs (fun x hx => h x (List.mem_cons_of_mem _ hx))
    refine ⟨s :: ks, ?_, ?_, ?_, by simp [k4], ?_⟩
    · simp only [toKernelL, bs.ok, k1, bind, Except.bind]; rfl
    · intro x hx
      rcases List.mem_cons.1 hx with rfl | hx
      · rw [bs.base]; exact hk.1
      · exact k2 x hx
    · intro op hop x hx
      rcases List.mem_cons.1 hx with rfl | hx
      · exact bs.parts op (hop k (List.mem_cons_self ..))
      · exact k3 op (fun y hy => hop y (List.mem_cons_of_mem _ hy)) x hx
    · intro x hx
      rcases List.mem_cons.1 hx with rfl | hx
      · exact fs
      · exact k5 x hx
end

/-! ## Sums in sums and products in products -/

/-- Names of absent children. -/
theorem child_lost {cfg : Cfg} {n : Str} (hn : plainName n = true) (parts : List (GK α)) (h : ∀ x ∈ parts, gname cfg x ≠ n) (seen : List Str) (m : Nat)
    (key : Str) : pyDict (flatL cfg seen parts) (n ++ postfixOf (m + 1) ++ key) = none := by
  have e : n ++ postfixOf (m + 1) ++ key = sib (List.replicate m n) n ++ '.' :: key := by
    have := postfix_sib (List.replicate m n) n key
    rwa [List.count_replicate_self] at this
  rw [e]
  clear e
  induction parts generalizing seen with
  | nil => rfl
  | cons x parts ih =>
    rw [flatL, pyDict_append, ih (fun y hy => h y (List.mem_cons_of_mem _ hy)), Option.none_or]
    refine pyDict_under_ne (sib_nodot (plain_gname cfg x)) (sib_nodot hn) ?_ _ _
    intro h0
    exact h x (List.mem_cons_self ..) (sib_inj (plain_gname cfg x) hn h0).1

/-- A node with a composite term of its own kind. -/
theorem bad_node {cfg : Cfg} {op : Op} {b : Counter} {cs : List KE} (hcs : ∀ k ∈ cs, k.isBase = false ∧ Shape k) {k : KE} (hk : k ∈ cs)
    (hop : isComm op k = true) {parts : List (GK α)} (hparts : ∀ x ∈ parts, gname cfg x ≠ opName op) {d : Str → Option α} {pre : Str}
    (hd : ∀ key, d (pre ++ key) = pyDict (flatL cfg [] parts) key) {root : Bool} {pre0 : Str}
    (hpre : startPrefix root pre0 (if b.total + cs.length = 1 then [] else opName op ++ ['.']) = .ok pre) {f : PKE α}
    (h : matchUp cfg d root pre0 (comm op b cs) = .ok f) : ¬ HasParams cfg f := by
  intro hf
  obtain ⟨seen, ps, cts, _, h2, h3⟩ := matchUp_comm_inv hpre h
  obtain ⟨n, m, f', e1, e2, e3⟩ := matchUpL_mem h2 hk
  have hn : n = opName op := by
    cases k with
    | comm o _ _ =>
      simp only [isComm, decide_eq_true_eq] at hop
      subst hop
      simpa [kname] using e1.symm
    | base => simp [isComm] at hop
    | change => simp [isComm] at hop
  subst hn
  have hs := (hcs k hk).2
  refine lost cfg k hs.1 hs.2.1 hs.2.2.2 (by rw [postfixOf]; split <;> simp) ?_ e3 (hasParamsL_iff.1 (finish_has h3 hf) f' e2)
  intro key
  rw [List.append_assoc, List.append_assoc, hd, ← List.append_assoc]
  exact child_lost (plain_op op) parts hparts [] m key

theorem alternating_comm {op : Op} {b : Counter} {cs : List KE} (h : alternating (comm op b cs) = false) :
    (∃ k ∈ cs, isComm op k = true) ∨ (∀ k ∈ cs, isComm op k = false) ∧ ∃ k ∈ cs, alternating k = false := by
  by_cases h1 : ∃ k ∈ cs, isComm op k = true
  · exact Or.inl h1
  · have h1' : ∀ k ∈ cs, isComm op k = false := by
      intro k hk
      cases h2 : isComm op k with
      | false => rfl
      | true => exact absurd ⟨k, hk, h2⟩ h1
    refine Or.inr ⟨h1', ?_⟩
    by_contra h2
    have : alternating (comm op b cs) = true := by
      simp only [alternating, allNodes, Bool.and_eq_true, allNodesL_iff, altNode, List.all_eq_true, Bool.not_eq_true']
      refine ⟨h1', fun k hk => ?_⟩
      cases h3 : alternating k with
      | true => exact h3
      | false => exact absurd ⟨k, hk, h3⟩ h2
    rw [this] at h
    simp at h

theorem bad_change {cfg : Cfg} {c : CC} {l r : KE} {gl gr : GK α} {p : PD α}
    (hl : kname cfg l = some (gname cfg gl)) (hr : kname cfg r = some (gname cfg gr))
    {d : Str → Option α} {pre : Str} (hd : ∀ key, d (pre ++ key) = pyDict (flat cfg (.change c p gl gr)) key) {root : Bool} {pre0 : Str}
    (hpre : startPrefix root pre0 (changeName c ++ ['.']) = .ok pre)
    (ih : (∀ pre', pre' ≠ [] → (∀ key, d (pre' ++ key) = pyDict (flat cfg gl) key) → ∀ f, matchUp cfg d false pre' l = .ok f → ¬ HasParams cfg f) ∨
      ∀ pre', pre' ≠ [] → (∀ key, d (pre' ++ key) = pyDict (flat cfg gr) key) → ∀ f, matchUp cfg d false pre' r = .ok f → ¬ HasParams cfg f)
    {f : PKE α} (h : matchUp cfg d root pre0 (change c l r) = .ok f) : ¬ HasParams cfg f := by
  intro hf
  have hs := same_branches hl hr
  have flat2 : flat cfg (.change c p gl gr) = flatL cfg [] [gl, gr] ++ own (changePars cfg c) p := by simp [flat, flatL]
  have dl : ∀ key, d (pre ++ gname cfg gl ++ ['.'] ++ key) = pyDict (flat cfg gl) key := by
    intro key
    have e : pre ++ gname cfg gl ++ ['.'] ++ key = pre ++ (sib ((List.map (gname cfg) ([] : List (GK α))).reverse ++ []) (gname cfg gl) ++ '.' :: key) := by
      simp [sib]
    rw [e, hd, flat2, pyDict_append, pyDict_own_dot, Option.none_or]
    exact pyDict_child cfg [] gl [gr] [] key
  have dr : ∀ key, d (pre ++ gname cfg gr ++ (if sameBranches cfg l r then ['_', '1', '.'] else ['.']) ++ key) = pyDict (flat cfg gr) key := by
    intro key
    have e : pre ++ gname cfg gr ++ (if sameBranches cfg l r then ['_', '1', '.'] else ['.']) ++ key =
        pre ++ (sib ((List.map (gname cfg) [gl]).reverse ++ []) (gname cfg gr) ++ '.' :: key) := by
      rw [hs]
      by_cases h : gname cfg gl = gname cfg gr
      · simp only [h, decide_true, if_true, List.map_cons, List.map_nil, List.reverse_cons, List.reverse_nil, List.nil_append, List.append_nil, sib,
          List.count_singleton_self, List.append_assoc]
        have h1 : Nat.toDigits 10 1 = ['1'] := by decide
        rw [if_neg (by decide), h1]; simp
      · have : List.count (gname cfg gr) [gname cfg gl] = 0 := by rw [List.count_eq_zero]; simp [Ne.symm h]
        simp [h, sib, this]
    rw [e, hd, flat2, pyDict_append, pyDict_own_dot, Option.none_or]
    exact pyDict_child cfg [gl] gr [] [] key
  simp only [matchUp, hpre, hl, hr, bind, Except.bind] at h
  cases h1 : lookupPars d false pre (changePars cfg c) with
  | error e => rw [h1] at h; simp at h
  | ok q =>
    rw [h1] at h
    cases h2 : matchUp cfg d false (pre ++ gname cfg gl ++ ['.']) l with
    | error e => simp only [h2] at h; simp at h
    | ok fl =>
      cases h3 : matchUp cfg d false (pre ++ gname cfg gr ++ (if sameBranches cfg l r then ['_', '1', '.'] else ['.'])) r with
      | error e => simp only [h2, h3] at h; simp at h
      | ok fr =>
        simp only [h2, h3, pure, Except.pure, Except.ok.injEq] at h
        subst h
        rw [HasParams] at hf
        rcases ih with ih | ih
        · exact ih _ (by simp) dl fl h2 hf.2.1
        · exact ih _ (by split <;> simp) dr fr h3 hf.2.2

theorem bad_comm (cfg : Cfg) (op : Op) (b : Counter) (cs : List KE) (h : Shape (comm op b cs)) (ha : alternating (comm op b cs) = false) {s : GK Unit}
    (hs : toKernel cfg (comm op b cs) = .ok s) {g : GK α} (hg : erase g = s) {d : Str → Option α} {pre : Str}
    (hd : ∀ parts, g = .comb op parts → ∀ key, d (pre ++ key) = pyDict (flatL cfg [] parts) key) {root : Bool} {pre0 : Str}
    (hpre : startPrefix root pre0 (if b.total + cs.length = 1 then [] else opName op ++ ['.']) = .ok pre) {f : PKE α}
    (hf : matchUp cfg d root pre0 (comm op b cs) = .ok f)
    (ih : (∃ k ∈ cs, alternating k = false) → ∀ {ks : List (GK Unit)}, toKernelL cfg cs = .ok ks → ∀ {gc : List (GK α)}, gc.map erase = ks →
      ∀ xs : List (GK α), (∀ key, d (pre ++ key) = pyDict (flatL cfg [] (xs ++ gc)) key) → ∀ {seen : Seen},
      (∀ n, (∃ o, n = opName o) ∨ (∃ c, n = changeName c) → seen.count (.ct n) = (xs.map (gname cfg)).count n) →
      ∀ {cts : List (PKE α)}, matchUpL cfg d pre seen cs = .ok cts → ¬ HasParamsL cfg cts) : ¬ HasParams cfg f := by
  obtain ⟨h1, h2, h3, h4, h6⟩ := shape_comm h
  obtain ⟨ks, k1, k2, k3, k4, k5⟩ := builtL cfg cs h6
  have hlen : (orderBase b.elements).length = b.elements.length := (List.perm_insertionSort _ _).length_eq
  have hL2 : 2 ≤ (baseParts cfg op (orderBase b.elements) ++ ks).length := by
    rw [List.length_append, baseParts_length, hlen, k4]; omega
  rw [toKernel_comm h3 k1, reduceK_two hL2, Except.ok.injEq] at hs
  obtain ⟨parts, rfl, hparts⟩ := erase_comb (hg.trans hs.symm)
  have hd := hd parts rfl
  rcases alternating_comm ha with ⟨k, hk, hop⟩ | ⟨hop, hk⟩
  · refine bad_node h6 hk hop ?_ hd hpre hf
    intro x hx
    have hx' : erase x ∈ List.flatMap (partsOf op) (baseParts cfg op (orderBase b.elements) ++ ks) := by
      rw [← hparts]; exact List.mem_map.2 ⟨x, hx, rfl⟩
    obtain ⟨y, hy, hx'⟩ := List.mem_flatMap.1 hx'
    rw [← gname_erase]
    rcases List.mem_append.1 hy with hy | hy
    · exact baseParts_flat cfg op _ y hy op _ hx'
    · exact k5 y hy op _ hx'
  · have e : List.flatMap (partsOf op) (baseParts cfg op (orderBase b.elements) ++ ks) = baseParts cfg op (orderBase b.elements) ++ ks := by
      have : ∀ L : List (GK Unit), (∀ x ∈ L, partsOf op x = [x]) → L.flatMap (partsOf op) = L := by
        intro L
        induction L with
        | nil => intro _; rfl
        | cons x L ih => intro hL; rw [List.flatMap_cons, hL x (List.mem_cons_self ..), ih (fun y hy => hL y (List.mem_cons_of_mem _ hy))]; rfl
      refine this _ ?_
      intro x hx
      rcases List.mem_append.1 hx with hx | hx
      · exact baseParts_parts cfg op op _ x hx
      · exact k3 op hop x hx
    rw [e] at hparts
    obtain ⟨gb, gc, rfl, hgb, hgc⟩ := List.map_eq_append_iff.1 hparts
    obtain ⟨seen, ps, cts, m1, m2, m3⟩ := matchUp_comm_inv hpre hf
    obtain ⟨seen', ps', n1, n2, n3, _⟩ := node (cs := cs) h1 h2 h3 hgb (by
      intro g hg
      have := k2 (erase g) (by rw [← hgc]; exact List.mem_map.2 ⟨g, hg, rfl⟩)
      rwa [isBaseK_erase] at this) hd
    rw [n1] at m1
    simp only [Except.ok.injEq, Prod.mk.injEq] at m1
    obtain ⟨rfl, rfl⟩ := m1
    intro hf
    exact ih hk k1 hgc gb hd (fun n hn => by rw [n2, n3 n hn]) m2 (finish_has m3 hf)

mutual
theorem bad (cfg : Cfg) (k : KE) (h : Shape k) (ha : alternating k = false) {s : GK Unit} (hs : toKernel cfg k = .ok s) {g : GK α} (hg : erase g = s)
    {d : Str → Option α} {pre : Str} (hpre : pre ≠ []) (hd : ∀ key, d (pre ++ key) = pyDict (flat cfg g) key) {f : PKE α}
    (hf : matchUp cfg d false pre k = .ok f) : ¬ HasParams cfg f := by
  cases k with
  | base b => simp [alternating, allNodes, altNode] at ha
  | comm op b cs =>
    refine bad_comm cfg op b cs h ha hs hg ?_ (pre := pre) (by rw [startPrefix]; simp [hpre]) hf (fun hk _ e1 _ e2 xs hd _ hseen _ => badL cfg cs (shape_comm h).2.2.2.2 hk e1 e2 xs hd hseen)
    intro parts hp
    subst hp
    rw [flat] at hd
    exact hd
  | change c l r =>
    obtain ⟨h1, h2⟩ := shape_change h
    obtain ⟨sl, bl, _⟩ := built cfg l h1
    obtain ⟨sr, br, _⟩ := built cfg r h2
    simp only [toKernel, bl.ok, br.ok, bind, Except.bind, pure, Except.pure, Except.ok.injEq] at hs
    obtain ⟨p, x, y, rfl, hp, hx, hy⟩ := erase_change (hg.trans hs.symm)
    refine bad_change (by rw [bl.name, ← hx, gname_erase]) (by rw [br.name, ← hy, gname_erase]) hd (by rw [startPrefix]; simp [hpre]) ?_ hf
    have : alternating l = false ∨ alternating r = false := by
      simp only [alternating, allNodes, altNode, Bool.true_and, Bool.and_eq_false_iff] at ha
      exact ha
    rcases this with h3 | h3
    · exact Or.inl fun pre' hp' hd' f hf => bad cfg l h1 h3 bl.ok hx hp' hd' hf
    · exact Or.inr fun pre' hp' hd' f hf => bad cfg r h2 h3 br.ok hy hp' hd' hf
theorem badL (cfg : Cfg) (cs : List KE) (h : ∀ k ∈ cs, k.isBase = false ∧ Shape k) (ha : ∃ k ∈ cs, alternating k = false) {ks : List (GK Unit)}
    (hs : toKernelL cfg cs = .ok ks) {gc : List (GK α)} (hg : gc.map erase = ks) {d : Str → Option α} {pre : Str} (xs : List (GK α))
    (hd : ∀ key, d (pre ++ key) = pyDict (flatL cfg [] (xs ++ gc)) key) {seen : Seen}
    (hseen : ∀ n, (∃ o, n = opName o) ∨ (∃ c, n = changeName c) → seen.count (.ct n) = (xs.map (gname cfg)).count n) {cts : List (PKE α)}
    (hf : matchUpL cfg d pre seen cs = .ok cts) : ¬ HasParamsL cfg cts := by
  cases cs with
  | nil => simp at ha
  | cons k cs =>
    intro hp
    have hk := h k (List.mem_cons_self ..)
    obtain ⟨s, bs, _⟩ := built cfg k hk.2
    obtain ⟨ks', k1, _⟩ := builtL cfg cs (fun x hx => h x (List.mem_cons_of_mem _ hx))
    simp only [toKernelL, bs.ok, k1, bind, Except.bind, pure, Except.pure, Except.ok.injEq] at hs
    subst hs
    cases gc with
    | nil => simp at hg
    | cons g gc =>
      simp only [List.map_cons, List.cons.injEq] at hg
      have hname : kname cfg k = some (gname cfg g) := by rw [bs.name, ← hg.1, gname_erase]
      have hcomp : (∃ o, gname cfg g = opName o) ∨ (∃ c, gname cfg g = changeName c) := by
        have hb : isBaseK g = false := by rw [← isBaseK_erase, hg.1, bs.base]; exact hk.1
        cases g with
        | base => simp [isBaseK] at hb
        | comb o _ => exact Or.inl ⟨o, rfl⟩
        | change c _ _ _ => exact Or.inr ⟨c, rfl⟩
      have hcnt : (Key.ct (gname cfg g) :: seen).count (.ct (gname cfg g)) = (xs.map (gname cfg)).reverse.count (gname cfg g) + 1 := by
        rw [List.count_cons_self, hseen _ hcomp, List.count_reverse]
      simp only [matchUpL, hname, bind, Except.bind] at hf
      cases m1 : matchUp cfg d false (pre ++ gname cfg g ++ postfixOf ((Key.ct (gname cfg g) :: seen).count (.ct (gname cfg g)))) k with
      | error e => rw [m1] at hf; simp at hf
      | ok a =>
        rw [m1] at hf
        cases m2 : matchUpL cfg d pre (Key.ct (gname cfg g) :: seen) cs with
        | error e => simp only [m2] at hf; simp at hf
        | ok as =>
          simp only [m2, pure, Except.pure, Except.ok.injEq] at hf
          subst hf
          rw [HasParamsL] at hp
          by_cases hka : alternating k = false
          · refine bad cfg k hk.2 hka bs.ok hg.1 (by rw [postfixOf]; split <;> simp) ?_ m1 hp.1
            intro key
            rw [hcnt, List.append_assoc, List.append_assoc, ← List.append_assoc (gname cfg g), postfix_sib, hd]
            have := pyDict_child cfg xs g gc [] key
            rwa [List.append_nil] at this
          · refine badL cfg cs (fun x hx => h x (List.mem_cons_of_mem _ hx)) ?_ k1 hg.2 (xs ++ [g]) (by simpa using hd) ?_ m2 hp.2
            · obtain ⟨x, hx, hxa⟩ := ha
              rcases List.mem_cons.1 hx with rfl | hx
              · exact absurd hxa hka
              · exact ⟨x, hx, hxa⟩
            · intro n hn
              rw [List.count_cons, hseen n hn, List.map_append, List.count_append, List.map_cons, List.map_nil, List.count_singleton]
              congr 1
              by_cases e : gname cfg g = n <;> simp [e]
end

/-! ## Alternating expressions -/

mutual
/-- Base kernels that are no factors have variances. -/
def VarK : GK α → Prop
  | .base _ p => p.variance ≠ none
  | .comb op parts => VarL op parts
  | .change _ _ l r => VarK l ∧ VarK r
/-- The parts of a sum or product. -/
def VarL (op : Op) : List (GK α) → Prop
  | [] => True
  | k :: ks => ((op = .prod ∧ isBaseK k = true) ∨ VarK k) ∧ VarL op ks
end

theorem varL_iff {op : Op} {l : List (GK α)} : VarL op l ↔ ∀ g ∈ l, (op = .prod ∧ isBaseK g = true) ∨ VarK g := by
  induction l with
  | nil => simp [VarL]
  | cons g l ih => simp [VarL, ih]

mutual
theorem var_erase (g : GK α) (h : VarK (erase g)) : VarK g := by
  cases g with
  | base b p =>
    rw [erase, VarK] at h
    rw [VarK]
    intro h0
    exact h (by simp [mapPD, h0])
  | comb op ps => rw [erase, VarK] at h; rw [VarK]; exact var_eraseL op ps h
  | change c p l r => rw [erase, VarK] at h; rw [VarK]; exact ⟨var_erase l h.1, var_erase r h.2⟩
theorem var_eraseL (op : Op) (gs : List (GK α)) (h : VarL op (eraseL gs)) : VarL op gs := by
  cases gs with
  | nil => rw [VarL]; trivial
  | cons g gs =>
    rw [eraseL, VarL, isBaseK_erase] at h
    rw [VarL]
    exact ⟨h.1.imp id (var_erase g), var_eraseL op gs h.2⟩
end

/-- Parts. -/
theorem var_parts {op : Op} {g : GK α} (h : VarK g) : ∀ x ∈ partsOf op g, (op = .prod ∧ isBaseK x = true) ∨ VarK x := by
  intro x hx
  cases g with
  | base => simp only [partsOf, List.mem_singleton] at hx; subst hx; exact Or.inr h
  | change => simp only [partsOf, List.mem_singleton] at hx; subst hx; exact Or.inr h
  | comb o ps =>
    rw [partsOf] at hx
    by_cases ho : o = op
    · subst ho
      rw [if_pos rfl] at hx; rw [VarK] at h; exact varL_iff.1 h x hx
    · rw [if_neg ho] at hx; simp only [List.mem_singleton] at hx; subst hx; exact Or.inr h

theorem var_reduce {op : Op} {L : List (GK α)} (h : ∀ g ∈ L, (op = .prod ∧ isBaseK g = true) ∨ VarK g) (h1 : ∀ x, L = [x] → VarK x) {s : GK α}
    (hs : reduceK op L = .ok s) : VarK s := by
  cases L with
  | nil => simp [reduceK] at hs
  | cons x L =>
    cases L with
    | nil => simp only [reduceK, List.foldl_nil, Except.ok.injEq] at hs; subst hs; exact h1 x rfl
    | cons y L =>
      rw [reduceK_two (by simp), Except.ok.injEq] at hs
      subst hs
      rw [VarK, varL_iff]
      intro z hz
      obtain ⟨w, hw, hz⟩ := List.mem_flatMap.1 hz
      rcases h w hw with ⟨e, hb⟩ | hv
      · cases w with
        | base => simp only [partsOf, List.mem_singleton] at hz; subst hz; exact Or.inl ⟨e, rfl⟩
        | comb => simp [isBaseK] at hb
        | change => simp [isBaseK] at hb
      · exact var_parts hv z hz

theorem var_base {cfg : Cfg} {b : Base} {s : GK Unit} (h : baseKer cfg b = .ok s) : VarK s ∧ isBaseK s = true := by
  have hb : b.isSigmoid = false := by cases b <;> simp [baseKer, baseName, Base.isSigmoid] at h ⊢
  have : s = .base b (linked (basePars cfg b)) := by
    rw [baseKer] at h
    split at h
    · simp at h
    · exact (Except.ok.inj h).symm
  subst this
  refine ⟨?_, rfl⟩
  rw [VarK]
  have h1 := get_linked (basePars cfg b) .variance
  rw [if_pos (basePars_variance cfg hb)] at h1
  simp only [Par.get] at h1
  rw [h1]; simp

theorem var_bases {cfg : Cfg} {bs : List Base} {ks : List (GK Unit)} (h : baseKers cfg bs = .ok ks) : ∀ g ∈ ks, VarK g ∧ isBaseK g = true := by
  induction bs generalizing ks with
  | nil => simp only [baseKers, Except.ok.injEq] at h; subst h; simp
  | cons b bs ih =>
    cases h1 : baseKer cfg b with
    | error e => simp [baseKers, h1, bind, Except.bind] at h
    | ok a =>
      cases h2 : baseKers cfg bs with
      | error e => simp [baseKers, h1, h2, bind, Except.bind] at h
      | ok r =>
        simp only [baseKers, h1, h2, bind, Except.bind, pure, Except.pure, Except.ok.injEq] at h
        subst h
        intro g hg
        rcases List.mem_cons.1 hg with rfl | hg
        · exact var_base h1
        · exact ih h2 g hg

mutual
theorem var_toKernel (cfg : Cfg) (k : KE) (s : GK Unit) (h : toKernel cfg k = .ok s) : VarK s := by
  cases k with
  | base b => rw [toKernel] at h; exact (var_base h).1
  | comm op b cs =>
    cases h1 : baseKers cfg (orderBase b.elements) with
    | error e => cases op <;> simp [toKernel, h1, bind, Except.bind] at h
    | ok bs =>
      cases h2 : toKernelL cfg cs with
      | error e => cases op <;> simp [toKernel, h1, h2, bind, Except.bind] at h
      | ok ks =>
        have hk := var_toKernelL cfg cs ks h2
        have hb := var_bases h1
        cases op with
        | sum =>
          simp only [toKernel, h1, h2, bind, Except.bind] at h
          have : ∀ g ∈ bs ++ ks, VarK g := by
            intro g hg
            rcases List.mem_append.1 hg with hg | hg
            · exact (hb g hg).1
            · exact hk g hg
          refine var_reduce (fun g hg => Or.inr (this g hg)) (fun x hx => this x (by rw [hx]; simp)) h
        | prod =>
          simp only [toKernel, h1, h2, bind, Except.bind] at h
          have hu : ∀ g ∈ unlinkTail bs, isBaseK g = true := by
            cases bs with
            | nil => simp [unlinkTail]
            | cons b bs =>
              intro g hg
              simp only [unlinkTail, List.mem_cons, List.mem_map] at hg
              rcases hg with rfl | ⟨x, hx, rfl⟩
              · exact (hb _ (List.mem_cons_self ..)).2
              · have := (hb x (List.mem_cons_of_mem _ hx)).2
                cases x with
                | base => rfl
                | comb => simp [isBaseK] at this
                | change => simp [isBaseK] at this
          refine var_reduce ?_ ?_ h
          · intro g hg
            rcases List.mem_append.1 hg with hg | hg
            · exact Or.inl ⟨rfl, hu g hg⟩
            · exact Or.inr (hk g hg)
          · intro x hx
            cases bs with
            | nil => exact hk x (by simp only [unlinkTail, List.nil_append] at hx; rw [hx]; simp)
            | cons y bs =>
              simp only [unlinkTail, List.cons_append, List.cons.injEq] at hx
              rw [← hx.1]
              exact (hb y (List.mem_cons_self ..)).1
  | change c l r =>
    cases h1 : toKernel cfg l with
    | error e => simp [toKernel, h1, bind, Except.bind] at h
    | ok a =>
      cases h2 : toKernel cfg r with
      | error e => simp [toKernel, h1, h2, bind, Except.bind] at h
      | ok b =>
        simp only [toKernel, h1, h2, bind, Except.bind, pure, Except.pure, Except.ok.injEq] at h
        subst h
        rw [VarK]
        exact ⟨var_toKernel cfg l a h1, var_toKernel cfg r b h2⟩
theorem var_toKernelL (cfg : Cfg) (cs : List KE) (ks : List (GK Unit)) (h : toKernelL cfg cs = .ok ks) : ∀ g ∈ ks, VarK g := by
  cases cs with
  | nil => simp only [toKernelL, Except.ok.injEq] at h; subst h; simp
  | cons k cs =>
    cases h1 : toKernel cfg k with
    | error e => simp [toKernelL, h1, bind, Except.bind] at h
    | ok a =>
      cases h2 : toKernelL cfg cs with
      | error e => simp [toKernelL, h1, h2, bind, Except.bind] at h
      | ok r =>
        simp only [toKernelL, h1, h2, bind, Except.bind, pure, Except.pure, Except.ok.injEq] at h
        subst h
        intro g hg
        rcases List.mem_cons.1 hg with rfl | hg
        · exact var_toKernel cfg k _ h1
        · exact var_toKernelL cfg cs r h2 g hg
end

theorem allOf_factor {cfg : Cfg} {b : Base} {p : PD α} (h : Keys cfg b p) : AllOf ((basePars cfg b).filter (fun q => decide (q ≠ .variance))) p := by
  intro q hq
  rw [List.mem_filter] at hq
  obtain ⟨h1, h2⟩ := hq
  simp only [ne_eq, decide_not, Bool.not_eq_true', decide_eq_false_iff_not] at h2
  cases b <;> simp only [basePars, Keys] at h1 h <;>
    (try split at h1) <;> simp only [List.mem_cons, List.not_mem_nil, or_false] at h1 <;>
    (try rcases h1 with rfl | rfl | rfl) <;> simp_all [Par.get, Option.isSome_iff_ne_none]

theorem allOf_term {cfg : Cfg} {b : Base} {p : PD α} (h : Keys cfg b p) (hv : p.variance ≠ none) : AllOf (basePars cfg b) p := by
  intro q hq
  by_cases h1 : q = .variance
  · subst h1; exact hv
  · exact allOf_factor h q (List.mem_filter.2 ⟨hq, by simp [h1]⟩)

theorem allOf_change {cfg : Cfg} {c : CC} {p : PD α} (h : Keys cfg (firstWeight c) p) : AllOf (changePars cfg c) p := by
  intro q hq
  cases c <;> simp only [firstWeight, Keys, changePars] at h hq <;> split at hq <;> simp only [List.mem_cons, List.not_mem_nil, or_false] at hq <;>
    (try rcases hq with rfl | rfl | rfl) <;> simp_all [Par.get, Option.isSome_iff_ne_none]

theorem get_aligned (ps : PDict α) (b : Base) : ((ps.get b).length : Int) = Counter.get (ps.map (fun e => (e.1, (e.2.length : Int)))) b := by
  induction ps with
  | nil => rfl
  | cons e ps ih =>
    obtain ⟨k, l⟩ := e
    rw [List.map_cons, PDict.get, Counter.get]
    split
    · rfl
    · exact ih

theorem composites_notBase {x : GK α} {l : List (GK α)} (h : x ∈ composites l) : isBaseK x = false := by
  induction l with
  | nil => simp [composites] at h
  | cons y l ih =>
    cases y with
    | base => exact ih (by simpa [composites] using h)
    | comb =>
      simp only [composites, List.mem_cons] at h
      rcases h with rfl | h
      · rfl
      · exact ih h
    | change =>
      simp only [composites, List.mem_cons] at h
      rcases h with rfl | h
      · rfl
      · exact ih h

mutual
theorem has_of {P : α → Prop} {cfg : Cfg} (f : PKE α) (g : GK α) (hc : Carries f g) (hf : Fitted P f) (hk : EveryTerm (Keys cfg) f) (hv : VarK g) :
    HasParams cfg f := by
  cases f with
  | leaf b p =>
    rw [Carries] at hc; subst hc
    rw [VarK] at hv; rw [EveryTerm] at hk
    rw [HasParams]; exact allOf_term hk hv
  | change c p l r =>
    rw [Carries] at hc
    obtain ⟨a, b, rfl, h1, h2⟩ := hc
    rw [VarK] at hv; rw [EveryTerm] at hk; rw [Fitted] at hf
    rw [HasParams]
    exact ⟨allOf_change hk.1, has_of l a h1 hf.2.1 hk.2.2.1 hv.1, has_of r b h2 hf.2.2 hk.2.2.2 hv.2⟩
  | comm op bts ps pv cts =>
    rw [EveryTerm] at hk
    have hkeys : ∀ b, ∀ p ∈ ps.get b, Keys cfg b p := by
      intro b p hp
      exact hk.1 _ (PDict.mem_of_get (b := b) (by intro h0; rw [h0] at hp; simp at hp)) p hp
    cases op with
    | sum =>
      rw [Carries] at hc
      obtain ⟨_, h2, _, h4⟩ := hc
      rw [Fitted] at hf
      rw [HasParams]
      refine ⟨fun b => by rw [hf.1.aligned, get_aligned], ?_, has_ofL cts _ h4 hf.2.2 hk.2 ?_⟩
      · intro b p hp
        refine allOf_term (hkeys b p hp) ?_
        rw [h2] at hp
        rcases var_parts hv _ (mem_dictsOf hp) with ⟨h0, _⟩ | h0
        · simp at h0
        · rwa [VarK] at h0
      · intro x hx
        rcases var_parts hv x (composites_subset hx) with ⟨h0, _⟩ | h0
        · simp at h0
        · exact h0
    | prod =>
      rw [Carries] at hc
      obtain ⟨_, _, _, h4⟩ := hc
      rw [Fitted] at hf
      rw [HasParams]
      refine ⟨fun b => by rw [hf.1.aligned, get_aligned], fun b p hp => allOf_factor (hkeys b p hp), ?_, has_ofL cts _ h4 hf.2.2.2.2 hk.2 ?_⟩
      · intro hne hpv
        have := hf.2.1.2 hpv
        subst this
        rw [hf.1.aligned] at hne
        exact hne rfl
      · intro x hx
        rcases var_parts hv x (composites_subset hx) with ⟨_, h0⟩ | h0
        · rw [composites_notBase hx] at h0; simp at h0
        · exact h0
theorem has_ofL {P : α → Prop} {cfg : Cfg} (fs : List (PKE α)) (gs : List (GK α)) (hc : CarriesL fs gs) (hf : FittedL P fs)
    (hk : EveryTermL (Keys cfg) fs) (hv : ∀ g ∈ gs, VarK g) : HasParamsL cfg fs := by
  cases fs with
  | nil => rw [HasParamsL]; trivial
  | cons f fs =>
    rw [CarriesL] at hc
    obtain ⟨g, r, rfl, h1, h2⟩ := hc
    rw [FittedL] at hf
    rw [EveryTermL] at hk
    rw [HasParamsL]
    exact ⟨has_of f g h1 hf.1.2 hk.1 (hv g (List.mem_cons_self ..)), has_ofL fs r h2 hf.2 hk.2 (fun x hx => hv x (List.mem_cons_of_mem _ hx))⟩
end

/-- At the root. -/
theorem bad_root (cfg : Cfg) (k : KE) (h : Shape k) (ha : alternating k = false) {s : GK Unit} (hs : toKernel cfg k = .ok s) {g : GK α} (hg : erase g = s)
    {f : PKE α} (hf : fitParams cfg g k = .ok f) : ¬ HasParams cfg f := by
  cases k with
  | base b => simp [alternating, allNodes, altNode] at ha
  | comm op b cs =>
    obtain ⟨h1, h2, h3, h4, h6⟩ := shape_comm h
    have ht : ¬ b.total + cs.length = 1 := by
      rw [← Counter.length_elements h2]; omega
    refine bad_comm cfg op b cs h ha hs hg ?_ (root := true) (pre := regression ++ (opName op ++ ['.'])) (by rw [startPrefix, if_neg ht]; simp) hf
      (fun hk _ e1 _ e2 xs hd _ hseen _ => badL cfg cs h6 hk e1 e2 xs hd hseen)
    intro parts hp key
    subst hp
    have := dict_root_name cfg (.comb op parts) key
    rw [gname, flat] at this
    exact this
  | change c l r =>
    obtain ⟨h1, h2⟩ := shape_change h
    obtain ⟨sl, bl, _⟩ := built cfg l h1
    obtain ⟨sr, br, _⟩ := built cfg r h2
    simp only [toKernel, bl.ok, br.ok, bind, Except.bind, pure, Except.pure, Except.ok.injEq] at hs
    obtain ⟨p, x, y, rfl, hp, hx, hy⟩ := erase_change (hg.trans hs.symm)
    refine bad_change (by rw [bl.name, ← hx, gname_erase]) (by rw [br.name, ← hy, gname_erase]) (root := true)
      (pre := regression ++ (changeName c ++ ['.'])) (fun key => dict_root_name cfg (.change c p x y) key) (by rw [startPrefix]; simp) ?_ hf
    have : alternating l = false ∨ alternating r = false := by
      simp only [alternating, allNodes, altNode, Bool.true_and, Bool.and_eq_false_iff] at ha
      exact ha
    rcases this with h3 | h3
    · exact Or.inl fun pre' hp' hd' f hf => bad cfg l h1 h3 bl.ok hx hp' hd' hf
    · exact Or.inr fun pre' hp' hd' f hf => bad cfg r h2 h3 br.ok hy hp' hd' hf

mutual
theorem se_any (g : GK α) : SEOK (fun _ => True) g := by
  cases g with
  | base => simp [SEOK, lsOK]
  | comb o ps => rw [SEOK]; exact se_anyL ps
  | change c p l r => rw [SEOK]; exact ⟨se_any l, se_any r⟩
theorem se_anyL (gs : List (GK α)) : SEOKL (fun _ => True) gs := by
  cases gs with
  | nil => rw [SEOKL]; trivial
  | cons g gs => rw [SEOKL]; exact ⟨se_any g, se_anyL gs⟩
end

end Params
end GPyABCD
