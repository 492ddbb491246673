import Verif.Lemmas.PrintLex
import Verif.Lemmas.Simplify

/-!
# Lemmas: reading printed forms
-/

namespace GPyABCD
namespace Print
open Params KE

variable {X : Type}

/-- Value of an optional accumulator. -/
def EvO (A : Alg X) : Option PyE → Option X → Prop
  | none, none => True
  | some e, some x => evalA A e = some x
  | _, _ => False

/-- An accumulator and one more. -/
def accum (f : X → X → X) : Option X → X → X
  | none, x => x
  | some s, x => f s x

theorem eval_addO {A : Alg X} {s : Option PyE} {S : Option X} (h : EvO A s S) {e : PyE} {x : X} (he : evalA A e = some x) :
    evalA A (addO s e) = some (accum A.add S x) := by
  cases s <;> cases S <;> simp [EvO] at h
  · simpa [addO, accum] using he
  · simp [addO, accum, evalA, h, he]

theorem eval_mulO {A : Alg X} {s : Option PyE} {S : Option X} (h : EvO A s S) {e : PyE} {x : X} (he : evalA A e = some x) :
    evalA A (mulO s e) = some (accum A.mul S x) := by
  cases s <;> cases S <;> simp [EvO] at h
  · simpa [mulO, accum] using he
  · simp [mulO, accum, evalA, h, he]

/-- Reading `ts` as a sum: what it adds to a frame. -/
def ReadsSum (ts : List Tok) (m : ∀ {X : Type}, Alg X → Option X) : Prop :=
  ∀ (f : Frame) (st : List Frame) (rest : List Tok), f.prod = none → f.cur = none →
    ∃ f' v, run (f :: st) (ts ++ rest) = run (f' :: st) rest ∧ f'.kind = f.kind ∧ f'.done = f.done ∧ f'.value = some v ∧
      ∀ (X : Type) (A : Alg X), A.Assoc → ∀ S, EvO A f.sum S → ∃ x, m A = some x ∧ evalA A v = some (accum A.add S x)

/-- Reading `ts` as a product. -/
def ReadsProd (ts : List Tok) (m : ∀ {X : Type}, Alg X → Option X) : Prop :=
  ∀ (f : Frame) (st : List Frame) (rest : List Tok), f.cur = none →
    ∃ f' e, run (f :: st) (ts ++ rest) = run (f' :: st) rest ∧ f'.kind = f.kind ∧ f'.done = f.done ∧ f'.sum = f.sum ∧ f'.cur = some e ∧
      ∀ (X : Type) (A : Alg X), A.Assoc → ∀ S, EvO A f.prod S → ∃ x, m A = some x ∧ evalA A (mulO f'.prod e) = some (accum A.mul S x)

theorem sum_of_prod {ts : List Tok} {m : ∀ {X : Type}, Alg X → Option X} (h : ReadsProd ts m) : ReadsSum ts m := by
  intro f st rest hp hc
  obtain ⟨f', e, h1, h2, h3, h4, h5, h6⟩ := h f st rest hc
  refine ⟨f', addO f'.sum (mulO f'.prod e), h1, h2, h3, by simp [Frame.value, h5], ?_⟩
  intro X A hA S hS
  obtain ⟨x, hx, he⟩ := h6 X A hA none (by rw [hp]; trivial)
  exact ⟨x, hx, eval_addO (by rw [h4]; exact hS) he⟩

/-- An expression that stands for one factor. -/
theorem prod_of_atom {ts : List Tok} {m : ∀ {X : Type}, Alg X → Option X}
    (h : ∀ (f : Frame) (st : List Frame) (rest : List Tok), f.cur = none → ∃ e, run (f :: st) (ts ++ rest) = run ({ f with cur := some e } :: st) rest ∧
      ∀ (X : Type) (A : Alg X), A.Assoc → ∃ x, m A = some x ∧ evalA A e = some x) : ReadsProd ts m := by
  intro f st rest hc
  obtain ⟨e, h1, h2⟩ := h f st rest hc
  refine ⟨{ f with cur := some e }, e, h1, rfl, rfl, rfl, rfl, ?_⟩
  intro X A hA S hS
  obtain ⟨x, hx, he⟩ := h2 X A hA
  exact ⟨x, hx, eval_mulO hS he⟩

theorem reads_paren {ts : List Tok} {m : ∀ {X : Type}, Alg X → Option X} (h : ReadsSum ts m) : ReadsProd (.lp :: (ts ++ [.rp])) m := by
  refine prod_of_atom ?_
  intro f st rest hc
  obtain ⟨f', v, h1, h2, -, h4, h5⟩ := h { kind := .paren } (f :: st) (.rp :: rest) rfl rfl
  refine ⟨v, ?_, ?_⟩
  · have e : Tok.lp :: (ts ++ [.rp]) ++ rest = .lp :: (ts ++ .rp :: rest) := by simp
    rw [e, run]
    simp only [step, hc]
    rw [h1, run]
    simp only [step, h2, h4, Option.map_some]
  · intro X A hA
    obtain ⟨x, hx, he⟩ := h5 X A hA none trivial
    exact ⟨x, hx, he⟩

theorem callBase_bname (b : Base) : callBase (bname b) = some b := by cases b <;> rfl
theorem callChange_cname (c : CC) : callChange (cname c) = some c := by cases c <;> rfl

theorem reads_tkBase (b : Base) : ReadsProd (tkBase b) (fun A => some (A.base b)) := by
  refine prod_of_atom ?_
  intro f st rest hc
  refine ⟨.call (bname b) [], ?_, fun X A hA => ⟨_, rfl, ?_⟩⟩
  · simp [tkBase, run, step, hc, Frame.args, Frame.value]
  · simp [evalA, evalArgs, Alg.call, callBase_bname]

theorem reads_change {tl tr : List Tok} {ml mr : ∀ {X : Type}, Alg X → Option X} (hl : ReadsSum tl ml) (hr : ReadsSum tr mr) (c : CC) :
    ReadsProd (.name (cname c) :: .lp :: (tl ++ .comma :: (tr ++ [.rp])))
      (fun A => (ml A).bind (fun x => (mr A).map (fun y => A.chg c x y))) := by
  refine prod_of_atom ?_
  intro f st rest hc
  obtain ⟨f1, v1, a1, a2, a3, a4, a5⟩ := hl { kind := .call (cname c) } ({ f with cur := none } :: st) (.comma :: (tr ++ .rp :: rest)) rfl rfl
  obtain ⟨f2, v2, b1, b2, b3, b4, b5⟩ := hr { f1 with done := f1.done ++ [v1], sum := none, prod := none, cur := none } ({ f with cur := none } :: st)
    (.rp :: rest) rfl rfl
  refine ⟨.call (cname c) [v1, v2], ?_, ?_⟩
  · have e : Tok.name (cname c) :: .lp :: (tl ++ .comma :: (tr ++ [.rp])) ++ rest = .name (cname c) :: .lp :: (tl ++ .comma :: (tr ++ .rp :: rest)) := by
      simp
    have hk : f1.kind = .call (cname c) := a2
    have hk2 : f2.kind = .call (cname c) := b2.trans a2
    have hd : f2.done = [v1] := by rw [b3]; simp [a3]
    rw [e, run]
    simp only [step, hc, Option.isNone_none, if_true]
    rw [run]
    simp only [step]
    rw [a1, run]
    simp only [step, hk, a4]
    rw [hk] at b1
    rw [b1, run]
    simp only [step, hk2, Frame.args, b4, hd, Option.map_some]
    rfl
  · intro X A hA
    obtain ⟨x, hx, he⟩ := a5 X A hA none trivial
    obtain ⟨y, hy, he'⟩ := b5 X A hA none trivial
    refine ⟨A.chg c x y, by simp [hx, hy], ?_⟩
    simp [evalA, evalArgs, he, he', accum, Alg.call, callChange_cname]

theorem foldl_assoc {f : X → X → X} (hf : ∀ a b c, f (f a b) c = f a (f b c)) (s x : X) (xs : List X) :
    f s (xs.foldl f x) = xs.foldl f (f s x) := by
  induction xs generalizing x with
  | nil => rfl
  | cons y xs ih => rw [List.foldl_cons, List.foldl_cons, ih, hf]

theorem fold1_accum {f : X → X → X} (hf : ∀ a b c, f (f a b) c = f a (f b c)) (S : Option X) (x : X) (xs : List X) :
    accum f S (xs.foldl f x) = xs.foldl f (accum f S x) := by
  cases S with
  | none => rfl
  | some s => exact foldl_assoc hf s x xs

/-- Values of items, in order. -/
def evals (ms : List (∀ {X : Type}, Alg X → Option X)) (A : Alg X) : Option (List X) :=
  match ms with
  | [] => some []
  | m :: ms => (m A).bind (fun x => (evals ms A).map (fun xs => x :: xs))

/-- A list of pairs: tokens and meaning. -/
inductive AllRead (P : List Tok → (∀ {X : Type}, Alg X → Option X) → Prop) : List (List Tok) → List (∀ {X : Type}, Alg X → Option X) → Prop
  | nil : AllRead P [] []
  | cons {t m ts ms} : P t m → AllRead P ts ms → AllRead P (t :: ts) (m :: ms)

theorem AllRead.append {P : List Tok → (∀ {X : Type}, Alg X → Option X) → Prop} {a b c d} (h : AllRead P a b) (h' : AllRead P c d) :
    AllRead P (a ++ c) (b ++ d) := by
  induction h with
  | nil => exact h'
  | cons h _ ih => exact .cons h ih

theorem reads_plus {t : List Tok} {ts : List (List Tok)} {m : ∀ {X : Type}, Alg X → Option X} {ms : List (∀ {X : Type}, Alg X → Option X)}
    (h : ReadsSum t m) (hs : AllRead ReadsSum ts ms) :
    ReadsSum (joinT .plus (t :: ts)) (fun A => (evals (m :: ms) A).bind (fold1 A.add)) := by
  induction hs generalizing t m with
  | nil =>
    intro f st rest hp hc
    obtain ⟨f', v, h1, h2, h3, h4, h5⟩ := h f st rest hp hc
    refine ⟨f', v, by rw [joinT]; exact h1, h2, h3, h4, fun X A hA S hS => ?_⟩
    obtain ⟨x, hx, he⟩ := h5 X A hA S hS
    exact ⟨x, by simp [evals, hx, fold1], he⟩
  | cons h' hr ih =>
    rename_i t' m' ts ms
    intro f st rest hp hc
    obtain ⟨f1, v1, a1, a2, a3, a4, a5⟩ := h f st (.plus :: (joinT .plus (t' :: ts) ++ rest)) hp hc
    obtain ⟨f2, v2, b1, b2, b3, b4, b5⟩ := ih h' { f1 with sum := some v1, prod := none, cur := none } st rest rfl rfl
    refine ⟨f2, v2, ?_, b2.trans a2, b3.trans a3, b4, fun X A hA S hS => ?_⟩
    · rw [joinT, List.append_assoc, List.cons_append, a1, run]
      simp only [step, a4, Option.map_some]
      exact b1
    · obtain ⟨x, hx, he⟩ := a5 X A hA S hS
      obtain ⟨y, hy, he'⟩ := b5 X A hA (some (accum A.add S x)) he
      have hy' : ((evals (m' :: ms) A).bind (fold1 A.add)) = some y := hy
      cases hz : evals (m' :: ms) A with
      | none => rw [hz] at hy'; simp at hy'
      | some l =>
        rw [hz] at hy'
        cases l with
        | nil => simp [fold1] at hy'
        | cons z zs =>
          simp only [Option.bind_some, fold1, Option.some.injEq] at hy'
          refine ⟨(z :: zs).foldl A.add x, ?_, ?_⟩
          · show ((m A).bind (fun x => (evals (m' :: ms) A).map (fun xs => x :: xs))).bind (fold1 A.add) = _
            have hx' : m A = some x := hx
            rw [hx', hz]; rfl
          · rw [he', accum, fold1_accum hA.add, ← hy', List.foldl_cons, foldl_assoc hA.add]

theorem reads_star {t : List Tok} {ts : List (List Tok)} {m : ∀ {X : Type}, Alg X → Option X} {ms : List (∀ {X : Type}, Alg X → Option X)}
    (h : ReadsProd t m) (hs : AllRead ReadsProd ts ms) :
    ReadsProd (joinT .star (t :: ts)) (fun A => (evals (m :: ms) A).bind (fold1 A.mul)) := by
  induction hs generalizing t m with
  | nil =>
    intro f st rest hc
    obtain ⟨f', v, h1, h2, h3, h4, h6, h5⟩ := h f st rest hc
    refine ⟨f', v, by rw [joinT]; exact h1, h2, h3, h4, h6, fun X A hA S hS => ?_⟩
    obtain ⟨x, hx, he⟩ := h5 X A hA S hS
    exact ⟨x, by simp [evals, hx, fold1], he⟩
  | cons h' hr ih =>
    rename_i t' m' ts ms
    intro f st rest hc
    obtain ⟨f1, v1, a1, a2, a3, a4, a6, a5⟩ := h f st (.star :: (joinT .star (t' :: ts) ++ rest)) hc
    obtain ⟨f2, v2, b1, b2, b3, b4, b6, b5⟩ := ih h' { f1 with prod := some (mulO f1.prod v1), cur := none } st rest rfl
    refine ⟨f2, v2, ?_, b2.trans a2, b3.trans a3, b4.trans a4, b6, fun X A hA S hS => ?_⟩
    · rw [joinT, List.append_assoc, List.cons_append, a1, run]
      simp only [step, a6, Option.map_some]
      exact b1
    · obtain ⟨x, hx, he⟩ := a5 X A hA S hS
      obtain ⟨y, hy, he'⟩ := b5 X A hA (some (accum A.mul S x)) he
      have hy' : ((evals (m' :: ms) A).bind (fold1 A.mul)) = some y := hy
      cases hz : evals (m' :: ms) A with
      | none => rw [hz] at hy'; simp at hy'
      | some l =>
        rw [hz] at hy'
        cases l with
        | nil => simp [fold1] at hy'
        | cons z zs =>
          simp only [Option.bind_some, fold1, Option.some.injEq] at hy'
          refine ⟨(z :: zs).foldl A.mul x, ?_, ?_⟩
          · show ((m A).bind (fun x => (evals (m' :: ms) A).map (fun xs => x :: xs))).bind (fold1 A.mul) = _
            have hx' : m A = some x := hx
            rw [hx', hz]; rfl
          · rw [he', accum, fold1_accum hA.mul, ← hy', List.foldl_cons, foldl_assoc hA.mul]

theorem ReadsSum.congr {ts : List Tok} {m m' : ∀ {X : Type}, Alg X → Option X} (h : ReadsSum ts m) (e : ∀ (X : Type) (A : Alg X), m A = m' A) :
    ReadsSum ts m' := by
  intro f st rest hp hc
  obtain ⟨f', v, h1, h2, h3, h4, h5⟩ := h f st rest hp hc
  refine ⟨f', v, h1, h2, h3, h4, fun X A hA S hS => ?_⟩
  obtain ⟨x, hx, he⟩ := h5 X A hA S hS
  exact ⟨x, (e X A).symm.trans hx, he⟩

theorem ReadsProd.congr {ts : List Tok} {m m' : ∀ {X : Type}, Alg X → Option X} (h : ReadsProd ts m) (e : ∀ (X : Type) (A : Alg X), m A = m' A) :
    ReadsProd ts m' := by
  intro f st rest hc
  obtain ⟨f', v, h1, h2, h3, h4, h6, h5⟩ := h f st rest hc
  refine ⟨f', v, h1, h2, h3, h4, h6, fun X A hA S hS => ?_⟩
  obtain ⟨x, hx, he⟩ := h5 X A hA S hS
  exact ⟨x, (e X A).symm.trans hx, he⟩

/-- Meaning of a base kernel. -/
def mB (b : Base) : ∀ {X : Type}, Alg X → Option X := fun A => some (A.base b)

/-- Meaning of an expression. -/
def mK (k : KE) : ∀ {X : Type}, Alg X → Option X := fun A => meaning A k

/-- Meanings of composite terms. -/
def mKs : List KE → List (∀ {X : Type}, Alg X → Option X)
  | k :: ks => mK k :: mKs ks
  | [] => []

/-- Meanings of the terms of a node. -/
def mItems (l : List Base) (ks : List KE) : List (∀ {X : Type}, Alg X → Option X) :=
  match l with
  | b :: l => mB b :: mItems l ks
  | [] => mKs ks

theorem evals_items (A : Alg X) (l : List Base) (ks : List KE) :
    evals (mItems l ks) A = (meanings A ks).map (fun xs => l.map A.base ++ xs) := by
  induction l with
  | nil =>
    show evals (mKs ks) A = _
    induction ks with
    | nil => rfl
    | cons k ks ih =>
      show (meaning A k).bind (fun x => (evals (mKs ks) A).map (fun xs => x :: xs)) = _
      rw [ih, meanings]
      cases meaning A k <;> cases meanings A ks <;> rfl
  | cons b l ih =>
    show (some (A.base b)).bind (fun x => (evals (mItems l ks) A).map (fun xs => x :: xs)) = _
    rw [ih]
    cases meanings A ks <;> rfl

theorem meaning_items (A : Alg X) (op : Op) (b : Counter) (cs : List KE) :
    (evals (mItems (orderBase b.elements) cs) A).bind (fold1 (A.op op)) = meaning A (.comm op b cs) := by
  rw [evals_items, meaning]
  cases meanings A cs <;> rfl

theorem allRead_items {P : List Tok → (∀ {X : Type}, Alg X → Option X) → Prop} (hb : ∀ b, P (tkBase b) (mB b)) (l : List Base) {ks : List KE}
    {ts : List (List Tok)} (h : AllRead P ts (mKs ks)) : AllRead P (l.map tkBase ++ ts) (mItems l ks) := by
  induction l with
  | nil => exact h
  | cons b l ih => exact .cons (hb b) ih

theorem length_orderBase (l : List Base) : (orderBase l).length = l.length := (List.perm_insertionSort _ l).length_eq

theorem reads_node {b : Counter} {cs : List KE} (hne : (orderBase b.elements).map tkBase ++ tks cs ≠ [])
    (h : AllRead ReadsSum (tks cs) (mKs cs)) : ReadsSum (tk (.comm .sum b cs)) (mK (.comm .sum b cs)) := by
  have ha := allRead_items (P := ReadsSum) (fun b => sum_of_prod (reads_tkBase b)) (orderBase b.elements) h
  rw [tk]
  cases hz : (orderBase b.elements).map tkBase ++ tks cs with
  | nil => exact absurd hz hne
  | cons t ts =>
    rw [hz] at ha
    generalize hm : mItems (orderBase b.elements) cs = ms at ha
    cases ha with
    | cons h1 h2 =>
      rename_i m ms
      refine (reads_plus h1 h2).congr (fun X A => ?_)
      have := meaning_items A .sum b cs
      rw [hm] at this
      exact this

theorem reads_pnode {b : Counter} {cs : List KE} (hne : (orderBase b.elements).map tkBase ++ tkBs cs ≠ [])
    (h : AllRead ReadsProd (tkBs cs) (mKs cs)) : ReadsProd (tk (.comm .prod b cs)) (mK (.comm .prod b cs)) := by
  have ha := allRead_items (P := ReadsProd) (fun b => reads_tkBase b) (orderBase b.elements) h
  rw [tk]
  cases hz : (orderBase b.elements).map tkBase ++ tkBs cs with
  | nil => exact absurd hz hne
  | cons t ts =>
    rw [hz] at ha
    generalize hm : mItems (orderBase b.elements) cs = ms at ha
    cases ha with
    | cons h1 h2 =>
      rename_i m ms
      refine (reads_star h1 h2).congr (fun X A => ?_)
      have := meaning_items A .prod b cs
      rw [hm] at this
      exact this

theorem items_ne {b : Counter} {cs : List KE} (h : isEmptyNode (.comm op b cs) = false) :
    (orderBase b.elements).map tkBase ++ tks cs ≠ [] ∧ (orderBase b.elements).map tkBase ++ tkBs cs ≠ [] := by
  cases cs with
  | cons k ks => simp [tks, tkBs]
  | nil =>
    have h1 : b.elements ≠ [] := by
      intro e
      simp [isEmptyNode, e] at h
    have h2 : orderBase b.elements ≠ [] := by
      intro e
      have := length_orderBase b.elements
      rw [e] at this
      exact h1 (List.length_eq_zero_iff.1 this.symm)
    simp [h2]

mutual
theorem tk_reads (k : KE) (he : noEmpty k = true) :
    ReadsSum (tk k) (mK k) ∧ (isComm .sum k = false → ReadsProd (tk k) (mK k)) := by
  cases k with
  | base b => exact ⟨by rw [tk]; exact (sum_of_prod (reads_tkBase b)).congr (fun _ _ => rfl), fun _ => by rw [tk]; exact (reads_tkBase b).congr (fun _ _ => rfl)⟩
  | comm op b cs =>
    simp only [noEmpty, allNodes, Bool.and_eq_true, Bool.not_eq_true'] at he
    have hL := tk_readsL cs (by simpa [noEmpty] using he.2)
    cases op with
    | sum => exact ⟨reads_node (items_ne he.1).1 hL.1, fun h => by simp [isComm] at h⟩
    | prod =>
      have := reads_pnode (items_ne he.1).2 hL.2
      exact ⟨sum_of_prod this, fun _ => this⟩
  | change c l r =>
    simp only [noEmpty, allNodes, Bool.and_eq_true, Bool.not_eq_true'] at he
    have h1 := (tk_reads l (by simpa [noEmpty] using he.1.2)).1
    have h2 := (tk_reads r (by simpa [noEmpty] using he.2)).1
    have : ReadsProd (tk (.change c l r)) (mK (.change c l r)) := by
      rw [tk]
      refine (reads_change h1 h2 c).congr (fun X A => ?_)
      simp [mK, meaning]
    exact ⟨sum_of_prod this, fun _ => this⟩
theorem tk_readsL (ks : List KE) (he : allNodesL (fun n => !n.isEmptyNode) ks = true) :
    AllRead ReadsSum (tks ks) (mKs ks) ∧ AllRead ReadsProd (tkBs ks) (mKs ks) := by
  cases ks with
  | nil => exact ⟨.nil, .nil⟩
  | cons k ks =>
    rw [allNodesL, Bool.and_eq_true] at he
    have h1 := tk_reads k he.1
    have h2 := tk_readsL ks he.2
    rw [tks, tkBs]
    refine ⟨.cons h1.1 h2.1, .cons ?_ h2.2⟩
    split
    · exact reads_paren h1.1
    · next h => exact h1.2 (by simpa using h)
end

/-- The printed form is read as one expression, with the meaning of the printed one. -/
theorem read_str (k : KE) (hs : ∀ x ∈ bases k, x.isSigmoid = false) (he : noEmpty k = true) :
    ∃ e, read (subCalls (pyStr k)) = some e ∧ ∀ (X : Type) (A : Alg X), A.Assoc → ∃ x, meaning A k = some x ∧ evalA A e = some x := by
  obtain ⟨f', v, h1, h2, h3, h4, h5⟩ := (tk_reads k he).1 { kind := .top } [] [] rfl rfl
  refine ⟨v, ?_, fun X A hA => h5 X A hA none trivial⟩
  rw [List.append_nil] at h1
  rw [read, lex_str k hs]
  simp only [h1, run, h4]

end Print
end GPyABCD
