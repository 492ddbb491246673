import Verif.Lemmas.PrintParse
import Verif.Lemmas.Normal

/-!
# The printed form determines the expression

Printed forms are read with associative `+` and `*` (`read_str`); in the free such algebra, trees whose sums and products alternate can be read off.
-/

namespace GPyABCD
namespace Print
open KE Params

/-- Terms of a sum or factors of a product without base terms; anything else is one term. -/
def tms (o : Op) : KE → List KE
  | .comm o' b cs => if o = o' ∧ b = [] then cs else [.comm o' b cs]
  | k => [k]

/-- Sums and products as lists of terms. -/
def freeAlg : Alg KE where
  base := .base
  add x y := .comm .sum [] (tms .sum x ++ tms .sum y)
  mul x y := .comm .prod [] (tms .prod x ++ tms .prod y)
  chg := .change

theorem tms_comm (o : Op) (l : List KE) : tms o (.comm o [] l) = l := by simp [tms]

theorem freeAlg_op (o : Op) (x y : KE) : freeAlg.op o x y = .comm o [] (tms o x ++ tms o y) := by cases o <;> rfl

theorem freeAlg_assoc : freeAlg.Assoc := by
  constructor <;> intro a b c <;> simp [freeAlg, tms_comm]

theorem foldl_free (o : Op) (l : List KE) (t : List KE) : l.foldl (freeAlg.op o) (.comm o [] t) = .comm o [] (t ++ l.flatMap (tms o)) := by
  induction l generalizing t with
  | nil => simp
  | cons x l ih => rw [List.foldl_cons, freeAlg_op, tms_comm, ih]; simp

theorem fold1_free (o : Op) (l : List KE) (h : 2 ≤ l.length) (ht : ∀ x ∈ l, tms o x = [x]) : fold1 (freeAlg.op o) l = some (.comm o [] l) := by
  match l, h with
  | x :: y :: l, _ =>
    have h1 : l.flatMap (tms o) = l := by
      rw [List.flatMap_congr (g := fun x => [x]) (fun z hz => ht z (by simp [hz]))]; simp
    rw [fold1, List.foldl_cons, freeAlg_op, ht x (by simp), ht y (by simp), foldl_free, h1]
    rfl

/-- Expressions whose sums and products alternate and have at least two terms. -/
inductive Good : KE → Prop
  | base (b : Base) : Good (.base b)
  | change {c : CC} {l r : KE} (hl : Good l) (hr : Good r) : Good (.change c l r)
  | comm {o : Op} {b : Counter} {cs : List KE} (hw : b.WF) (hpos : b.Pos) (hn : 2 ≤ b.elements.length + cs.length)
      (h : ∀ k ∈ cs, Good k) (hb : ∀ k ∈ cs, k.isBase = false) (ho : ∀ k ∈ cs, isComm o k = false) : Good (.comm o b cs)

/-- `m` lists the terms of `k`. -/
inductive Rep : KE → KE → Prop
  | base (b : Base) : Rep (.base b) (.base b)
  | change {c : CC} {l r l' r' : KE} (hl : Rep l l') (hr : Rep r r') : Rep (.change c l r) (.change c l' r')
  | comm {o : Op} {b : Counter} {cs ms : List KE} (h : List.Forall₂ Rep cs ms) :
      Rep (.comm o b cs) (.comm o [] ((orderBase b.elements).map .base ++ ms))

theorem Rep.tms {o : Op} {k m : KE} (h : Rep k m) (ho : isComm o k = false) : tms o m = [m] := by
  cases h with
  | base b => rfl
  | change _ _ => rfl
  | @comm o' _ _ _ _ => cases o <;> cases o' <;> simp_all [Print.tms, isComm]

theorem Rep.isBase {k m : KE} (h : Rep k m) : m.isBase = k.isBase := by cases h <;> rfl

theorem good_rep (k : KE) (h : Good k) : ∃ m, meaning freeAlg k = some m ∧ Rep k m := by
  induction k using KE.ind with
  | base b => exact ⟨_, rfl, .base b⟩
  | change c l r ihl ihr =>
    cases h with
    | change hl hr =>
      obtain ⟨ml, h1, h2⟩ := ihl hl
      obtain ⟨mr, h3, h4⟩ := ihr hr
      exact ⟨.change c ml mr, by simp [meaning, h1, h3]; rfl, .change h2 h4⟩
  | comm o b cs ih =>
    cases h with
    | comm hw hpos hn hg hb ho =>
      have key : ∀ l : List KE, (∀ k ∈ l, k ∈ cs) → ∃ ms, meanings freeAlg l = some ms ∧ List.Forall₂ Rep l ms := by
        intro l hl
        induction l with
        | nil => exact ⟨[], rfl, .nil⟩
        | cons k l ih' =>
          obtain ⟨m, h1, h2⟩ := ih k (hl k (by simp)) (hg k (hl k (by simp)))
          obtain ⟨ms, h3, h4⟩ := ih' (fun k hk => hl k (by simp [hk]))
          exact ⟨m :: ms, by simp [meanings, h1, h3], .cons h2 h4⟩
      obtain ⟨ms, h1, h2⟩ := key cs (fun _ h => h)
      refine ⟨_, ?_, .comm h2⟩
      rw [meaning, h1, Option.bind_some]
      refine fold1_free o _ ?_ ?_
      · rw [List.length_append, List.length_map, ← h2.length_eq, show (orderBase b.elements).length = b.elements.length from (List.perm_insertionSort _ _).length_eq]
        exact hn
      · intro x hx
        rcases List.mem_append.1 hx with hx | hx
        · obtain ⟨b, _, rfl⟩ := List.mem_map.1 hx; rfl
        · have : ∀ (l m : List KE), List.Forall₂ Rep l m → (∀ k ∈ l, isComm o k = false) → ∀ x ∈ m, tms o x = [x] := by
            intro l m h hl
            induction h with
            | nil => simp
            | cons h1 _ ih' =>
              intro x hx
              rcases List.mem_cons.1 hx with rfl | hx
              · exact h1.tms (hl _ (by simp))
              · exact ih' (fun k hk => hl k (by simp [hk])) x hx
          exact this cs ms h2 ho x hx

private theorem split_bases {l l' : List Base} {ms ms' : List KE} (h1 : ∀ m ∈ ms, m.isBase = false) (h2 : ∀ m ∈ ms', m.isBase = false)
    (h : l.map KE.base ++ ms = l'.map KE.base ++ ms') : l = l' ∧ ms = ms' := by
  induction l generalizing l' with
  | nil =>
    cases l' with
    | nil => simpa using h
    | cons x l' =>
      simp only [List.map_nil, List.nil_append, List.map_cons, List.cons_append] at h
      have := h1 (.base x) (by rw [h]; simp)
      simp [isBase] at this
  | cons x l ih =>
    cases l' with
    | nil =>
      simp only [List.map_nil, List.nil_append, List.map_cons, List.cons_append] at h
      have := h2 (.base x) (by rw [← h]; simp)
      simp [isBase] at this
    | cons y l' =>
      simp only [List.map_cons, List.cons_append, List.cons.injEq, KE.base.injEq] at h
      obtain ⟨e1, e2⟩ := ih h.2
      exact ⟨by rw [h.1, e1], e2⟩

private theorem forall₂_nonBase {cs ms : List KE} (h : List.Forall₂ Rep cs ms) (hb : ∀ k ∈ cs, k.isBase = false) : ∀ m ∈ ms, m.isBase = false := by
  induction h with
  | nil => simp
  | cons h1 _ ih =>
    intro m hm
    rcases List.mem_cons.1 hm with rfl | hm
    · rw [h1.isBase]; exact hb _ (by simp)
    · exact ih (fun k hk => hb k (by simp [hk])) m hm

theorem rep_same (k : KE) : ∀ k' m, Good k → Good k' → Rep k m → Rep k' m → Same k k' := by
  induction k using KE.ind with
  | base b => intro k' m _ _ h h'; cases h; cases h'; exact .base b
  | change c l r ihl ihr =>
    intro k' m g g' h h'
    cases h with
    | change h1 h2 =>
      cases h' with
      | change h3 h4 =>
        cases g with
        | change g1 g2 =>
          cases g' with
          | change g3 g4 => exact .change (ihl _ _ g1 g3 h1 h3) (ihr _ _ g2 g4 h2 h4)
  | comm o b cs ih =>
    intro k' m g g' h h'
    cases h with
    | @comm _ _ _ ms hf =>
      generalize hm : KE.comm o [] ((orderBase b.elements).map .base ++ ms) = M at h'
      cases h' with
      | base _ => cases hm
      | change _ _ => cases hm
      | @comm o' b' cs' ms' hf' =>
        cases g with
        | comm hw hpos hn hg hb ho =>
          cases g' with
          | comm hw' hpos' hn' hg' hb' ho' =>
            simp only [KE.comm.injEq, true_and] at hm
            obtain ⟨rfl, hm⟩ := hm
            obtain ⟨e1, rfl⟩ := split_bases (forall₂_nonBase hf hb) (forall₂_nonBase hf' hb') hm
            have hp : b.elements.Perm b'.elements :=
              (List.perm_insertionSort _ _).symm.trans ((show (orderBase b.elements).Perm (orderBase b'.elements) by rw [e1]).trans (List.perm_insertionSort _ _))
            refine .comm (fun x => ?_) (ds := cs') ?_ (List.Perm.refl _)
            · have := hp.count_eq x
              rw [Counter.count_elements hw, Counter.count_elements hw'] at this
              have h1 := hpos.nonneg x
              have h2 := hpos'.nonneg x
              omega
            · have key : ∀ (l l' m : List KE), (∀ k ∈ l, k ∈ cs) → (∀ k ∈ l', Good k) → List.Forall₂ Rep l m → List.Forall₂ Rep l' m → List.Forall₂ Same l l' := by
                intro l l' m hl hl' h
                induction h generalizing l' with
                | nil => intro h'; cases h'; exact .nil
                | cons h1 _ ih' =>
                  intro h'
                  cases h' with
                  | cons h2 h3 =>
                    exact .cons (ih _ (hl _ (by simp)) _ _ (hg _ (hl _ (by simp))) (hl' _ (by simp)) h1 h2)
                      (ih' _ (fun k hk => hl k (by simp [hk])) (fun k hk => hl' k (by simp [hk])) h3)
              exact key cs cs' ms (fun _ h => h) hg' hf hf'

theorem good_of (k : KE) (hw : wf k = true) (he : noEmpty k = true) (hs : allNodes (fun n => !n.isSingleton) k = true) (ha : alternating k = true) : Good k := by
  induction k using KE.ind with
  | base b => exact .base b
  | change c l r ihl ihr =>
    have hw' := wf_change.1 hw
    simp only [noEmpty, alternating, allNodes, Bool.and_eq_true] at he hs ha ihl ihr
    exact .change (ihl hw'.1 he.1.2 hs.1.2 ha.1.2) (ihr hw'.2 he.2 hs.2 ha.2)
  | comm o b cs ih =>
    have hw' := wf_comm.1 hw
    simp only [noEmpty, alternating, allNodes, Bool.and_eq_true, allNodesL_iff] at he hs ha ih
    have h1 := he.1
    have h2 := hs.1
    have h3 := ha.1
    simp only [isEmptyNode, Bool.not_eq_true', Bool.and_eq_false_iff, decide_eq_false_iff_not, List.isEmpty_eq_false_iff] at h1
    simp only [isSingleton, Bool.not_eq_true', decide_eq_false_iff_not] at h2
    simp only [altNode, List.all_eq_true] at h3
    refine .comm hw'.1 hw'.2.1 ?_ (fun k hk => ih k hk (hw'.2.2 k hk).2 (he.2 k hk) (hs.2 k hk) (ha.2 k hk)) (fun k hk => (hw'.2.2 k hk).1)
      (fun k hk => by simpa using h3 k hk)
    have : 0 < b.elements.length + cs.length := by
      rcases h1 with h1 | h1
      · have := List.length_pos_iff.2 h1; omega
      · have := List.length_pos_iff.2 h1; omega
    omega

/-- Roots as expansions give them: several terms, a change operator, or a sum of one base kernel. -/
theorem good_root {k : KE} (hw : wf k = true) (he : noEmpty k = true) (hs : allBelow (fun n => !n.isSingleton) k = true) (ha : alternating k = true)
    (hr : isSingleton k = false ∨ ∃ b, k = .comm .sum [(b, 1)] []) : Good k ∨ ∃ b, k = .comm .sum [(b, 1)] [] := by
  refine hr.imp_left (fun h => good_of k hw he ?_ ha)
  cases k with
  | base b => simp [allNodes, isSingleton]
  | change c l r => simp only [allBelow, Bool.and_eq_true] at hs; simp only [allNodes, h, hs.1, hs.2]; rfl
  | comm o b cs => simp only [allBelow] at hs; simp only [allNodes, h, hs]; rfl

theorem same_of_str {k k' : KE} (hb : k.isBase = false) (hb' : k'.isBase = false) (he : noEmpty k = true) (he' : noEmpty k' = true)
    (hs : ∀ x ∈ bases k, x.isSigmoid = false) (hs' : ∀ x ∈ bases k', x.isSigmoid = false) (g : Good k ∨ ∃ b, k = .comm .sum [(b, 1)] [])
    (g' : Good k' ∨ ∃ b, k' = .comm .sum [(b, 1)] []) (h : pyStr k = pyStr k') : Same k k' := by
  obtain ⟨e, h1, h2⟩ := read_str k hs he
  obtain ⟨e', h1', h2'⟩ := read_str k' hs' he'
  rw [h, h1', Option.some.injEq] at h1
  subst h1
  obtain ⟨x, h3, h4⟩ := h2 KE freeAlg freeAlg_assoc
  obtain ⟨x', h3', h4'⟩ := h2' KE freeAlg freeAlg_assoc
  rw [h4, Option.some.injEq] at h4'
  subst h4'
  rcases g with g | ⟨b, rfl⟩
  · obtain ⟨m, e1, r⟩ := good_rep k g
    rw [e1, Option.some.injEq] at h3; subst h3
    rcases g' with g' | ⟨b, rfl⟩
    · obtain ⟨m', e1', r'⟩ := good_rep k' g'
      rw [e1', Option.some.injEq] at h3'; subst h3'
      exact rep_same k k' _ g g' r r'
    · have h5 : meaning freeAlg (.comm .sum [(b, 1)] []) = some (.base b) := by cases b <;> rfl
      rw [h5, Option.some.injEq] at h3'
      subst h3'
      have := r.isBase
      rw [hb] at this; simp [isBase] at this
  · have hx : x = .base b := by
      have h5 : meaning freeAlg (.comm .sum [(b, 1)] []) = some (.base b) := by cases b <;> rfl
      rw [h5, Option.some.injEq] at h3; exact h3.symm
    subst hx
    rcases g' with g' | ⟨b', rfl⟩
    · obtain ⟨m', e1', r'⟩ := good_rep k' g'
      rw [e1', Option.some.injEq] at h3'; subst h3'
      have := r'.isBase
      rw [hb'] at this; simp [isBase] at this
    · have h5 : meaning freeAlg (.comm .sum [(b', 1)] []) = some (.base b') := by cases b' <;> rfl
      rw [h5, Option.some.injEq, KE.base.injEq] at h3'
      subst h3'
      exact Same.refl _

end Print
end GPyABCD
