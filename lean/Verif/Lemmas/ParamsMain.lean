import Verif.Lemmas.ParamsMatch
import Verif.Lemmas.Normal
import Verif.Lemmas.Sops

/-!
# Matching the parameters of a tree
-/

namespace GPyABCD
namespace Params
open Sops KE

variable {α : Type}

/-! ## The variance of a product -/

theorem noVar_of_none {p : PD α} (h : p.variance = none) : p.noVar = p := by cases p; simp_all [PD.noVar]

theorem takeVarL_none {l : List (PD α)} (h : l.filterMap (fun p => p.variance) = []) : takeVarL l = none ∧ l.map PD.noVar = l := by
  induction l with
  | nil => exact ⟨rfl, rfl⟩
  | cons p l ih =>
    cases hp : p.variance with
    | some v => simp [hp] at h
    | none =>
      simp only [List.filterMap_cons, hp] at h
      obtain ⟨h1, h2⟩ := ih h
      exact ⟨by rw [takeVarL, hp]; simp [h1], by rw [List.map_cons, h2, noVar_of_none hp]⟩

theorem takeVarL_one {l : List (PD α)} {v : α} (h : l.filterMap (fun p => p.variance) = [v]) : takeVarL l = some (v, l.map PD.noVar) := by
  induction l with
  | nil => simp at h
  | cons p l ih =>
    cases hp : p.variance with
    | some w =>
      simp only [List.filterMap_cons, hp, List.cons.injEq] at h
      obtain ⟨rfl, h⟩ := h
      rw [takeVarL, hp, List.map_cons, (takeVarL_none h).2]
    | none =>
      simp only [List.filterMap_cons, hp] at h
      rw [takeVarL, hp, ih h, List.map_cons, noVar_of_none hp]; rfl

theorem takeVar_one {ps : PDict α} {v : α} (h : ps.flatMap (fun e => e.2.filterMap (fun p => p.variance)) = [v]) :
    takeVar ps = some (v, ps.map (fun e => (e.1, e.2.map PD.noVar))) := by
  have none' : ∀ ps : PDict α, ps.flatMap (fun e => e.2.filterMap (fun p => p.variance)) = [] → ps.map (fun e => (e.1, e.2.map PD.noVar)) = ps := by
    intro ps
    induction ps with
    | nil => intro _; rfl
    | cons e ps ih =>
      intro h
      simp only [List.flatMap_cons, List.append_eq_nil_iff] at h
      rw [List.map_cons, ih h.2, (takeVarL_none h.1).2]
  induction ps with
  | nil => simp at h
  | cons e ps ih =>
    obtain ⟨b, l⟩ := e
    simp only [List.flatMap_cons] at h
    rcases List.append_eq_singleton_iff.1 h with ⟨h1, h2⟩ | ⟨h1, h2⟩
    · rw [takeVar, (takeVarL_none h1).1, ih h2]
      simp [(takeVarL_none h1).2]
    · rw [takeVar, takeVarL_one h1]
      simp [none' ps h2]

/-- The base parts. -/
def bparts : List (GK α) → List (Base × PD α)
  | [] => []
  | .base b p :: r => (b, p) :: bparts r
  | _ :: r => bparts r

theorem variances_eq (parts : List (GK α)) : variances parts = (bparts parts).filterMap (fun x => x.2.variance) := by
  induction parts with
  | nil => rfl
  | cons x parts ih =>
    cases x with
    | base b p => rw [variances, bparts, List.filterMap_cons, ih]; cases p.variance <;> rfl
    | comb => rw [variances, bparts, ih] <;> simp
    | change => rw [variances, bparts, ih] <;> simp

theorem dictsOf_eq (b : Base) (parts : List (GK α)) : dictsOf b parts = ((bparts parts).filter (fun x => decide (x.1 = b))).map (fun x => x.2) := by
  induction parts with
  | nil => rfl
  | cons x parts ih =>
    cases x with
    | base b' p =>
      rw [dictsOf, bparts, ih, List.filter_cons]
      by_cases h : b' = b <;> simp [h]
    | comb => rw [dictsOf, bparts, ih] <;> simp
    | change => rw [dictsOf, bparts, ih] <;> simp

private theorem perm_insert {β : Type} {K : List Base} (hK : K.Nodup) {b : Base} (hb : b ∈ K) (y : β) (f g : Base → List β)
    (hg : g b = y :: f b) (ho : ∀ k, k ≠ b → g k = f k) : (K.flatMap g).Perm (y :: K.flatMap f) := by
  induction K with
  | nil => simp at hb
  | cons k K ih =>
    simp only [List.nodup_cons] at hK
    rw [List.flatMap_cons, List.flatMap_cons]
    by_cases hk : k = b
    · subst hk
      rw [hg]
      have : K.flatMap g = K.flatMap f := by
        refine List.flatMap_congr (fun x hx => ho x ?_)
        rintro rfl; exact hK.1 hx
      rw [this]; exact List.Perm.refl _
    · rw [ho k hk]
      have hb' : b ∈ K := by simpa [Ne.symm hk] using hb
      exact ((ih hK.2 hb').append_left _).trans List.perm_middle

/-- Grouped by base kernel. -/
theorem grouped (K : List Base) (hK : K.Nodup) (parts : List (GK α)) (hc : ∀ b, dictsOf b parts ≠ [] → b ∈ K) :
    (K.flatMap (fun b => (dictsOf b parts).map (fun p => (b, p)))).Perm (bparts parts) := by
  induction parts with
  | nil => simp [dictsOf, bparts]
  | cons x parts ih =>
    cases x with
    | base b p =>
      rw [bparts]
      have hb : b ∈ K := hc b (by simp [dictsOf])
      refine (perm_insert hK hb (b, p) (fun k => (dictsOf k parts).map (fun q => (k, q))) _ (by simp [dictsOf]) ?_).trans (List.Perm.cons _ (ih ?_))
      · intro k hk; simp [dictsOf, Ne.symm hk]
      · intro k hk
        refine hc k ?_
        rw [dictsOf]; split <;> simp_all
    | comb => exact ih (fun b hb => hc b hb)
    | change => exact ih (fun b hb => hc b hb)

/-! ## The kernel of a node -/

theorem foldl_combine {op : Op} (L : List (GK α)) (h : ∀ g ∈ L, partsOf op g = [g]) (A : List (GK α)) :
    L.foldl (combine op) (.comb op A) = .comb op (A ++ L) := by
  induction L generalizing A with
  | nil => simp
  | cons x L ih =>
    rw [List.foldl_cons, combine, h x (List.mem_cons_self ..), partsOf, if_pos rfl, ih (fun g hg => h g (List.mem_cons_of_mem _ hg))]
    simp

/-- `reduce` over parts that are not taken apart. -/
theorem reduceK_ok {op : Op} {L : List (GK α)} (h : ∀ g ∈ L, partsOf op g = [g]) (hne : L ≠ []) :
    ∃ s, reduceK op L = .ok s ∧ partsOf op s = L ∧ (2 ≤ L.length → s = .comb op L) ∧ (∀ x, L = [x] → s = x) := by
  cases L with
  | nil => exact absurd rfl hne
  | cons x L =>
    cases L with
    | nil => exact ⟨x, rfl, h x (List.mem_cons_self ..), by simp, by simp⟩
    | cons y L =>
      refine ⟨.comb op (x :: y :: L), ?_, by simp [partsOf], fun _ => rfl, by simp⟩
      rw [reduceK, List.foldl_cons, combine, h x (by simp), h y (by simp), foldl_combine _ (fun g hg => h g (by simp [hg]))]
      simp

/-- Base kernels as parts. -/
def mk (x : Base × PD α) : GK α := .base x.1 x.2

theorem baseKers_ok (cfg : Cfg) {es : List Base} (h : ∀ b ∈ es, b.isSigmoid = false) :
    baseKers cfg es = .ok (es.map (fun b => .base b (linked (basePars cfg b)))) := by
  induction es with
  | nil => rfl
  | cons b es ih =>
    have hb := h b (List.mem_cons_self ..)
    have : baseKer cfg b = .ok (.base b (linked (basePars cfg b))) := by
      cases b <;> simp [Base.isSigmoid] at hb <;> rfl
    simp only [baseKers, this, ih (fun b hb => h b (List.mem_cons_of_mem _ hb)), bind, Except.bind, pure, Except.pure, List.map_cons]

theorem erase_base {g : GK α} {b : Base} {q : PD Unit} (h : erase g = .base b q) : ∃ p, g = .base b p ∧ mapPD (fun _ => ()) p = q := by
  cases g with
  | base b' p => simp only [erase, GK.base.injEq] at h; obtain ⟨rfl, h⟩ := h; exact ⟨p, rfl, h⟩
  | comb => simp [erase] at h
  | change => simp [erase] at h

theorem erase_bases {gb : List (GK α)} {es : List Base} {f : Base → PD Unit} (h : gb.map erase = es.map (fun b => .base b (f b))) :
    ∃ l : List (Base × PD α), gb = l.map mk ∧ l.map (fun x => x.1) = es ∧ ∀ x ∈ l, mapPD (fun _ => ()) x.2 = f x.1 := by
  induction es generalizing gb with
  | nil => simp only [List.map_nil, List.map_eq_nil_iff] at h; subst h; exact ⟨[], rfl, rfl, by simp⟩
  | cons b es ih =>
    cases gb with
    | nil => simp at h
    | cons g gb =>
      simp only [List.map_cons, List.cons.injEq] at h
      obtain ⟨p, rfl, hp⟩ := erase_base h.1
      obtain ⟨l, rfl, h2, h3⟩ := ih h.2
      exact ⟨(b, p) :: l, rfl, by simp [h2], by simpa [hp] using h3⟩

/-- The base kernels of a node. -/
def baseParts (cfg : Cfg) (op : Op) (es : List Base) : List (GK Unit) :=
  match op with
  | .sum => es.map (fun b => .base b (linked (basePars cfg b)))
  | .prod => unlinkTail (es.map (fun b => .base b (linked (basePars cfg b))))

theorem baseParts_erase {cfg : Cfg} {op : Op} {es : List Base} {gb : List (GK α)} (h : gb.map erase = baseParts cfg op es) :
    ∃ l : List (Base × PD α), gb = l.map mk ∧ l.map (fun x => x.1) = es ∧ (∀ x ∈ l, Has (basePars cfg x.1) x.2) ∧
      (op = .prod → ∀ x r, l = x :: r → mapPD (fun _ => ()) x.2 = linked (basePars cfg x.1) ∧ ∀ y ∈ r, y.2.variance = none) := by
  cases op with
  | sum =>
    obtain ⟨l, h1, h2, h3⟩ := erase_bases h
    exact ⟨l, h1, h2, fun x hx => Or.inl (h3 x hx), by simp⟩
  | prod =>
    cases es with
    | nil =>
      simp only [baseParts, List.map_nil, unlinkTail, List.map_eq_nil_iff] at h
      subst h; exact ⟨[], rfl, rfl, by simp, by simp⟩
    | cons b es =>
      cases gb with
      | nil => simp [baseParts, unlinkTail] at h
      | cons g gb =>
        simp only [baseParts, List.map_cons, unlinkTail, List.cons.injEq, List.map_map] at h
        obtain ⟨p, rfl, hp⟩ := erase_base h.1
        have h2 : gb.map erase = es.map (fun b => .base b (linked (basePars cfg b)).noVar) := by
          rw [h.2]; rfl
        obtain ⟨l, rfl, h3, h4⟩ := erase_bases (f := fun b => (linked (basePars cfg b)).noVar) h2
        refine ⟨(b, p) :: l, rfl, by simp [h3], ?_, ?_⟩
        · intro x hx
          rcases List.mem_cons.1 hx with rfl | hx
          · exact Or.inl hp
          · exact Or.inr (h4 x hx)
        · intro _ x r e
          simp only [List.cons.injEq] at e
          obtain ⟨rfl, rfl⟩ := e
          refine ⟨hp, fun y hy => ?_⟩
          have := congrArg (fun q => Par.get q .variance) (h4 y hy)
          simp only [get_map, get_noVar, if_true, Option.map_eq_none_iff] at this
          exact this

theorem bparts_mk (l : List (Base × PD α)) : bparts (l.map mk) = l := by
  induction l with
  | nil => rfl
  | cons x l ih => rw [List.map_cons, mk, bparts, ih]

theorem bparts_append (xs ys : List (GK α)) : bparts (xs ++ ys) = bparts xs ++ bparts ys := by
  induction xs with
  | nil => rfl
  | cons x xs ih => cases x <;> simp only [List.cons_append, bparts, ih]

theorem bparts_not_base {xs : List (GK α)} (h : ∀ x ∈ xs, isBaseK x = false) : bparts xs = [] := by
  induction xs with
  | nil => rfl
  | cons x xs ih =>
    have hx := h x (List.mem_cons_self ..)
    cases x with
    | base => simp [isBaseK] at hx
    | comb => exact ih (fun y hy => h y (List.mem_cons_of_mem _ hy))
    | change => exact ih (fun y hy => h y (List.mem_cons_of_mem _ hy))

theorem basePars_variance (cfg : Cfg) {b : Base} (h : b.isSigmoid = false) : Par.variance ∈ basePars cfg b := by
  cases b <;> simp [Base.isSigmoid] at h <;> simp only [basePars]
  all_goals first | simp | (cases cfg.linOffset <;> simp)

theorem baseParts_length (cfg : Cfg) (op : Op) (es : List Base) : (baseParts cfg op es).length = es.length := by
  cases op with
  | sum => simp [baseParts]
  | prod => cases es <;> simp [baseParts, unlinkTail]

theorem baseParts_parts (cfg : Cfg) (op op' : Op) (es : List Base) : ∀ g ∈ baseParts cfg op es, partsOf op' g = [g] := by
  have : ∀ g ∈ baseParts cfg op es, ∃ b p, g = .base b p := by
    cases op with
    | sum => intro g hg; obtain ⟨b, _, rfl⟩ := List.mem_map.1 hg; exact ⟨_, _, rfl⟩
    | prod =>
      cases es with
      | nil => simp [baseParts, unlinkTail]
      | cons b es =>
        intro g hg
        simp only [baseParts, List.map_cons, unlinkTail, List.mem_cons, List.map_map, List.mem_map] at hg
        rcases hg with rfl | ⟨x, _, rfl⟩
        · exact ⟨_, _, rfl⟩
        · exact ⟨_, _, rfl⟩
  intro g hg
  obtain ⟨b, p, rfl⟩ := this g hg
  rfl

theorem toKernel_comm {cfg : Cfg} {op : Op} {b : Counter} {cs : List KE} {ks : List (GK Unit)} (hs : ∀ x ∈ b.elements, x.isSigmoid = false)
    (hk : toKernelL cfg cs = .ok ks) : toKernel cfg (comm op b cs) = reduceK op (baseParts cfg op (orderBase b.elements) ++ ks) := by
  have hs' : ∀ x ∈ orderBase b.elements, x.isSigmoid = false := fun x hx => hs x ((List.perm_insertionSort _ _).subset hx)
  cases op <;> simp only [toKernel, baseKers_ok cfg hs', hk, bind, Except.bind, baseParts]

/-! ## Nodes -/

theorem partsOf_erase (op : Op) (g : GK α) : partsOf op (erase g) = (partsOf op g).map erase := by
  cases g with
  | base => rfl
  | change => rfl
  | comb o ps =>
    rw [erase, partsOf, partsOf]
    by_cases h : o = op
    · rw [if_pos h, if_pos h, eraseL_eq]
    · rw [if_neg h, if_neg h]; simp [erase]

theorem isBaseK_erase (g : GK α) : isBaseK (erase g) = isBaseK g := by cases g <;> simp [erase, isBaseK]

theorem SEOKL_iff {P : α → Prop} {l : List (GK α)} : SEOKL P l ↔ ∀ g ∈ l, SEOK P g := by
  induction l with
  | nil => simp [SEOKL]
  | cons g l ih => simp [SEOKL, ih]

theorem get_of_map (c : Counter) (F : Base → List (PD α)) (hc : c.WF) (h0 : ∀ b, c.get b = 0 → F b = []) (hp : c.Pos) (b : Base) :
    PDict.get (c.map (fun e => (e.1, F e.1))) b = F b := by
  by_cases hb : b ∈ c.map (fun e => e.1)
  · clear h0 hp hc
    induction c with
    | nil => simp at hb
    | cons e c ih =>
      rw [List.map_cons, PDict.get]
      by_cases h : e.1 = b
      · rw [if_pos h, h]
      · rw [if_neg h]; exact ih (by simpa [Ne.symm h] using hb)
  · rw [get_new (by simpa using hb), h0 b]
    have : ¬ 0 < c.get b := by
      rw [← Counter.Pos.has_iff_get hc hp]
      intro h
      obtain ⟨v, hv⟩ := Counter.has_iff.1 h
      exact hb (List.mem_map.2 ⟨_, hv, rfl⟩)
    have := hp.nonneg b
    omega

/-- What is left after the composite terms are matched. -/
def finish (op : Op) (b : Counter) (ps : PDict α) (cts : List (PKE α)) : Except PErr (PKE α) :=
  match op with
  | .sum => .ok (.comm .sum b ps none cts)
  | .prod =>
    if b.total > 0 then
      match takeVar ps with
      | some (v, ps') => .ok (.comm .prod b ps' (some v) cts)
      | none => .error .unmodelled
    else .ok (.comm .prod b ps none cts)

theorem matchUp_comm {cfg : Cfg} {d : Str → Option α} {root : Bool} {pre pre' : Str} {op : Op} {b : Counter} {cs : List KE}
    (hp : startPrefix root pre (if b.total + cs.length = 1 then [] else opName op ++ ['.']) = .ok pre') {seen : Seen} {ps : PDict α}
    (hb : matchBases cfg d pre' [] [] b.elements = .ok (seen, ps)) {cts : List (PKE α)} (hc : matchUpL cfg d pre' seen cs = .ok cts) :
    matchUp cfg d root pre (comm op b cs) = finish op b ps cts := by
  cases op
  · simp only [matchUp, hp, hb, hc, bind, Except.bind, finish]; rfl
  · simp only [matchUp, hp, hb, hc, bind, Except.bind, finish]
    split
    · cases takeVar ps <;> rfl
    · rfl

theorem mem_counter_get {c : Counter} (hc : c.WF) (hp : c.Pos) {e : Base × Int} (he : e ∈ c) : c.get e.1 = e.2 ∧ 0 < e.2 := by
  refine ⟨?_, hp e he⟩
  obtain ⟨k, v⟩ := e
  exact Counter.get_of_mem hc he

/-- A node: its base terms matched, the rest given. -/
theorem node {cfg : Cfg} {op : Op} {b : Counter} {cs : List KE} (hw : b.WF) (hp : b.Pos) (hs : ∀ x ∈ b.elements, x.isSigmoid = false)
    {gb gc : List (GK α)} (hgb : gb.map erase = baseParts cfg op (orderBase b.elements)) (hgc : ∀ g ∈ gc, isBaseK g = false)
    {d : Str → Option α} {pre : Str} (hd : ∀ key, d (pre ++ key) = pyDict (flatL cfg [] (gb ++ gc)) key) :
    ∃ seen ps, matchBases cfg d pre [] [] b.elements = .ok (seen, ps) ∧ (∀ n, seen.count (.ct n) = 0) ∧
      (∀ n, (∃ o, n = opName o) ∨ (∃ c, n = changeName c) → (gb.map (gname cfg)).count n = 0) ∧
      ∀ (cts : List (PKE α)), CarriesL cts gc → ∃ f, finish op b ps cts = .ok f ∧ (∀ g, partsOf op g = gb ++ gc → Carries f g) ∧
        forget f = comm op b (forgetL cts) ∧
        ∀ P, canonNode cfg (comm op b (forgetL cts)) = true → SEOKL P gb → FittedL P cts → Fitted P f := by
  obtain ⟨l, rfl, hl1, hl2, hl3⟩ := baseParts_erase hgb
  have hperm : (l.map (fun x => x.1)).Perm b.elements := by rw [hl1]; exact List.perm_insertionSort _ _
  have hbp : bparts (l.map mk ++ gc) = l := by rw [bparts_append, bparts_mk, bparts_not_base hgc, List.append_nil]
  have hdict : ∀ x, dictsOf x (l.map mk ++ gc) = (l.filter (fun y => decide (y.1 = x))).map (fun y => y.2) := fun x => by rw [dictsOf_eq, hbp]
  have hcount : ∀ x, ((dictsOf x (l.map mk ++ gc)).length : Int) = b.get x := by
    intro x
    have e1 : (dictsOf x (l.map mk ++ gc)).length = (l.map (fun y => y.1)).count x := by
      rw [hdict, List.length_map, List.count, List.countP_map, List.countP_eq_length_filter]
      congr 1
    rw [e1, hperm.count_eq, Counter.count_elements hw]
    have := hp.nonneg x
    omega
  have hhas : ∀ x, ∀ p ∈ dictsOf x (l.map mk ++ gc), Has (basePars cfg x) p := by
    intro x p hx
    rw [hdict] at hx
    obtain ⟨y, hy, rfl⟩ := List.mem_map.1 hx
    simp only [List.mem_filter, decide_eq_true_eq] at hy
    have := hl2 y hy.1
    rwa [hy.2] at this
  have hsig : ∀ e ∈ b, e.1.isSigmoid = false := by
    intro e he
    refine hs e.1 ((Counter.mem_elements hw _).2 ?_)
    have := mem_counter_get hw hp he
    omega
  obtain ⟨seen, hm, hseen⟩ := matchBases_ok hd hhas b [] [] hw hp hsig
    (fun e he => by rw [hcount, (mem_counter_get hw hp he).1]) (fun e he => by simp)
  rw [List.nil_append] at hm
  refine ⟨seen, _, hm, by simpa using hseen, ?_, ?_⟩
  · intro n hn
    rw [List.count_eq_zero, List.map_map]
    intro h
    obtain ⟨y, hy, he⟩ := List.mem_map.1 h
    have h1 : y.1.isSigmoid = false := hs _ (hperm.subset (List.mem_map.2 ⟨y, hy, rfl⟩))
    simp only [Function.comp, mk, gname] at he
    obtain ⟨m, hm⟩ : ∃ m, baseName cfg y.1 = some m := by
      cases hy : y.1 <;> simp [hy, Base.isSigmoid] at h1 <;> exact ⟨_, rfl⟩
    rw [hm, Option.getD_some] at he
    rcases hn with ⟨o, rfl⟩ | ⟨c, rfl⟩
    · exact name_base_ne_op hm o he
    · exact name_base_ne_change hm c he
  · intro cts hcts
    have hkeys : (b.map (fun e => e.1)).Nodup := hw
    have hcomp : composites (l.map mk ++ gc) = gc := by
      rw [composites_append, composites_base (fun x hx => by obtain ⟨y, _, rfl⟩ := List.mem_map.1 hx; rfl), (of_not_base hgc).1]; rfl
    have hvar : variances (l.map mk ++ gc) = l.filterMap (fun x => x.2.variance) := by rw [variances_eq, hbp]
    have hget : ∀ x, PDict.get (b.map (fun e => (e.1, dictsOf e.1 (l.map mk ++ gc)))) x = dictsOf x (l.map mk ++ gc) := by
      refine get_of_map b (fun x => dictsOf x (l.map mk ++ gc)) hw ?_ hp
      intro x hx
      have := hcount x
      rw [hx] at this
      exact List.length_eq_zero_iff.1 (by omega)
    have hls : ∀ P, SEOKL P (l.map mk) → ∀ x, x = Base.SE → ∀ p ∈ dictsOf x (l.map mk ++ gc), ∃ y, p.lengthscale = some y ∧ P y := by
      intro P hP x hx p hp
      have h1 := hhas x p hp
      rw [hdict] at hp
      obtain ⟨y, hy, rfl⟩ := List.mem_map.1 hp
      simp only [List.mem_filter, decide_eq_true_eq] at hy
      subst hx
      have h2 := SEOKL_iff.1 hP (mk y) (List.mem_map.2 ⟨y, hy.1, rfl⟩)
      simp only [mk, SEOK, lsOK, hy.2, true_implies] at h2
      cases h3 : y.2.lengthscale with
      | some z => exact ⟨z, rfl, h2 z h3⟩
      | none => exact absurd (has_in h1 (q := .lengthscale) (by simp [basePars]) h3) (by simp)
    have hne : ∀ e ∈ b, dictsOf e.1 (l.map mk ++ gc) ≠ [] := by
      intro e he h
      have h1 := hcount e.1
      have h2 := mem_counter_get hw hp he
      rw [h] at h1
      simp only [List.length_nil] at h1
      omega
    have hfit : ∀ P (F : List (PD α) → List (PD α)), (∀ q, (F q).length = q.length) → (∀ q, ∀ p ∈ F q, ∃ p' ∈ q, p.lengthscale = p'.lengthscale) →
        SEOKL P (l.map mk) → NodeFit P b (b.map (fun e => (e.1, F (dictsOf e.1 (l.map mk ++ gc))))) := by
      intro P F hF hF' hP
      constructor
      · rw [List.map_map]
        conv_lhs => rw [← List.map_id b]
        refine List.map_congr_left ?_
        intro e he
        obtain ⟨x, v⟩ := e
        have h1 := mem_counter_get hw hp he
        simp only [Function.comp, hF, hcount, id]
        rw [h1.1]
      · rw [List.map_map]; exact hkeys
      · intro e he
        obtain ⟨x, hx, rfl⟩ := List.mem_map.1 he
        intro h
        have h1 := hF (dictsOf x.1 (l.map mk ++ gc))
        simp only at h
        rw [h] at h1
        exact hne x hx (List.length_eq_zero_iff.1 h1.symm)
      · intro e he
        obtain ⟨x, hx, rfl⟩ := List.mem_map.1 he
        exact hsig x hx
      · intro e he hse p hp
        obtain ⟨x, hx, rfl⟩ := List.mem_map.1 he
        obtain ⟨p', hp', e'⟩ := hF' _ p hp
        rw [e']
        exact hls P hP x.1 hse p' hp'
    cases op with
    | sum =>
      refine ⟨_, rfl, ?_, by rw [forget], ?_⟩
      · intro g hg
        rw [Carries, hg, hcomp]
        exact ⟨by rw [List.map_map]; exact hkeys, hget, rfl, hcts⟩
      · intro P _ hP hc
        rw [Fitted]
        exact ⟨hfit P id (fun _ => rfl) (fun q p hp => ⟨p, hp, rfl⟩) hP, rfl, hc⟩
    | prod =>
      by_cases ht : b.total > 0
      · -- one variance
        obtain ⟨x, r, rfl⟩ : ∃ x r, l = x :: r := by
          cases l with
          | cons x r => exact ⟨x, r, rfl⟩
          | nil =>
            have := hperm.length_eq
            have h2 := Counter.length_elements hp
            simp only [List.map_nil, List.length_nil] at this
            omega
        obtain ⟨hx, hr⟩ := hl3 rfl x r rfl
        have hxs : x.1.isSigmoid = false := hs _ (hperm.subset (by simp))
        obtain ⟨v, hv⟩ : ∃ v, x.2.variance = some v := by
          have := congrArg (fun q => Par.get q .variance) hx
          simp only [get_map, get_linked, if_pos (basePars_variance cfg hxs)] at this
          cases h : x.2.variance with
          | some v => exact ⟨v, rfl⟩
          | none =>
            have h' : Par.variance.get x.2 = none := h
            rw [h'] at this; simp at this
        have hvs : (x :: r).filterMap (fun x => x.2.variance) = [v] := by
          rw [List.filterMap_cons, hv]
          simp only [List.cons.injEq, true_and, List.filterMap_eq_nil_iff]
          exact hr
        have htake : takeVar (b.map (fun e => (e.1, dictsOf e.1 ((x :: r).map mk ++ gc)))) =
            some (v, (b.map (fun e => (e.1, dictsOf e.1 ((x :: r).map mk ++ gc)))).map (fun e => (e.1, e.2.map PD.noVar))) := by
          refine takeVar_one ?_
          have hg := grouped (b.map (fun e => e.1)) hkeys ((x :: r).map mk ++ gc) (by
            intro y hy
            by_contra hy'
            refine hy ?_
            rw [← hget y]
            exact get_new (by simpa using hy'))
          rw [hbp] at hg
          have h2 := hg.filterMap (fun x => x.2.variance)
          rw [hvs, List.filterMap_flatMap] at h2
          rw [← List.perm_singleton.1 h2, List.flatMap_map, List.flatMap_map]
          refine List.flatMap_congr ?_
          intro e _
          rw [List.filterMap_map]; rfl
        have hmm : (b.map (fun e => (e.1, dictsOf e.1 ((x :: r).map mk ++ gc)))).map (fun e => (e.1, e.2.map PD.noVar)) =
            b.map (fun e => (e.1, (dictsOf e.1 ((x :: r).map mk ++ gc)).map PD.noVar)) := by rw [List.map_map]; rfl
        rw [hmm] at htake
        refine ⟨_, by rw [finish, if_pos ht, htake], ?_, by rw [forget], ?_⟩
        · intro g hg
          rw [Carries, hg, hcomp, hvar, hvs]
          refine ⟨by rw [List.map_map]; exact hkeys, ?_, rfl, hcts⟩
          refine get_of_map b (fun y => (dictsOf y ((x :: r).map mk ++ gc)).map PD.noVar) hw ?_ hp
          intro y hy
          have := hcount y
          rw [hy] at this
          have h0 : dictsOf y ((x :: r).map mk ++ gc) = [] := List.length_eq_zero_iff.1 (by omega)
          show List.map _ (dictsOf y _) = []
          rw [h0]; rfl
        · intro P hcan hP hc
          rw [Fitted]
          refine ⟨hfit P (fun q => q.map PD.noVar) (by simp) ?_ hP, ?_, ?_, ?_, hc⟩
          · intro q p hp
            obtain ⟨p', hp', rfl⟩ := List.mem_map.1 hp
            exact ⟨p', hp', rfl⟩
          · simp only [List.map_eq_nil_iff, reduceCtorEq, iff_false]
            rintro rfl
            simp [Counter.total] at ht
          · intro e he p hp
            obtain ⟨x, hx, rfl⟩ := List.mem_map.1 he
            obtain ⟨p', hp', rfl⟩ := List.mem_map.1 hp
            rfl
          · intro _ y
            have hnn := fun z => hp.nonneg z
            simp only [canonNode, Bool.and_eq_true, decide_eq_true_eq] at hcan
            have hwn := hnn .WN
            have hcn := hnn .C
            unfold Sops.normal
            by_cases h : 0 < b.get .WN
            · rw [if_pos h] at hcan ⊢
              simp only [Bool.and_eq_true, decide_eq_true_eq] at hcan
              obtain ⟨h1, ⟨h2, h3⟩, h4⟩ := hcan
              split
              · subst y; omega
              · split
                · rename_i hy; rcases hy with rfl | rfl | rfl <;> omega
                · rfl
            · rw [if_neg h] at hcan ⊢
              simp only [Bool.and_eq_true, decide_eq_true_eq, Bool.or_eq_true] at hcan
              obtain ⟨h1, ⟨h2, h3⟩, h4⟩ := hcan
              split
              · subst y
                split
                · omega
                · rename_i hn
                  rcases h4 with h4 | ⟨⟨⟨h5, h6⟩, h7⟩, _⟩
                  · omega
                  · exact absurd ⟨h5, h6, h7⟩ hn
              · split
                · subst y; omega
                · rfl
      · have hl0 : l = [] := by
          have := hperm.length_eq
          have h2 := Counter.length_elements hp
          rw [List.length_map] at this
          exact List.length_eq_zero_iff.1 (by omega)
        have hb0 : b = [] := by
          cases b with
          | nil => rfl
          | cons e b =>
            have h1 := hne e (List.mem_cons_self ..)
            rw [hdict, hl0] at h1
            simp at h1
        subst hb0 hl0
        refine ⟨_, by rw [finish, if_neg ht], ?_, by rw [forget], ?_⟩
        · intro g hg
          rw [Carries, hg, hcomp, hvar]
          refine ⟨by simp, ?_, rfl, hcts⟩
          intro y
          rw [hdict]; rfl
        · intro P hcan hP hc
          rw [Fitted]
          refine ⟨hfit P id (fun _ => rfl) (fun q p hp => ⟨p, hp, rfl⟩) hP, by simp, by simp, ?_, hc⟩
          intro _ y
          cases y <;> decide

/-! ## Trees -/

/-- `Matchable` without the exception for the root. -/
def Nice (k : KE) : Prop :=
  k.wf = true ∧ k.noEmpty = true ∧ KE.allNodes (fun n => !n.isSingleton) k = true ∧ KE.alternating k = true ∧ ∀ x ∈ KE.bases k, x.isSigmoid = false

theorem nice_comm {op : Op} {b : Counter} {cs : List KE} (h : Nice (comm op b cs)) :
    b.WF ∧ b.Pos ∧ (∀ x ∈ b.elements, x.isSigmoid = false) ∧ 2 ≤ b.elements.length + cs.length ∧ (∀ k ∈ cs, isComm op k = false) ∧
      ∀ k ∈ cs, k.isBase = false ∧ Nice k := by
  obtain ⟨h1, h2, h3, h4, h5⟩ := h
  rw [wf_comm] at h1
  simp only [noEmpty, alternating, allNodes, Bool.and_eq_true, allNodesL_iff, isEmptyNode, isSingleton, altNode, Bool.not_eq_true',
    List.all_eq_true, Bool.and_eq_false_iff, decide_eq_false_iff_not] at h2 h3 h4
  simp only [bases, basesL_eq, List.mem_append, List.mem_flatMap] at h5
  refine ⟨h1.1, h1.2.1, fun x hx => h5 x (Or.inl hx), ?_, h4.1, ?_⟩
  · have h6 := h3.1
    rcases Nat.lt_or_ge (b.elements.length + cs.length) 2 with h7 | h7
    · have h8 : b.elements.length = 0 ∧ cs.length = 0 := by omega
      rw [List.length_eq_zero_iff, List.length_eq_zero_iff] at h8
      rcases h2.1 with h9 | h9
      · exact absurd h8.1 h9
      · rw [h8.2] at h9; simp at h9
    · exact h7
  · intro k hk
    exact ⟨(h1.2.2 k hk).1, (h1.2.2 k hk).2, h2.2 k hk, h3.2 k hk, h4.2 k hk, fun x hx => h5 x (Or.inr ⟨k, hk, hx⟩)⟩

theorem nice_change {c : CC} {l r : KE} (h : Nice (change c l r)) : Nice l ∧ Nice r := by
  obtain ⟨h1, h2, h3, h4, h5⟩ := h
  rw [wf_change] at h1
  simp only [noEmpty, alternating, allNodes, Bool.and_eq_true] at h2 h3 h4
  simp only [bases, List.mem_append] at h5
  exact ⟨⟨h1.1, h2.1.2, h3.1.2, h4.1.2, fun x hx => h5 x (Or.inl hx)⟩, h1.2, h2.2, h3.2, h4.2, fun x hx => h5 x (Or.inr hx)⟩

/-- What matching is to give. -/
def Good (cfg : Cfg) (k : KE) (f : PKE α) (g : GK α) : Prop :=
  Carries f g ∧ forget f = k ∧ ∀ P, allNodes (canonNode cfg) k = true → SEOK P g → Fitted P f

/-- Same for lists. -/
def GoodL (cfg : Cfg) (cs : List KE) (cts : List (PKE α)) (gs : List (GK α)) : Prop :=
  CarriesL cts gs ∧ forgetL cts = cs ∧ ∀ P, allNodesL (canonNode cfg) cs = true → SEOKL P gs → FittedL P cts

theorem good_node {cfg : Cfg} {op : Op} {b : Counter} {cs : List KE} (hw : b.WF) (hp : b.Pos) (hs : ∀ x ∈ b.elements, x.isSigmoid = false)
    {gb gc : List (GK α)} (hgb : gb.map erase = baseParts cfg op (orderBase b.elements)) (hgc : ∀ g ∈ gc, isBaseK g = false)
    {d : Str → Option α} {pre : Str} (hd : ∀ key, d (pre ++ key) = pyDict (flatL cfg [] (gb ++ gc)) key) {root : Bool} {pre0 : Str}
    (hpre : startPrefix root pre0 (if b.total + cs.length = 1 then [] else opName op ++ ['.']) = .ok pre)
    (hL : ∀ seen : Seen, (∀ n, (∃ o, n = opName o) ∨ (∃ c, n = changeName c) → seen.count (.ct n) = (gb.map (gname cfg)).count n) →
      ∃ cts, matchUpL cfg d pre seen cs = .ok cts ∧ GoodL cfg cs cts gc) {g : GK α} (hg : partsOf op g = gb ++ gc)
    (hse : ∀ P, SEOK P g → SEOKL P (gb ++ gc)) :
    ∃ f, matchUp cfg d root pre0 (comm op b cs) = .ok f ∧ Good cfg (comm op b cs) f g := by
  obtain ⟨seen, ps, h1, h2, h3, h4⟩ := node (cs := cs) hw hp hs hgb hgc hd
  obtain ⟨cts, h5, h6, h7, h8⟩ := hL seen (fun n hn => by rw [h2, h3 n hn])
  obtain ⟨f, h9, h10, h11, h12⟩ := h4 cts h6
  rw [h7] at h11 h12
  refine ⟨f, by rw [matchUp_comm hpre h1 h5, h9], h10 g hg, h11, ?_⟩
  intro P hc hP
  simp only [allNodes, Bool.and_eq_true] at hc
  have h13 := SEOKL_iff.1 (hse P hP)
  exact h12 P hc.1 (SEOKL_iff.2 fun x hx => h13 x (List.mem_append_left _ hx)) (h8 P hc.2 (SEOKL_iff.2 fun x hx => h13 x (List.mem_append_right _ hx)))

theorem good_change {cfg : Cfg} {c : CC} {l r : KE} {gl gr : GK α} {p : PD α} (hp : mapPD (fun _ => ()) p = linked (changePars cfg c))
    (hl : kname cfg l = some (gname cfg gl)) (hr : kname cfg r = some (gname cfg gr))
    (hs : sameBranches cfg l r = decide (gname cfg gl = gname cfg gr))
    {d : Str → Option α} {pre : Str} (hd : ∀ key, d (pre ++ key) = pyDict (flat cfg (.change c p gl gr)) key) {root : Bool} {pre0 : Str}
    (hpre : startPrefix root pre0 (changeName c ++ ['.']) = .ok pre)
    (ihl : ∀ pre', pre' ≠ [] → (∀ key, d (pre' ++ key) = pyDict (flat cfg gl) key) → ∃ f, matchUp cfg d false pre' l = .ok f ∧ Good cfg l f gl)
    (ihr : ∀ pre', pre' ≠ [] → (∀ key, d (pre' ++ key) = pyDict (flat cfg gr) key) → ∃ f, matchUp cfg d false pre' r = .ok f ∧ Good cfg r f gr) :
    ∃ f, matchUp cfg d root pre0 (change c l r) = .ok f ∧ Good cfg (change c l r) f (.change c p gl gr) := by
  have hp' : Has (changePars cfg c) p := Or.inl hp
  have hnv : ∀ q ∈ changePars cfg c, q.get p ≠ none := by
    intro q hq h
    have := congrArg (fun x => q.get x) hp
    simp only [get_map, get_linked, if_pos hq, h] at this
    simp at this
  have flat2 : flat cfg (.change c p gl gr) = flatL cfg [] [gl, gr] ++ own (changePars cfg c) p := by simp [flat, flatL]
  have hlook : lookupPars d false pre (changePars cfg c) = .ok p := by
    refine lookup_ok _ _ _ _ _ ?_ (fun q hq h => absurd h (hnv q hq)) (fun q hq => has_out hp' hq)
    intro q hq
    rw [hd, flat, kerPars_eq, pyDict_append, pyDict_own, if_pos hq, pyDict_append, pyDict_under_par, pyDict_under_par]
    simp
  obtain ⟨fl, hfl, gfl⟩ := ihl (pre ++ gname cfg gl ++ ['.']) (by simp) (by
    intro key
    have e : pre ++ gname cfg gl ++ ['.'] ++ key = pre ++ (sib ((List.map (gname cfg) ([] : List (GK α))).reverse ++ []) (gname cfg gl) ++ '.' :: key) := by
      simp [sib]
    rw [e, hd, flat2, pyDict_append, pyDict_own_dot, Option.none_or]
    exact pyDict_child cfg [] gl [gr] [] key)
  obtain ⟨fr, hfr, gfr⟩ := ihr (pre ++ gname cfg gr ++ (if sameBranches cfg l r then ['_', '1', '.'] else ['.'])) (by split <;> simp) (by
    intro key
    have e : pre ++ gname cfg gr ++ (if sameBranches cfg l r then ['_', '1', '.'] else ['.']) ++ key =
        pre ++ (sib ((List.map (gname cfg) [gl]).reverse ++ []) (gname cfg gr) ++ '.' :: key) := by
      rw [hs]
      by_cases h : gname cfg gl = gname cfg gr
      · simp only [h, decide_true, if_true, List.map_cons, List.map_nil, List.reverse_cons, List.reverse_nil, List.nil_append, List.append_nil, sib,
          List.count_singleton_self, List.append_assoc]
        have h1 : Nat.toDigits 10 1 = ['1'] := by decide
        rw [if_neg (by decide), h1]; simp
      · have : List.count (gname cfg gr) [gname cfg gl] = 0 := by rw [List.count_eq_zero]; simp [Ne.symm h]
        simp [h, sib, this]
    rw [e, hd, flat2, pyDict_append, pyDict_own_dot, Option.none_or]
    exact pyDict_child cfg [gl] gr [] [] key)
  refine ⟨.change c p fl fr, ?_, ?_⟩
  · simp only [matchUp, hpre, hlook, hl, hr, hfl, hfr, bind, Except.bind]; rfl
  · refine ⟨?_, by rw [forget, gfl.2.1, gfr.2.1], ?_⟩
    · rw [Carries]; exact ⟨gl, gr, rfl, gfl.1, gfr.1⟩
    · intro P hc hP
      simp only [allNodes, Bool.and_eq_true] at hc
      rw [SEOK] at hP
      rw [Fitted]
      refine ⟨?_, gfl.2.2 P hc.1.2 hP.1, gfr.2.2 P hc.2 hP.2⟩
      have : Par.variance ∉ changePars cfg c := by cases c <;> simp only [changePars] <;> split <;> simp
      exact has_out hp' this

theorem same_branches {cfg : Cfg} {l r : KE} {nl nr : Str} (hl : kname cfg l = some nl) (hr : kname cfg r = some nr) :
    sameBranches cfg l r = decide (nl = nr) := by
  have e1 : ∀ op c, opName op ≠ changeName c := by intro op c; cases op <;> cases c <;> decide
  have e2 : ∀ op op', opName op = opName op' ↔ op = op' := by intro op op'; cases op <;> cases op' <;> decide
  cases l with
  | base b =>
    cases r with
    | base b' =>
      simp only [kname] at hl hr
      simp only [sameBranches, sameType, isBase, Bool.not_true, Bool.false_and, Bool.false_or, Bool.true_and, keq]
      rw [decide_eq_decide]
      constructor
      · rintro rfl; rw [hl] at hr; exact Option.some.inj hr
      · rintro rfl; exact nameOf_base_inj hl hr
    | comm op b' cs =>
      simp only [kname, Option.some.injEq] at hl hr
      subst hr
      simp [sameBranches, sameType, name_base_ne_op hl op]
    | change c a b' =>
      simp only [kname, Option.some.injEq] at hl hr
      subst hr
      simp [sameBranches, sameType, name_base_ne_change hl c]
  | comm op b cs =>
    cases r with
    | base b' =>
      simp only [kname, Option.some.injEq] at hl hr
      subst hl
      simp [sameBranches, sameType, Ne.symm (name_base_ne_op hr op)]
    | comm op' b' cs' =>
      simp only [kname, Option.some.injEq] at hl hr
      subst hl hr
      simp only [sameBranches, sameType, isBase, kname, Bool.not_false, Bool.true_and, Option.some.injEq, e2]
      by_cases h : op = op' <;> simp [h]
    | change c a b' =>
      simp only [kname, Option.some.injEq] at hl hr
      subst hl hr
      simp [sameBranches, sameType, e1]
  | change c a a' =>
    cases r with
    | base b' =>
      simp only [kname, Option.some.injEq] at hl hr
      subst hl
      simp [sameBranches, sameType, Ne.symm (name_base_ne_change hr c)]
    | comm op' b' cs' =>
      simp only [kname, Option.some.injEq] at hl hr
      subst hl hr
      simp [sameBranches, sameType, Ne.symm (e1 _ _)]
    | change c' b b' =>
      simp only [kname, Option.some.injEq] at hl hr
      subst hl hr
      simp only [sameBranches, sameType, isBase, kname, Bool.not_false, Bool.true_and, Option.some.injEq]
      cases c <;> cases c' <;> simp [changeName, keq]

theorem erase_comb {g : GK α} {op : Op} {L : List (GK Unit)} (h : erase g = .comb op L) : ∃ parts, g = .comb op parts ∧ parts.map erase = L := by
  cases g with
  | base => simp [erase] at h
  | comb o ps => simp only [erase, GK.comb.injEq, eraseL_eq] at h; obtain ⟨rfl, h⟩ := h; exact ⟨ps, rfl, h⟩
  | change => simp [erase] at h

theorem erase_change {g : GK α} {c : CC} {q : PD Unit} {a b : GK Unit} (h : erase g = .change c q a b) :
    ∃ p x y, g = .change c p x y ∧ mapPD (fun _ => ()) p = q ∧ erase x = a ∧ erase y = b := by
  cases g with
  | base => simp [erase] at h
  | comb => simp [erase] at h
  | change c' p x y => simp only [erase, GK.change.injEq] at h; obtain ⟨rfl, h1, h2, h3⟩ := h; exact ⟨p, x, y, rfl, h1, h2, h3⟩

/-- Properties of the kernel built from an expression. -/
structure Built (cfg : Cfg) (k : KE) (s : GK Unit) : Prop where
  /-- built -/
  ok : toKernel cfg k = .ok s
  /-- its name -/
  name : kname cfg k = some (gname cfg s)
  /-- its kind -/
  base : isBaseK s = k.isBase
  /-- not taken apart -/
  parts : ∀ op, isComm op k = false → partsOf op s = [s]

theorem asLeaf_forget {f : PKE α} {k : KE} (h : forget f = k) (hk : k.isBase = false) : asLeaf f = none := by
  cases f with
  | leaf b p => rw [forget] at h; subst h; simp [isBase] at hk
  | comm => rfl
  | change => rfl

mutual
theorem main (cfg : Cfg) (k : KE) (h : Nice k) : ∃ s, Built cfg k s ∧ ∀ g : GK α, erase g = s → ∀ (d : Str → Option α) (pre : Str), pre ≠ [] →
    (∀ key, d (pre ++ key) = pyDict (flat cfg g) key) → ∃ f, matchUp cfg d false pre k = .ok f ∧ Good cfg k f g := by
  cases k with
  | base b =>
    have hb : b.isSigmoid = false := h.2.2.2.2 b (by simp [bases])
    refine ⟨.base b (linked (basePars cfg b)), ⟨?_, ?_, rfl, fun _ _ => rfl⟩, ?_⟩
    · cases b <;> simp [Base.isSigmoid] at hb <;> rfl
    · cases b <;> simp [Base.isSigmoid] at hb <;> rfl
    · intro g hg d pre _ hd
      obtain ⟨p, rfl, hp⟩ := erase_base hg
      have hnv : ∀ q ∈ basePars cfg b, q.get p ≠ none := by
        intro q hq h
        have := congrArg (fun x => q.get x) hp
        simp only [get_map, get_linked, if_pos hq, h] at this
        simp at this
      have hlook : lookupPars d false pre (basePars cfg b) = .ok p := by
        refine lookup_ok _ _ _ _ _ ?_ (fun q hq h => absurd h (hnv q hq)) (fun q hq => has_out (Or.inl hp) hq)
        intro q hq
        rw [hd, flat, pyDict_own, if_pos hq]
      refine ⟨.leaf b p, ?_, ?_, by rw [forget], ?_⟩
      · simp only [matchUp, hlook, bind, Except.bind]; rfl
      · rw [Carries]
      · intro P _ hP
        rw [Fitted]
        refine ⟨hb, ?_⟩
        intro hse
        subst hse
        rw [SEOK, lsOK] at hP
        cases h3 : p.lengthscale with
        | some z => exact ⟨z, rfl, hP rfl z h3⟩
        | none => exact absurd h3 (hnv .lengthscale (by simp [basePars]))
  | comm op b cs =>
    obtain ⟨h1, h2, h3, h4, h5, h6⟩ := nice_comm h
    obtain ⟨ks, k1, k2, k3, k4, k5⟩ := mainL cfg cs h6
    have hlen : (orderBase b.elements).length = b.elements.length := (List.perm_insertionSort _ _).length_eq
    have hL2 : 2 ≤ (baseParts cfg op (orderBase b.elements) ++ ks).length := by
      rw [List.length_append, baseParts_length, hlen, k4]; omega
    have hLp : ∀ g ∈ baseParts cfg op (orderBase b.elements) ++ ks, partsOf op g = [g] := by
      intro g hg
      rcases List.mem_append.1 hg with hg | hg
      · exact baseParts_parts cfg op op _ g hg
      · exact k3 op h5 g hg
    obtain ⟨s, s1, _, s3, _⟩ := reduceK_ok hLp (by intro h0; rw [h0] at hL2; simp at hL2)
    have s3 := s3 hL2
    subst s3
    refine ⟨_, ⟨by rw [toKernel_comm h3 k1, s1], rfl, rfl, ?_⟩, ?_⟩
    · intro op' ho
      have : op ≠ op' := by simpa [isComm] using ho
      rw [partsOf, if_neg this]
    · intro g hg d pre hpre hd
      obtain ⟨parts, rfl, hparts⟩ := erase_comb hg
      obtain ⟨gb, gc, rfl, hgb, hgc⟩ := List.map_eq_append_iff.1 hparts
      rw [flat] at hd
      refine good_node h1 h2 h3 hgb ?_ hd (root := false) (pre0 := pre) ?_ ?_ (by simp [partsOf]) (fun P hP => by rwa [SEOK] at hP)
      · intro g hg
        have := k2 (erase g) (by rw [← hgc]; exact List.mem_map.2 ⟨g, hg, rfl⟩)
        rwa [isBaseK_erase] at this
      · rw [startPrefix]; simp [hpre]
      · intro seen hseen
        exact k5 gc hgc d pre gb seen hd hseen
  | change c l r =>
    obtain ⟨h1, h2⟩ := nice_change h
    obtain ⟨sl, bl, ml⟩ := main cfg l h1
    obtain ⟨sr, br, mr⟩ := main cfg r h2
    refine ⟨.change c (linked (changePars cfg c)) sl sr, ⟨?_, rfl, rfl, fun _ _ => rfl⟩, ?_⟩
    · simp only [toKernel, bl.ok, br.ok, bind, Except.bind]; rfl
    · intro g hg d pre hpre hd
      obtain ⟨p, x, y, rfl, hp, rfl, rfl⟩ := erase_change hg
      have nl : kname cfg l = some (gname cfg x) := by rw [bl.name, gname_erase]
      have nr : kname cfg r = some (gname cfg y) := by rw [br.name, gname_erase]
      refine good_change hp nl nr (same_branches nl nr) hd (by rw [startPrefix]; simp [hpre]) ?_ ?_
      · intro pre' hp' hd'; exact ml x rfl d pre' hp' hd'
      · intro pre' hp' hd'; exact mr y rfl d pre' hp' hd'
theorem mainL (cfg : Cfg) (cs : List KE) (h : ∀ k ∈ cs, k.isBase = false ∧ Nice k) :
    ∃ ks, toKernelL cfg cs = .ok ks ∧ (∀ s ∈ ks, isBaseK s = false) ∧ (∀ op, (∀ k ∈ cs, isComm op k = false) → ∀ s ∈ ks, partsOf op s = [s]) ∧
      ks.length = cs.length ∧ ∀ gc : List (GK α), gc.map erase = ks → ∀ (d : Str → Option α) (pre : Str) (xs : List (GK α)) (seen : Seen),
        (∀ key, d (pre ++ key) = pyDict (flatL cfg [] (xs ++ gc)) key) →
        (∀ n, (∃ o, n = opName o) ∨ (∃ c, n = changeName c) → seen.count (.ct n) = (xs.map (gname cfg)).count n) →
        ∃ cts, matchUpL cfg d pre seen cs = .ok cts ∧ GoodL cfg cs cts gc := by
  cases cs with
  | nil =>
    refine ⟨[], rfl, by simp, by simp, rfl, ?_⟩
    intro gc hgc d pre xs seen _ _
    simp only [List.map_eq_nil_iff] at hgc
    subst hgc
    exact ⟨[], rfl, by rw [CarriesL], rfl, fun P _ _ => by rw [FittedL]; trivial⟩
  | cons k cs =>
    have hk := h k (List.mem_cons_self ..)
    obtain ⟨s, bs, ms⟩ := main cfg k hk.2
    obtain ⟨ks, k1, k2, k3, k4, k5⟩ := mainL cfg cs (fun x hx => h x (List.mem_cons_of_mem _ hx))
    refine ⟨s :: ks, ?_, ?_, ?_, by simp [k4], ?_⟩
    · simp only [toKernelL, bs.ok, k1, bind, Except.bind]; rfl
    · intro x hx
      rcases List.mem_cons.1 hx with rfl | hx
      · rw [bs.base]; exact hk.1
      · exact k2 x hx
    · intro op hop x hx
      rcases List.mem_cons.1 hx with rfl | hx
      · exact bs.parts op (hop k (List.mem_cons_self ..))
      · exact k3 op (fun y hy => hop y (List.mem_cons_of_mem _ hy)) x hx
    · intro gc hgc d pre xs seen hd hseen
      cases gc with
      | nil => simp at hgc
      | cons g gc =>
        simp only [List.map_cons, List.cons.injEq] at hgc
        have hname : kname cfg k = some (gname cfg g) := by rw [bs.name, ← hgc.1, gname_erase]
        have hcomp : (∃ o, gname cfg g = opName o) ∨ (∃ c, gname cfg g = changeName c) := by
          have hb : isBaseK g = false := by rw [← isBaseK_erase, hgc.1, bs.base]; exact hk.1
          cases g with
          | base => simp [isBaseK] at hb
          | comb o _ => exact Or.inl ⟨o, rfl⟩
          | change c _ _ _ => exact Or.inr ⟨c, rfl⟩
        have hcnt : (Key.ct (gname cfg g) :: seen).count (.ct (gname cfg g)) = (xs.map (gname cfg)).reverse.count (gname cfg g) + 1 := by
          rw [List.count_cons_self, hseen _ hcomp, List.count_reverse]
        obtain ⟨f, hf, gf⟩ := ms g hgc.1 d (pre ++ gname cfg g ++ postfixOf ((Key.ct (gname cfg g) :: seen).count (.ct (gname cfg g))))
          (by rw [postfixOf]; split <;> simp) (by
            intro key
            rw [hcnt, List.append_assoc, List.append_assoc, ← List.append_assoc (gname cfg g), postfix_sib, hd]
            have := pyDict_child cfg xs g gc [] key
            rwa [List.append_nil] at this)
        obtain ⟨cts, hcts, gcts⟩ := k5 gc hgc.2 d pre (xs ++ [g]) (.ct (gname cfg g) :: seen) (by simpa using hd) (by
          intro n hn
          rw [List.count_cons, hseen n hn, List.map_append, List.count_append, List.map_cons, List.map_nil, List.count_singleton]
          congr 1
          by_cases e : gname cfg g = n <;> simp [e])
        refine ⟨f :: cts, ?_, ?_, ?_, ?_⟩
        · simp only [matchUpL, hname, hf, hcts, bind, Except.bind]; rfl
        · rw [CarriesL]; exact ⟨g, gc, rfl, gf.1, gcts.1⟩
        · rw [forgetL, gf.2.1, gcts.2.1]
        · intro P hc hP
          simp only [allNodesL, Bool.and_eq_true] at hc
          rw [SEOKL] at hP
          rw [FittedL]
          exact ⟨⟨asLeaf_forget gf.2.1 hk.1, gf.2.2 P hc.1 hP.1⟩, gcts.2.2 P hc.2 hP.2⟩
end

/-! ## The root -/

theorem pyDict_prefix (f : Str) (l : List (Str × α)) (key : Str) : pyDict (l.map (fun e => (f ++ e.1, e.2))) (f ++ key) = pyDict l key := by
  induction l with
  | nil => rfl
  | cons e l ih => obtain ⟨k, v⟩ := e; simp [pyDict, ih]

theorem dict_root (cfg : Cfg) (g : GK α) (key : Str) : pyDict (paramList cfg g) (regression ++ key) = pyDict (flatL cfg [] [g]) key := by
  have : paramList cfg g = (flatL cfg [] [g]).map (fun e => (regression ++ e.1, e.2)) := by
    simp only [paramList, flatL, List.append_nil, List.map_map]
    refine List.map_congr_left ?_
    intro e _
    simp [under, sib]
  rw [this, pyDict_prefix]

theorem dict_root_name (cfg : Cfg) (g : GK α) (key : Str) : pyDict (paramList cfg g) (regression ++ (gname cfg g ++ ['.']) ++ key) = pyDict (flat cfg g) key := by
  rw [List.append_assoc, dict_root]
  have := pyDict_child cfg [] g [] [] key
  simpa [sib] using this

theorem matchable_comm {op : Op} {b : Counter} {cs : List KE} (h : Matchable (comm op b cs)) :
    b.WF ∧ b.Pos ∧ (∀ x ∈ b.elements, x.isSigmoid = false) ∧ 1 ≤ b.elements.length + cs.length ∧ (∀ k ∈ cs, isComm op k = false) ∧
      ∀ k ∈ cs, k.isBase = false ∧ Nice k := by
  obtain ⟨h1, h2, h3, h4, h5⟩ := h
  rw [wf_comm] at h1
  simp only [noEmpty, alternating, allBelow, allNodes, Bool.and_eq_true, allNodesL_iff, isEmptyNode, altNode, Bool.not_eq_true',
    List.all_eq_true, Bool.and_eq_false_iff, decide_eq_false_iff_not] at h2 h3 h4
  simp only [bases, basesL_eq, List.mem_append, List.mem_flatMap] at h5
  refine ⟨h1.1, h1.2.1, fun x hx => h5 x (Or.inl hx), ?_, h4.1, ?_⟩
  · rcases Nat.lt_or_ge (b.elements.length + cs.length) 1 with h7 | h7
    · have h8 : b.elements.length = 0 ∧ cs.length = 0 := by omega
      rw [List.length_eq_zero_iff, List.length_eq_zero_iff] at h8
      rcases h2.1 with h9 | h9
      · exact absurd h8.1 h9
      · rw [h8.2] at h9; simp at h9
    · exact h7
  · intro k hk
    exact ⟨(h1.2.2 k hk).1, (h1.2.2 k hk).2, h2.2 k hk, by simpa using h3 k hk, h4.2 k hk, fun x hx => h5 x (Or.inr ⟨k, hk, hx⟩)⟩

theorem matchable_change {c : CC} {l r : KE} (h : Matchable (change c l r)) : Nice l ∧ Nice r := by
  obtain ⟨h1, h2, h3, h4, h5⟩ := h
  rw [wf_change] at h1
  simp only [noEmpty, alternating, allBelow, allNodes, Bool.and_eq_true] at h2 h3 h4
  simp only [bases, List.mem_append] at h5
  exact ⟨⟨h1.1, h2.1.2, h3.1, h4.1.2, fun x hx => h5 x (Or.inl hx)⟩, h1.2, h2.2, h3.2, h4.2, fun x hx => h5 x (Or.inr hx)⟩

theorem root (cfg : Cfg) (k : KE) (h : Matchable k) (hk : k.isBase = false) : ∃ s, toKernel cfg k = .ok s ∧
    ∀ g : GK α, erase g = s → ∃ f, fitParams cfg g k = .ok f ∧ Good cfg k f g := by
  cases k with
  | base b => simp [isBase] at hk
  | comm op b cs =>
    obtain ⟨h1, h2, h3, h4, h5, h6⟩ := matchable_comm h
    obtain ⟨ks, k1, k2, k3, k4, k5⟩ := mainL cfg cs h6
    have hlen : (orderBase b.elements).length = b.elements.length := (List.perm_insertionSort _ _).length_eq
    have hL : (baseParts cfg op (orderBase b.elements) ++ ks).length = b.elements.length + cs.length := by
      rw [List.length_append, baseParts_length, hlen, k4]
    have hLp : ∀ g ∈ baseParts cfg op (orderBase b.elements) ++ ks, partsOf op g = [g] := by
      intro g hg
      rcases List.mem_append.1 hg with hg | hg
      · exact baseParts_parts cfg op op _ g hg
      · exact k3 op h5 g hg
    obtain ⟨s, s1, s2, s3, s4⟩ := reduceK_ok hLp (by intro h0; rw [h0] at hL; simp at hL; omega)
    refine ⟨s, by rw [toKernel_comm h3 k1, s1], ?_⟩
    rintro g rfl
    rw [partsOf_erase] at s2
    obtain ⟨gb, gc, hpg, hgb, hgc⟩ := List.map_eq_append_iff.1 s2
    have ht : b.total + cs.length = ((b.elements.length + cs.length : Nat) : Int) := by
      have := Counter.length_elements h2
      omega
    have hbase : ∀ g ∈ gc, isBaseK g = false := by
      intro g hg
      have := k2 (erase g) (by rw [← hgc]; exact List.mem_map.2 ⟨g, hg, rfl⟩)
      rwa [isBaseK_erase] at this
    by_cases hone : b.elements.length + cs.length = 1
    · obtain ⟨x, hx⟩ := List.length_eq_one_iff.1 (hL.trans hone)
      have hgp : partsOf op g = [g] := by
        have e := s4 x hx
        have h7 := hLp x (by rw [hx]; simp)
        rw [← e, partsOf_erase] at h7
        have h8 : (partsOf op g).length = 1 := by simpa using congrArg List.length h7
        cases g with
        | base => rfl
        | change => rfl
        | comb o ps =>
          rw [partsOf] at h7 h8 ⊢
          by_cases ho : o = op
          · exfalso
            rw [if_pos ho] at h7
            obtain ⟨y, hy⟩ := List.length_eq_one_iff.1 (by rw [if_pos ho] at h8; exact h8)
            subst hy ho
            simp only [List.map_cons, List.map_nil, List.cons.injEq, and_true, erase, eraseL] at h7
            have := congrArg sizeOf h7
            simp at this
            omega
          · rw [if_neg ho]
      have hd : ∀ key, pyDict (paramList cfg g) (regression ++ key) = pyDict (flatL cfg [] (gb ++ gc)) key := by
        intro key; rw [dict_root, ← hpg, hgp]
      refine good_node h1 h2 h3 hgb hbase hd (root := true) (pre0 := regression) ?_ ?_ hpg ?_
      · rw [if_pos (by rw [ht, hone]; rfl), startPrefix]; simp
      · intro seen hseen; exact k5 gc hgc _ _ gb seen hd hseen
      · intro P hP
        rw [← hpg, hgp, SEOKL, SEOKL]
        exact ⟨hP, trivial⟩
    · have h2' : 2 ≤ (baseParts cfg op (orderBase b.elements) ++ ks).length := by rw [hL]; omega
      obtain ⟨parts, rfl, hparts⟩ := erase_comb (s3 h2')
      rw [partsOf, if_pos rfl] at hpg
      subst hpg
      have hd : ∀ key, pyDict (paramList cfg (.comb op (gb ++ gc))) (regression ++ (opName op ++ ['.']) ++ key) = pyDict (flatL cfg [] (gb ++ gc)) key := by
        intro key; exact dict_root_name cfg (.comb op (gb ++ gc)) key
      refine good_node h1 h2 h3 hgb hbase hd (root := true) (pre0 := regression) ?_ ?_ (by simp [partsOf]) (fun P hP => by rwa [SEOK] at hP)
      · rw [if_neg (by rw [ht]; omega), startPrefix]; simp
      · intro seen hseen; exact k5 gc hgc _ _ gb seen hd hseen
  | change c l r =>
    obtain ⟨h1, h2⟩ := matchable_change h
    obtain ⟨sl, bl, ml⟩ := main cfg l h1
    obtain ⟨sr, br, mr⟩ := main cfg r h2
    refine ⟨.change c (linked (changePars cfg c)) sl sr, ?_, ?_⟩
    · simp only [toKernel, bl.ok, br.ok, bind, Except.bind]; rfl
    · intro g hg
      obtain ⟨p, x, y, rfl, hp, rfl, rfl⟩ := erase_change hg
      have nl : kname cfg l = some (gname cfg x) := by rw [bl.name, gname_erase]
      have nr : kname cfg r = some (gname cfg y) := by rw [br.name, gname_erase]
      refine good_change hp nl nr (same_branches nl nr) (dict_root_name cfg (.change c p x y)) (root := true) (pre0 := regression)
        (by rw [startPrefix]; simp [gname]) ?_ ?_
      · intro pre' hp' hd'; exact ml x rfl _ pre' hp' hd'
      · intro pre' hp' hd'; exact mr y rfl _ pre' hp' hd'

end Params
end GPyABCD
