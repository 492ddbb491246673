import Verif.Lemmas.ParamsName
import Verif.Lemmas.Counter

/-!
# Matching the parameters of one node
-/

namespace GPyABCD
namespace Params
open Sops

variable {α : Type}

/-! ## Parameters of one term -/

theorem PD_ext {p p' : PD α} (h : ∀ q : Par, q.get p = q.get p') : p = p' := by
  obtain ⟨a, b, c, d, e, f, g⟩ := p
  obtain ⟨a', b', c', d', e', f', g'⟩ := p'
  have h1 := h .variance; have h2 := h .lengthscale; have h3 := h .period; have h4 := h .offset
  have h5 := h .location; have h6 := h .slope; have h7 := h .width
  simp only [Par.get] at h1 h2 h3 h4 h5 h6 h7
  subst h1 h2 h3 h4 h5 h6 h7; rfl

theorem get_put (p : PD α) (v : α) (q q' : Par) : q.get (q'.put p v) = if q = q' then some v else q.get p := by
  cases q <;> cases q' <;> rfl

theorem get_map {β : Type} (f : α → β) (p : PD α) (q : Par) : q.get (mapPD f p) = (q.get p).map f := by cases q <;> rfl

theorem get_noVar (p : PD α) (q : Par) : q.get p.noVar = if q = .variance then none else q.get p := by cases q <;> rfl

theorem get_linked (ps : List Par) (q : Par) : q.get (linked ps) = if q ∈ ps then some () else none := by
  have h : ∀ (ps : List Par) (p : PD Unit), q.get (ps.foldl (fun p q => q.put p ()) p) = if q ∈ ps then some () else q.get p := by
    intro ps
    induction ps with
    | nil => intro p; simp
    | cons q' ps ih =>
      intro p
      rw [List.foldl_cons, ih, get_put]
      by_cases h1 : q ∈ ps <;> by_cases h2 : q = q' <;> simp [h1, h2]
  rw [linked, h]
  cases q <;> rfl

theorem lookup_ok (d : Str → Option α) (skip : Bool) (pre : Str) (ps : List Par) (p : PD α) (hd : ∀ q ∈ ps, d (pre ++ q.str) = q.get p)
    (hs : ∀ q ∈ ps, q.get p = none → skip = true ∧ q = .variance) (ho : ∀ q, q ∉ ps → q.get p = none) : lookupPars d skip pre ps = .ok p := by
  have : ∃ r, lookupPars d skip pre ps = .ok r ∧ ∀ q, q.get r = if q ∈ ps then q.get p else none := by
    clear ho
    induction ps with
    | nil => exact ⟨{}, rfl, fun q => by cases q <;> rfl⟩
    | cons q0 qs ih =>
      obtain ⟨r, e, h⟩ := ih (fun q hq => hd q (List.mem_cons_of_mem _ hq)) (fun q hq => hs q (List.mem_cons_of_mem _ hq))
      rw [lookupPars, hd q0 (List.mem_cons_self ..)]
      cases hg : q0.get p with
      | some v =>
        refine ⟨q0.put r v, by simp only [e, bind, Except.bind, pure, Except.pure], fun q => ?_⟩
        rw [get_put, h]
        by_cases hq : q = q0
        · subst hq; simp [hg]
        · simp [hq]
      | none =>
        obtain ⟨h1, h2⟩ := hs q0 (List.mem_cons_self ..) hg
        refine ⟨r, by rw [← e, h1, h2]; rfl, fun q => ?_⟩
        rw [h]
        by_cases hq : q = q0
        · subst hq; simp [hg]
        · simp [hq]
  obtain ⟨r, e, h⟩ := this
  rw [e]
  congr 1
  refine PD_ext (fun q => ?_)
  rw [h]
  split
  · rfl
  · rename_i hq; exact (ho q hq).symm

/-- A term with all its parameters, or all but its variance. -/
def Has (ps : List Par) (p : PD α) : Prop :=
  mapPD (fun _ => ()) p = linked ps ∨ mapPD (fun _ => ()) p = (linked ps).noVar

theorem has_in {ps : List Par} {p : PD α} (h : Has ps p) {q : Par} (hq : q ∈ ps) (hn : q.get p = none) : q = .variance := by
  rcases h with h | h
  · have := congrArg (fun x => q.get x) h
    simp only [get_map, get_linked, if_pos hq, hn] at this
    simp at this
  · have := congrArg (fun x => q.get x) h
    simp only [get_map, get_noVar, get_linked, if_pos hq, hn] at this
    by_contra hne
    simp [hne] at this

theorem has_out {ps : List Par} {p : PD α} (h : Has ps p) {q : Par} (hq : q ∉ ps) : q.get p = none := by
  rcases h with h | h <;> have := congrArg (fun x => q.get x) h <;>
    simp only [get_map, get_noVar, get_linked, if_neg hq, ite_self, Option.map_eq_none_iff] at this <;> exact this

/-! ## Kernels -/

theorem eraseL_eq (l : List (GK α)) : eraseL l = l.map erase := by
  induction l with
  | nil => rfl
  | cons k l ih => rw [eraseL, ih, List.map_cons]

theorem gname_erase (cfg : Cfg) (g : GK α) : gname cfg (erase g) = gname cfg g := by cases g <;> simp [erase, gname]

/-- Base kernels. -/
def isBaseK : GK α → Bool
  | .base _ _ => true
  | _ => false

theorem dictsOf_append (b : Base) (xs ys : List (GK α)) : dictsOf b (xs ++ ys) = dictsOf b xs ++ dictsOf b ys := by
  induction xs with
  | nil => rfl
  | cons x xs ih => cases x <;> simp only [List.cons_append, dictsOf, ih]; split <;> rfl

theorem composites_append (xs ys : List (GK α)) : composites (xs ++ ys) = composites xs ++ composites ys := by
  induction xs with
  | nil => rfl
  | cons x xs ih => cases x <;> simp only [List.cons_append, composites, ih]

theorem variances_append (xs ys : List (GK α)) : variances (xs ++ ys) = variances xs ++ variances ys := by
  induction xs with
  | nil => rfl
  | cons x xs ih => cases x <;> simp only [List.cons_append, variances, ih, List.append_assoc]

theorem of_not_base {xs : List (GK α)} (h : ∀ x ∈ xs, isBaseK x = false) : composites xs = xs ∧ variances xs = [] ∧ ∀ b, dictsOf b xs = [] := by
  induction xs with
  | nil => exact ⟨rfl, rfl, fun _ => rfl⟩
  | cons x xs ih =>
    obtain ⟨h1, h2, h3⟩ := ih (fun y hy => h y (List.mem_cons_of_mem _ hy))
    have hx := h x (List.mem_cons_self ..)
    cases x with
    | base => simp [isBaseK] at hx
    | comb => exact ⟨by rw [composites, h1]; simp, by rw [variances, h2]; simp, fun b => by rw [dictsOf, h3]; simp⟩
    | change => exact ⟨by rw [composites, h1]; simp, by rw [variances, h2]; simp, fun b => by rw [dictsOf, h3]; simp⟩

theorem composites_base {xs : List (GK α)} (h : ∀ x ∈ xs, isBaseK x = true) : composites xs = [] := by
  induction xs with
  | nil => rfl
  | cons x xs ih =>
    have hx := h x (List.mem_cons_self ..)
    cases x with
    | base => rw [composites]; exact ih (fun y hy => h y (List.mem_cons_of_mem _ hy))
    | comb => simp [isBaseK] at hx
    | change => simp [isBaseK] at hx

theorem dictsOf_split {b : Base} {parts : List (GK α)} {j : Nat} {p : PD α} (h : (dictsOf b parts)[j]? = some p) :
    ∃ xs ys, parts = xs ++ .base b p :: ys ∧ (dictsOf b xs).length = j := by
  induction parts generalizing j with
  | nil => simp [dictsOf] at h
  | cons x parts ih =>
    have other : dictsOf b [x] = [] → dictsOf b (x :: parts) = dictsOf b parts → ∃ xs ys, x :: parts = xs ++ .base b p :: ys ∧ (dictsOf b xs).length = j := by
      intro h0 h1
      rw [h1] at h
      obtain ⟨xs, ys, e1, e2⟩ := ih h
      refine ⟨x :: xs, ys, by rw [e1]; rfl, ?_⟩
      rw [show x :: xs = [x] ++ xs from rfl, dictsOf_append, h0]; exact e2
    cases x with
    | base b' p' =>
      by_cases hb : b' = b
      · subst hb
        simp only [dictsOf, if_true] at h
        cases j with
        | zero => simp at h; subst h; exact ⟨[], parts, rfl, rfl⟩
        | succ j =>
          simp only [List.getElem?_cons_succ] at h
          obtain ⟨xs, ys, e1, e2⟩ := ih h
          exact ⟨.base b' p' :: xs, ys, by rw [e1]; rfl, by simp [dictsOf, e2]⟩
      · exact other (by simp [dictsOf, hb]) (by simp [dictsOf, hb])
    | comb => exact other (by simp [dictsOf]) (by simp [dictsOf])
    | change => exact other (by simp [dictsOf]) (by simp [dictsOf])

theorem baseName_ne_nil {cfg : Cfg} {b : Base} {n : Str} (h : baseName cfg b = some n) : n ≠ [] := by
  cases b <;> simp only [baseName, Option.some.injEq, reduceCtorEq] at h <;> subst h <;> (try decide)
  cases cfg.linOffset <;> decide

theorem count_base_names {cfg : Cfg} {b : Base} {n : Str} (hn : baseName cfg b = some n) (xs : List (GK α)) :
    (xs.map (gname cfg)).count n = (dictsOf b xs).length := by
  induction xs with
  | nil => rfl
  | cons x xs ih =>
    rw [List.map_cons, List.count_cons, ih]
    cases x with
    | base b' p =>
      by_cases hb : b' = b
      · subst hb; simp [gname, hn, dictsOf]
      · have : (gname cfg (.base b' p) : Str) ≠ n := by
          simp only [gname]
          cases h' : baseName cfg b' with
          | none => exact fun h => baseName_ne_nil hn h.symm
          | some n' => rintro rfl; exact hb (nameOf_base_inj h' hn)
        simp [dictsOf, hb, this]
    | comb op ps => have := (name_base_ne_op hn op).symm; simp [gname, dictsOf, this]
    | change c p l r => have := (name_base_ne_change hn c).symm; simp [gname, dictsOf, this]

/-- The entries found for the `j`-th occurrence of a base term. -/
theorem lookup_base {cfg : Cfg} {parts : List (GK α)} {d : Str → Option α} {pre : Str}
    (hd : ∀ key, d (pre ++ key) = pyDict (flatL cfg [] parts) key) {b : Base} {n : Str} (hn : baseName cfg b = some n) {j : Nat} {p : PD α}
    (hp : (dictsOf b parts)[j]? = some p) (hh : Has (basePars cfg b) p) :
    lookupPars d true (pre ++ n ++ postfixOf (j + 1)) (basePars cfg b) = .ok p := by
  obtain ⟨xs, ys, rfl, hj⟩ := dictsOf_split hp
  refine lookup_ok _ _ _ _ _ ?_ (fun q hq h => ⟨rfl, has_in hh hq h⟩) (fun q hq => has_out hh hq)
  intro q hq
  have hc := pyDict_child cfg xs (.base b p) ys [] q.str
  have hg : gname cfg (.base b p : GK α) = n := by simp [gname, hn]
  rw [hg] at hc
  have hcount : ((xs.map (gname cfg)).reverse ++ []).count n = j := by
    rw [List.append_nil, List.count_reverse, count_base_names hn, hj]
  rw [← postfix_sib, hcount] at hc
  rw [show pre ++ n ++ postfixOf (j + 1) ++ q.str = pre ++ (n ++ postfixOf (j + 1) ++ q.str) by simp [List.append_assoc], hd, hc, flat, pyDict_own, if_pos hq]

/-! ## The base terms of a node -/

theorem put_new {ps : PDict α} {b : Base} (h : b ∉ ps.map (fun e => e.1)) (l : List (PD α)) : PDict.put ps b l = ps ++ [(b, l)] := by
  induction ps with
  | nil => rfl
  | cons e ps ih =>
    obtain ⟨k, v⟩ := e
    simp only [List.map_cons, List.mem_cons, not_or] at h
    rw [PDict.put, if_neg (fun hh => h.1 hh.symm), ih h.2]; rfl

theorem get_new {ps : PDict α} {b : Base} (h : b ∉ ps.map (fun e => e.1)) : PDict.get ps b = [] := by
  induction ps with
  | nil => rfl
  | cons e ps ih =>
    obtain ⟨k, v⟩ := e
    simp only [List.map_cons, List.mem_cons, not_or] at h
    rw [PDict.get, if_neg (fun hh => h.1 hh.symm), ih h.2]

theorem get_last {ps : PDict α} {b : Base} (h : b ∉ ps.map (fun e => e.1)) (l : List (PD α)) : PDict.get (ps ++ [(b, l)]) b = l := by
  induction ps with
  | nil => simp [PDict.get]
  | cons e ps ih =>
    obtain ⟨k, v⟩ := e
    simp only [List.map_cons, List.mem_cons, not_or] at h
    rw [List.cons_append, PDict.get, if_neg (fun hh => h.1 hh.symm), ih h.2]

theorem put_last {ps : PDict α} {b : Base} (h : b ∉ ps.map (fun e => e.1)) (l l' : List (PD α)) :
    PDict.put (ps ++ [(b, l)]) b l' = ps ++ [(b, l')] := by
  induction ps with
  | nil => simp [PDict.put]
  | cons e ps ih =>
    obtain ⟨k, v⟩ := e
    simp only [List.map_cons, List.mem_cons, not_or] at h
    rw [List.cons_append, PDict.put, if_neg (fun hh => h.1 hh.symm), ih h.2]; rfl

/-- Occurrences of one base term. -/
theorem matchBases_same {cfg : Cfg} {parts : List (GK α)} {d : Str → Option α} {pre : Str}
    (hd : ∀ key, d (pre ++ key) = pyDict (flatL cfg [] parts) key) {b : Base} {n : Str} (hn : baseName cfg b = some n)
    (hh : ∀ p ∈ dictsOf b parts, Has (basePars cfg b) p) (es : List Base) {ps0 : PDict α} (h0 : b ∉ ps0.map (fun e => e.1)) :
    ∀ (m j : Nat) (seen : Seen), 0 < j → seen.count (.bt b) = j → j + m ≤ (dictsOf b parts).length →
      matchBases cfg d pre seen (ps0 ++ [(b, (dictsOf b parts).take j)]) (List.replicate m b ++ es) =
        matchBases cfg d pre (List.replicate m (.bt b) ++ seen) (ps0 ++ [(b, (dictsOf b parts).take (j + m))]) es := by
  intro m
  induction m with
  | zero => intro j seen _ _ _; simp
  | succ m ih =>
    intro j seen hj hs hl
    have hlt : j < (dictsOf b parts).length := by omega
    have hget : (dictsOf b parts)[j]? = some (dictsOf b parts)[j] := List.getElem?_eq_getElem hlt
    have hlk := lookup_base hd hn hget (hh _ (List.getElem_mem hlt))
    rw [List.replicate_succ, List.cons_append, matchBases]
    simp only [hn, List.count_cons_self, hs, hlk, bind, Except.bind]
    rw [PDict.append, get_last h0, put_last h0, List.take_append_getElem hlt,
      ih (j + 1) _ (by omega) (by rw [List.count_cons_self, hs]) (by omega)]
    have : List.replicate m (Key.bt b) ++ Key.bt b :: seen = List.replicate (m + 1) (Key.bt b) ++ seen := by
      rw [List.replicate_succ', List.append_assoc]; rfl
    rw [this, show j + 1 + m = j + (m + 1) by omega]

/-- All base terms of a node. -/
theorem matchBases_ok {cfg : Cfg} {parts : List (GK α)} {d : Str → Option α} {pre : Str}
    (hd : ∀ key, d (pre ++ key) = pyDict (flatL cfg [] parts) key)
    (hh : ∀ b, ∀ p ∈ dictsOf b parts, Has (basePars cfg b) p) :
    ∀ (c : Counter) (seen : Seen) (ps0 : PDict α), c.WF → c.Pos → (∀ e ∈ c, e.1.isSigmoid = false) →
      (∀ e ∈ c, ((dictsOf e.1 parts).length : Int) = e.2) → (∀ e ∈ c, seen.count (.bt e.1) = 0 ∧ e.1 ∉ ps0.map (fun e => e.1)) →
      ∃ seen', matchBases cfg d pre seen ps0 c.elements = .ok (seen', ps0 ++ c.map (fun e => (e.1, dictsOf e.1 parts))) ∧
        ∀ n, seen'.count (.ct n) = seen.count (.ct n) := by
  intro c
  induction c with
  | nil => intro seen ps0 _ _ _ _ _; exact ⟨seen, by simp [Counter.elements, matchBases], fun _ => rfl⟩
  | cons e c ih =>
    intro seen ps0 hw hp hsg hlen hnew
    obtain ⟨b, v⟩ := e
    have hv : 0 < v := hp (b, v) (List.mem_cons_self ..)
    have hl := hlen (b, v) (List.mem_cons_self ..)
    obtain ⟨hs0, hb0⟩ := hnew (b, v) (List.mem_cons_self ..)
    simp only at hl hs0 hb0
    have hbs := hsg (b, v) (List.mem_cons_self ..)
    obtain ⟨n, hn⟩ : ∃ n, baseName cfg b = some n := by cases b <;> simp [Base.isSigmoid] at hbs <;> exact ⟨_, rfl⟩
    have hw' : b ∉ c.map Prod.fst ∧ Counter.WF c := by simpa [Counter.WF] using hw
    obtain ⟨m, hm⟩ : ∃ m : Nat, v.toNat = m + 1 := ⟨v.toNat - 1, by omega⟩
    have h0lt : 0 < (dictsOf b parts).length := by omega
    have hget : (dictsOf b parts)[0]? = some (dictsOf b parts)[0] := List.getElem?_eq_getElem h0lt
    have hlk := lookup_base hd hn hget (hh b _ (List.getElem_mem h0lt))
    have hel : Counter.elements ((b, v) :: c) = b :: (List.replicate m b ++ Counter.elements c) := by
      simp [Counter.elements, hm, List.replicate_succ]
    have hone := matchBases_same hd hn (hh b) (Counter.elements c) hb0 m 1 (.bt b :: seen) (by omega) (by rw [List.count_cons_self, hs0]) (by omega)
    have htake : (dictsOf b parts).take (1 + m) = dictsOf b parts := List.take_of_length_le (by omega)
    have ht1 : (dictsOf b parts).take 1 = [(dictsOf b parts)[0]] := by
      rw [List.take_one, List.head?_eq_getElem?, hget]; rfl
    obtain ⟨seen', e', h'⟩ := ih (List.replicate m (.bt b) ++ .bt b :: seen) (ps0 ++ [(b, dictsOf b parts)]) hw'.2
      (fun e he => hp e (List.mem_cons_of_mem _ he)) (fun e he => hsg e (List.mem_cons_of_mem _ he)) (fun e he => hlen e (List.mem_cons_of_mem _ he)) (by
        intro e he
        have hne : e.1 ≠ b := by
          rintro rfl
          exact hw'.1 (List.mem_map.2 ⟨e, he, rfl⟩)
        obtain ⟨h1, h2⟩ := hnew e (List.mem_cons_of_mem _ he)
        refine ⟨?_, by simp only [List.map_append, List.mem_append, not_or]; exact ⟨h2, by simpa using hne⟩⟩
        have hne' : (Key.bt b : Key) ≠ Key.bt e.1 := fun h => hne (Key.bt.inj h).symm
        rw [List.count_append, List.count_cons, h1, List.count_replicate]
        simp [hne'])
    refine ⟨seen', ?_, fun n' => ?_⟩
    · rw [hel, matchBases]
      simp only [hn, List.count_cons_self, hs0, hlk, bind, Except.bind]
      rw [PDict.append, get_new hb0, put_new hb0, List.nil_append, ← ht1, hone, htake, e']
      simp
    · rw [h', List.count_append, List.count_cons, List.count_replicate]
      simp

end Params
end GPyABCD
