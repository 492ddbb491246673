import Verif.Lemmas.PrintLex
import Verif.Lemmas.ParamsCov
import Verif.Lemmas.Normal

/-!
# Lemmas: reading `repr`
-/

namespace GPyABCD
namespace Print
open Params KE

/-- Tokens of a list of texts. -/
def rkStrs (l : List Base) : List (List Tok) := l.map (fun x => [.lit (bname x)])

mutual
/-- Tokens of a `repr`. -/
def rk : KE → List Tok
  | .base b => [.lit (bname b)]
  | .comm op b cs =>
    .name (opClass op) :: .lp :: .lb :: (joinT .comma (rkStrs b.elements) ++ .rb ::
      ((if cs = [] then [] else .comma :: .lb :: (joinT .comma (rks cs) ++ [.rb])) ++ [.rp]))
  | .change c l r => .name changeClass :: .lp :: .lit (cname c) :: .comma :: (rk l ++ .comma :: (rk r ++ [.rp]))
/-- Term by term. -/
def rks : List KE → List (List Tok)
  | [] => []
  | k :: ks => rk k :: rks ks
end

mutual
/-- The expression read from a `repr`. -/
def rast : KE → PyE
  | .base b => .lit (bname b)
  | .comm op b cs =>
    .call (opClass op) (.list (b.elements.map (fun x => .lit (bname x))) :: (if cs = [] then [] else [.list (rasts cs)]))
  | .change c l r => .call changeClass [.lit (cname c), rast l, rast r]
/-- Term by term. -/
def rasts : List KE → List PyE
  | [] => []
  | k :: ks => rast k :: rasts ks
end

/-! ## Scanning -/

theorem lex_inLit (acc s t : Str) (h : '\'' ∉ s) : lex (.lit acc) (s ++ '\'' :: t) = (lex .out t).map (.lit (acc ++ s) :: ·) := by
  induction s generalizing acc with
  | nil => rw [List.nil_append, lex]; simp [scan]
  | cons c s ih =>
    have hc : c ≠ '\'' := by rintro rfl; exact h (List.mem_cons_self ..)
    rw [List.cons_append, lex]
    simp [scan, hc, ih (acc ++ [c]) (fun hx => h (List.mem_cons_of_mem _ hx))]
    rfl

theorem lex_quoted (s t : Str) (h : '\'' ∉ s) : lex .out (quoted s ++ t) = (lex .out t).map (.lit s :: ·) := by
  rw [quoted, List.cons_append, List.append_assoc, lex]
  simp [scan, start, lex_inLit [] s t h]
  rfl

theorem bname_noquote (b : Base) : '\'' ∉ bname b := by cases b <;> decide
theorem cname_noquote (c : CC) : '\'' ∉ cname c := by cases c <;> decide
theorem opClass_chars (o : Op) : (∀ x ∈ opClass o, nameChar x = true) ∧ opClass o ≠ [] := by cases o <;> decide
theorem changeClass_chars : (∀ x ∈ changeClass, nameChar x = true) ∧ changeClass ≠ [] := by decide

theorem lex_lb (t : Str) : lex .out ('[' :: t) = (lex .out t).map (.lb :: ·) := lex_sym (by decide) (by decide) rfl rfl t
theorem lex_rb (t : Str) : lex .out (']' :: t) = (lex .out t).map (.rb :: ·) := lex_sym (by decide) (by decide) rfl rfl t
theorem lex_rp (t : Str) : lex .out (')' :: t) = (lex .out t).map (.rp :: ·) := lex_sym (by decide) (by decide) rfl rfl t
theorem lex_comma (t : Str) : lex .out (',' :: ' ' :: t) = (lex .out t).map (.comma :: ·) := by
  rw [lex_sym (k := .comma) (by decide) (by decide) rfl rfl, lex_space]

/-- `s` has the tokens `ts`, whatever follows. -/
def RReads (s : Str) (ts : List Tok) : Prop := ∀ t, lex .out (s ++ t) = (lex .out t).map (ts ++ ·)

theorem rreads_join : ∀ {ss : List Str} {tss : List (List Tok)}, List.Forall₂ RReads ss tss → RReads (join [',', ' '] ss) (joinT .comma tss)
  | _, _, .nil => by intro t; simp [join, joinT]
  | _, _, .cons (a := s) (b := ts) h .nil => by rw [join, joinT]; exact h
  | _, _, .cons (a := s) (b := ts) h (.cons (a := s') (b := ts') (l₁ := ss) (l₂ := tss) h' hr) => by
    intro t
    rw [join, joinT, List.append_assoc, List.append_assoc, h]
    simp only [List.cons_append, List.nil_append]
    rw [lex_comma, rreads_join (.cons h' hr) t, Option.map_map, Option.map_map]
    congr 1
    funext r
    simp

theorem rreads_names (l : List Base) : List.Forall₂ RReads (l.map (fun x => quoted (bname x))) (rkStrs l) := by
  induction l with
  | nil => exact .nil
  | cons b l ih => exact .cons (fun t => lex_quoted _ t (bname_noquote b)) ih

mutual
theorem rreads (k : KE) : RReads (pyRepr k) (rk k) := by
  cases k with
  | base b => intro t; rw [pyRepr, rk]; exact lex_quoted _ t (bname_noquote b)
  | comm op b cs =>
    have h1 := rreads_join (rreads_names b.elements)
    have h2 := rreads_join (rreadsL cs)
    intro t
    rw [pyRepr, rk]
    simp only [List.append_assoc, List.cons_append, List.nil_append]
    rw [lex_name (opClass_chars op).1 (opClass_chars op).2, lex_lb, h1, lex_rb]
    split
    · simp only [List.nil_append]
      rw [lex_rp]
      simp only [Option.map_map]
      congr 1
    · simp only [List.cons_append, List.append_assoc, List.nil_append]
      rw [lex_comma, lex_lb, h2, lex_rb, lex_rp]
      simp only [Option.map_map]
      congr 1
  | change c l r =>
    have hl := rreads l
    have hr := rreads r
    intro t
    rw [pyRepr, rk]
    simp only [List.append_assoc, List.cons_append, List.nil_append]
    rw [lex_name changeClass_chars.1 changeClass_chars.2, lex_quoted _ _ (cname_noquote c), lex_comma, hl, lex_comma, hr, lex_rp]
    simp only [Option.map_map]
    congr 1
theorem rreadsL (ks : List KE) : List.Forall₂ RReads (reprs ks) (rks ks) := by
  cases ks with
  | nil => rw [reprs, rks]; exact .nil
  | cons k ks => rw [reprs, rks]; exact .cons (rreads k) (rreadsL ks)
end

theorem lex_repr (k : KE) : lex .out (pyRepr k) = some (rk k) := by
  have h := rreads k []
  rw [List.append_nil] at h
  rw [h]
  simp [lex]

/-! ## Parsing -/

/-- `ts` is read as the one factor `e`. -/
def Atom (ts : List Tok) (e : PyE) : Prop :=
  ∀ (f : Frame) (st : List Frame) (rest : List Tok), f.cur = none → run (f :: st) (ts ++ rest) = run ({ f with cur := some e } :: st) rest

theorem atom_lit (s : Str) : Atom [.lit s] (.lit s) := by
  intro f st rest hc
  simp [run, step, hc]

/-- Elements of a list up to its end. -/
theorem run_elems : ∀ {t : List Tok} {ts : List (List Tok)} {e : PyE} {es : List PyE}, Atom t e → List.Forall₂ Atom ts es → ∀ (d : List PyE)
    (st : List Frame) (g : Frame) (rest : List Tok),
    run ({ kind := .list, done := d } :: g :: st) (joinT .comma (t :: ts) ++ .rb :: rest) = run ({ g with cur := some (.list (d ++ e :: es)) } :: st) rest
  | t, _, e, _, h, .nil => by
    intro d st g rest
    rw [joinT, h _ _ _ rfl, run]
    simp [step, Frame.args, Frame.value, addO, mulO]
  | t, _, e, _, h, .cons (a := t') (b := e') (l₁ := ts) (l₂ := es) h' hr => by
    intro d st g rest
    rw [joinT, List.append_assoc, List.cons_append, h _ _ _ rfl, run]
    simp only [step, Frame.value, Option.map_some, addO, mulO]
    rw [run_elems h' hr]
    simp

theorem atom_list {ts : List (List Tok)} {es : List PyE} (h : List.Forall₂ Atom ts es) : Atom (.lb :: (joinT .comma ts ++ [.rb])) (.list es) := by
  intro f st rest hc
  simp only [List.cons_append, List.append_assoc, List.nil_append]
  rw [run]
  simp only [step, hc, Option.isNone_none, if_true]
  cases h with
  | nil => simp [joinT, run, step, Frame.args, Frame.value]
  | cons h hr => rw [run_elems h hr]; simp

/-- A call with one argument. -/
theorem atom_call1 (n : Str) {t : List Tok} {e : PyE} (h : Atom t e) : Atom (.name n :: .lp :: (t ++ [.rp])) (.call n [e]) := by
  intro f st rest hc
  simp only [List.cons_append, List.append_assoc, List.nil_append]
  rw [run]
  simp only [step, hc, Option.isNone_none, if_true]
  rw [run]
  simp only [step]
  rw [h _ _ _ rfl, run]
  simp [step, Frame.args, Frame.value, addO, mulO]

/-- With two. -/
theorem atom_call2 (n : Str) {t t' : List Tok} {e e' : PyE} (h : Atom t e) (h' : Atom t' e') :
    Atom (.name n :: .lp :: (t ++ .comma :: (t' ++ [.rp]))) (.call n [e, e']) := by
  intro f st rest hc
  simp only [List.cons_append, List.append_assoc, List.nil_append]
  rw [run]
  simp only [step, hc, Option.isNone_none, if_true]
  rw [run]
  simp only [step]
  rw [h _ _ _ rfl, run]
  simp only [step, Frame.value, Option.map_some, addO, mulO]
  rw [h' _ _ _ rfl, run]
  simp [step, Frame.args, Frame.value, addO, mulO]

/-- With three. -/
theorem atom_call3 (n : Str) {t t' t'' : List Tok} {e e' e'' : PyE} (h : Atom t e) (h' : Atom t' e') (h'' : Atom t'' e'') :
    Atom (.name n :: .lp :: (t ++ .comma :: (t' ++ .comma :: (t'' ++ [.rp])))) (.call n [e, e', e'']) := by
  intro f st rest hc
  simp only [List.cons_append, List.append_assoc, List.nil_append]
  rw [run]
  simp only [step, hc, Option.isNone_none, if_true]
  rw [run]
  simp only [step]
  rw [h _ _ _ rfl, run]
  simp only [step, Frame.value, Option.map_some, addO, mulO]
  rw [h' _ _ _ rfl, run]
  simp only [step, Frame.value, Option.map_some, addO, mulO]
  rw [h'' _ _ _ rfl, run]
  simp [step, Frame.args, Frame.value, addO, mulO]

theorem atoms_names (l : List Base) : List.Forall₂ Atom (rkStrs l) (l.map (fun x => PyE.lit (bname x))) := by
  induction l with
  | nil => exact .nil
  | cons b l ih => exact .cons (atom_lit _) ih

mutual
theorem atom_repr (k : KE) : Atom (rk k) (rast k) := by
  cases k with
  | base b => rw [rk, rast]; exact atom_lit _
  | comm op b cs =>
    have h1 := atom_list (atoms_names b.elements)
    have h2 := atom_list (atoms_repr cs)
    rw [rk, rast]
    by_cases h : cs = []
    · rw [if_pos h, if_pos h]
      have := atom_call1 (opClass op) h1
      simpa using this
    · rw [if_neg h, if_neg h]
      have := atom_call2 (opClass op) h1 h2
      simpa using this
  | change c l r =>
    rw [rk, rast]
    have := atom_call3 changeClass (atom_lit (cname c)) (atom_repr l) (atom_repr r)
    simpa using this
theorem atoms_repr (ks : List KE) : List.Forall₂ Atom (rks ks) (rasts ks) := by
  cases ks with
  | nil => rw [rks, rasts]; exact .nil
  | cons k ks => rw [rks, rasts]; exact .cons (atom_repr k) (atoms_repr ks)
end

theorem read_repr (k : KE) : read (pyRepr k) = some (rast k) := by
  have h := atom_repr k { kind := .top } [] [] rfl
  rw [List.append_nil] at h
  rw [read, lex_repr]
  simp [h, run, Frame.value, addO, mulO]

/-! ## Evaluation -/

theorem callBase_name (b : Base) : callBase (bname b) = some b := by cases b <;> rfl
theorem callChange_name (c : CC) : callChange (cname c) = some c := by cases c <;> rfl

/-- Counting the elements of a counter gives the counter. -/
theorem put_new {c : Counter} {b : Base} (h : c.has b = false) (v : Int) : c.put b v = c ++ [(b, v)] := by
  induction c with
  | nil => rfl
  | cons p c ih =>
    obtain ⟨k, w⟩ := p
    rw [Counter.has] at h
    split at h
    · simp at h
    · next hk => rw [Counter.put, if_neg hk, ih h]; rfl

theorem put_last {c : Counter} {b : Base} (h : c.has b = false) (w v : Int) : (c ++ [(b, w)] : Counter).put b v = c ++ [(b, v)] := by
  induction c with
  | nil => simp [Counter.put]
  | cons p c ih =>
    obtain ⟨k, w'⟩ := p
    rw [Counter.has] at h
    split at h
    · simp at h
    · next hk => rw [List.cons_append, Counter.put, if_neg hk, ih h]; rfl

theorem get_last {c : Counter} {b : Base} (h : c.has b = false) (w : Int) : (c ++ [(b, w)] : Counter).get b = w := by
  induction c with
  | nil => simp [Counter.get]
  | cons p c ih =>
    obtain ⟨k, w'⟩ := p
    rw [Counter.has] at h
    split at h
    · simp at h
    · next hk => rw [List.cons_append, Counter.get, if_neg hk, ih h]

theorem count_block {c : Counter} {b : Base} (h : c.has b = false) (n : Nat) (w : Int) :
    (c ++ [(b, w)] : Counter).updateList (List.replicate n b) = c ++ [(b, w + n)] := by
  induction n generalizing w with
  | zero => simp [Counter.updateList]
  | succ n ih =>
    rw [List.replicate_succ, Counter.updateList, List.foldl_cons, get_last h, put_last h]
    have := ih (w + 1)
    rw [Counter.updateList] at this
    rw [this]
    push_cast
    rw [show w + 1 + (n : Int) = w + (n + 1) by ring]

theorem get_of_has {c : Counter} {b : Base} (h : c.has b = false) : c.get b = 0 := by
  induction c with
  | nil => rfl
  | cons p c ih =>
    obtain ⟨k, w'⟩ := p
    rw [Counter.has] at h
    split at h
    · simp at h
    · next hk => rw [Counter.get, if_neg hk, ih h]

theorem has_append (c d : Counter) (b : Base) : (c ++ d : Counter).has b = (c.has b || d.has b) := by
  induction c with
  | nil => rfl
  | cons p c ih =>
    obtain ⟨k, w⟩ := p
    rw [List.cons_append, Counter.has, Counter.has, ih]
    split <;> simp

theorem count_elems (d : Counter) : ∀ (c : Counter), (∀ p ∈ d, 0 < p.2) → (d.map Prod.fst).Nodup → (∀ p ∈ d, c.has p.1 = false) →
    c.updateList d.elements = c ++ d := by
  induction d with
  | nil => intro c _ _ _; simp [Counter.updateList, Counter.elements]
  | cons p d ih =>
    intro c hp hn hh
    obtain ⟨b, v⟩ := p
    have hv : 0 < v := hp _ (List.mem_cons_self ..)
    have hb : c.has b = false := hh _ (List.mem_cons_self ..)
    simp only [List.map_cons, List.nodup_cons] at hn
    obtain ⟨n, hn'⟩ : ∃ n : Nat, v.toNat = n + 1 := ⟨v.toNat - 1, by omega⟩
    have e : Counter.elements ((b, v) :: d) = b :: (List.replicate n b ++ Counter.elements d) := by
      rw [Counter.elements, List.flatMap_cons, hn', List.replicate_succ]; rfl
    rw [e, Counter.updateList, List.foldl_cons, List.foldl_append, put_new hb, get_of_has hb]
    have h1 := count_block hb n (0 + 1)
    rw [Counter.updateList] at h1
    rw [h1]
    have hv' : (0 + 1 + (n : Int)) = v := by omega
    rw [hv']
    have h2 := ih (c ++ [(b, v)]) (fun p h => hp p (List.mem_cons_of_mem _ h)) hn.2 (by
      intro p h
      rw [has_append, hh p (List.mem_cons_of_mem _ h)]
      have : b ≠ p.1 := by
        rintro rfl
        exact hn.1 (List.mem_map.2 ⟨p, h, rfl⟩)
      simp [Counter.has, this])
    rw [Counter.updateList] at h2
    rw [h2]
    simp

theorem ofList_elements {c : Counter} (hw : c.WF) (hp : c.Pos) : Counter.ofList c.elements = c := by
  have := count_elems c [] hp hw (fun _ _ => rfl)
  simpa [Counter.ofList] using this

theorem bases_names (cfg : Cfg) (l : List Base) :
    evalKs cfg (l.map (fun x => PyE.lit (bname x))) = some (l.map (fun x => PyV.str (bname x))) ∧ bases? (l.map (fun x => PyV.str (bname x))) = some l := by
  induction l with
  | nil => exact ⟨rfl, rfl⟩
  | cons b l ih => constructor <;> simp [evalKs, evalK, ih.1, bases?, callBase_name, ih.2]

/-- The value of a `repr`. -/
def rval : KE → PyV
  | .base b => .str (bname b)
  | k => .ke k

theorem branch_rval (k : KE) : branch? (rval k) = some k := by cases k <;> simp [rval, branch?, callBase_name]

theorem kes_rval : ∀ (ks : List KE), (∀ k ∈ ks, isBase k = false) → kes? (ks.map rval) = some ks
  | [], _ => rfl
  | k :: ks, h => by
    have hk := h k (List.mem_cons_self ..)
    have ih := kes_rval ks (fun x hx => h x (List.mem_cons_of_mem _ hx))
    cases k <;> simp [isBase] at hk <;> simp [rval, kes?, ih]

theorem below_of_all {x : KE} (h : allNodes (fun n => !n.isSingleton) x = true) : allBelow (fun n => !n.isSingleton) x = true := by
  cases x <;> simp_all [allNodes, allBelow, isSingleton]

theorem construct_comm (cfg : Cfg) (op : Op) (l : List Base) {vs : List PyV} {cs : List KE} (h : kes? vs = some cs) :
    construct cfg (opClass op) [.list (l.map (fun x => PyV.str (bname x))), .list vs] = some (mkL cfg op l cs) := by
  cases op <;> simp [construct, (bases_names cfg l).2, h, opClass]

theorem construct_bases (cfg : Cfg) (op : Op) (l : List Base) :
    construct cfg (opClass op) [.list (l.map (fun x => PyV.str (bname x)))] = some (mkL cfg op l []) := by
  cases op <;> simp [construct, (bases_names cfg l).2, opClass]

/-- Each node of a fully simplified expression is built as it was. -/
theorem eval_normal {cfg : Cfg} (k : KE) (h : KE.normal cfg k = true) : evalK cfg (rast k) = some (rval k) := by
  induction k using KE.ind with
  | base b => simp [rast, evalK, rval]
  | comm op b cs ih =>
    have hsi := simplify_of_normal h
    rw [normal_iff] at h
    obtain ⟨hw, hc, hb, ha⟩ := h
    have hw' := wf_comm.1 hw
    simp only [allNodes, Bool.and_eq_true, allNodesL_iff] at hc
    simp only [allBelow, allNodesL_iff] at hb
    simp only [alternating, allNodes, Bool.and_eq_true, allNodesL_iff] at ha
    have hmk : mkL cfg op b.elements cs = comm op b cs := by rw [mkL, mkC, ofList_elements hw'.1 hw'.2.1, hsi]
    have hl : ∀ l : List KE, (∀ x ∈ l, x ∈ cs) → evalKs cfg (rasts l) = some (l.map rval) := by
      intro l
      induction l with
      | nil => intro _; rfl
      | cons x l ihl =>
        intro hx
        have hm := hx x (List.mem_cons_self ..)
        rw [rasts, evalKs, ih x hm (normal_iff.2 ⟨(hw'.2.2 x hm).2, hc.2 x hm, below_of_all (hb x hm), ha.2 x hm⟩),
          ihl (fun y hy => hx y (List.mem_cons_of_mem _ hy))]
        rfl
    rw [rast, evalK, evalKs, evalK, (bases_names cfg _).1]
    by_cases hz : cs = []
    · subst hz
      simp [evalKs, construct_bases, hmk, rval]
    · rw [if_neg hz]
      simp [evalKs, evalK, hl cs (fun _ h => h), construct_comm cfg op _ (kes_rval cs (fun x hx => (hw'.2.2 x hx).1)), hmk, rval]
  | change c l r hl hr =>
    have hsi := simplify_of_normal h
    rw [normal_iff] at h
    obtain ⟨hw, hc, hb, ha⟩ := h
    have hw' := wf_change.1 hw
    simp only [allNodes, Bool.and_eq_true] at hc
    simp only [allBelow, Bool.and_eq_true] at hb
    simp only [alternating, allNodes, Bool.and_eq_true] at ha
    have h1 := hl (normal_iff.2 ⟨hw'.1, hc.1.2, below_of_all hb.1, ha.1.2⟩)
    have h2 := hr (normal_iff.2 ⟨hw'.2, hc.2, below_of_all hb.2, ha.2⟩)
    have hmk : mkChange cfg c l r = change c l r := hsi
    rw [rast, evalK]
    simp [evalKs, evalK, h1, h2, construct, callChange_name, branch_rval, hmk]
    rfl

/-- What simplification leaves equal is fully simplified. -/
theorem normal_of_stable {cfg : Cfg} {k : KE} (hw : wf k = true) (h : keq (simplify cfg k) k = true) : KE.normal cfg k = true := by
  have hS := (keq_iff _ _).1 h
  have hw' := wf_simplify cfg k hw
  refine normal_iff.2 ⟨hw, allNodes_same (canon_same cfg) _ _ hw' hw hS (canon_simplify cfg k hw),
    allBelow_same singleton_same hw' hw hS (allBelow_simplify cfg k hw), ?_⟩
  by_contra ha
  have h1 := nodes_simplify_lt cfg k hw (by simpa using ha)
  have h2 := nodes_same hS
  omega

end Print
end GPyABCD
