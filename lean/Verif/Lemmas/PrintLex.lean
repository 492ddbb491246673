import Verif.Spec.Print

/-!
# Lemmas: the tokens of printed forms
-/

namespace GPyABCD
namespace Print
open Params KE

/-- Tokens joined by one. -/
def joinT (sep : Tok) : List (List Tok) → List Tok
  | [] => []
  | [x] => x
  | x :: y :: r => x ++ sep :: joinT sep (y :: r)

/-- Tokens of a call without arguments. -/
def tkBase (b : Base) : List Tok := [.name (bname b), .lp, .rp]

mutual
/-- Tokens of a printed form. -/
def tk : KE → List Tok
  | .base b => tkBase b
  | .comm .sum b cs => joinT .plus ((orderBase b.elements).map tkBase ++ tks cs)
  | .comm .prod b cs => joinT .star ((orderBase b.elements).map tkBase ++ tkBs cs)
  | .change c l r => .name (cname c) :: .lp :: (tk l ++ .comma :: (tk r ++ [.rp]))
/-- Terms of a sum. -/
def tks : List KE → List (List Tok)
  | [] => []
  | k :: ks => tk k :: tks ks
/-- Terms of a product. -/
def tkBs : List KE → List (List Tok)
  | [] => []
  | k :: ks => (if KE.isComm .sum k then .lp :: (tk k ++ [.rp]) else tk k) :: tkBs ks
end

/-- Tokens after the substitution. -/
def L (s : Str) : Option (List Tok) := lex .out (subCalls s)

theorem sub_other {c : Char} (h : upper c = false) (t : Str) : subCalls (c :: t) = c :: subCalls t := by
  rw [subCalls.eq_def]
  simp [matchAt, h, backtrack]

/-- A name in front of something that is no bracket becomes a call. -/
theorem sub_name (b : Base) (hb : b.isSigmoid = false) (t : Str) (ht : ahead t = true) :
    subCalls (bname b ++ t) = bname b ++ '(' :: ')' :: subCalls t := by
  have hu : ∀ c r, t = c :: r → upper c = false := by
    rintro c r rfl
    simp [ahead] at ht
    simpa using ht.2
  have htw : t.takeWhile upper = [] := by
    cases t with
    | nil => rfl
    | cons c r => simp [hu c r rfl]
  cases b <;> simp [Base.isSigmoid] at hb <;>
    (rw [subCalls.eq_def]
     simp [bname, matchAt, backtrack, ht, htw, show upper 'W' = true from rfl, show upper 'N' = true from rfl, show upper 'C' = true from rfl,
       show upper 'L' = true from rfl, show upper 'I' = true from rfl, show upper 'S' = true from rfl, show upper 'E' = true from rfl,
       show upper 'P' = true from rfl, show upper 'R' = true from rfl])

/-- A name in front of a bracket is left alone. -/
theorem sub_cname (c : CC) (t : Str) : subCalls (cname c ++ '(' :: t) = cname c ++ '(' :: subCalls t := by
  have h1 : subCalls ('(' :: t) = '(' :: subCalls t := sub_other rfl t
  have h2 : ∀ x, upper x = true → subCalls (x :: '(' :: t) = x :: '(' :: subCalls t := by
    intro x hx
    rw [subCalls.eq_def]
    simp [matchAt, backtrack, hx, show upper '(' = false from rfl, ahead, h1]
  cases c
  · rw [show cname .CP ++ '(' :: t = 'C' :: 'P' :: '(' :: t from rfl, subCalls.eq_def]
    simp [matchAt, backtrack, show upper 'C' = true from rfl, show upper 'P' = true from rfl, show upper '(' = false from rfl, ahead, h2, cname]
  · rw [show cname .CW ++ '(' :: t = 'C' :: 'W' :: '(' :: t from rfl, subCalls.eq_def]
    simp [matchAt, backtrack, show upper 'C' = true from rfl, show upper 'W' = true from rfl, show upper '(' = false from rfl, ahead, h2, cname]

/-! ## Scanning -/

theorem lex_space (t : Str) : lex .out (' ' :: t) = lex .out t := by
  rw [lex]; simp [scan, start]

theorem lex_sym {c : Char} {k : Tok} (h1 : c ≠ ' ') (h2 : c ≠ '\'') (h3 : nameChar c = false) (h4 : sym c = some k) (t : Str) :
    lex .out (c :: t) = (lex .out t).map (k :: ·) := by
  rw [lex]; simp [scan, start, h1, h2, h3, h4]

/-- A name up to a bracket. -/
theorem lex_inName (acc s t : Str) (h : ∀ c ∈ s, nameChar c = true) :
    lex (.name acc) (s ++ '(' :: t) = (lex .out t).map (fun r => .name (acc ++ s) :: .lp :: r) := by
  induction s generalizing acc with
  | nil =>
    rw [List.nil_append, lex]
    simp [scan, start, show nameChar '(' = false from rfl, sym]
  | cons c s ih =>
    rw [List.cons_append, lex]
    simp [scan, h c (List.mem_cons_self ..), ih (acc ++ [c]) (fun x hx => h x (List.mem_cons_of_mem _ hx))]
    rfl

theorem lex_name {s : Str} (h : ∀ c ∈ s, nameChar c = true) (hs : s ≠ []) (t : Str) :
    lex .out (s ++ '(' :: t) = (lex .out t).map (fun r => .name s :: .lp :: r) := by
  cases s with
  | nil => exact absurd rfl hs
  | cons c s =>
    have hc := h c (List.mem_cons_self ..)
    have h1 : c ≠ ' ' := by rintro rfl; exact absurd hc (by decide)
    have h2 : c ≠ '\'' := by rintro rfl; exact absurd hc (by decide)
    rw [List.cons_append, lex]
    simp [scan, start, hc, h1, h2, lex_inName [c] s t (fun x hx => h x (List.mem_cons_of_mem _ hx))]
    rfl

theorem bname_chars (b : Base) : (∀ c ∈ bname b, nameChar c = true) ∧ bname b ≠ [] := by cases b <;> decide
theorem cname_chars (c : CC) : (∀ x ∈ cname c, nameChar x = true) ∧ cname c ≠ [] := by cases c <;> decide

theorem L_space (t : Str) : L (' ' :: t) = L t := by rw [L, sub_other rfl, lex_space]; rfl

theorem L_sym {c : Char} {k : Tok} (h0 : upper c = false) (h1 : c ≠ ' ') (h2 : c ≠ '\'') (h3 : nameChar c = false) (h4 : sym c = some k)
    (t : Str) : L (c :: t) = (L t).map (k :: ·) := by rw [L, sub_other h0, lex_sym h1 h2 h3 h4]; rfl

theorem L_lp (t : Str) : L ('(' :: t) = (L t).map (.lp :: ·) := L_sym rfl (by decide) (by decide) rfl rfl t
theorem L_rp (t : Str) : L (')' :: t) = (L t).map (.rp :: ·) := L_sym rfl (by decide) (by decide) rfl rfl t
theorem L_comma (t : Str) : L (',' :: t) = (L t).map (.comma :: ·) := L_sym rfl (by decide) (by decide) rfl rfl t
theorem L_plus (t : Str) : L ('+' :: t) = (L t).map (.plus :: ·) := L_sym rfl (by decide) (by decide) rfl rfl t
theorem L_star (t : Str) : L ('*' :: t) = (L t).map (.star :: ·) := L_sym rfl (by decide) (by decide) rfl rfl t

theorem L_base (b : Base) (hb : b.isSigmoid = false) (t : Str) (ht : ahead t = true) :
    L (bname b ++ t) = (L t).map (tkBase b ++ ·) := by
  rw [L, sub_name b hb t ht, lex_name (bname_chars b).1 (bname_chars b).2,
    lex_sym (c := ')') (k := .rp) (by decide) (by decide) rfl rfl, Option.map_map]; rfl

theorem L_change (c : CC) (t : Str) : L (cname c ++ '(' :: t) = (L t).map (fun r => .name (cname c) :: .lp :: r) := by
  rw [L, sub_cname, lex_name (cname_chars c).1 (cname_chars c).2]; rfl

/-- `s` has the tokens `ts`, whatever follows. -/
def Reads (s : Str) (ts : List Tok) : Prop := ∀ t, ahead t = true → L (s ++ t) = (L t).map (ts ++ ·)

theorem reads_join {x : Char} {k : Tok} (hx : ∀ t, L (x :: t) = (L t).map (k :: ·)) :
    ∀ {ss : List Str} {tss : List (List Tok)}, List.Forall₂ Reads ss tss → Reads (join [' ', x, ' '] ss) (joinT k tss)
  | _, _, .nil => by intro t _; simp [join, joinT]
  | _, _, .cons (a := s) (b := ts) h .nil => by rw [join, joinT]; exact h
  | _, _, .cons (a := s) (b := ts) h (.cons (a := s') (b := ts') (l₁ := ss) (l₂ := tss) h' hr) => by
    intro t ht
    rw [join, joinT, List.append_assoc, List.append_assoc, h _ rfl]
    simp only [List.cons_append, List.nil_append]
    rw [L_space, hx, L_space, reads_join hx (.cons h' hr) t ht, Option.map_map, Option.map_map]
    congr 1
    funext r
    simp

theorem reads_bases {l : List Base} (h : ∀ b ∈ l, b.isSigmoid = false) : List.Forall₂ Reads (l.map bname) (l.map tkBase) := by
  induction l with
  | nil => exact .nil
  | cons b l ih =>
    exact .cons (fun t ht => L_base b (h b (List.mem_cons_self ..)) t ht) (ih (fun x hx => h x (List.mem_cons_of_mem _ hx)))

theorem reads_bs {s : Str} {ts : List Tok} (h : Reads s ts) : Reads (bs s) (.lp :: (ts ++ [.rp])) := by
  intro t _
  rw [bs, List.cons_append, L_lp, List.append_assoc, h _ rfl, List.cons_append, List.nil_append, L_rp, Option.map_map, Option.map_map]
  congr 1
  funext r
  simp

theorem mem_orderBase {l : List Base} {b : Base} : b ∈ orderBase l ↔ b ∈ l :=
  (List.perm_insertionSort (fun a b : Base => a.order ≤ b.order) l).mem_iff

mutual
theorem reads_str (k : KE) (hs : ∀ x ∈ bases k, x.isSigmoid = false) : Reads (pyStr k) (tk k) := by
  cases k with
  | base b => rw [pyStr, tk]; exact fun t ht => L_base b (hs b (by simp [bases])) t ht
  | comm op b cs =>
    have hb : ∀ x ∈ orderBase b.elements, x.isSigmoid = false := fun x hx => hs x (by simp [bases, mem_orderBase.1 hx])
    have hc : ∀ x ∈ basesL cs, x.isSigmoid = false := fun x hx => hs x (by simp [bases, hx])
    cases op with
    | sum => rw [pyStr, tk]; exact reads_join L_plus (List.rel_append (reads_bases hb) (reads_strs cs hc))
    | prod => rw [pyStr, tk]; exact reads_join L_star (List.rel_append (reads_bases hb) (reads_brackets cs hc))
  | change c l r =>
    have hl := reads_str l (fun x hx => hs x (by simp [bases, hx]))
    have hr := reads_str r (fun x hx => hs x (by simp [bases, hx]))
    intro t ht
    rw [pyStr, tk, bs]
    simp only [List.append_assoc, List.cons_append, List.nil_append]
    rw [L_change, hl _ rfl, L_comma, L_space, hr _ rfl, L_rp]
    simp only [Option.map_map]
    congr 1
theorem reads_strs (ks : List KE) (hs : ∀ x ∈ basesL ks, x.isSigmoid = false) : List.Forall₂ Reads (strs ks) (tks ks) := by
  cases ks with
  | nil => rw [strs, tks]; exact .nil
  | cons k ks =>
    rw [strs, tks]
    exact .cons (reads_str k (fun x hx => hs x (by simp [basesL, hx]))) (reads_strs ks (fun x hx => hs x (by simp [basesL, hx])))
theorem reads_brackets (ks : List KE) (hs : ∀ x ∈ basesL ks, x.isSigmoid = false) : List.Forall₂ Reads (brackets ks) (tkBs ks) := by
  cases ks with
  | nil => rw [brackets, tkBs]; exact .nil
  | cons k ks =>
    have hk := reads_str k (fun x hx => hs x (by simp [basesL, hx]))
    rw [brackets, tkBs]
    refine .cons ?_ (reads_brackets ks (fun x hx => hs x (by simp [basesL, hx])))
    split
    · exact reads_bs hk
    · exact hk
end

theorem lex_str (k : KE) (hs : ∀ x ∈ bases k, x.isSigmoid = false) : lex .out (subCalls (pyStr k)) = some (tk k) := by
  have h := reads_str k hs [] rfl
  rw [List.append_nil] at h
  have h0 : L [] = some [] := by rw [L, subCalls.eq_def]; rfl
  rw [h0] at h
  simpa [L] using h

end Print
end GPyABCD
