import Verif.Model.Vectorize
import Mathlib.Tactic.Linarith
import Mathlib.Tactic.Ring
import Mathlib.Tactic.NormNum
import Mathlib.Algebra.Order.Field.Rat
import Mathlib.Data.Rat.Floor

/-!
# Property C105: generated data are the functions' values
-/

namespace GPyABCD
open Vec

section
variable {α : Type} [Field α] [LinearOrder α] [IsStrictOrderedRing α] [FloorRing α]

/-- The values that were asked for: weighted, and with noise. -/
def Wanted (f : Num α → Num α) (w nw : α) (X : List (Num α)) (noise Y : List α) : Prop :=
  Y.length = X.length ∧ ∀ (i : ℕ) x e y, X[i]? = some x → noise[i]? = some e → Y[i]? = some y → y = (f x).val * w + e * nw

omit [LinearOrder α] [IsStrictOrderedRing α] [FloorRing α] in
private theorem noisy_length (w nw : α) (ys : List (Num α)) (es : List α) (h : es.length = ys.length) : (noisy w nw ys es).length = ys.length := by
  induction ys generalizing es with
  | nil => cases es <;> rfl
  | cons y ys ih =>
    cases es with
    | nil => simp at h
    | cons e es => simp [noisy, ih es (by simpa using h)]

omit [LinearOrder α] [IsStrictOrderedRing α] [FloorRing α] in
private theorem noisy_get (w nw : α) (ys : List (Num α)) (es : List α) (i : ℕ) (y : Num α) (e : α) (h1 : ys[i]? = some y) (h2 : es[i]? = some e) :
    (noisy w nw ys es)[i]? = some (y.val * w + e * nw) := by
  induction ys generalizing es i with
  | nil => simp at h1
  | cons y' ys ih =>
    cases es with
    | nil => simp at h2
    | cons e' es =>
      cases i with
      | zero => simp_all [noisy]
      | succ i => simpa [noisy] using ih es i (by simpa using h1) (by simpa using h2)

private theorem trunc_val (n : Num α) : ((n.trunc : ℤ) : α) = n.val ↔ ∃ z : ℤ, n.val = z := by
  constructor
  · intro h
    exact ⟨_, h.symm⟩
  · rintro ⟨z, hz⟩
    cases n with
    | int z' => rfl
    | flt a =>
      simp only [Num.val] at hz
      subst hz
      simp only [Num.trunc, Num.val]
      split <;> simp

private theorem trunc_close (n : Num α) : |((n.trunc : ℤ) : α) - n.val| < 1 := by
  cases n with
  | int z => simp [Num.trunc, Num.val]
  | flt a =>
    simp only [Num.trunc, Num.val]
    rw [abs_lt]
    split
    · have h1 := Int.floor_le a
      have h2 := Int.lt_floor_add_one a
      constructor <;> linarith
    · have h1 := Int.le_ceil a
      have h2 := Int.ceil_lt_add_one a
      constructor <;> linarith

omit [IsStrictOrderedRing α] in
private theorem vectorize_cons (f : Num α → Num α) (x : Num α) (xs : List (Num α)) :
    ∃ ys, vectorize f (x :: xs) = some ys ∧ ys.length = (x :: xs).length ∧
      ∀ (i : ℕ) x', (x :: xs)[i]? = some x' → ∃ y, ys[i]? = some y ∧ y.val = if (f x).isInt then ((f x').trunc : α) else (f x').val := by
  unfold vectorize
  cases h : f x with
  | int z =>
    refine ⟨(x :: xs).map fun y => .int (f y).trunc, by simp only [h], by simp, fun i x' hi => ⟨_, by rw [List.getElem?_map, hi]; rfl, ?_⟩⟩
    simp [Num.isInt, Num.val]
  | flt a =>
    refine ⟨(x :: xs).map fun y => .flt (f y).val, by simp only [h], by simp, fun i x' hi => ⟨_, by rw [List.getElem?_map, hi]; rfl, ?_⟩⟩
    simp [Num.isInt, Num.val]

/-- C105: exactly when the data are those asked for: if the function's first value is a float or all its values are whole (or all are weighted by zero). -/
theorem C105_iff (f : Num α → Num α) (x : Num α) (xs : List (Num α)) (w nw : α) (noise : List α) (hn : noise.length = (x :: xs).length) :
    ∃ Y, generate f (x :: xs) w nw noise = some (x :: xs, Y) ∧
      (Wanted f w nw (x :: xs) noise Y ↔ w = 0 ∨ (f x).isInt = false ∨ ∀ x' ∈ x :: xs, ∃ z : ℤ, (f x').val = z) := by
  obtain ⟨ys, h1, h2, h3⟩ := vectorize_cons f x xs
  refine ⟨_, by rw [generate, h1]; rfl, ?_⟩
  rw [Wanted, noisy_length w nw ys noise (by rw [hn, h2]), and_iff_right h2]
  have get : ∀ (i : ℕ) x' e, (x :: xs)[i]? = some x' → noise[i]? = some e →
      (noisy w nw ys noise)[i]? = some ((if (f x).isInt then ((f x').trunc : α) else (f x').val) * w + e * nw) := by
    intro i x' e hx he
    obtain ⟨y, hy, hv⟩ := h3 i x' hx
    rw [noisy_get w nw ys noise i y e hy he, hv]
  constructor
  · intro H
    by_cases hw : w = 0
    · exact Or.inl hw
    · refine Or.inr ?_
      cases hf : (f x).isInt with
      | false => exact Or.inl rfl
      | true =>
        refine Or.inr fun x' hx' => ?_
        obtain ⟨i, hi, rfl⟩ := List.getElem_of_mem hx'
        have hi' : i < noise.length := by rw [hn]; exact hi
        have e1 : (x :: xs)[i]? = some (x :: xs)[i] := List.getElem?_eq_getElem hi
        have e2 : noise[i]? = some noise[i] := List.getElem?_eq_getElem hi'
        have := H i _ _ _ e1 e2 (get i _ _ e1 e2)
        rw [hf, if_pos rfl] at this
        exact (trunc_val _).1 (mul_right_cancel₀ hw (add_right_cancel this))
  · intro H i x' e y hx he hy
    rw [get i x' e hx he] at hy
    cases hy
    rcases H with rfl | H | H
    · simp
    · simp [H]
    · have hx' : x' ∈ x :: xs := List.mem_of_getElem? hx
      cases hf : (f x).isInt with
      | false => simp
      | true => rw [if_pos rfl, (trunc_val _).2 (H x' hx')]

/-- C105 (partial: not exact, see `C105_iff`): the data are off by less than the weight. -/
theorem C105_close_partial (f : Num α → Num α) (X : List (Num α)) (w nw : α) (noise : List α) (hn : noise.length = X.length) (hw : w ≠ 0) (X' : List (Num α)) (Y : List α)
    (h : generate f X w nw noise = some (X', Y)) :
    X' = X ∧ Y.length = X.length ∧ ∀ (i : ℕ) x e y, X[i]? = some x → noise[i]? = some e → Y[i]? = some y → |y - ((f x).val * w + e * nw)| < |w| := by
  cases X with
  | nil => cases h
  | cons x xs =>
    obtain ⟨ys, h1, h2, h3⟩ := vectorize_cons f x xs
    rw [generate, h1] at h
    cases h
    refine ⟨rfl, by rw [noisy_length w nw ys noise (by rw [hn, h2]), h2], fun i x' e y hx he hy => ?_⟩
    obtain ⟨v, hv, hval⟩ := h3 i x' hx
    rw [noisy_get w nw ys noise i v e hv he] at hy
    cases hy
    rw [hval]
    have pos := abs_pos.2 hw
    split
    · have e1 : ((f x').trunc : α) * w + e * nw - ((f x').val * w + e * nw) = (((f x').trunc : α) - (f x').val) * w := by ring
      rw [e1, abs_mul]
      calc _ < 1 * |w| := mul_lt_mul_of_pos_right (trunc_close (f x')) pos
        _ = |w| := one_mul _
    · simpa using pos

omit [IsStrictOrderedRing α] in
/-- C105: data are generated for all inputs, unless there are none at all, for which it raises. -/
theorem C105_empty (f : Num α → Num α) (X : List (Num α)) (w nw : α) (noise : List α) : generate f X w nw noise = none ↔ X = [] := by
  cases X with
  | nil => simp [generate, vectorize]
  | cons x xs => cases h : f x <;> simp [generate, vectorize, h]

example : generate (fun x : Num ℚ => x) [.int 1, .int 4] 2 1 [0, 0] ≠ none ∧ generate (fun x : Num ℚ => x) [] 2 1 [0, 0] = none := by
  simp [C105_empty]

/-- C105: changepoint and changewindow data of functions that only give floats, or only integers, are those asked for. -/
theorem C105_change (f1 f2 : Num α → Num α) (a b : Num α) (lineUp : Bool) (hf : (∀ x, (f1 x).isInt = false ∧ (f2 x).isInt = false) ∨ ∀ x, (f1 x).isInt = true ∧ (f2 x).isInt = true)
    (x : Num α) (xs : List (Num α)) (w nw : α) (noise : List α) (hn : noise.length = (x :: xs).length) :
    (∃ Y, generate (cpF f1 f2 a lineUp) (x :: xs) w nw noise = some (x :: xs, Y) ∧ Wanted (cpF f1 f2 a lineUp) w nw (x :: xs) noise Y) ∧
    ∃ Y, generate (cwF f1 f2 a b lineUp) (x :: xs) w nw noise = some (x :: xs, Y) ∧ Wanted (cwF f1 f2 a b lineUp) w nw (x :: xs) noise Y := by
  have whole : ∀ n : Num α, n.isInt = true → ∃ z : ℤ, n.val = z := by
    intro n h
    cases n with
    | int z => exact ⟨z, rfl⟩
    | flt => cases h
  have arith : ∀ (n m : Num α), (n.add m).isInt = (n.isInt && m.isInt) ∧ (n.sub m).isInt = (n.isInt && m.isInt) := by
    intro n m
    cases n <;> cases m <;> exact ⟨rfl, rfl⟩
  have kind : ∃ t : Bool, ∀ x, (cpF f1 f2 a lineUp x).isInt = t ∧ (cwF f1 f2 a b lineUp x).isInt = t := by
    rcases hf with hf | hf
    · refine ⟨false, fun x => ?_⟩
      unfold cpF cwF
      constructor <;> split_ifs <;> simp [arith, (hf _).1, (hf _).2]
    · refine ⟨true, fun x => ?_⟩
      unfold cpF cwF
      constructor <;> split_ifs <;> simp [arith, (hf _).1, (hf _).2]
  obtain ⟨t, ht⟩ := kind
  obtain ⟨Y, e1, e2⟩ := C105_iff (cpF f1 f2 a lineUp) x xs w nw noise hn
  obtain ⟨Z, e3, e4⟩ := C105_iff (cwF f1 f2 a b lineUp) x xs w nw noise hn
  cases t with
  | false => exact ⟨⟨Y, e1, e2.2 (Or.inr (Or.inl (ht x).1))⟩, Z, e3, e4.2 (Or.inr (Or.inl (ht x).2))⟩
  | true =>
    exact ⟨⟨Y, e1, e2.2 (Or.inr (Or.inr fun x' _ => whole _ (ht x').1))⟩, Z, e3, e4.2 (Or.inr (Or.inr fun x' _ => whole _ (ht x').2))⟩

end

/-- `lambda x: 2 * x` on integers and `lambda x: x / 4`. -/
def double : Num ℚ → Num ℚ
  | .int z => .int (2 * z)
  | .flt a => .flt (2 * a)

/-- See `double`. -/
def quarter : Num ℚ → Num ℚ := fun x => .flt (x.val / 4)

/-- C105 is false: `generate_changepoint_data(range(5), lambda x: 2 * x, lambda x: x / 4, 2, noise_weight = 0)` is 0, 2, 0, 0, 1 instead of 0, 2, 0.5, 0.75, 1. -/
theorem C105_truncates : (generate (cpF double quarter (.int 2) false) [.int 0, .int 1, .int 2, .int 3, .int 4] 1 0 [0, 0, 0, 0, 0]).map (·.2) = some [0, 2, 0, 0, 1] ∧
    [Num.int 0, .int 1, .int 2, .int 3, .int 4].map (fun x => (cpF double quarter (.int 2) false x).val) = [0, 2, 1 / 2, 3 / 4, 1] := by
  decide +kernel

/-- The same with the inputs given as floats comes out right. -/
example : (generate (cpF double quarter (.int 2) false) [.flt 0, .flt 1, .flt 2, .flt 3, .flt 4] 1 0 [0, 0, 0, 0, 0]).map (·.2) = some [0, 2, 1 / 2, 3 / 4, 1] := by
  decide +kernel

/-- Two functions that give integers only. -/
example : ∀ x : Num ℚ, ((fun x => Num.int x.trunc : Num ℚ → Num ℚ) x).isInt = true ∧ ((fun _ => Num.int 3 : Num ℚ → Num ℚ) x).isInt = true := fun _ => ⟨rfl, rfl⟩

end GPyABCD
