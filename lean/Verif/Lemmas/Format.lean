import Verif.Model.Format
import Verif.Spec.Format
import Verif.Lemmas.ParamsName
import Mathlib.Tactic.Linarith
import Mathlib.Tactic.Ring
import Mathlib.Tactic.NormNum
import Mathlib.Tactic.Positivity

/-!
# Lemmas about printed numbers
-/

namespace GPyABCD
namespace Interp

theorem roundEven_near (q : ℚ) : |(roundEven q : ℚ) - q| ≤ 1 / 2 := by
  have h1 := Int.floor_le q
  have h2 := Int.lt_floor_add_one q
  unfold roundEven
  split
  · rw [abs_le]; constructor <;> linarith
  · split
    · push_cast; rw [abs_le]; constructor <;> linarith
    · split
      · rw [abs_le]; constructor <;> linarith
      · push_cast; rw [abs_le]; constructor <;> linarith

theorem roundEven_mono {p q : ℚ} (h : p ≤ q) : roundEven p ≤ roundEven q := by
  rcases eq_or_lt_of_le h with rfl | h'
  · exact le_rfl
  have a1 := Int.floor_le p
  have a2 := Int.lt_floor_add_one p
  have b1 := Int.floor_le q
  have b2 := Int.lt_floor_add_one q
  have hf := Int.floor_le_floor h
  rcases eq_or_lt_of_le hf with e | e
  · unfold roundEven
    rw [e]
    have e' : ((⌊p⌋ : ℤ) : ℚ) = (⌊q⌋ : ℤ) := by rw [e]
    split
    · split
      · exact le_rfl
      · split
        · omega
        · split <;> omega
    · split
      · rw [if_neg (by linarith), if_pos (by linarith)]
      · rw [if_neg (show ¬ q - ⌊q⌋ < 1 / 2 by linarith), if_pos (show 1 / 2 < q - ⌊q⌋ by linarith)]
        split <;> omega
  · have hp : roundEven p ≤ ⌊p⌋ + 1 := by
      unfold roundEven; split
      · omega
      · split
        · omega
        · split <;> omega
    have hq : ⌊q⌋ ≤ roundEven q := by
      unfold roundEven; split
      · omega
      · split
        · omega
        · split <;> omega
    omega

theorem roundEven_nonneg {q : ℚ} (h : 0 ≤ q) : 0 ≤ roundEven q := by
  have := roundEven_mono h
  have h0 : roundEven 0 = 0 := by decide +kernel
  omega

theorem roundEven_int (n : ℤ) : roundEven n = n := by
  unfold roundEven
  rw [Int.floor_intCast, if_pos (by norm_num)]

theorem roundEven_toNat {q : ℚ} (h : 0 ≤ q) : (((roundEven q).toNat : ℕ) : ℚ) = (roundEven q : ℚ) := by
  have := Int.toNat_of_nonneg (roundEven_nonneg h)
  exact_mod_cast this

theorem toString_toList (n : ℕ) : (toString n).toList = Nat.toDigits 10 n := by
  simp [Nat.repr]

theorem hundredths_toList (neg : Bool) (n : ℕ) : (hundredths neg n).toList =
    (if neg then ['-'] else []) ++ Nat.toDigits 10 (n / 100) ++ '.' :: (Nat.toDigits 10 (n / 10 % 10) ++ Nat.toDigits 10 (n % 10)) := by
  cases neg <;> simp [hundredths, toString_toList]

theorem digit_single {d : ℕ} (h : d < 10) : ∃ c, Nat.toDigits 10 d = [c] ∧ c.isDigit = true ∧ Nat.ofDigitChars 10 [c] 0 = d := by
  have : d = 0 ∨ d = 1 ∨ d = 2 ∨ d = 3 ∨ d = 4 ∨ d = 5 ∨ d = 6 ∨ d = 7 ∨ d = 8 ∨ d = 9 := by omega
  rcases this with rfl | rfl | rfl | rfl | rfl | rfl | rfl | rfl | rfl | rfl <;> exact ⟨_, rfl, by decide, by decide⟩

/-- The value of what is printed. -/
def hVal (neg : Bool) (n : ℕ) : ℚ := (if neg then -1 else 1) * ((n : ℚ) / 100)

theorem two_digits (n : ℕ) : ∃ c d, Nat.toDigits 10 (n / 10 % 10) ++ Nat.toDigits 10 (n % 10) = [c, d] ∧ c.isDigit = true ∧ d.isDigit = true ∧
    Nat.ofDigitChars 10 [c, d] 0 = n % 100 := by
  obtain ⟨c, e1, h1, v1⟩ := digit_single (d := n / 10 % 10) (Nat.mod_lt _ (by omega))
  obtain ⟨d, e2, h2, v2⟩ := digit_single (d := n % 10) (Nat.mod_lt _ (by omega))
  refine ⟨c, d, by rw [e1, e2]; rfl, h1, h2, ?_⟩
  simp only [Nat.ofDigitChars, List.foldl_cons, List.foldl_nil] at v1 v2 ⊢
  omega

theorem hundredths_decimal (neg : Bool) (n : ℕ) : Decimal (hundredths neg n) (hVal neg n) := by
  obtain ⟨c, d, e, h1, h2, v⟩ := two_digits n
  refine ⟨neg, Nat.toDigits 10 (n / 100), [c, d], ?_, Params.digits_digit, by simp [h1, h2], ?_⟩
  · rw [hundredths_toList, e]
  · rw [v, Nat.ofDigitChars_ten_toDigits, hVal]
    have h : (n : ℚ) = 100 * ((n / 100 : ℕ) : ℚ) + ((n % 100 : ℕ) : ℚ) := by exact_mod_cast (Nat.div_add_mod n 100).symm
    congr 1
    rw [h]; norm_num; ring

theorem hundredths_two (neg : Bool) (n : ℕ) : TwoPlaces (hundredths neg n) := by
  obtain ⟨c, d, e, h1, h2, _⟩ := two_digits n
  refine ⟨if neg then ['-'] else [], Nat.toDigits 10 (n / 100), [c, d], ?_, by cases neg <;> simp, ?_, Params.digits_digit, rfl, by simp [h1, h2]⟩
  · rw [hundredths_toList, e]
  · exact Nat.toDigits_ne_nil

theorem decimal_unique {s : String} {p q : ℚ} (hp : Decimal s p) (hq : Decimal s q) : p = q := by
  obtain ⟨n1, w1, r1, e1, a1, b1, rfl⟩ := hp
  obtain ⟨n2, w2, r2, e2, a2, b2, rfl⟩ := hq
  rw [e1] at e2
  have key : ∀ {w w' r r' : List Char}, (∀ c ∈ w, c.isDigit = true) → (∀ c ∈ w', c.isDigit = true) → w ++ '.' :: r = w' ++ '.' :: r' → w = w' ∧ r = r' := by
    intro w w' r r' h h' e
    have := Params.split_unique (p := Char.isDigit) h (by simp) h' (by simp) e
    simpa using this
  have hno : ∀ {w r : List Char} {w' r' : List Char}, (∀ c ∈ w, c.isDigit = true) → w ++ '.' :: r ≠ '-' :: (w' ++ '.' :: r') := by
    intro w r w' r' h e
    cases w with
    | nil => simp at e
    | cons c w =>
      simp only [List.cons_append, List.cons.injEq] at e
      have := h c (by simp)
      rw [e.1] at this
      exact absurd this (by decide)
  cases n1 <;> cases n2
  · obtain ⟨rfl, rfl⟩ := key a1 a2 (by simpa using e2); rfl
  · exact absurd (by simpa using e2) (hno a1)
  · exact absurd (by simpa using e2.symm) (hno a2)
  · obtain ⟨rfl, rfl⟩ := key a1 a2 (by simpa using e2); rfl

/-- The printed value of `v`. -/
def shownVal (v : ℚ) : ℚ := hVal (decide (v < 0)) (roundEven (|v| * 100)).toNat

theorem fmt2_decimal (v : ℚ) : Decimal (fmt2 v) (shownVal v) := hundredths_decimal _ _

theorem shownVal_of_nonneg {v : ℚ} (h : 0 ≤ v) : shownVal v = (roundEven (v * 100) : ℚ) / 100 := by
  rw [shownVal, hVal, if_neg (by simpa using h), abs_of_nonneg h, roundEven_toNat (by positivity)]; ring

theorem shownVal_of_neg {v : ℚ} (h : v < 0) : shownVal v = -((roundEven (-v * 100) : ℚ) / 100) := by
  rw [shownVal, hVal, if_pos (by simpa using h), abs_of_neg h, roundEven_toNat (by linarith)]; ring

theorem shownVal_near (v : ℚ) : |shownVal v - v| ≤ 1 / 200 := by
  rcases le_or_gt 0 v with h | h
  · rw [shownVal_of_nonneg h]
    have := roundEven_near (v * 100)
    rw [abs_le] at this ⊢
    constructor <;> linarith [this.1, this.2]
  · rw [shownVal_of_neg h]
    have := roundEven_near (-v * 100)
    rw [abs_le] at this ⊢
    constructor <;> linarith [this.1, this.2]

theorem shownVal_mono {v w : ℚ} (h : v ≤ w) : shownVal v ≤ shownVal w := by
  have nn : ∀ {x : ℚ}, 0 ≤ x → (0 : ℚ) ≤ roundEven (x * 100) := fun hx => by exact_mod_cast roundEven_nonneg (by positivity)
  rcases le_or_gt 0 v with hv | hv
  · rw [shownVal_of_nonneg hv, shownVal_of_nonneg (hv.trans h)]
    have : ((roundEven (v * 100) : ℤ) : ℚ) ≤ (roundEven (w * 100) : ℤ) := by exact_mod_cast roundEven_mono (by linarith)
    linarith
  · rcases le_or_gt 0 w with hw | hw
    · rw [shownVal_of_neg hv, shownVal_of_nonneg hw]
      have := nn hw
      have := nn (x := -v) (by linarith)
      linarith
    · rw [shownVal_of_neg hv, shownVal_of_neg hw]
      have : ((roundEven (-w * 100) : ℤ) : ℚ) ≤ (roundEven (-v * 100) : ℤ) := by exact_mod_cast roundEven_mono (by linarith)
      linarith

theorem shownVal_exact (m : ℤ) : shownVal (m / 100) = m / 100 := by
  rcases le_or_gt (0 : ℚ) ((m : ℚ) / 100) with h | h
  · rw [shownVal_of_nonneg h, div_mul_cancel₀ _ (by norm_num), roundEven_int]
  · rw [shownVal_of_neg h, show -((m : ℚ) / 100) * 100 = ((-m : ℤ) : ℚ) by push_cast; ring, roundEven_int]; push_cast; ring

end Interp
end GPyABCD
