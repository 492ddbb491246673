import Verif.Lemmas.Sem
import Verif.Lemmas.PerFacts

/-! The real kernels satisfy the laws of `Verif.Lemmas.Sem`. -/

namespace GPyABCD
open scoped Pointwise
open Kern

/-- Closed under multiplication by allowed constants. -/
def Scalable (V : Set ℝ) (A : Fam) : Prop := ∀ f ∈ A, ∀ v ∈ V, (fun x y => v * f x y) ∈ A

/-- What is needed of the set of allowed variances. -/
structure VarSet (V : Set ℝ) : Prop where
  one : (1 : ℝ) ∈ V
  add : ∀ {a b}, a ∈ V → b ∈ V → a + b ∈ V
  mul : ∀ {a b}, a ∈ V → b ∈ V → a * b ∈ V
  half : ∀ {a}, a ∈ V → a / 2 ∈ V

theorem mem_posV {a : ℝ} : a ∈ posV ↔ 0 < a := Iff.rfl

theorem mem_nonnegV {a : ℝ} : a ∈ nonnegV ↔ 0 ≤ a := Iff.rfl

theorem varSet_pos : VarSet posV where
  one := mem_posV.2 one_pos
  add ha hb := mem_posV.2 (add_pos (mem_posV.1 ha) (mem_posV.1 hb))
  mul ha hb := mem_posV.2 (mul_pos (mem_posV.1 ha) (mem_posV.1 hb))
  half ha := mem_posV.2 (half_pos (mem_posV.1 ha))

theorem varSet_nonneg : VarSet nonnegV where
  one := mem_nonnegV.2 zero_le_one
  add ha hb := mem_nonnegV.2 (add_nonneg (mem_nonnegV.1 ha) (mem_nonnegV.1 hb))
  mul ha hb := mem_nonnegV.2 (mul_nonneg (mem_nonnegV.1 ha) (mem_nonnegV.1 hb))
  half ha := mem_nonnegV.2 (by have := mem_nonnegV.1 ha; positivity)

variable {cfg : Cfg} {V : Set ℝ}

theorem const_mul_eq (hV : VarSet V) {A : Fam} : (realI cfg V).F .C * A = A ↔ Scalable V A := by
  constructor
  · intro h f hf v hv
    rw [← h, Set.mem_mul]
    exact ⟨bias v, ⟨v, hv, rfl⟩, f, hf, rfl⟩
  · intro h
    ext f
    rw [Set.mem_mul]
    constructor
    · rintro ⟨g, ⟨v, hv, rfl⟩, a, ha, rfl⟩
      exact h a ha v hv
    · intro hf
      refine ⟨bias 1, ⟨1, hV.one, rfl⟩, f, hf, ?_⟩
      funext x y; simp [bias]

theorem scalable_base (hV : VarSet V) (b : Base) : Scalable V ((realI cfg V).F b) := by
  intro f hf v hv
  cases b with
  | WN =>
    obtain ⟨w, hw, rfl⟩ := hf
    exact ⟨v * w, hV.mul hv hw, by funext x y; simp [white]⟩
  | C =>
    obtain ⟨w, hw, rfl⟩ := hf
    exact ⟨v * w, hV.mul hv hw, by funext x y; simp [bias]⟩
  | LIN =>
    obtain ⟨w, hw, o, ho, rfl⟩ := hf
    exact ⟨v * w, hV.mul hv hw, o, ho, by funext x y; simp [linearOffset]; ring⟩
  | SE =>
    obtain ⟨w, hw, l, hl, rfl⟩ := hf
    exact ⟨v * w, hV.mul hv hw, l, hl, by funext x y; simp [rbf]; ring⟩
  | PER =>
    obtain ⟨w, hw, p, l, hp, hl, rfl⟩ := hf
    exact ⟨v * w, hV.mul hv hw, p, l, hp, hl, by funext x y; simp [per]; ring⟩
  | S =>
    obtain ⟨w, hw, loc, s, hs, hs', rfl⟩ := hf
    exact ⟨v * w, hV.mul hv hw, loc, s, hs, hs', by funext x y; simp [basisK]; ring⟩
  | Sr =>
    obtain ⟨w, hw, loc, s, hs, hs', rfl⟩ := hf
    exact ⟨v * w, hV.mul hv hw, loc, s, hs, hs', by funext x y; simp [basisK]; ring⟩
  | SI =>
    obtain ⟨w, hw, loc, s, wd, hs, hs', hwd, rfl⟩ := hf
    exact ⟨v * w, hV.mul hv hw, loc, s, wd, hs, hs', hwd, by funext x y; simp [basisK]; ring⟩
  | SIr =>
    obtain ⟨w, hw, loc, s, wd, hs, hs', hwd, rfl⟩ := hf
    exact ⟨v * w, hV.mul hv hw, loc, s, wd, hs, hs', hwd, by funext x y; simp [basisK]; ring⟩

theorem rbf_mul {v w l m : ℝ} (hl : 0 < l) (hm : 0 < m) :
    rbf v l * rbf w m = rbf (v * w) (√((l ^ 2 * m ^ 2) / (l ^ 2 + m ^ 2))) := by
  funext x y
  simp only [Pi.mul_apply, rbf]
  have h0 : 0 ≤ (l ^ 2 * m ^ 2) / (l ^ 2 + m ^ 2) := by positivity
  rw [show v * Real.exp (-((x - y) / l) ^ 2 / 2) * (w * Real.exp (-((x - y) / m) ^ 2 / 2)) =
    v * w * (Real.exp (-((x - y) / l) ^ 2 / 2) * Real.exp (-((x - y) / m) ^ 2 / 2)) by ring, ← Real.exp_add]
  congr 2
  rw [div_pow (x - y) (√_), Real.sq_sqrt h0]
  field_simp
  ring

/-- The real kernels satisfy the laws, for positive as for non-negative variances. -/
theorem realLaws (hV : VarSet V) : Laws (realI cfg V) where
  wn_add := by
    ext f; rw [Set.mem_add]; constructor
    · rintro ⟨_, ⟨v, hv, rfl⟩, _, ⟨w, hw, rfl⟩, rfl⟩
      refine ⟨v + w, hV.add hv hw, ?_⟩
      funext x y; by_cases h : x = y <;> simp [white, h]
    · rintro ⟨v, hv, rfl⟩
      refine ⟨white (v / 2), ⟨_, hV.half hv, rfl⟩, white (v / 2), ⟨_, hV.half hv, rfl⟩, ?_⟩
      funext x y; by_cases h : x = y <;> simp [white, h]
  c_add := by
    ext f; rw [Set.mem_add]; constructor
    · rintro ⟨_, ⟨v, hv, rfl⟩, _, ⟨w, hw, rfl⟩, rfl⟩
      exact ⟨v + w, hV.add hv hw, by funext x y; simp [bias]⟩
    · rintro ⟨v, hv, rfl⟩
      exact ⟨bias (v / 2), ⟨_, hV.half hv, rfl⟩, bias (v / 2), ⟨_, hV.half hv, rfl⟩, by
        funext x y; simp [bias]⟩
  c_base b := (const_mul_eq hV).2 (scalable_base hV b)
  c_dist A B hA hB := by
    rw [const_mul_eq hV] at hA hB ⊢
    rintro f hf v hv
    obtain ⟨a, ha, b, hb, rfl⟩ := Set.mem_add.1 hf
    exact Set.mem_add.2 ⟨_, hA a ha v hv, _, hB b hb v hv, by funext x y; simp [mul_add]⟩
  c_zero := by
    rw [const_mul_eq hV]
    rintro f hf v hv
    rw [Set.mem_zero] at hf ⊢
    subst hf; funext x y; simp
  c_chg c A B hA hB := by
    rw [const_mul_eq hV] at hA hB ⊢
    rintro f ⟨a, ha, b, hb, p, hp, rfl⟩ v hv
    exact ⟨_, hA a ha v hv, _, hB b hb v hv, p, hp, by funext x y; simp [changeK]; ring⟩
  se_mul := by
    ext f; rw [Set.mem_mul]; constructor
    · rintro ⟨_, ⟨v, hv, l, hl, rfl⟩, _, ⟨w, hw, m, hm, rfl⟩, rfl⟩
      exact ⟨v * w, hV.mul hv hw, _, Real.sqrt_pos.2 (by positivity), rbf_mul hl hm⟩
    · rintro ⟨v, hv, l, hl, rfl⟩
      have h2 : 0 < √2 := Real.sqrt_pos.2 (by norm_num)
      refine ⟨rbf v (l * √2), ⟨v, hv, _, by positivity, rfl⟩, rbf 1 (l * √2), ⟨1, hV.one, _, by positivity, rfl⟩, ?_⟩
      show rbf v (l * √2) * rbf 1 (l * √2) = rbf v l
      rw [rbf_mul (by positivity) (by positivity), mul_one]
      congr 1
      rw [mul_pow, Real.sq_sqrt (by norm_num)]
      rw [show l ^ 2 * 2 * (l ^ 2 * 2) / (l ^ 2 * 2 + l ^ 2 * 2) = l ^ 2 by field_simp; ring]
      exact Real.sqrt_sq hl.le
  wn_wn := by
    ext f; rw [Set.mem_mul]; constructor
    · rintro ⟨_, ⟨v, hv, rfl⟩, _, ⟨w, hw, rfl⟩, rfl⟩
      refine ⟨v * w, hV.mul hv hw, ?_⟩
      funext x y; by_cases h : x = y <;> simp [white, h]
    · rintro ⟨v, hv, rfl⟩
      refine ⟨white v, ⟨_, hv, rfl⟩, white 1, ⟨_, hV.one, rfl⟩, ?_⟩
      funext x y; by_cases h : x = y <;> simp [white, h]
  wn_se := by
    ext f; rw [Set.mem_mul]; constructor
    · rintro ⟨_, ⟨v, hv, rfl⟩, _, ⟨w, hw, l, hl, rfl⟩, rfl⟩
      refine ⟨v * w, hV.mul hv hw, ?_⟩
      funext x y; by_cases h : x = y <;> simp [white, rbf, h]
    · rintro ⟨v, hv, rfl⟩
      refine ⟨white v, ⟨_, hv, rfl⟩, rbf 1 1, ⟨_, hV.one, 1, by norm_num, rfl⟩, ?_⟩
      funext x y; by_cases h : x = y <;> simp [white, rbf, h]
  wn_per := by
    ext f; rw [Set.mem_mul]; constructor
    · rintro ⟨_, ⟨v, hv, rfl⟩, _, ⟨w, hw, p, l, hp, hl, rfl⟩, rfl⟩
      refine ⟨v * w, hV.mul hv hw, ?_⟩
      funext x y; by_cases h : x = y
      · subst h; simp [white, per_diag hl]
      · simp [white, h]
    · rintro ⟨v, hv, rfl⟩
      refine ⟨white v, ⟨_, hv, rfl⟩, per 1 1 1, ⟨_, hV.one, 1, 1, by norm_num, by norm_num, rfl⟩, ?_⟩
      funext x y; by_cases h : x = y
      · subst h; simp [white, per_diag]
      · simp [white, h]

theorem chgFam_mono {c : CC} {A A' B B' : Fam} (hA : A ⊆ A') (hB : B ⊆ B') : chgFam cfg c A B ⊆ chgFam cfg c A' B' := by
  rintro f ⟨a, ha, b, hb, p, hp, rfl⟩
  exact ⟨a, hA ha, b, hB hb, p, hp, rfl⟩

/-- So they do with room for a constant in LIN. -/
theorem roomyLaws (hV : VarSet V) : Laws (roomyI cfg V) where
  wn_add := (realLaws (cfg := cfg) hV).wn_add
  c_add := (realLaws (cfg := cfg) hV).c_add
  c_base b := by
    have h := realLaws (cfg := cfg) hV
    by_cases hb : b = .LIN
    · subst hb
      by_cases hc : cfg.linOffset = true
      · have e : (roomyI cfg V).F .LIN = (realI cfg V).F .LIN + (realI cfg V).F .C := if_pos hc
        rw [e]
        exact h.c_dist _ _ (h.c_base _) (h.c_base _)
      · have e : (roomyI cfg V).F .LIN = (realI cfg V).F .LIN := if_neg hc
        rw [e]
        exact h.c_base _
    · have e : (roomyI cfg V).F b = (realI cfg V).F b := by cases b <;> first | rfl | exact absurd rfl hb
      rw [e]
      exact h.c_base b
  c_dist := (realLaws (cfg := cfg) hV).c_dist
  c_zero := (realLaws (cfg := cfg) hV).c_zero
  c_chg := (realLaws (cfg := cfg) hV).c_chg
  se_mul := (realLaws (cfg := cfg) hV).se_mul
  wn_wn := (realLaws (cfg := cfg) hV).wn_wn
  wn_se := (realLaws (cfg := cfg) hV).wn_se
  wn_per := (realLaws (cfg := cfg) hV).wn_per

theorem roomy_safe (hV : VarSet V) (l : List Base) : KE.LinSafe (roomyI cfg V) cfg l := by
  cases h : cfg.linOffset with
  | false => exact Or.inl h
  | true =>
    refine Or.inr (Or.inr (Or.inr ?_))
    have e : (roomyI cfg V).F .LIN = (realI cfg V).F .LIN + (realI cfg V).F .C := if_pos h
    have e' : (roomyI cfg V).F .C = (realI cfg V).F .C := rfl
    rw [e, e', add_assoc, (realLaws (cfg := cfg) hV).c_add]

theorem Reading.laws {l : List Base} {I : Interp} : Reading cfg l I → Laws I
  | .inl h => h ▸ roomyLaws varSet_pos
  | .inr h => h.1 ▸ realLaws varSet_pos

theorem Reading.safe {l : List Base} {I : Interp} : Reading cfg l I → KE.LinSafe I cfg l
  | .inl h => h ▸ roomy_safe varSet_pos l
  | .inr h => h.2.imp_right (Or.imp_right Or.inl)

theorem Reading.chg {l : List Base} {I : Interp} : Reading cfg l I → I.chg = chgFam cfg
  | .inl h => h ▸ rfl
  | .inr h => h.1 ▸ rfl

theorem Reading.sub {l m : List Base} {I : Interp} (hs : l ⊆ m) : Reading cfg m I → Reading cfg l I
  | .inl h => .inl h
  | .inr h => .inr ⟨h.1, h.2.imp_right (Or.imp (fun h1 h2 => h1 (hs h2)) (fun h1 h2 => h1 (hs h2)))⟩


theorem zero_mem_nsmul_C (n : ℕ) : (0 : Cov) ∈ n • (realI cfg nonnegV).F .C := by
  induction n with
  | zero => simp
  | succ n ih =>
    rw [succ_nsmul, Set.mem_add]
    exact ⟨0, ih, 0, ⟨0, le_refl (0 : ℝ), by funext x y; simp [bias]⟩, by simp⟩

end GPyABCD
