import Verif.Model.Samples

/-!
# Property C102: the curves that `sampleCurves` draws
-/

namespace GPyABCD
open Samples

variable {κ ζ : Type}

/-- The kernel after `i + 1` calls of `randomize`, every other random call being one. -/
def kernelAfter (src : Source κ ζ) (k : κ) : Nat → κ
  | 0 => k
  | i + 1 => src.randomise (2 * i) (kernelAfter src k i)

private theorem fresh_eq (src : Source κ ζ) (k : κ) (n : Nat) : ∀ i, fresh src (2 * i) n (kernelAfter src k i) =
    ((List.range n).map fun j => src.sample (2 * (i + j) + 1) (kernelAfter src k (i + j + 1)), kernelAfter src k (i + n)) := by
  induction n with
  | zero => intro i; rfl
  | succ n ih =>
    intro i
    have h := ih (i + 1)
    rw [fresh]
    simp only [kernelAfter] at h
    rw [show 2 * (i + 1) = 2 * i + 2 by omega] at h
    simp only [h, List.range_succ_eq_map, List.map_cons, List.map_map]
    refine Prod.ext ?_ ?_
    · refine List.cons_eq_cons.2 ⟨by simp [kernelAfter], ?_⟩
      refine List.map_congr_left fun j _ => ?_
      simp only [Function.comp, Nat.succ_eq_add_one]
      rw [show i + (j + 1) = i + 1 + j by omega]
      rfl
    · show kernelAfter src k (i + 1 + n) = _
      rw [show i + 1 + n = i + (n + 1) by omega]

private theorem range_get (n i v : Nat) (h : (List.range n)[i]? = some v) : v = i ∧ i < n := by
  obtain ⟨hi, e⟩ := List.getElem?_eq_some_iff.1 h
  rw [List.getElem_range] at e
  exact ⟨e.symm, by simpa using hi⟩

private theorem column_zip (zs : List ζ) (s v : Nat) : column (((List.range zs.length).map (· + (s + 1))).zip zs) (v + (s + 1)) = zs[v]? := by
  induction zs generalizing s v with
  | nil => rfl
  | cons z zs ih =>
    simp only [List.length_cons, List.range_succ_eq_map, List.map_cons, List.map_map, List.zip_cons_cons, column]
    cases v with
    | zero => simp
    | succ v =>
      rw [if_neg (by omega)]
      have := ih (s + 1) v
      rw [show v + 1 + (s + 1) = v + (s + 1 + 1) by omega, List.getElem?_cons_succ, ← this]
      congr 3
      funext j
      simp only [Function.comp]
      omega

private theorem melt_eq (df : List (Nat × ζ)) (vs : List Nat) (f : Nat → ζ) (h : ∀ v ∈ vs, column df v = some (f v)) :
    melt df vs = some (vs.map fun v => (v, f v)) := by
  induction vs with
  | nil => rfl
  | cons v vs ih => rw [melt, h v (by simp), ih fun w hw => h w (by simp [hw])]; rfl

/-- C102 (partial: one curve fewer than asked for is drawn, `C102_last_missing`). The lines of the plot are, in order and numbered from 1, the curves sampled but the
last; with `same_kernel` all are samples of the kernel randomised once, without it each is a sample of the kernel randomised anew. The kernel given is
left as last randomised. An exception is raised exactly when no curve is asked for and `same_kernel` is not set. -/
theorem C102_drawn_partial (src : Source κ ζ) (n : Nat) (same : Bool) (k : κ) :
    (sampleCurves src n same k = none ↔ n = 0 ∧ same = false) ∧ ∀ lines k', sampleCurves src n same k = some (lines, k') →
      lines.length = n - 1 ∧ k' = kernelAfter src k (if same then 1 else n) ∧
        ∀ i l, lines[i]? = some l → l = (i + 1, if same then src.sample (i + 1) (kernelAfter src k 1) else src.sample (2 * i + 1) (kernelAfter src k (i + 1))) := by
  let f : Nat → ζ := fun i => if same then src.sample (i + 1) (kernelAfter src k 1) else src.sample (2 * i + 1) (kernelAfter src k (i + 1))
  have hc : curves src n same k = ((List.range n).map f, kernelAfter src k (if same then 1 else n)) := by
    cases same with
    | true => rfl
    | false =>
      have := fresh_eq src k n 0
      simp only [Nat.mul_zero, kernelAfter, Nat.zero_add] at this
      exact this
  have hm : melt ((columnNames n).zip ((List.range n).map f)) (valueVars n) = some ((valueVars n).map fun v => (v, f (v - 1))) := by
    refine melt_eq _ _ (fun v => f (v - 1)) fun v hv => ?_
    obtain ⟨i, hi, rfl⟩ : ∃ i, i + 1 < n ∧ v = i + 1 := by
      rw [valueVars, List.mem_iff_getElem?] at hv
      obtain ⟨j, hj⟩ := hv
      rw [List.getElem?_drop] at hj
      have := range_get _ _ _ hj
      exact ⟨j, by omega, by omega⟩
    have := column_zip ((List.range n).map f) 0 i
    simp only [List.length_map, List.length_range, Nat.zero_add] at this
    rw [columnNames, this]
    simp [show i < n by omega]
  have hs : sampleCurves src n same k = if n = 0 ∧ same = false then none else
      some ((valueVars n).map fun v => (v, f (v - 1)), kernelAfter src k (if same then 1 else n)) := by
    rw [sampleCurves, hc]
    simp only [List.length_map, List.length_range, hm]
    cases n <;> cases same <;> simp
  rw [hs]
  split
  · rename_i h; simp [h]
  · rename_i h
    refine ⟨by simp [h], ?_⟩
    rintro lines k' e
    simp only [Option.some.injEq, Prod.mk.injEq] at e
    obtain ⟨rfl, rfl⟩ := e
    refine ⟨by simp [valueVars], rfl, fun i l hl => ?_⟩
    simp only [List.getElem?_map, valueVars, List.getElem?_drop, Option.map_eq_some_iff] at hl
    obtain ⟨v, hv, rfl⟩ := hl
    obtain ⟨rfl, _⟩ := range_get _ _ _ hv
    rw [show 1 + i = i + 1 by omega]
    rfl

/-- C102: so never are all curves drawn; asked for one, the plot is empty. -/
theorem C102_last_missing (src : Source κ ζ) (n : Nat) (same : Bool) (k : κ) (hn : 0 < n) :
    ∃ lines k', sampleCurves src n same k = some (lines, k') ∧ lines.length < n ∧ lines.length + 1 = n := by
  obtain ⟨h1, h2⟩ := C102_drawn_partial src n same k
  cases h : sampleCurves src n same k with
  | none => have := (h1.1 h).1; omega
  | some r =>
    obtain ⟨lines, k'⟩ := r
    have := (h2 lines k' h).1
    exact ⟨lines, k', rfl, by omega, by omega⟩

-- kernels are numbers here, and every random call adds or appends its seed
example : sampleCurves ⟨fun s k => 10 * k + s, fun s k => (k, s)⟩ 4 false 7 = some ([(1, (70, 1)), (2, (702, 3)), (3, (7024, 5))], 70246) ∧
    sampleCurves ⟨fun s k => 10 * k + s, fun s k => (k, s)⟩ 4 true 7 = some ([(1, (70, 1)), (2, (70, 2)), (3, (70, 3))], 70) ∧
    sampleCurves ⟨fun s k => 10 * k + s, fun s k => (k, s)⟩ 1 false 7 = some ([], 70) := by decide

end GPyABCD
