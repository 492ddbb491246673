import Verif.Lemmas.Simplify
import Mathlib.Algebra.BigOperators.Group.List.Basic
import Mathlib.Algebra.Order.BigOperators.Group.List
import Mathlib.Algebra.Order.Group.Int

namespace GPyABCD
open List
namespace KE

/-! ## Counts through the stages -/

/-- Counts after `simplify_base_terms`, as a function of the counts before; `e` says there are no
composite terms. -/
def normCount (cfg : Cfg) (op : Op) (e : Bool) (f : Base → Int) (b : Base) : Int :=
  match op with
  | .sum =>
    if b = .WN then min (f .WN) 1
    else if b = .C then (if cfg.linOffset = true ∧ 0 < f .LIN then 0 else min (f .C) 1)
    else f b
  | .prod =>
    if 0 < f .WN then
      if b = .WN then 1 else if b = .C ∨ b = .SE ∨ b = .PER then 0 else f b
    else
      if b = .C then (if f .LIN = 0 ∧ f .SE = 0 ∧ f .PER = 0 ∧ e = true then min (f .C) 1 else 0)
      else if b = .SE then min (f .SE) 1
      else f b

theorem get_simplifyBase {cfg : Cfg} {op : Op} {c : Counter} {n : Nat} (hc : c.WF) (hp : c.Pos) (b : Base) :
    (simplifyBase cfg op c n).get b = normCount cfg op (decide (n = 0)) c.get b := by
  have h0 := hp.nonneg
  have hb := h0 b
  have hWN := h0 .WN
  have hC := h0 .C
  cases op with
  | sum =>
    simp only [simplifyBase, get_simplifyBaseSum hc, normCount]
    cases b <;> simp <;> first | omega | (split <;> omega)
  | prod =>
    simp only [simplifyBase, normCount]
    by_cases hw : 0 < c.get .WN
    · rw [if_pos hw, get_simplifyBaseProd_WN hc h0 hw]
      cases b <;> simp [Base.isSigmoid]
    · have hw' : c.get .WN = 0 := by omega
      rw [if_neg hw, get_simplifyBaseProd_noWN hc h0 hw']
      cases b <;> simp [hw']

theorem normCount_nonneg {cfg : Cfg} {op : Op} {e : Bool} {f : Base → Int} (hf : ∀ b, 0 ≤ f b) (b : Base) :
    0 ≤ normCount cfg op e f b := by
  have := hf b; have := hf .C; have := hf .SE; have := hf .WN
  cases op <;> simp only [normCount] <;> split_ifs <;> omega

/-- Simplifying early and again later is simplifying once. -/
theorem normCount_collapse {cfg : Cfg} {op : Op} {f g : Base → Int} (hf : ∀ b, 0 ≤ f b) (hg : ∀ b, 0 ≤ g b) :
    normCount cfg op false (fun b => normCount cfg op false f b + g b) = normCount cfg op false (fun b => f b + g b) := by
  funext b
  have := hf b; have := hg b; have := hf .C; have := hf .SE; have := hf .WN; have := hf .LIN; have := hf .PER
  have := hg .C; have := hg .SE; have := hg .WN; have := hg .LIN; have := hg .PER
  cases op with
  | sum =>
    cases b <;> simp [normCount]
    · omega
    · by_cases hl : cfg.linOffset = true
      · simp only [hl, true_and]; split_ifs <;> omega
      · simp [hl]; omega
  | prod =>
    by_cases h1 : 0 < f .WN
    · have h1' : 0 < 1 + g .WN := by omega
      have h1'' : 0 < f .WN + g .WN := by omega
      cases b <;> simp [normCount, h1, h1', h1'']
    · have h0 : f .WN = 0 := by omega
      by_cases h2 : 0 < g .WN
      · cases b <;> simp [normCount, h0, h2]
      · cases b <;> simp [normCount, h0, h2]
        omega

theorem get_absorbBts {cfg : Cfg} {op : Op} : ∀ {ns : List (Counter × Nat)} {b : Counter}, b.WF → b.Pos →
    (∀ p ∈ ns, p.1.WF ∧ p.1.Pos) → ns ≠ [] →
    (absorbBts cfg op b ns).get =
      normCount cfg op false (fun x => b.get x + ((ns.map Prod.fst).map (fun c => c.get x)).sum)
  | [], _, _, _, _, h => absurd rfl h
  | (hb, n) :: r, b, hw, hp, hns, _ => by
    have hh : hb.WF ∧ hb.Pos := hns (hb, n) (by simp)
    have w1 := Counter.wf_updateMap hw hb
    have p1 := Counter.pos_updateMap hp hh.2
    have e1 : (simplifyBase cfg op (b.updateMap hb) (n + 1)).get = normCount cfg op false (fun x => b.get x + hb.get x) := by
      funext x
      rw [get_simplifyBase w1 p1]
      have : (b.updateMap hb).get = fun x => b.get x + hb.get x := by
        funext y; exact Counter.get_updateMap b hh.1 y
      rw [this]
      simp
    by_cases hr : r = []
    · subst hr
      simp only [absorbBts, e1, List.map_cons, List.map_nil, List.sum_cons, List.sum_nil, Int.add_zero]
    · rw [absorbBts, get_absorbBts (wf_simplifyBase w1) pos_simplifyBase (fun p hp => hns p (by simp [hp])) hr]
      simp only [e1]
      rw [normCount_collapse]
      · funext x; simp only [List.map_cons, List.sum_cons, Int.add_assoc]
      · intro x; have := hp.nonneg x; have := hh.2.nonneg x; omega
      · intro x
        apply List.sum_nonneg
        intro y hy
        simp only [List.mem_map] at hy
        obtain ⟨c, ⟨p, hp', rfl⟩, rfl⟩ := hy
        exact (hns p (by simp [hp'])).2.nonneg x


/-- Some base kernel other than the constant survives if there was one. -/
theorem normCount_solid {cfg : Cfg} {op : Op} {e : Bool} {f : Base → Int}
    {P : Base → Prop} (hC : ¬ P .C) (hW : P .WN) (h : ∃ x, P x ∧ 0 < f x) : ∃ x, P x ∧ 0 < normCount cfg op e f x := by
  obtain ⟨x, hx', h1⟩ := h
  have hx : x ≠ .C := by rintro rfl; exact hC hx'
  cases op with
  | sum =>
    refine ⟨x, hx', ?_⟩
    simp only [normCount, hx, if_false]
    split_ifs with h2
    · subst h2; omega
    · exact h1
  | prod =>
    by_cases hw : 0 < f .WN
    · exact ⟨.WN, hW, by simp [normCount, hw]⟩
    · refine ⟨x, hx', ?_⟩
      simp only [normCount, hw, hx, if_false]
      split_ifs with h2
      · subst h2; omega
      · exact h1

theorem simplifyBase_solid {cfg : Cfg} {op : Op} {c : Counter} {n : Nat} (hc : c.WF) (hp : c.Pos)
    {P : Base → Prop} (hC : ¬ P .C) (hW : P .WN) (h : ∃ x, P x ∧ 0 < c.get x) : ∃ x, P x ∧ 0 < (simplifyBase cfg op c n).get x := by
  obtain ⟨x, hx, h1⟩ := normCount_solid (cfg := cfg) (op := op) (e := decide (n = 0)) hC hW h
  exact ⟨x, hx, by rw [get_simplifyBase hc hp]; exact h1⟩

theorem sum_get_nonneg {ns : List (Counter × Nat)} (hn : ∀ p ∈ ns, p.1.WF ∧ p.1.Pos) (x : Base) :
    0 ≤ ((ns.map Prod.fst).map (fun c => c.get x)).sum := by
  apply List.sum_nonneg
  intro y hy
  simp only [List.mem_map] at hy
  obtain ⟨c, ⟨p, hp', rfl⟩, rfl⟩ := hy
  exact (hn p hp').2.nonneg x

theorem absorbBts_solid {cfg : Cfg} {op : Op} {ns : List (Counter × Nat)} {b : Counter} (hb : b.WF) (pb : b.Pos)
    (hn : ∀ p ∈ ns, p.1.WF ∧ p.1.Pos)
    {P : Base → Prop} (hC : ¬ P .C) (hW : P .WN) (h : (∃ x, P x ∧ 0 < b.get x) ∨ ∃ p ∈ ns, ∃ x, P x ∧ 0 < p.1.get x) :
    ∃ x, P x ∧ 0 < (absorbBts cfg op b ns).get x := by
  by_cases hz : ns = []
  · subst hz; simpa [absorbBts] using h
  · rw [get_absorbBts hb pb hn hz]
    apply normCount_solid hC hW
    rcases h with ⟨x, hx, h1⟩ | ⟨p, hp, x, hx, h1⟩
    · refine ⟨x, hx, ?_⟩
      have := sum_get_nonneg hn x
      omega
    · refine ⟨x, hx, ?_⟩
      have h2 : p.1.get x ≤ ((ns.map Prod.fst).map (fun c => c.get x)).sum := by
        apply List.single_le_sum
        · intro y hy
          simp only [List.mem_map] at hy
          obtain ⟨c, ⟨p, hp', rfl⟩, rfl⟩ := hy
          exact (hn p hp').2.nonneg x
        · exact List.mem_map.2 ⟨p.1, List.mem_map.2 ⟨p, hp, rfl⟩, rfl⟩
      have := pb.nonneg x
      omega


end KE
end GPyABCD
