import Verif.Lemmas.Sops
import Mathlib.Tactic.LinearCombination

/-!
# Lemmas: the covariance of a product as terms are added to it
-/

namespace GPyABCD
namespace Sops

set_option linter.unusedSectionVars false

variable {α : Type} [Mul α] [One α] {R : Type} [CommRing R] (φ : α → R) (shape : Base → PD α → R)

/-- The product of the shapes of a dictionary. -/
def V (f : Base → List (PD α)) : R := (Base.all.map (fun b => ((f b).map (shape b)).prod)).prod

theorem V_append (f g : Base → List (PD α)) : V shape (fun b => f b ++ g b) = V shape f * V shape g := by
  simp [V, Base.all]; ring

theorem absorb_list {x : R} {l : List R} (h : ∀ y ∈ l, x * y = x) : x * l.prod = x := by
  induction l with
  | nil => simp
  | cons a r ih => rw [List.prod_cons, ← mul_assoc, h a (by simp), ih (fun y hy => h y (by simp [hy]))]

theorem prod_one {l : List R} (h : ∀ y ∈ l, y = 1) : l.prod = 1 := by
  induction l with
  | nil => simp
  | cons a r ih => rw [List.prod_cons, h a (by simp), ih (fun y hy => h y (by simp [hy])), one_mul]

theorem se_fold {comb : α → α → α} {P : α → Prop} (h : SELaw shape comb P) {l : List (PD α)} {xs : List α} {p : PD α} {x : α}
    (hp : p.lengthscale = some x ∧ P x) (hl : List.Forall₂ (fun p x => p.lengthscale = some x ∧ P x) l xs) :
    shape .SE p * (l.map (shape .SE)).prod = if l = [] then shape .SE p else shape .SE { lengthscale := some (xs.foldl comb x) } := by
  induction hl generalizing p x with
  | nil => simp
  | @cons q y l' ys h1 h2 ih =>
    simp only [List.map_cons, List.prod_cons, List.foldl_cons]
    rw [← mul_assoc, h.mul p q x y hp.1 h1.1 hp.2 h1.2, ih ⟨rfl, h.closed x y hp.2 h1.2⟩]
    cases h2 with
    | nil => simp
    | cons _ _ => simp

variable {φ shape}

theorem SimpRel.val {comb : α → α → α} {P : α → Prop} {cC : Prop} {f g : Base → List (PD α)} (h : SimpRel comb P cC f g)
    (L : ShapeLaws φ shape) (hc : f .WN = [] ∨ f .LIN = []) (hs : (f .SE).length ≤ 1 ∨ SELaw shape comb P) :
    V shape g = V shape f := by
  by_cases hW : f .WN = []
  · have eC : ((g .C).map (shape .C)).prod = ((f .C).map (shape .C)).prod := by
      rw [prod_one (l := (g .C).map (shape .C)), prod_one (l := (f .C).map (shape .C))]
      · intro y hy; obtain ⟨p, _, rfl⟩ := List.mem_map.1 hy; exact L.const p
      · intro y hy; obtain ⟨p, _, rfl⟩ := List.mem_map.1 hy; exact L.const p
    have eS : ((g .SE).map (shape .SE)).prod = ((f .SE).map (shape .SE)).prod := by
      by_cases h1 : (f .SE).length ≤ 1
      · rw [h.se1 hW h1]
      · obtain ⟨x, xs, hf, e⟩ := h.se2 hW (by omega)
        have hl := hs.resolve_left h1
        rw [e]
        generalize hfs : f .SE = l at hf h1
        cases hf with
        | @cons p _ l' _ h3 h4 =>
          rw [List.map_cons (l := l'), List.prod_cons (l := l'.map _), se_fold shape hl h3 h4, if_neg]
          · simp
          · rintro rfl; simp at h1
    have eo := h.other hW
    simp only [V, Base.all, List.map_cons, List.map_nil, List.prod_cons, List.prod_nil]
    rw [eC, eS, eo .WN (by decide) (by decide), eo .LIN (by decide) (by decide), eo .PER (by decide) (by decide),
      eo .S (by decide) (by decide), eo .Sr (by decide) (by decide), eo .SI (by decide) (by decide), eo .SIr (by decide) (by decide)]
  · have hL := hc.resolve_left hW
    have hg := h.noise hW
    obtain ⟨w, ws, hw⟩ := List.exists_cons_of_ne_nil hW
    have ab : ∀ b, b = .C ∨ b = .SE ∨ b = .PER → shape .WN w * ((f b).map (shape b)).prod = shape .WN w := by
      intro b hb; apply absorb_list; intro y hy
      obtain ⟨q, _, rfl⟩ := List.mem_map.1 hy
      exact L.noise b w q hb
    have a1 := ab .C (by simp); have a2 := ab .SE (by simp); have a3 := ab .PER (by simp)
    simp only [V, Base.all, List.map_cons, List.map_nil, List.prod_cons, List.prod_nil, hg, hL]
    simp [Base.isSigmoid, hw]
    generalize ((f .C).map (shape .C)).prod = c at *
    generalize ((f .SE).map (shape .SE)).prod = s at *
    generalize ((f .PER).map (shape .PER)).prod = p at *
    generalize (List.map (shape .WN) ws).prod = W
    generalize shape .WN w = w' at *
    generalize (List.map (shape .S) (f .S)).prod = x1
    generalize (List.map (shape .Sr) (f .Sr)).prod = x2
    generalize (List.map (shape .SI) (f .SI)).prod = x3
    generalize (List.map (shape .SIr) (f .SIr)).prod = x4
    calc w' * W * (x1 * (x2 * (x3 * x4))) = (w' * c * s * p) * W * (x1 * (x2 * (x3 * x4))) := by rw [a1, a2, a3]
      _ = _ := by ring

/-! ## Components -/

/-- The items as a component. -/
def compOf (l : List (Item α)) : Comp α :=
  ⟨l.flatMap (fun i => i.2.variance.toList), l.filterMap (fun i => i.1.map (fun b => (b, i.2.noVar)))⟩

theorem compOf_append (l l' : List (Item α)) : compOf (l ++ l') = (compOf l).mul (compOf l') := by
  simp [compOf, Comp.mul]

theorem Comp.count_mul (c d : Comp α) (b : Base) : (c.mul d).count b = c.count b + d.count b := by
  simp [Comp.count, Comp.mul]

theorem Comp.count_nonneg (c : Comp α) (b : Base) : 0 ≤ c.count b := by simp [Comp.count]

theorem count_compOf (l : List (Item α)) (b : Base) : (compOf l).count b = (ib l b).length := by
  induction l with
  | nil => rfl
  | cons i is ih =>
    obtain ⟨o, p⟩ := i
    have e : compOf ((o, p) :: is) = (compOf [(o, p)]).mul (compOf is) := compOf_append [(o, p)] is
    rw [e, Comp.count_mul, ih]
    cases o with
    | none => simp [ib_cons_none, compOf, Comp.count]
    | some x => rw [ib_cons]; by_cases h : x = b <;> simp [compOf, Comp.count, h]; omega

theorem Comp.val_mul (c d : Comp α) : (c.mul d).val φ shape = c.val φ shape * d.val φ shape := by
  simp [Comp.val, Comp.mul]; ring

/-- The parameters of the factors of one kind. -/
def Comp.only (c : Comp α) (b : Base) : List (PD α) := (c.fs.filter (fun f => decide (f.1 = b))).map (fun f => f.2)

theorem Comp.only_mul (c d : Comp α) (b : Base) : (c.mul d).only b = c.only b ++ d.only b := by simp [Comp.only, Comp.mul]

theorem only_compOf (l : List (Item α)) (b : Base) : (compOf l).only b = ib l b := by
  induction l with
  | nil => rfl
  | cons i is ih =>
    obtain ⟨o, p⟩ := i
    have e : compOf ((o, p) :: is) = (compOf [(o, p)]).mul (compOf is) := compOf_append [(o, p)] is
    rw [e, Comp.only_mul, ih]
    cases o with
    | none => simp [ib_cons_none, compOf, Comp.only]
    | some x => rw [ib_cons]; by_cases h : x = b <;> simp [compOf, Comp.only, h]

theorem Comp.val_nil : (⟨[], []⟩ : Comp α).val φ shape = 1 := by simp [Comp.val]

theorem vars_compOf (l : List (Item α)) : ((compOf l).vars.map φ).prod = (l.map (fun i => varVal φ i.2.variance)).prod := by
  induction l with
  | nil => simp [compOf]
  | cons i is ih =>
    obtain ⟨o, p⟩ := i
    have e : compOf ((o, p) :: is) = (compOf [(o, p)]).mul (compOf is) := compOf_append [(o, p)] is
    rw [e]
    simp only [Comp.mul, List.map_append, List.prod_append, ih, List.map_cons, List.prod_cons]
    congr 1
    cases h : p.variance <;> simp [compOf, varVal, h]

theorem val_compOf (l : List (Item α)) :
    (compOf l).val φ shape = (l.map (fun i => varVal φ i.2.variance)).prod * V shape (ib l) := by
  induction l with
  | nil => simp [compOf, Comp.val, V, ib, Base.all]
  | cons i is ih =>
    obtain ⟨o, p⟩ := i
    have e : compOf ((o, p) :: is) = (compOf [(o, p)]).mul (compOf is) := compOf_append [(o, p)] is
    have e2 : ib ((o, p) :: is) = fun b => ib [(o, p)] b ++ ib is b := funext (fun b => ib_append [(o, p)] is b)
    rw [e, Comp.val_mul, ih, e2, V_append]
    have : (compOf [(o, p)]).val φ shape = varVal φ p.variance * V shape (ib [(o, p)]) := by
      have hv : ((p.variance.toList).map φ).prod = varVal φ p.variance := by cases p.variance <;> simp [varVal]
      cases o with
      | none => simp [compOf, Comp.val, hv, V, ib, Base.all]
      | some x => cases x <;> simp [compOf, Comp.val, hv, V, ib, Base.all]
    rw [this]; simp only [List.map_cons, List.prod_cons]; ring

theorem val_mulVars (L : ShapeLaws φ shape) (v : α) (l : List (Item α)) :
    φ (mulVars v l) = φ v * (l.map (fun i => varVal φ i.2.variance)).prod := by
  induction l generalizing v with
  | nil => simp [mulVars]
  | cons i is ih =>
    obtain ⟨o, p⟩ := i
    have : mulVars v ((o, p) :: is) = mulVars (match p.variance with | some x => v * x | none => v) is := rfl
    rw [this, ih]
    cases h : p.variance <;> simp [varVal, h, L.mul, mul_assoc]

/-! ## Products standing for components -/

variable (φ shape)

/-- The condition on `SE`. -/
def SEok (comb : α → α → α) (P : α → Prop) (c : Comp α) : Prop := c.count .SE ≤ 1 ∨ SELaw shape comb P

/-- The product `n` stands for the component `c`. -/
structure Rel (comb : α → α → α) (P : α → Prop) (c : Comp α) (n : Prod α) : Prop where
  inv : Inv P n
  bts : c.Clean → ∀ b, n.bts.get b = normal c.count b
  sig : ∀ b, b.isSigmoid = true → (n.ps.get b).Perm (c.only b)
  var : ShapeLaws φ shape → varVal φ n.pv = (c.vars.map φ).prod
  val : ShapeLaws φ shape → c.Clean → SEok shape comb P c → varVal φ n.pv * V shape n.ps.get = c.val φ shape

/-- It has a variance and a factor which is no sigmoid. -/
def Plain (n : Prod α) : Prop := n.pv.isSome ∧ ∃ b, b.isSigmoid = false ∧ n.ps.get b ≠ []

variable {φ shape}

theorem Rel.empty (comb : α → α → α) (P : α → Prop) : Rel φ shape comb P ⟨[], []⟩ Prod.empty := by
  refine ⟨Inv.empty P, fun _ b => ?_, fun b _ => ?_, fun _ => ?_, fun _ _ _ => ?_⟩
  · cases b <;> rfl
  · simp [Prod.empty, PDict.get, Comp.only]
  · simp [Prod.empty, varVal]
  · simp [Prod.empty, varVal, V, PDict.get, Base.all, Comp.val]

theorem Clean.left {c d : Comp α} (h : (c.mul d).Clean) : c.Clean := by
  unfold Comp.Clean at *; simp only [Comp.count_mul] at h
  have := c.count_nonneg .WN; have := c.count_nonneg .LIN; have := d.count_nonneg .WN; have := d.count_nonneg .LIN
  omega

theorem Clean.right {c d : Comp α} (h : (c.mul d).Clean) : d.Clean := by
  unfold Comp.Clean at *; simp only [Comp.count_mul] at h
  have := c.count_nonneg .WN; have := c.count_nonneg .LIN; have := d.count_nonneg .WN; have := d.count_nonneg .LIN
  omega

theorem SEok.left {comb : α → α → α} {P : α → Prop} {c d : Comp α} (h : SEok shape comb P (c.mul d)) : SEok shape comb P c := by
  unfold SEok at *; simp only [Comp.count_mul] at h
  have := d.count_nonneg .SE
  exact h.imp (fun h => by omega) id

theorem SEok.right {comb : α → α → α} {P : α → Prop} {c d : Comp α} (h : SEok shape comb P (c.mul d)) : SEok shape comb P d := by
  unfold SEok at *; simp only [Comp.count_mul] at h
  have := c.count_nonneg .SE
  exact h.imp (fun h => by omega) id

theorem normal_WN {f : Base → Int} (h : 0 ≤ f .WN) : normal f .WN = min (f .WN) 1 := by
  unfold normal; split_ifs <;> simp_all <;> omega

theorem normal_LIN (f : Base → Int) : normal f .LIN = f .LIN := by
  unfold normal; split_ifs <;> simp_all

theorem normal_SE_le {f : Base → Int} (h : 0 ≤ f .SE) : normal f .SE ≤ f .SE := by
  unfold normal; split_ifs <;> simp_all

theorem normal_sig {f : Base → Int} {b : Base} (h : b.isSigmoid = true) : normal f b = f b := by
  have : b ≠ .WN ∧ b ≠ .C ∧ b ≠ .SE ∧ b ≠ .PER := by
    refine ⟨?_, ?_, ?_, ?_⟩ <;> (rintro rfl; exact absurd h (by decide))
  obtain ⟨h1, h2, h3, h4⟩ := this
  unfold normal; simp [h1, h2, h3, h4]

/-- The dictionaries of a product standing for a clean component. -/
theorem Rel.noWN {comb : α → α → α} {P : α → Prop} {c : Comp α} {n : Prod α} (h : Rel φ shape comb P c n) (hc : c.Clean)
    (h0 : c.count .WN = 0) : n.ps.get .WN = [] := by
  have h1 := h.bts hc .WN
  rw [normal_WN (c.count_nonneg _), h0] at h1
  by_contra hh
  have := h.inv.cW.2 hh; omega

theorem Rel.noLIN {comb : α → α → α} {P : α → Prop} {c : Comp α} {n : Prod α} (h : Rel φ shape comb P c n) (hc : c.Clean)
    (h0 : c.count .LIN = 0) : n.ps.get .LIN = [] := by
  have h1 := h.bts hc .LIN
  rw [normal_LIN, h0] at h1
  have h2 := h.inv.cLle
  rw [h1] at h2
  have : (n.ps.get .LIN).length = 0 := by omega
  simpa using this

theorem Rel.lenSE {comb : α → α → α} {P : α → Prop} {c : Comp α} {n : Prod α} (h : Rel φ shape comb P c n) (hc : c.Clean) :
    ((n.ps.get .SE).length : Int) ≤ c.count .SE := by
  rw [h.inv.cO .SE (by decide) (by decide), h.bts hc]
  exact normal_SE_le (c.count_nonneg _)

/-- Adding items to a product. -/
theorem newBases_rel {comb : α → α → α} {P : α → Prop} (hP : ∀ a b, P a → P b → P (comb a b)) {c : Comp α} {n : Prod α}
    (h : Rel φ shape comb P c n) {l : List (Item α)} (hl : ∀ i ∈ l, ItemOK P i) :
    ∃ m, newBases comb n l = .ok m ∧ Rel φ shape comb P (c.mul (compOf l)) m ∧ m.pv.isSome ∧
      (∀ b, b.isSigmoid = true → m.bts.get b = n.bts.get b + (ib l b).length) ∧
      ((∃ b, b.isSigmoid = false ∧ n.ps.get b ++ ib l b ≠ []) → ∃ b, b.isSigmoid = false ∧ m.ps.get b ≠ []) := by
  obtain ⟨m, h1, h2, h3, h4, cC, h5⟩ := newBases_ok comb hP h.inv hl
  refine ⟨m, h1, ⟨h2, fun hc b => ?_, fun b hb => ?_, fun L => ?_, fun L hc hs => ?_⟩, by simp [h3], fun b hb => by rw [h4, normal_sig hb], ?_⟩
  · rw [h4]
    have e : (c.mul (compOf l)).count = fun x => c.count x + (ib l x).length := by
      funext x; rw [Comp.count_mul, count_compOf]
    rw [e, ← normal_add (fun b => c.count_nonneg b) (fun b => Int.natCast_nonneg _)]
    congr 1; funext x; rw [h.bts (Clean.left hc)]
  · have e : m.ps.get b = n.ps.get b ++ ib l b := by
      by_cases hW : n.ps.get .WN ++ ib l .WN = []
      · exact h5.other hW b (by rintro rfl; cases hb) (by rintro rfl; cases hb)
      · rw [h5.noise hW b, if_pos (Or.inr hb)]
    rw [e, Comp.only_mul, only_compOf]
    exact (h.sig b hb).append_right _
  · have hv := h.var L
    have : ((c.mul (compOf l)).vars.map φ).prod = (c.vars.map φ).prod * (l.map (fun i => varVal φ i.2.variance)).prod := by
      simp only [Comp.mul, List.map_append, List.prod_append, vars_compOf]
    rw [this, ← hv, h3]
    simp only [varVal, Option.map_some, Option.getD_some, val_mulVars L]
    cases n.pv <;> simp [L.one, varVal]
  · have cl := Clean.left hc
    have hv := h.val L cl (SEok.left hs)
    rw [Comp.val_mul, ← hv, val_compOf, h5.val L, V_append, h3]
    · simp only [varVal, Option.map_some, Option.getD_some, val_mulVars L]
      cases n.pv <;> simp [L.one, varVal] <;> ring
    · rcases hc with hc | hc <;> rw [Comp.count_mul, count_compOf] at hc
      · have := c.count_nonneg .WN
        have h6 := h.noWN cl (by omega)
        left; rw [h6]; simp; exact List.eq_nil_of_length_eq_zero (by omega)
      · have := c.count_nonneg .LIN
        have h6 := h.noLIN cl (by omega)
        right; rw [h6]; simp; exact List.eq_nil_of_length_eq_zero (by omega)
    · rcases hs with hs | hs
      · left; rw [Comp.count_mul, count_compOf] at hs
        have := h.lenSE cl
        simp only [List.length_append]; omega
      · exact Or.inr hs
  · rintro ⟨b, hb, hne⟩
    by_cases hW : n.ps.get .WN ++ ib l .WN = []
    · by_cases bC : b = .C
      · subst bC
        by_cases hc : cC
        · refine ⟨.C, rfl, ?_⟩
          have := ((h5.const hW).2.1 hc hne).1
          intro h0; rw [h0] at this; simp at this
        · -- the constant was dropped: the base terms hold another factor
          have e := (h5.const hW).1 hc
          have hnn : ∀ b, 0 ≤ n.bts.get b + ((ib l b).length : Int) := fun b => by have := h.inv.pos.nonneg b; omega
          have hC0 : m.bts.get .C = 0 := by rw [← h2.cO .C (by decide) (by decide), e]; rfl
          have hCp : 0 < n.bts.get .C + ((ib l .C).length : Int) := by
            have h7 := h.inv.cO .C (by decide) (by decide)
            have : 0 < (n.ps.get .C ++ ib l .C).length := List.length_pos_iff.2 hne
            simp only [List.length_append] at this; omega
          have hW0 : n.bts.get .WN + ((ib l .WN).length : Int) = 0 := by
            obtain ⟨ha, hb⟩ := List.append_eq_nil_iff.1 hW
            rw [hb]; have := h.inv.pos.nonneg .WN
            by_contra hh
            exact h.inv.cW.1 (by simp at hh; omega) ha
          rw [h4] at hC0
          simp only [normal, hW0] at hC0
          simp only [lt_irrefl, if_false, if_true] at hC0
          split at hC0
          · omega
          · next hx =>
            have hx' : 0 < m.bts.get .LIN ∨ 0 < m.bts.get .SE ∨ 0 < m.bts.get .PER := by
              have g1 := h4 .LIN; have g2 := h4 .SE; have g3 := h4 .PER
              simp only [normal, hW0] at g1 g2 g3
              simp at g1 g2 g3
              have := hnn .LIN; have := hnn .SE; have := hnn .PER
              omega
            have mW : m.ps.get .WN = [] := by rw [h5.other hW .WN (by decide) (by decide)]; exact hW
            rcases hx' with hx' | hx' | hx'
            · refine ⟨.LIN, rfl, ?_⟩; rw [← h2.cLeq mW] at hx'; intro h0; rw [h0] at hx'; simp at hx'
            · refine ⟨.SE, rfl, ?_⟩; rw [← h2.cO .SE (by decide) (by decide)] at hx'; intro h0; rw [h0] at hx'; simp at hx'
            · refine ⟨.PER, rfl, ?_⟩; rw [← h2.cO .PER (by decide) (by decide)] at hx'; intro h0; rw [h0] at hx'; simp at hx'
      · by_cases bS : b = .SE
        · subst bS
          refine ⟨.SE, rfl, ?_⟩
          by_cases h1 : (n.ps.get .SE ++ ib l .SE).length ≤ 1
          · rw [h5.se1 hW h1]; exact hne
          · obtain ⟨x, xs, _, e⟩ := h5.se2 hW (by omega)
            rw [e]; simp
        · exact ⟨b, hb, by rw [h5.other hW b bC bS]; exact hne⟩
    · exact ⟨.WN, rfl, by rw [h5.noise hW]; simpa using hW⟩

/-! ## Multiplying products -/

/-- `e` can be used for `c`. -/
def Eqv (φ : α → R) (shape : Base → PD α → R) (comb : α → α → α) (P : α → Prop) (c e : Comp α) : Prop :=
  (∀ b, b.isSigmoid = true → (e.only b).Perm (c.only b)) ∧ (ShapeLaws φ shape → (e.vars.map φ).prod = (c.vars.map φ).prod) ∧
  (c.Clean → e.Clean ∧ (∀ b, normal e.count b = normal c.count b) ∧ e.count .SE ≤ c.count .SE ∧
    (ShapeLaws φ shape → SEok shape comb P c → e.val φ shape = c.val φ shape))

theorem Eqv.refl {comb : α → α → α} {P : α → Prop} (c : Comp α) : Eqv φ shape comb P c c :=
  ⟨fun _ _ => .refl _, fun _ => rfl, fun h => ⟨h, fun _ => rfl, le_refl _, fun _ _ => rfl⟩⟩

theorem Eqv.mul {comb : α → α → α} {P : α → Prop} {c e c' e' : Comp α} (h : Eqv φ shape comb P c e) (h' : Eqv φ shape comb P c' e') :
    Eqv φ shape comb P (c.mul c') (e.mul e') := by
  refine ⟨fun b hb => ?_, fun L => ?_, fun hc => ?_⟩
  · rw [Comp.only_mul, Comp.only_mul]; exact (h.1 b hb).append (h'.1 b hb)
  · simp only [Comp.mul, List.map_append, List.prod_append, h.2.1 L, h'.2.1 L]
  obtain ⟨a1, a2, a3, a4⟩ := h.2.2 (Clean.left hc)
  obtain ⟨b1, b2, b3, b4⟩ := h'.2.2 (Clean.right hc)
  have z : ∀ c : Comp α, ∀ b, 0 ≤ c.count b := fun c b => c.count_nonneg b
  refine ⟨?_, ?_, ?_, ?_⟩
  · have w1 := a2 .WN; have w2 := b2 .WN; have l1 := a2 .LIN; have l2 := b2 .LIN
    rw [normal_WN (z _ _), normal_WN (z _ _)] at w1 w2
    rw [normal_LIN, normal_LIN] at l1 l2
    have := z c .WN; have := z c' .WN; have := z e .WN; have := z e' .WN
    have := z c .LIN; have := z c' .LIN; have := z e .LIN; have := z e' .LIN
    unfold Comp.Clean at *; simp only [Comp.count_mul] at *; omega
  · intro b
    have e1 : (e.mul e').count = fun x => e.count x + e'.count x := funext (fun x => Comp.count_mul e e' x)
    have e2 : (c.mul c').count = fun x => c.count x + c'.count x := funext (fun x => Comp.count_mul c c' x)
    have sw : ∀ f g : Base → Int, (fun x => f x + g x) = (fun x => g x + f x) := fun f g => funext (fun x => Int.add_comm _ _)
    have na : ∀ f f' g : Base → Int, (∀ b, 0 ≤ f b) → (∀ b, 0 ≤ f' b) → (∀ b, 0 ≤ g b) → (∀ b, normal f b = normal f' b) →
        normal (fun x => f x + g x) b = normal (fun x => f' x + g x) b := by
      intro f f' g h1 h2 h3 h4
      rw [← normal_add h1 h3, ← normal_add h2 h3, funext h4]
    rw [e1, e2, na _ _ _ (z e) (z c) (z e') a2, sw c.count, sw c.count, na _ _ _ (z e') (z c') (z c) b2]
  · rw [Comp.count_mul, Comp.count_mul]; omega
  · intro L hs
    rw [Comp.val_mul, Comp.val_mul, a4 L (SEok.left hs), b4 L (SEok.right hs)]

theorem Rel.of_eqv {comb : α → α → α} {P : α → Prop} {c e : Comp α} {n : Prod α} (h : Rel φ shape comb P e n)
    (he : Eqv φ shape comb P c e) : Rel φ shape comb P c n := by
  refine ⟨h.inv, fun hc b => ?_, fun b hb => (h.sig b hb).trans (he.1 b hb), fun L => (h.var L).trans (he.2.1 L), fun L hc hs => ?_⟩
  · obtain ⟨a1, a2, _⟩ := he.2.2 hc
    rw [h.bts a1, a2]
  · obtain ⟨a1, a2, a3, a4⟩ := he.2.2 hc
    rw [h.val L a1 (hs.imp (fun h => by omega) id), a4 L hs]

theorem ib_items (ps : PDict α) (pv : Option α) (h : DOK ps) (hv : ∀ b, ∀ p ∈ ps.get b, p.variance = none) (b : Base) :
    ib (items ps pv) b = ps.get b := by
  unfold items
  rw [ib_append]
  have e2 : ib (pv.toList.map (fun v => ((none, { variance := some v }) : Item α))) b = [] := by cases pv <;> simp [ib]
  rw [e2, List.append_nil]
  have hv' : ∀ e ∈ ps, ∀ p ∈ e.2, p.variance = none := by
    intro e he p hp; rw [← PDict.get_of_mem h he] at hp; exact hv _ p hp
  have hn := h.nodup
  clear hv e2 h
  induction ps with
  | nil => rfl
  | cons e r ih =>
    obtain ⟨k, v⟩ := e
    rw [List.map_cons, List.nodup_cons] at hn
    rw [List.flatMap_cons, ib_append, ih (fun e he => hv' e (by simp [he])) hn.2, PDict.get]
    have hvk := hv' (k, v) (by simp)
    simp only at hvk ⊢
    by_cases hk : k = b
    · subst hk
      rw [PDict.get_eq_nil hn.1, List.append_nil, if_pos rfl]
      clear hv' hn ih
      induction v with
      | nil => rfl
      | cons p ps ihp =>
        rw [List.map_cons, ib_cons, if_pos rfl, ihp (fun q hq => hvk q (by simp [hq])), noVar_self (hvk p (by simp))]
    · rw [if_neg hk]
      have : ib (v.map (fun p => ((some k, p) : Item α))) b = [] := by simp [ib, hk]
      rw [this, List.nil_append]

theorem vars_items (ps : PDict α) (pv : Option α) (h : DOK ps) (hv : ∀ b, ∀ p ∈ ps.get b, p.variance = none) :
    ((items ps pv).map (fun i => varVal φ i.2.variance)).prod = varVal φ pv := by
  have hv' : ∀ e ∈ ps, ∀ p ∈ e.2, p.variance = none := by
    intro e he p hp; rw [← PDict.get_of_mem h he] at hp; exact hv _ p hp
  unfold items
  rw [List.map_append, List.prod_append, prod_one, one_mul]
  · cases pv <;> simp [varVal]
  · intro y hy
    obtain ⟨i, hi, rfl⟩ := List.mem_map.1 hy
    obtain ⟨e, he, hi⟩ := List.mem_flatMap.1 hi
    obtain ⟨p, hp, rfl⟩ := List.mem_map.1 hi
    simp [hv' e he p hp, varVal]

/-- The items of a product standing for a component can be used for it. -/
theorem Rel.eqv {comb : α → α → α} {P : α → Prop} {c : Comp α} {n : Prod α} (h : Rel φ shape comb P c n) :
    Eqv φ shape comb P c (compOf (items n.ps n.pv)) := by
  refine ⟨fun b hb => ?_, fun L => ?_, fun hc => ?_⟩
  · rw [only_compOf, ib_items n.ps n.pv h.inv.dok h.inv.novar]; exact h.sig b hb
  · rw [vars_compOf, vars_items n.ps n.pv h.inv.dok h.inv.novar]; exact h.var L
  have hcount : ∀ b, (compOf (items n.ps n.pv)).count b = (n.ps.get b).length := by
    intro b; rw [count_compOf, ib_items n.ps n.pv h.inv.dok h.inv.novar]
  have hb := h.bts hc
  have hlin : ((n.ps.get .LIN).length : Int) = n.bts.get .LIN := by
    rcases hc with h0 | h0
    · exact h.inv.cLeq (h.noWN (Or.inl h0) h0)
    · have h1 := h.noLIN (Or.inr h0) h0
      rw [hb, normal_LIN, h0, h1]; rfl
  refine ⟨?_, ?_, ?_, ?_⟩
  · unfold Comp.Clean; rw [hcount, hcount]
    rcases hc with h0 | h0
    · left; rw [h.noWN (Or.inl h0) h0]; rfl
    · right; rw [h.noLIN (Or.inr h0) h0]; rfl
  · intro b
    rw [show (compOf (items n.ps n.pv)).count = fun b => ((n.ps.get b).length : Int) from funext hcount]
    rw [normal_congr (g := n.bts.get)]
    · rw [h.inv.nm, hb]
    · rw [h.inv.cW]; simp [List.length_pos_iff]
    · intro x hx
      by_cases hL : x = .LIN
      · subst hL; exact hlin
      · exact h.inv.cO x hx hL
    · exact Int.natCast_nonneg _
    · exact h.inv.pos.nonneg _
  · rw [hcount]; exact h.lenSE hc
  · intro L hs
    rw [val_compOf, vars_items _ _ h.inv.dok h.inv.novar, ← h.val L hc hs]
    congr 1
    exact congrArg _ (funext (fun b => ib_items n.ps n.pv h.inv.dok h.inv.novar b))

end Sops
end GPyABCD
