import Verif.Lemmas.SopsHeapMain

/-!
# Lemmas: the sum-of-products form on objects is the one on values
-/

namespace GPyABCD
namespace Sops
namespace Hp

variable {α : Type}

/-! ## Base terms of a sum -/

theorem dr_cons (s : Store α) (e : Base × Nat) (ps : HDict) : dr s (e :: ps) = s.l e.2 ++ dr s ps := by simp [dr]

/-- Deleting the first dictionary of an entry. -/
theorem dr_first {s : Store α} {b : Base} {a p : Nat} {rest : List Nat} : ∀ {ps : HDict}, ps.find b = some a → s.l a = p :: rest →
    (lr ps).Nodup → (dr s ps).Nodup →
    p ∈ dr s ps ∧ (dr (s.setL a rest) ps).Nodup ∧ p ∉ dr (s.setL a rest) ps ∧ ∀ r ∈ dr (s.setL a rest) ps, r ∈ dr s ps
  | [], h, _, _, _ => by simp [HDict.find] at h
  | (k, v) :: ps, h, hl, h1, h2 => by
    simp only [HDict.find] at h
    simp only [lr, List.map_cons, List.nodup_cons] at h1
    rw [dr_cons, List.nodup_append] at h2
    by_cases hk : k = b
    · rw [if_pos hk] at h
      have h : v = a := by simpa using h
      subst h
      have e : dr (s.setL v rest) ps = dr s ps := dr_congr (fun c hc => by
        simp only [Store.setL]; rw [if_neg]; rintro rfl; exact h1.1 hc)
      have e' : (s.setL v rest).l v = rest := by simp [Store.setL]
      simp only [dr_cons, e, e', hl] at h2 ⊢
      refine ⟨by simp, ?_, ?_, ?_⟩
      · rw [List.nodup_append]
        exact ⟨(List.nodup_cons.1 h2.1).2, h2.2.1, fun x hx y hy => h2.2.2 x (by simp [hx]) y hy⟩
      · intro h'
        rcases List.mem_append.1 h' with h' | h'
        · exact (List.nodup_cons.1 h2.1).1 h'
        · exact h2.2.2 p (by simp) p h' rfl
      · intro r hr
        rcases List.mem_append.1 hr with h' | h' <;> simp [h']
    · rw [if_neg hk] at h
      have hav : v ≠ a := by rintro rfl; exact h1.1 (find_mem h)
      have e' : (s.setL a rest).l v = s.l v := by simp [Store.setL, hav]
      obtain ⟨k1, k2, k3, k4⟩ := dr_first h hl h1.2 h2.2.1
      simp only [dr_cons, e']
      refine ⟨by simp [k1], ?_, ?_, ?_⟩
      · rw [List.nodup_append]
        exact ⟨h2.1, k2, fun x hx y hy => h2.2.2 x hx y (k4 y hy)⟩
      · intro h'
        rcases List.mem_append.1 h' with h' | h'
        · exact h2.2.2 p h' p k1 rfl
        · exact k3 h'
      · intro r hr
        rcases List.mem_append.1 hr with h' | h'
        · simp [h']
        · simp [k4 r h']

theorem find_entry {ps : HDict} {b : Base} {a : Nat} (h : ps.find b = some a) : (b, a) ∈ ps := by
  induction ps with
  | nil => simp [HDict.find] at h
  | cons e ps ih =>
    obtain ⟨k, v⟩ := e
    simp only [HDict.find] at h
    split at h
    · rename_i hk; cases h; simp [hk]
    · simp [ih h]

/-- Deleting the entry. -/
theorem dr_del {s : Store α} {b : Base} {a p : Nat} {rest : List Nat} : ∀ {ps : HDict}, ps.find b = some a → s.l a = p :: rest → (dr s ps).Nodup →
    p ∈ dr s ps ∧ (dr s (ps.del b)).Nodup ∧ p ∉ dr s (ps.del b)
  | [], h, _, _ => by simp [HDict.find] at h
  | (k, v) :: ps, h, hl, h2 => by
    have hsub : (dr s (HDict.del ((k, v) :: ps) b)).Sublist (dr s ((k, v) :: ps)) := sublist_flatMap List.filter_sublist _
    refine ⟨mem_dr.2 ⟨a, find_mem h, by simp [hl]⟩, hsub.nodup h2, ?_⟩
    simp only [HDict.find] at h
    rw [dr_cons, List.nodup_append] at h2
    have hsub' : (dr s (HDict.del ps b)).Sublist (dr s ps) := sublist_flatMap List.filter_sublist _
    by_cases hk : k = b
    · rw [if_pos hk] at h
      have h : v = a := by simpa using h
      subst h
      have e : HDict.del ((k, v) :: ps) b = HDict.del ps b := by simp [HDict.del, hk]
      rw [e]
      intro h'
      exact h2.2.2 p (by simp [hl]) p (hsub'.subset h') rfl
    · rw [if_neg hk] at h
      have e : HDict.del ((k, v) :: ps) b = (k, v) :: HDict.del ps b := by simp [HDict.del, hk]
      obtain ⟨k1, k2, k3⟩ := dr_del h hl h2.2.1
      rw [e, dr_cons]
      intro h'
      rcases List.mem_append.1 h' with h' | h'
      · exact h2.2.2 p h' p k1 rfl
      · exact k3 h'

section
variable [Mul α] [One α] (comb : α → α → α)

theorem moveBases_sim : ∀ (bs : List Base) {s : Store α} (bts : Counter) {ps : HDict} {acc : List HProd} {L D : Nat → Prop}, (lr ps).Nodup →
    (∀ a ∈ lr ps, a < s.nl) → (dr s ps).Nodup → (∀ r ∈ dr s ps, r < s.nd) → Ok s acc → At L D s acc → (∀ a ∈ lr ps, ¬ L a) → (∀ r ∈ dr s ps, ¬ D r) →
    Sim (moveBasesH comb s bts ps (kes acc) bs) (moveBases comb bts (rdPs s ps) (vals s acc) bs) (fun s' x v => ∃ acc', x.2.2 = kes acc' ∧
      v = (x.1, rdPs s' x.2.1, vals s' acc') ∧ Ok s' acc' ∧ Fr (fun r => r ∈ dr s ps) (fun a => a ∈ lr ps) s s' ∧
      At (fun a => L a ∨ s.nl ≤ a) (fun r => D r ∨ r ∈ dr s ps ∨ s.nd ≤ r) s' acc')
  | [], s, bts, ps, acc, L, D, h1, h2, h3, h4, h5, h6, h7, h8 => by
    simp only [moveBasesH, moveBases, Sim]
    exact ⟨acc, by trivial, by trivial, h5, Fr.refl _, h6.mono (fun _ => Or.inl) (fun _ => Or.inl)⟩
  | b :: bs, s, bts, ps, acc, L, D, h1, h2, h3, h4, h5, h6, h7, h8 => by
    simp only [moveBasesH, moveBases, get_rdPs]
    cases hf : ps.find b with
    | none => simp [Sim]
    | some a =>
      simp only [Option.map_some, Option.getD_some, rdL]
      cases hl : s.l a with
      | nil => simp [Sim]
      | cons p rest =>
        simp only [List.map_cons]
        have ha : a ∈ lr ps := find_mem hf
        have hpm : p ∈ dr s ps := mem_dr.2 ⟨a, ha, by simp [hl]⟩
        have hp : p < s.nd := h4 p hpm
        have sim := newBases_sim comb (s := s) (n := HProd.empty) (Or.inl rfl) [(some b, p)] (by simpa using hp) (by simp [HProd.empty]) (by simp)
        have e0 : rdP s HProd.empty = (Prod.empty : Prod α) := rfl
        rw [e0] at sim
        refine sim.bind ?_
        rintro s1 n m ⟨rfl, k1, k2, k3, k4⟩
        have f : Fr (fun r => r = p) (fun _ => False) s s1 := by
          refine k3.mono (fun r _ h' => ?_) (fun r _ h' => by simp [HProd.empty, lr] at h')
          rcases h' with h' | ⟨i, hi, _, e, _⟩
          · simp [HProd.empty] at h'
          · simp at hi; subst hi; exact e.symm
        have nl : ∀ c ∈ lr n.ps, s.nl ≤ c := fun c hc => (k4.l c hc).elim (fun h' => by simp [HProd.empty, lr] at h') id
        have ndr : ∀ r ∈ dr s1 n.ps, r = p ∨ s.nd ≤ r := fun r hr => by
          rcases k4.d r hr with h' | h' | h'
          · simp [HProd.empty, dr] at h'
          · exact Or.inl (by simpa using h')
          · exact Or.inr h'
        have npv : ∀ c, n.pv = some c → s.nd ≤ c := fun c hc => by
          rcases k2 with h' | ⟨_, a', h', h''⟩
          · rw [h'] at hc; simp [HProd.empty] at hc
          · rw [h'] at hc; cases hc; exact h''
        -- the terms already there
        obtain ⟨q1, q2, q3⟩ := h5.fr f h6 (fun _ _ _ => id) (fun r _ h' e => h8 p hpm (e ▸ h'))
        have qlt := h5.at
        have ok1 : Ok s1 (n :: acc) := Ok.mk_cons k1 q1 (fun c hc u hu h' => by
            have := nl c hc
            have := qlt.l u hu c h'
            omega) (fun u hu e => by
            obtain ⟨c, ec, _, _⟩ := k1.pv
            have := npv c ec
            have := qlt.pv u hu c (e.trans ec)
            omega)
        have at1 : At (fun c => L c ∨ s.nl ≤ c) (fun r => D r ∨ r = p ∨ s.nd ≤ r) s1 (n :: acc) :=
          At.cons.2 ⟨⟨fun c hc => Or.inr (nl c hc), fun r hr => Or.inr (ndr r hr), fun c hc => Or.inr (Or.inr (npv c hc))⟩,
            q3.mono (fun _ => Or.inl) (fun _ => Or.inl)⟩
        have ev : vals s1 (n :: acc) = (rdP s1 n).ke :: vals s acc := by rw [vals_cons, q2]
        cases hr : rest with
        | nil =>
          simp only [List.map_nil, List.isEmpty_nil, if_true]
          obtain ⟨d1, d2, d3⟩ := dr_del hf hl h3
          have hsub : ∀ c ∈ lr (ps.del b), c ∈ lr ps := fun c hc => (lr_filter _ _).subset hc
          have hdsub : ∀ r ∈ dr s (ps.del b), r ∈ dr s ps := dr_of_lr hsub
          have el : ∀ c ∈ lr (ps.del b), s1.l c = s.l c := fun c hc => f.l c (h2 c (hsub c hc)) id
          have e1 : dr s1 (ps.del b) = dr s (ps.del b) := dr_congr el
          have e2 : rdPs s1 (ps.del b) = (rdPs s ps).del b := by
            rw [rdPs_congr el (fun r hr => f.d r (h4 r (hdsub r hr)) (fun e => d3 (e ▸ hr)))]
            exact rdPs_filter s ps (fun k => decide (k ≠ b))
          have ih := moveBases_sim bs (s := s1) (bts.put b (bts.get b - 1)) (ps := ps.del b) (acc := n :: acc)
            (L := fun c => L c ∨ s.nl ≤ c) (D := fun r => D r ∨ r = p ∨ s.nd ≤ r) ((lr_filter _ _).nodup h1)
            (fun c hc => (h2 c (hsub c hc)).trans_le f.nl) (by rw [e1]; exact d2) (by rw [e1]; exact fun r hr => (h4 r (hdsub r hr)).trans_le f.nd)
            ok1 at1 (fun c hc h' => h'.elim (h7 c (hsub c hc)) (fun h' => by have := h2 c (hsub c hc); omega))
            (by
              rw [e1]
              rintro r hr (h' | h' | h')
              · exact h8 r (hdsub r hr) h'
              · exact d3 (h' ▸ hr)
              · have := h4 r (hdsub r hr); omega)
          rw [e1, e2, ev] at ih
          refine ih.mono ?_
          rintro s2 x v ⟨acc', j1, j2, j3, j4, j5⟩
          refine ⟨acc', j1, j2, j3, ?_, j5.mono (fun c h' => ?_) (fun r h' => ?_)⟩
          · exact (f.mono (fun r _ e => e ▸ hpm) (fun _ _ => False.elim)).trans (j4.mono (fun r _ h' => hdsub r h') (fun c _ h' => hsub c h'))
          · rcases h' with (h' | h') | h'
            · exact Or.inl h'
            · exact Or.inr h'
            · exact Or.inr (f.nl.trans h')
          · rcases h' with (h' | h' | h') | h' | h'
            · exact Or.inl h'
            · exact Or.inr (Or.inl (h' ▸ hpm))
            · exact Or.inr (Or.inr h')
            · exact Or.inr (Or.inl (hdsub r h'))
            · exact Or.inr (Or.inr (f.nd.trans h'))
        | cons p2 rest2 =>
          rw [← hr]
          have hne : rest.isEmpty = false := by rw [hr]; rfl
          have hne' : (rest.map s.d).isEmpty = false := by rw [hr]; rfl
          simp only [hne, hne', Bool.false_eq_true, if_false]
          obtain ⟨d1, d2, d3, d4⟩ := dr_first hf hl h1 h3
          have g : Fr (fun _ => False) (fun c => c = a) s1 (s1.setL a rest) := fr_setL _ _ _ rfl
          -- the list after the deletion
          have el : ∀ c ∈ lr ps, (s1.setL a rest).l c = (s.setL a rest).l c := fun c hc => by
            simp only [Store.setL]
            split
            · rfl
            · exact f.l c (h2 c hc) id
          have e1 : dr (s1.setL a rest) ps = dr (s.setL a rest) ps := dr_congr el
          have e2 : rdPs (s1.setL a rest) ps = (rdPs s ps).put b (rest.map s.d) := by
            rw [← rdPs_setL s ps b a rest hf h1]
            exact rdPs_congr el (fun r hr => f.d r (h4 r (d4 r hr)) (fun e => d3 (e ▸ hr)))
          obtain ⟨w1, w2, w3⟩ := ok1.fr g at1 (fun c _ h' e => by
            subst e
            rcases h' with h' | h'
            · exact h7 c ha h'
            · have := h2 c ha; omega) (fun _ _ _ => id)
          have ih := moveBases_sim bs (s := s1.setL a rest) (bts.put b (bts.get b - 1)) (ps := ps) (acc := n :: acc)
            (L := fun c => L c ∨ s.nl ≤ c) (D := fun r => D r ∨ r = p ∨ s.nd ≤ r) h1 (fun c hc => (h2 c hc).trans_le f.nl) (by rw [e1]; exact d2)
            (by rw [e1]; exact fun r hr => (h4 r (d4 r hr)).trans_le f.nd) w1 w3
            (fun c hc h' => h'.elim (h7 c hc) (fun h' => by have := h2 c hc; omega))
            (by
              rw [e1]
              rintro r hr (h' | h' | h')
              · exact h8 r (d4 r hr) h'
              · exact d3 (h' ▸ hr)
              · have := h4 r (d4 r hr); omega)
          rw [e1, e2, w2, ev] at ih
          refine ih.mono ?_
          rintro s2 x v ⟨acc', j1, j2, j3, j4, j5⟩
          refine ⟨acc', j1, j2, j3, ?_, j5.mono (fun c h' => ?_) (fun r h' => ?_)⟩
          · exact ((f.mono (fun r _ e => e ▸ hpm) (fun _ _ => False.elim)).trans (g.mono (fun _ _ => False.elim) (fun c _ e => e ▸ ha))).trans
              (j4.mono (fun r _ h' => d4 r h') (fun c _ h' => h'))
          · rcases h' with (h' | h') | h'
            · exact Or.inl h'
            · exact Or.inr h'
            · exact Or.inr (f.nl.trans h')
          · rcases h' with (h' | h' | h') | h' | h'
            · exact Or.inl h'
            · exact Or.inr (Or.inl (h' ▸ hpm))
            · exact Or.inr (Or.inr h')
            · exact Or.inr (Or.inl (d4 r h'))
            · exact Or.inr (Or.inr (f.nd.trans h'))

/-! ## Nodes -/

/-- The form of an expression with dictionaries `D` and lists `L`. -/
def Form (L D : Nat → Prop) (s : Store α) (s' : Store α) (r : HKE) (v : PKE α) : Prop :=
  ∃ u, r = sumH u ∧ v = sumV s' u ∧ Ok s' u.2 ∧ Fr D L s s' ∧ At (fun a => L a ∨ s.nl ≤ a) (fun r => D r ∨ s.nd ≤ r) s' u.2

theorem all_isProdH (ts : List HProd) : (kes ts).all isProdH = true := by
  induction ts with
  | nil => rfl
  | cons t ts ih => rw [kes_cons, List.all_cons, ih]; rfl

theorem all_isProd (s : Store α) (ts : List HProd) : (vals s ts).all isProd = true := by
  induction ts with
  | nil => rfl
  | cons t ts ih => rw [vals_cons, List.all_cons, ih]; rfl

theorem sumForm_sim {s : Store α} (bts : Counter) {ps : HDict} (us : List (Counter × List HProd)) (h1 : (lr ps).Nodup) (h2 : ∀ a ∈ lr ps, a < s.nl)
    (h3 : (dr s ps).Nodup) (h4 : ∀ r ∈ dr s ps, r < s.nd) (h5 : ∀ u ∈ us, Ok s u.2) :
    Sim (sumFormH comb s bts ps none (us.map sumH)) (sumForm comb bts (rdPs s ps) none (us.map (sumV s)))
      (Form (fun a => a ∈ lr ps) (fun r => r ∈ dr s ps) s) := by
  unfold sumFormH sumForm
  refine (collect_sim us s (fun u hu t ht => (h5 u hu).good t ht)).bind ?_
  rintro s1 r v ⟨ts, rfl, rfl, k1, k2, k3⟩
  have el : ∀ a ∈ lr ps, s1.l a = s.l a := fun a ha => k2.l a (h2 a ha) id
  have e1 : dr s1 ps = dr s ps := dr_congr el
  have e2 : rdPs s1 ps = rdPs s ps := rdPs_congr el (fun r hr => k2.d r (h4 r hr) id)
  have sim := moveBases_sim comb bts.elements (s := s1) bts h1 (fun a ha => (h2 a ha).trans_le k2.nl) (by rw [e1]; exact h3)
    (by rw [e1]; exact fun r hr => (h4 r hr).trans_le k2.nd) k1 k3 (fun a ha => by have := h2 a ha; omega) (by
      rw [e1]; intro r hr; have := h4 r hr; omega)
  rw [e1, e2] at sim
  refine sim.bind ?_
  rintro s2 ⟨bts', ps', acc⟩ v ⟨acc', j1, rfl, j3, j4, j5⟩
  simp only at j1 ⊢
  subst j1
  have en : rdPs s2 ps' = [] ↔ ps' = [] := by simp [rdPs]
  simp only [en, and_true, all_isProdH, all_isProd, if_true]
  split
  · refine ⟨(bts'.pos, acc'), rfl, rfl, j3, (k2.mono (fun _ _ => False.elim) (fun _ _ => False.elim)).trans j4, j5.mono (fun a h' => ?_) (fun r h' => ?_)⟩
    · rcases h' with h' | h'
      · exact Or.inr h'
      · exact Or.inr (k2.nl.trans h')
    · rcases h' with h' | h' | h'
      · exact Or.inr h'
      · exact Or.inl h'
      · exact Or.inr (k2.nd.trans h')
  · simp [Sim]

theorem allSumsH_sums (us : List (Counter × List HProd)) : allSumsH (us.map sumH) = .ok (us.map (fun u => kes u.2)) := by
  induction us with
  | nil => rfl
  | cons u us ih => simp only [List.map_cons, allSumsH, sumH, sumTermsH] at ih ⊢; rw [ih]; rfl

theorem allSums_sums (s : Store α) (us : List (Counter × List HProd)) : allSums (us.map (sumV s)) = .ok (us.map (fun u => vals s u.2)) := by
  induction us with
  | nil => rfl
  | cons u us ih => simp only [List.map_cons, allSums, sumV, sumTerms] at ih ⊢; rw [ih]; rfl

theorem cart_map {β γ : Type} (f : β → γ) : ∀ ls : List (List β), cart (ls.map (List.map f)) = (cart ls).map (List.map f)
  | [] => rfl
  | l :: ls => by
    simp only [List.map_cons, cart, cart_map f ls, List.map_flatMap, List.flatMap_map, List.map_map, Function.comp_def]

theorem mem_cart {β : Type} : ∀ {ls : List (List β)} {t : List β}, t ∈ cart ls → ∀ x ∈ t, ∃ l ∈ ls, x ∈ l
  | [], t, h, x, hx => by simp [cart] at h; subst h; simp at hx
  | l :: ls, t, h, x, hx => by
    simp only [cart, List.mem_flatMap, List.mem_map] at h
    obtain ⟨y, hy, t', ht', rfl⟩ := h
    rcases List.mem_cons.1 hx with rfl | hx
    · exact ⟨l, by simp, hy⟩
    · obtain ⟨l', h1, h2⟩ := mem_cart ht' x hx
      exact ⟨l', by simp [h1], h2⟩

theorem prodForm_sim {s : Store α} {k0 : HProd} (us : List (Counter × List HProd)) {L D : Nat → Prop} (h0 : Good s k0) (a0 : At L D s [k0])
    (h5 : ∀ u ∈ us, Ok s u.2) (ha : ∀ u ∈ us, At L D s u.2) :
    Sim (prodFormH comb s k0.ps k0.pv (us.map sumH)) (prodForm comb (rdPs s k0.ps) (rdPv s k0.pv) (us.map (sumV s))) (fun s' r v =>
      ∃ u, r = sumH u ∧ v = sumV s' u ∧ Ok s' u.2 ∧ Fr (fun _ => False) (fun _ => False) s s' ∧
      At (fun a => s.nl ≤ a) (fun r => D r ∨ s.nd ≤ r) s' u.2) := by
  unfold prodFormH prodForm
  rw [allSumsH_sums, allSums_sums]
  simp only [Bind.bind, Except.bind]
  have e1 : cart (us.map (fun u => kes u.2)) = (cart (us.map (fun u => u.2))).map kes := by
    have := cart_map HProd.ke (us.map (fun u => u.2))
    rw [List.map_map] at this
    exact this
  have e2 : cart (us.map (fun u => vals s u.2)) = (cart (us.map (fun u => u.2))).map (vals s) := by
    have : ∀ ts, vals s ts = ts.map (fun t => (rdP s t).ke) := fun ts => by simp [vals, List.map_map, Function.comp_def]
    simp only [funext this]
    rw [← cart_map, List.map_map]; rfl
  have hm : ∀ ts ∈ cart (us.map (fun u => u.2)), ∀ t ∈ ts, ∃ u ∈ us, t ∈ u.2 := fun ts hts t ht => by
    obtain ⟨l, hl, h'⟩ := mem_cart hts t ht
    obtain ⟨u, hu, rfl⟩ := List.mem_map.1 hl
    exact ⟨u, hu, h'⟩
  have sim := multiplyAll_sim comb (cart (us.map (fun u => u.2))) h0 (fun ts hts t ht => by
      obtain ⟨u, hu, h'⟩ := hm ts hts t ht
      exact (h5 u hu).good t h') a0 (fun ts hts => ⟨fun t ht => by
      obtain ⟨u, hu, h'⟩ := hm ts hts t ht
      exact (ha u hu).l t h', fun t ht => by
      obtain ⟨u, hu, h'⟩ := hm ts hts t ht
      exact (ha u hu).d t h', fun t ht => by
      obtain ⟨u, hu, h'⟩ := hm ts hts t ht
      exact (ha u hu).pv t h'⟩)
  rw [e1, e2]
  refine sim.bind ?_
  rintro s1 r v ⟨ts, rfl, rfl, k1, k2, k3, _⟩
  exact ⟨([], ts), rfl, rfl, k1, k2, k3⟩

theorem sumCtor_sim (cfg : Cfg) {s : Store α} {ts : List HProd} (h : Ok s ts) :
    Sim (sumCtorH cfg s (kes ts)) (sumCtor cfg (vals s ts)) (fun s' r v => ∃ u, r = sumH u ∧ v = sumV s' u ∧ Ok s' u.2 ∧
      Fr (fun _ => False) (fun _ => False) s s' ∧ At (fun a => s.nl ≤ a) (fun r => s.nd ≤ r) s' u.2) := by
  unfold sumCtorH sumCtor
  rw [asProdsH_kes, asProds_vals]
  simp only [Bind.bind, Except.bind]
  -- the base terms of the products are simplified first
  set us := ts.map (fun n => ({ n with bts := reSimp n.bts } : HProd)) with hus
  have hok : Ok s us := by
    refine ⟨fun t ht => ?_, ?_, ?_⟩
    · obtain ⟨t, h', rfl⟩ := List.mem_map.1 ht
      exact ⟨(h.good t h').ps, (h.good t h').pv⟩
    · rw [hus, List.flatMap_map]; exact h.l
    · rw [hus, List.map_map]; exact h.pv
  have e1 : ts.map (fun n => HProd.shift s.nd s.nl { n with bts := reSimp n.bts }) = us.map (HProd.shift s.nd s.nl) := by
    rw [hus, List.map_map]; rfl
  have e2 : (ts.map (rdP s)).map (fun n => ({ n with bts := reSimp n.bts } : Prod α)) = us.map (rdP s) := by
    rw [hus, List.map_map, List.map_map]; rfl
  rw [e1, e2]
  have e3 : us.map (rdP s) = (us.map (HProd.shift s.nd s.nl)).map (rdP s.dup) := by
    rw [List.map_map (l := us)]; exact List.map_congr_left (fun t _ => rdP_shift.symm)
  rw [e3]
  set ws := us.map (HProd.shift s.nd s.nl) with hws
  have hokw : Ok s.dup ws := hok.shift
  have atw : At (fun a => s.nl ≤ a) (fun r => s.nd ≤ r) s.dup ws := at_shift us
  have f1 : ∀ (q : Counter → Bool), (ws.map (rdP s.dup)).filter (fun n => q n.bts) = (ws.filter (fun n => q n.bts)).map (rdP s.dup) := fun q => by
    rw [List.filter_map]; rfl
  refine ⟨(_, ws.filter (fun n => decide (n.bts.total ≠ 1))), rfl, ?_, hokw.sub List.filter_sublist, fr_dup s, atw.sub List.filter_sublist⟩
  rw [f1 (fun c => decide (c.total = 1)), f1 (fun c => decide (c.total ≠ 1)), List.flatMap_map]
  rfl

/-! ## Whole expressions -/

mutual
/-- What matching leaves behind: products have a variance for their base terms and no other, sums have none of their own, change parameters have none. -/
def Laid (s : Store α) : HKE → Prop
  | .leaf _ p => p < s.nd
  | .comm .sum _ ps pv cts => pv = none ∧ (∀ a ∈ lr ps, a < s.nl) ∧ (∀ r ∈ dr s ps, r < s.nd) ∧ LaidL s cts
  | .comm .prod bts ps pv cts => (ps = [] ∧ pv = none ∨ Good s ⟨bts, ps, pv⟩) ∧ LaidL s cts
  | .change _ p l r => p < s.nd ∧ (s.d p).variance = none ∧ Laid s l ∧ Laid s r
/-- In a list. -/
def LaidL (s : Store α) : List HKE → Prop
  | [] => True
  | k :: ks => Laid s k ∧ LaidL s ks
end

mutual
theorem Laid.lt {s : Store α} : ∀ (k : HKE), Laid s k → (∀ r ∈ dicts s k, r < s.nd) ∧ ∀ a ∈ lists k, a < s.nl
  | .leaf b p, h => by simpa [dicts, lists, Laid] using h
  | .comm .sum bts ps pv cts, h => by
    simp only [Laid] at h
    obtain ⟨rfl, h1, h2, h3⟩ := h
    obtain ⟨k1, k2⟩ := LaidL.lt cts h3
    simp only [dicts, lists, Option.toList_none, List.append_nil, List.mem_append]
    exact ⟨fun r hr => hr.elim (h2 r) (k1 r), fun a ha => ha.elim (h1 a) (k2 a)⟩
  | .comm .prod bts ps pv cts, h => by
    simp only [Laid] at h
    obtain ⟨h1, h3⟩ := h
    obtain ⟨k1, k2⟩ := LaidL.lt cts h3
    simp only [dicts, lists, List.mem_append]
    rcases h1 with ⟨rfl, rfl⟩ | h1
    · simp only [List.flatMap_nil, List.not_mem_nil, Option.toList_none, false_or, List.map_nil]
      exact ⟨k1, k2⟩
    · refine ⟨fun r hr => ?_, fun a ha => ha.elim (h1.ps.lt a) (k2 a)⟩
      rcases hr with (hr | hr) | hr
      · exact (h1.ps.db r hr).1
      · obtain ⟨a, e, h', _⟩ := h1.pv
        simp only at e
        rw [e] at hr
        simp at hr
        subst hr; exact h'
      · exact k1 r hr
  | .change c p l r, h => by
    simp only [Laid] at h
    obtain ⟨h1, _, h2, h3⟩ := h
    obtain ⟨k1, k2⟩ := Laid.lt l h2
    obtain ⟨k3, k4⟩ := Laid.lt r h3
    simp only [dicts, lists, List.mem_cons, List.mem_append]
    exact ⟨fun x hx => by rcases hx with rfl | hx | hx; exacts [h1, k1 x hx, k3 x hx], fun a ha => ha.elim (k2 a) (k4 a)⟩
theorem LaidL.lt {s : Store α} : ∀ (ks : List HKE), LaidL s ks → (∀ r ∈ dictsL s ks, r < s.nd) ∧ ∀ a ∈ listsL ks, a < s.nl
  | [], _ => by simp [dictsL, listsL]
  | k :: ks, h => by
    simp only [LaidL] at h
    obtain ⟨k1, k2⟩ := Laid.lt k h.1
    obtain ⟨k3, k4⟩ := LaidL.lt ks h.2
    simp only [dictsL, listsL, List.mem_append]
    exact ⟨fun x hx => hx.elim (k1 x) (k3 x), fun x hx => hx.elim (k2 x) (k4 x)⟩
end

mutual
/-- An expression whose objects are not changed. -/
theorem Laid.keep {A B : Nat → Prop} {s s' : Store α} (f : Fr A B s s') : ∀ (k : HKE), Laid s k → (∀ r ∈ dicts s k, ¬ A r) → (∀ a ∈ lists k, ¬ B a) →
    Laid s' k ∧ rd s' k = rd s k ∧ dicts s' k = dicts s k
  | .leaf b p, h, ha, hb => by
    simp only [Laid, dicts, List.mem_singleton, forall_eq] at h ha
    simp only [Laid, rd, dicts, f.d p h ha]
    exact ⟨h.trans_le f.nd, by trivial, by trivial⟩
  | .comm .sum bts ps pv cts, h, ha, hb => by
    simp only [Laid] at h
    obtain ⟨rfl, h1, h2, h3⟩ := h
    simp only [dicts, lists, Option.toList_none, List.append_nil, List.mem_append] at ha hb
    obtain ⟨k1, k2, k3⟩ := LaidL.keep f cts h3 (fun r hr => ha r (Or.inr hr)) (fun a h' => hb a (Or.inr h'))
    have el : ∀ a ∈ lr ps, s'.l a = s.l a := fun a h' => f.l a (h1 a h') (hb a (Or.inl h'))
    have e1 : dr s' ps = dr s ps := dr_congr el
    have e2 : rdPs s' ps = rdPs s ps := rdPs_congr el (fun r hr => f.d r (h2 r hr) (ha r (Or.inl hr)))
    refine ⟨⟨rfl, fun a h' => (h1 a h').trans_le f.nl, fun r hr => ?_, k1⟩, ?_, ?_⟩
    · rw [e1] at hr; exact (h2 r hr).trans_le f.nd
    · simp only [rd, e2, k2, rdPv, Option.bind_none]
    · simp only [dicts, k3]
      rw [show ps.flatMap (fun e => s'.l e.2) = ps.flatMap (fun e => s.l e.2) from e1]
  | .comm .prod bts ps pv cts, h, ha, hb => by
    simp only [Laid] at h
    obtain ⟨h1, h3⟩ := h
    simp only [dicts, lists, List.mem_append] at ha hb
    obtain ⟨k1, k2, k3⟩ := LaidL.keep f cts h3 (fun r hr => ha r (Or.inr hr)) (fun a h' => hb a (Or.inr h'))
    rcases h1 with ⟨rfl, rfl⟩ | h1
    · refine ⟨⟨Or.inl ⟨rfl, rfl⟩, k1⟩, ?_, ?_⟩
      · simp only [rd, k2, rdPs, List.map_nil, rdPv, Option.bind_none]
      · simp only [dicts, k3, List.flatMap_nil]
    · obtain ⟨g1, g2⟩ := h1.fr f (fun r hr => ha r (Or.inl (Or.inl hr))) (fun a e => ha a (Or.inl (Or.inr (by simp only at e; simp [e])))) (fun a h' => hb a (Or.inl h'))
      have e1 : dr s' ps = dr s ps := dr_congr (fun a h' => f.l a (h1.ps.lt a h') (hb a (Or.inl h')))
      simp only [rdP, Prod.mk.injEq, true_and] at g2
      refine ⟨⟨Or.inr g1, k1⟩, ?_, ?_⟩
      · simp only [rd, k2, g2.1, g2.2]
      · simp only [dicts, k3]
        rw [show ps.flatMap (fun e => s'.l e.2) = ps.flatMap (fun e => s.l e.2) from e1]
  | .change c p l r, h, ha, hb => by
    simp only [Laid] at h
    obtain ⟨h1, h2, h3, h4⟩ := h
    simp only [dicts, lists, List.mem_cons, List.mem_append] at ha hb
    obtain ⟨k1, k2, k3⟩ := Laid.keep f l h3 (fun r hr => ha r (Or.inr (Or.inl hr))) (fun a h' => hb a (Or.inl h'))
    obtain ⟨k4, k5, k6⟩ := Laid.keep f r h4 (fun r hr => ha r (Or.inr (Or.inr hr))) (fun a h' => hb a (Or.inr h'))
    have e := f.d p h1 (ha p (Or.inl rfl))
    exact ⟨⟨h1.trans_le f.nd, by rw [e]; exact h2, k1, k4⟩, by simp only [rd, k2, k5, e], by simp only [dicts, k3, k6]⟩
theorem LaidL.keep {A B : Nat → Prop} {s s' : Store α} (f : Fr A B s s') : ∀ (ks : List HKE), LaidL s ks → (∀ r ∈ dictsL s ks, ¬ A r) →
    (∀ a ∈ listsL ks, ¬ B a) → LaidL s' ks ∧ rdAll s' ks = rdAll s ks ∧ dictsL s' ks = dictsL s ks
  | [], _, _, _ => ⟨trivial, rfl, rfl⟩
  | k :: ks, h, ha, hb => by
    simp only [LaidL] at h
    simp only [dictsL, listsL, List.mem_append] at ha hb
    obtain ⟨k1, k2, k3⟩ := Laid.keep f k h.1 (fun r hr => ha r (Or.inl hr)) (fun a h' => hb a (Or.inl h'))
    obtain ⟨k4, k5, k6⟩ := LaidL.keep f ks h.2 (fun r hr => ha r (Or.inr hr)) (fun a h' => hb a (Or.inr h'))
    exact ⟨⟨k1, k4⟩, by simp only [rdAll, k2, k5], by simp only [dictsL, k3, k6]⟩
end

theorem asLeaf_rd (s : Store α) (k : HKE) : asLeaf (rd s k) = (asLeafH k).map (fun x => (x.1, s.d x.2)) := by
  cases k <;> simp [rd, asLeaf, asLeafH]

/-- One branch of a change operator. -/
theorem branch_sim (cfg : Cfg) {s : Store α} (k : HKE) (b : Base) {p : Nat} (hp : p < s.nd) (hv : (s.d p).variance = none) (hk : Laid s k)
    (hn : p ∉ dicts s k) (ih : Sim (sopsH comb cfg s k) (sops comb cfg (rd s k)) (Form (fun a => a ∈ lists k) (fun r => r ∈ dicts s k) s)) :
    Sim (branchH comb s (some b, p) k (sopsH comb cfg s k)) (branch comb (some b, s.d p) (rd s k) (sops comb cfg (rd s k))) (fun s' r v =>
      ∃ ts, childTermsH r = .ok (kes ts) ∧ childTerms v = .ok (vals s' ts) ∧ Ok s' ts ∧
        Fr (fun r => r ∈ dicts s k) (fun a => a ∈ lists k) s s' ∧
        At (fun a => a ∈ lists k ∨ s.nl ≤ a) (fun r => r ∈ dicts s k ∨ r = p ∨ s.nd ≤ r) s' ts) := by
  unfold branchH branch
  rw [asLeaf_rd]
  cases hl : asLeafH k with
  | some x =>
    obtain ⟨b', q⟩ := x
    have e : k = .leaf b' q := by
      cases k <;> simp [asLeafH] at hl
      rw [hl.1, hl.2]
    subst e
    simp only [Laid] at hk
    simp only [dicts, List.mem_singleton] at hn
    have sim := newBases_sim comb (s := s) (n := HProd.empty) (Or.inl rfl) [(some b', q), (some b, p)] (by simp [hk, hp]) (by simp [HProd.empty])
      (by simp only [List.pairwise_cons, List.mem_singleton, forall_eq]; exact ⟨fun _ _ => Ne.symm hn, by simp⟩)
    have e0 : rdP s HProd.empty = (Prod.empty : Prod α) := rfl
    rw [e0] at sim
    simp only [Option.map_some]
    have sim' := sim.bind (f := fun x => (pure (x.1, x.2.ke) : Except SErr (Store α × HKE))) (g := fun n => (pure n.ke : Except SErr (PKE α)))
      (Q' := fun s' r v => ∃ ts, childTermsH r = .ok (kes ts) ∧ childTerms v = .ok (vals s' ts) ∧ Ok s' ts ∧
        Fr (fun r => r ∈ dicts s (.leaf b' q)) (fun a => a ∈ lists (.leaf b' q)) s s' ∧
        At (fun a => a ∈ lists (.leaf b' q) ∨ s.nl ≤ a) (fun r => r ∈ dicts s (.leaf b' q) ∨ r = p ∨ s.nd ≤ r) s' ts) (by
      rintro s1 n m ⟨rfl, k1, k2, k3, k4⟩
      refine ⟨[n], rfl, rfl, Ok.mk_cons k1 (Ok.nil _) (by simp) (by simp), ?_, At.cons.2 ⟨⟨fun a ha => ?_, fun r hr => ?_, fun a e => ?_⟩, At.nil _⟩⟩
      · refine k3.mono (fun r _ h' => ?_) (fun r _ h' => by simp [HProd.empty, lr] at h')
        rcases h' with h' | ⟨i, hi, _, e, c⟩
        · simp [HProd.empty] at h'
        · simp only [List.mem_cons, List.not_mem_nil, or_false] at hi
          rcases hi with rfl | rfl
          · simp [dicts, ← e]
          · simp only at e; subst e; exact absurd hv c
      · exact (k4.l a ha).elim (fun h' => by simp [HProd.empty, lr] at h') Or.inr
      · rcases k4.d r hr with h' | h' | h'
        · simp [HProd.empty, dr] at h'
        · simp only [List.map_cons, List.map_nil, List.mem_cons, List.not_mem_nil, or_false] at h'
          simp only [dicts, List.mem_singleton]; tauto
        · exact Or.inr (Or.inr h')
      · rcases k2 with h' | ⟨_, a', h', h''⟩
        · rw [h'] at e; simp [HProd.empty] at e
        · rw [h'] at e; cases e; exact Or.inr (Or.inr h''))
    have em : ∀ x : Except SErr (Prod α), (Prod.ke <$> x) = x >>= fun n => (pure n.ke : Except SErr (PKE α)) := fun x => by cases x <;> rfl
    rw [em]
    exact sim'
  | none =>
    simp only [Option.map_none]
    refine ih.bind ?_
    rintro s1 r v ⟨⟨c, ts⟩, rfl, rfl, k1, k2, k3⟩
    cases c with
    | cons e c => simp [sumH, sumV, Sim]
    | nil =>
      simp only [sumH, sumV]
      have ep := k2.d p hp hn
      have sim := addSig_sim comb ts b (p := p) k1 (hp.trans_le k2.nd) (by rw [ep]; exact hv)
      rw [ep] at sim
      refine sim.bind ?_
      rintro s2 r v ⟨ts', rfl, rfl, j1, j2, j3, _⟩
      refine ⟨ts', rfl, rfl, j1, ?_, j3.mono (fun a h' => ?_) (fun r h' => ?_)⟩
      · refine ⟨k2.nd.trans j2.nd, k2.nl.trans j2.nl, fun r hr ha => ?_, fun r hr ha => ?_⟩
        · rw [j2.d r (hr.trans_le k2.nd), k2.d r hr ha]
          rintro ⟨t, ht, e⟩
          rcases k3.pv t ht r e with h' | h'
          · exact ha h'
          · omega
        · rw [j2.l r (hr.trans_le k2.nl), k2.l r hr ha]
          rintro ⟨t, ht, e⟩
          rcases k3.l t ht r e with h' | h'
          · exact ha h'
          · omega
      · rcases h' with ⟨t, ht, h'⟩ | h'
        · exact k3.l t ht a h'
        · exact Or.inr (k2.nl.trans h')
      · rcases h' with ⟨t, ht, h' | h'⟩ | h' | h'
        · exact (k3.d t ht r h').imp id Or.inr
        · exact (k3.pv t ht r h').imp id Or.inr
        · exact Or.inr (Or.inl h')
        · exact Or.inr (Or.inr (k2.nd.trans h'))

/-- A property of the second result follows a frame. -/
theorem rd_comm_sum (s : Store α) (bts : Counter) (ps : HDict) (pv : Option Nat) (cts : List HKE) :
    rd s (.comm .sum bts ps pv cts) = .comm .sum bts (rdPs s ps) (rdPv s pv) (rdAll s cts) := rfl

mutual
/-- The sum-of-products form computed on objects, when no two places share an object, is the one computed on values. -/
theorem sops_sim (cfg : Cfg) : ∀ (k : HKE) {s : Store α}, Laid s k → (dicts s k).Nodup → (lists k).Nodup →
    Sim (sopsH comb cfg s k) (sops comb cfg (rd s k)) (Form (fun a => a ∈ lists k) (fun r => r ∈ dicts s k) s)
  | .leaf b p, s, _, _, _ => by simp [sopsH, rd, sops, Sim]
  | .comm .sum bts ps pv cts, s, h, hd, hl => by
    simp only [Laid] at h
    obtain ⟨rfl, h1, h2, h3⟩ := h
    simp only [dicts, lists, Option.toList_none, List.append_nil] at hd hl
    rw [List.nodup_append] at hd hl
    have en : rdPs s ps = [] ↔ ps = [] := by simp [rdPs]
    simp only [rd, sopsH, sops, rdPv, Option.bind_none, en, and_true]
    by_cases hps : ps = []
    · simp [hps, Sim]
    · simp only [hps, if_false]
      refine (sopsL_sim cfg cts h3 hd.2.1 hl.2.1).bind ?_
      rintro s1 r v ⟨us, rfl, rfl, k1, k2, k3⟩
      have hlt := LaidL.lt cts h3
      have el : ∀ a ∈ lr ps, s1.l a = s.l a := fun a h' => k2.l a (h1 a h') (fun h'' => hl.2.2 a h' a h'' rfl)
      have e1 : dr s1 ps = dr s ps := dr_congr el
      have e2 : rdPs s1 ps = rdPs s ps := rdPs_congr el (fun r hr => k2.d r (h2 r hr) (fun h'' => hd.2.2 r hr r h'' rfl))
      have sim := sumForm_sim comb (s := s1) bts us hl.1 (fun a h' => (h1 a h').trans_le k2.nl) (by rw [e1]; exact hd.1)
        (by rw [e1]; exact fun r hr => (h2 r hr).trans_le k2.nd) k1
      rw [e1, e2] at sim
      refine sim.mono ?_
      rintro s2 r v ⟨u, rfl, rfl, j1, j2, j3⟩
      have md : ∀ r, r ∈ dr s ps → r ∈ dicts s (.comm .sum bts ps none cts) := fun r hr => by simp only [dicts, List.mem_append]; exact Or.inl (Or.inl hr)
      have md' : ∀ r, r ∈ dictsL s cts → r ∈ dicts s (.comm .sum bts ps none cts) := fun r hr => by simp only [dicts, List.mem_append]; exact Or.inr hr
      have ml : ∀ r, r ∈ lr ps → r ∈ lists (.comm .sum bts ps none cts) := fun r hr => by simp only [lists, List.mem_append]; exact Or.inl hr
      have ml' : ∀ r, r ∈ listsL cts → r ∈ lists (.comm .sum bts ps none cts) := fun r hr => by simp only [lists, List.mem_append]; exact Or.inr hr
      exact ⟨u, rfl, rfl, j1, (k2.mono (fun r _ => md' r) (fun a _ => ml' a)).trans (j2.mono (fun r _ => md r) (fun a _ => ml a)),
        j3.mono (fun a h' => h'.imp (ml a) (fun h' => k2.nl.trans h')) (fun r h' => h'.imp (md r) (fun h' => k2.nd.trans h'))⟩
  | .comm .prod bts ps pv cts, s, h, hd, hl => by
    simp only [Laid] at h
    obtain ⟨h1, h3⟩ := h
    simp only [dicts, lists] at hd hl
    rw [List.nodup_append] at hd hl
    have en : rdPs s ps = [] ↔ ps = [] := by simp [rdPs]
    have hpv : rdPv s pv = none ↔ pv = none := by
      rcases h1 with ⟨_, rfl⟩ | h1
      · simp [rdPv]
      · obtain ⟨a, e, _, h'⟩ := h1.pv
        simp only at e
        subst e
        simpa [rdPv] using h'
    by_cases hps : ps = [] ∧ pv = none
    · obtain ⟨rfl, rfl⟩ := hps
      cases cts <;> simp [rd, rdAll, sopsH, sops, rdPs, rdPv, Sim]
    · rcases h1 with h1 | h1
      · exact absurd h1 hps
      cases cts with
      | nil =>
        simp only [rd, rdAll, sopsH, sops, en, hpv, hps, if_false, Sim]
        refine ⟨([], [⟨reSimp bts, ps, pv⟩]), rfl, rfl, Ok.mk_cons ⟨h1.ps, h1.pv⟩ (Ok.nil _) (by simp) (by simp), Fr.refl _, At.cons.2 ⟨⟨fun a ha => ?_, fun r hr => ?_, fun a e => ?_⟩, At.nil _⟩⟩
        · left; simp only [lists, List.mem_append]; exact Or.inl ha
        · left; simp only [dicts, List.mem_append]; exact Or.inl (Or.inl hr)
        · left; simp only at e; simp [dicts, e]
      | cons k ks =>
        have hL := sopsL_sim cfg (k :: ks) h3 hd.2.1 hl.2.1
        rw [show rd s (.comm .prod bts ps pv (k :: ks)) = .comm .prod bts (rdPs s ps) (rdPv s pv) (rd s k :: rdAll s ks) from by simp only [rd, rdAll]]
        simp only [sopsH, sops, en, hpv, hps, if_false]
        rw [show rdAll s (k :: ks) = rd s k :: rdAll s ks from by simp only [rdAll]] at hL
        refine hL.bind ?_
        rintro s1 r v ⟨us, rfl, rfl, k1, k2, k3⟩
        have hlt := LaidL.lt (k :: ks) h3
        have md : ∀ r, (r ∈ dr s ps ∨ pv = some r) → r ∈ ps.flatMap (fun e => s.l e.2) ++ pv.toList := fun r hr => by
          rw [List.mem_append]; exact hr.imp id (fun e => by simp [e])
        obtain ⟨g1, g2⟩ := h1.fr k2 (fun r hr h' => hd.2.2 r (md r (Or.inl hr)) r h' rfl) (fun a e h' => hd.2.2 a (md a (Or.inr e)) a h' rfl)
          (fun a h' h'' => hl.2.2 a h' a h'' rfl)
        simp only [rdP, Prod.mk.injEq, true_and] at g2
        have e1 : dr s1 ps = dr s ps := dr_congr (fun a h' => k2.l a (h1.ps.lt a h') (fun h'' => hl.2.2 a h' a h'' rfl))
        have ml : ∀ a, a ∈ lr ps → a ∈ lists (.comm .prod bts ps pv (k :: ks)) := fun r hr => by simp only [lists, List.mem_append]; exact Or.inl hr
        have ml' : ∀ a, a ∈ listsL (k :: ks) → a ∈ lists (.comm .prod bts ps pv (k :: ks)) := fun r hr => by simp only [lists, List.mem_append]; exact Or.inr hr
        have mq : ∀ r, (r ∈ dr s ps ∨ pv = some r) → r ∈ dicts s (.comm .prod bts ps pv (k :: ks)) := fun r hr => by
          simp only [dicts]; exact List.mem_append.2 (Or.inl (md r hr))
        have mq' : ∀ r, r ∈ dictsL s (k :: ks) → r ∈ dicts s (.comm .prod bts ps pv (k :: ks)) := fun r hr => by
          simp only [dicts]; exact List.mem_append.2 (Or.inr hr)
        have sim := prodForm_sim comb (s := s1) (k0 := ⟨bts, ps, pv⟩) us (L := fun a => a ∈ lists (.comm .prod bts ps pv (k :: ks)) ∨ s.nl ≤ a)
          (D := fun r => r ∈ dicts s (.comm .prod bts ps pv (k :: ks)) ∨ s.nd ≤ r) g1
          (At.cons.2 ⟨⟨fun a ha => Or.inl (ml a ha), fun r hr => Or.inl (mq r (Or.inl (e1 ▸ hr))), fun a e => Or.inl (mq a (Or.inr e))⟩, At.nil _⟩)
          k1 (fun u hu => (k3 u hu).mono (fun a h' => h'.imp (ml' a) id) (fun r h' => h'.imp (mq' r) id))
        rw [g2.1, g2.2] at sim
        refine sim.mono ?_
        rintro s2 r v ⟨u, rfl, rfl, j1, j2, j3⟩
        refine ⟨u, rfl, rfl, j1, (k2.mono (fun r _ => mq' r) (fun a _ => ml' a)).trans (j2.mono (fun _ _ => False.elim) (fun _ _ => False.elim)),
          j3.mono (fun a h' => Or.inr (k2.nl.trans h')) (fun r h' => ?_)⟩
        rcases h' with h' | h'
        · exact h'
        · exact Or.inr (k2.nd.trans h')
  | .change c p l r, s, h, hd, hl => by
    simp only [Laid] at h
    obtain ⟨h1, h2, h3, h4⟩ := h
    simp only [dicts, lists, List.nodup_cons, List.mem_append, not_or] at hd hl
    obtain ⟨⟨hpl, hpr⟩, hd⟩ := hd
    rw [List.nodup_append] at hd hl
    simp only [rd, sopsH, sops]
    refine (branch_sim comb cfg l (sigL c) h1 h2 h3 hpl (sops_sim cfg l h3 hd.1 hl.1)).bind ?_
    rintro s1 l' vl ⟨ts, b1, b2, b3, b4, b5⟩
    have ltl := Laid.lt l h3
    have ltr := Laid.lt r h4
    obtain ⟨q1, q2, q3⟩ := Laid.keep b4 r h4 (fun x hx h' => hd.2.2 x h' x hx rfl) (fun x hx h' => hl.2.2 x h' x hx rfl)
    have ep : s1.d p = s.d p := b4.d p h1 hpl
    have simr := branch_sim comb cfg r (sigR c) (s := s1) (p := p) (h1.trans_le b4.nd) (by rw [ep]; exact h2) q1 (by rw [q3]; exact hpr)
      (sops_sim cfg r q1 (by rw [q3]; exact hd.2.1) hl.2.1)
    rw [q2, q3, ep] at simr
    refine simr.bind ?_
    rintro s2 r' vr ⟨ts2, c1, c2, c3, c4, c5⟩
    have blt := b3.at
    obtain ⟨w1, w2, w3⟩ := b3.fr c4 b5 (fun a _ h' h'' => by
        rcases h' with h' | h'
        · exact hl.2.2 a h' a h'' rfl
        · have := ltr.2 a h''; omega) (fun x _ h' h'' => by
        rcases h' with h' | h' | h'
        · exact hd.2.2 x h' x h'' rfl
        · exact hpr (h' ▸ h'')
        · have := ltr.1 x h''; omega)
    have okA : Ok s2 (ts ++ ts2) := by
      refine w1.append c3 (fun t ht a ha u hu h' => ?_) (fun t ht u hu e => ?_)
      · have h5 := b5.l t ht a ha
        have h6 := c5.l u hu a h'
        have h7 := blt.l t ht a ha
        rcases h6 with h6 | h6
        · rcases h5 with h5 | h5
          · exact hl.2.2 a h5 a h6 rfl
          · have := ltr.2 a h6; omega
        · omega
      · obtain ⟨a, ea, _, hav⟩ := (w1.good t ht).pv
        have h5 := b5.pv t ht a ea
        have h6 := c5.pv u hu a (e.trans ea)
        have h7 := blt.pv t ht a ea
        have hne : a ≠ p := by
          rintro rfl
          have : s2.d a = s.d a := by rw [c4.d a (h1.trans_le b4.nd) hpr, ep]
          rw [this] at hav; exact hav h2
        rcases h6 with h6 | h6 | h6
        · rcases h5 with h5 | h5 | h5
          · exact hd.2.2 a h5 a h6 rfl
          · exact hne h5
          · have := ltr.1 a h6; omega
        · exact hne h6
        · omega
    unfold addSumsH addSums
    rw [b1, b2, c1, c2]
    simp only [Bind.bind, Except.bind]
    have e3 : kes ts ++ kes ts2 = kes (ts ++ ts2) := by simp [kes]
    have e4 : vals s1 ts ++ vals s2 ts2 = vals s2 (ts ++ ts2) := by rw [← w2]; simp [vals]
    rw [e3, e4]
    refine (sumCtor_sim cfg okA).mono ?_
    rintro s3 x v ⟨u, rfl, rfl, j1, j2, j3⟩
    have ml : ∀ a, a ∈ lists l → a ∈ lists (.change c p l r) := fun a h' => by simp only [lists]; exact List.mem_append.2 (Or.inl h')
    have ml' : ∀ a, a ∈ lists r → a ∈ lists (.change c p l r) := fun a h' => by simp only [lists]; exact List.mem_append.2 (Or.inr h')
    have md : ∀ x, x ∈ dicts s l → x ∈ dicts s (.change c p l r) := fun a h' => by simp [dicts, h']
    have md' : ∀ x, x ∈ dicts s r → x ∈ dicts s (.change c p l r) := fun a h' => by simp [dicts, h']
    refine ⟨u, rfl, rfl, j1, ((b4.mono (fun x _ => md x) (fun a _ => ml a)).trans (c4.mono (fun x _ => md' x) (fun a _ => ml' a))).trans
      (j2.mono (fun _ _ => False.elim) (fun _ _ => False.elim)), j3.mono (fun a h' => Or.inr ?_) (fun x h' => Or.inr ?_)⟩
    · exact (b4.nl.trans c4.nl).trans h'
    · exact (b4.nd.trans c4.nd).trans h'
/-- The recursive calls. -/
theorem sopsL_sim (cfg : Cfg) : ∀ (ks : List HKE) {s : Store α}, LaidL s ks → (dictsL s ks).Nodup → (listsL ks).Nodup →
    Sim (sopsHL comb cfg s ks) (sopsL comb cfg (rdAll s ks)) (fun s' r v => ∃ us : List (Counter × List HProd), r = us.map sumH ∧ v = us.map (sumV s') ∧
      (∀ u ∈ us, Ok s' u.2) ∧ Fr (fun r => r ∈ dictsL s ks) (fun a => a ∈ listsL ks) s s' ∧
      ∀ u ∈ us, At (fun a => a ∈ listsL ks ∨ s.nl ≤ a) (fun r => r ∈ dictsL s ks ∨ s.nd ≤ r) s' u.2)
  | [], s, _, _, _ => by
    simp only [sopsHL, rdAll, sopsL, Sim]
    exact ⟨[], rfl, rfl, by simp, Fr.refl _, by simp⟩
  | k :: ks, s, h, hd, hl => by
    simp only [LaidL] at h
    simp only [dictsL, listsL] at hd hl
    rw [List.nodup_append] at hd hl
    simp only [sopsHL, rdAll, sopsL]
    refine (sops_sim cfg k h.1 hd.1 hl.1).bind ?_
    rintro s1 x v ⟨u, rfl, rfl, k1, k2, k3⟩
    obtain ⟨q1, q2, q3⟩ := LaidL.keep k2 ks h.2 (fun x hx h' => hd.2.2 x h' x hx rfl) (fun x hx h' => hl.2.2 x h' x hx rfl)
    have ih := sopsL_sim cfg ks q1 (by rw [q3]; exact hd.2.1) hl.2.1
    rw [q2, q3] at ih
    refine ih.bind ?_
    rintro s2 x v ⟨us, rfl, rfl, j1, j2, j3⟩
    have ltr := LaidL.lt ks h.2
    obtain ⟨w1, w2, w3⟩ := k1.fr j2 k3 (fun a _ h' h'' => by
        rcases h' with h' | h'
        · exact hl.2.2 a h' a h'' rfl
        · have := ltr.2 a h''; omega) (fun x _ h' h'' => by
        rcases h' with h' | h'
        · exact hd.2.2 x h' x h'' rfl
        · have := ltr.1 x h''; omega)
    have ml : ∀ a, a ∈ lists k → a ∈ listsL (k :: ks) := fun a h' => by simp only [listsL]; exact List.mem_append.2 (Or.inl h')
    have ml' : ∀ a, a ∈ listsL ks → a ∈ listsL (k :: ks) := fun a h' => by simp only [listsL]; exact List.mem_append.2 (Or.inr h')
    have md : ∀ x, x ∈ dicts s k → x ∈ dictsL s (k :: ks) := fun a h' => by simp only [dictsL]; exact List.mem_append.2 (Or.inl h')
    have md' : ∀ x, x ∈ dictsL s ks → x ∈ dictsL s (k :: ks) := fun a h' => by simp only [dictsL]; exact List.mem_append.2 (Or.inr h')
    refine ⟨u :: us, rfl, ?_, fun w hw => ?_, (k2.mono (fun x _ => md x) (fun a _ => ml a)).trans (j2.mono (fun x _ => md' x) (fun a _ => ml' a)), fun w hw => ?_⟩
    · simp only [List.map_cons, sumV, w2]
    · rcases List.mem_cons.1 hw with rfl | hw
      · exact w1
      · exact j1 w hw
    · rcases List.mem_cons.1 hw with rfl | hw
      · exact w3.mono (fun a h' => h'.imp (ml a) id) (fun x h' => h'.imp (md x) id)
      · exact (j3 w hw).mono (fun a h' => h'.imp (ml' a) (fun h' => k2.nl.trans h')) (fun x h' => h'.imp (md' x) (fun h' => k2.nd.trans h'))
end

end
end Hp
end Sops
end GPyABCD
