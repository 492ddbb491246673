import Verif.Lemmas.SopsHeap
import Verif.Spec.Sops
import Mathlib.Data.List.Nodup

/-!
# Lemmas: lists of products as objects
-/

namespace GPyABCD
namespace Sops
namespace Hp

variable {α : Type}

/-- Products whose own variances and lists are all different. -/
structure Ok (s : Store α) (ts : List HProd) : Prop where
  good : ∀ t ∈ ts, Good s t
  l : (ts.flatMap (fun t => lr t.ps)).Nodup
  pv : (ts.map (fun t => t.pv)).Nodup

/-- Values of products. -/
def vals (s : Store α) (ts : List HProd) : List (PKE α) := (ts.map (rdP s)).map Prod.ke

/-- Products as expressions. -/
def kes (ts : List HProd) : List HKE := ts.map HProd.ke

theorem rdAll_kes (s : Store α) (ts : List HProd) : rdAll s (kes ts) = vals s ts := by
  induction ts with
  | nil => rfl
  | cons t ts ih => simp only [kes, vals, List.map_cons, rdAll] at ih ⊢; rw [ih]; rfl

theorem asProdsH_kes (ts : List HProd) : asProdsH (kes ts) = .ok ts := by
  induction ts with
  | nil => rfl
  | cons t ts ih => simp only [kes, List.map_cons, asProdsH, HProd.ke] at ih ⊢; rw [ih]; rfl

theorem asProds_vals (s : Store α) (ts : List HProd) : asProds (vals s ts) = .ok (ts.map (rdP s)) := by
  induction ts with
  | nil => rfl
  | cons t ts ih => simp only [vals, List.map_cons, asProds, Prod.ke] at ih ⊢; rw [ih]; rfl

theorem vals_congr {s s' : Store α} {ts : List HProd} (h : ∀ t ∈ ts, rdP s' t = rdP s t) : vals s' ts = vals s ts := by
  unfold vals; rw [List.map_congr_left h]

theorem vals_cons (s : Store α) (t : HProd) (ts : List HProd) : vals s (t :: ts) = (rdP s t).ke :: vals s ts := rfl
theorem kes_cons (t : HProd) (ts : List HProd) : kes (t :: ts) = t.ke :: kes ts := rfl

theorem Ok.cons {s : Store α} {t : HProd} {ts : List HProd} (h : Ok s (t :: ts)) : Good s t ∧ Ok s ts ∧
    (∀ a ∈ lr t.ps, ∀ u ∈ ts, a ∉ lr u.ps) ∧ ∀ u ∈ ts, u.pv ≠ t.pv := by
  have h1 := h.l
  have h2 := h.pv
  simp only [List.flatMap_cons, List.nodup_append, List.map_cons, List.nodup_cons] at h1 h2
  refine ⟨h.good t (by simp), ⟨fun u hu => h.good u (by simp [hu]), h1.2.1, h2.2⟩, fun a ha u hu h' => ?_, fun u hu h' => ?_⟩
  · exact h1.2.2 a ha a (List.mem_flatMap.2 ⟨u, hu, h'⟩) rfl
  · exact h2.1 (h' ▸ List.mem_map_of_mem (f := fun t : HProd => t.pv) hu)

theorem Ok.mk_cons {s : Store α} {t : HProd} {ts : List HProd} (h : Good s t) (h' : Ok s ts) (hl : ∀ a ∈ lr t.ps, ∀ u ∈ ts, a ∉ lr u.ps)
    (hp : ∀ u ∈ ts, u.pv ≠ t.pv) : Ok s (t :: ts) := by
  refine ⟨fun u hu => ?_, ?_, ?_⟩
  · rcases List.mem_cons.1 hu with rfl | hu
    · exact h
    · exact h'.good u hu
  · simp only [List.flatMap_cons, List.nodup_append]
    refine ⟨h.ps.nodup, h'.l, fun a ha b hb e => ?_⟩
    subst e
    obtain ⟨u, hu, h''⟩ := List.mem_flatMap.1 hb
    exact hl a ha u hu h''
  · simp only [List.map_cons, List.nodup_cons]
    refine ⟨fun h'' => ?_, h'.pv⟩
    obtain ⟨u, hu, e⟩ := List.mem_map.1 h''
    exact hp u hu e

theorem Ok.append {s : Store α} {ts us : List HProd} (h : Ok s ts) (h' : Ok s us) (hl : ∀ t ∈ ts, ∀ a ∈ lr t.ps, ∀ u ∈ us, a ∉ lr u.ps)
    (hp : ∀ t ∈ ts, ∀ u ∈ us, u.pv ≠ t.pv) : Ok s (ts ++ us) := by
  induction ts with
  | nil => simpa using h'
  | cons t ts ih =>
    obtain ⟨h1, h2, h3, h4⟩ := h.cons
    refine Ok.mk_cons h1 (ih h2 (fun t ht => hl t (by simp [ht])) (fun t ht => hp t (by simp [ht]))) (fun a ha u hu => ?_) (fun u hu => ?_)
    · rcases List.mem_append.1 hu with hu | hu
      · exact h3 a ha u hu
      · exact hl t (by simp) a ha u hu
    · rcases List.mem_append.1 hu with hu | hu
      · exact h4 u hu
      · exact hp t (by simp) u hu

theorem Ok.nil (s : Store α) : Ok s [] := ⟨by simp, by simp, by simp⟩

theorem sublist_flatMap {β γ : Type} {l l' : List β} (h : l.Sublist l') (f : β → List γ) : (l.flatMap f).Sublist (l'.flatMap f) := by
  induction h with
  | slnil => simp
  | cons a _ ih => rw [List.flatMap_cons]; exact ih.trans (List.sublist_append_right _ _)
  | cons_cons a _ ih => rw [List.flatMap_cons, List.flatMap_cons]; exact (List.Sublist.refl _).append ih

theorem Ok.sub {s : Store α} {ts us : List HProd} (h : Ok s ts) (hs : us.Sublist ts) : Ok s us :=
  ⟨fun u hu => h.good u (hs.subset hu), ((sublist_flatMap hs _).nodup h.l), (hs.map _).nodup h.pv⟩

/-- The addresses of products: lists in `L`, dictionaries in `D`. -/
structure At (L D : Nat → Prop) (s : Store α) (ts : List HProd) : Prop where
  l : ∀ t ∈ ts, ∀ a ∈ lr t.ps, L a
  d : ∀ t ∈ ts, ∀ r ∈ dr s t.ps, D r
  pv : ∀ t ∈ ts, ∀ a, t.pv = some a → D a

theorem At.mono {L D L' D' : Nat → Prop} {s : Store α} {ts : List HProd} (h : At L D s ts) (hl : ∀ a, L a → L' a) (hd : ∀ a, D a → D' a) :
    At L' D' s ts :=
  ⟨fun t ht a ha => hl a (h.l t ht a ha), fun t ht a ha => hd a (h.d t ht a ha), fun t ht a ha => hd a (h.pv t ht a ha)⟩

theorem At.cons {L D : Nat → Prop} {s : Store α} {t : HProd} {ts : List HProd} :
    At L D s (t :: ts) ↔ ((∀ a ∈ lr t.ps, L a) ∧ (∀ r ∈ dr s t.ps, D r) ∧ ∀ a, t.pv = some a → D a) ∧ At L D s ts := by
  constructor
  · intro h
    exact ⟨⟨h.l t (by simp), h.d t (by simp), h.pv t (by simp)⟩, fun u hu => h.l u (by simp [hu]), fun u hu => h.d u (by simp [hu]), fun u hu => h.pv u (by simp [hu])⟩
  · rintro ⟨⟨h1, h2, h3⟩, h⟩
    refine ⟨?_, ?_, ?_⟩ <;> intro u hu <;> rcases List.mem_cons.1 hu with rfl | hu
    exacts [h1, h.l u hu, h2, h.d u hu, h3, h.pv u hu]

theorem At.append {L D : Nat → Prop} {s : Store α} {ts us : List HProd} (h : At L D s ts) (h' : At L D s us) : At L D s (ts ++ us) := by
  refine ⟨?_, ?_, ?_⟩ <;> intro u hu <;> rcases List.mem_append.1 hu with hu | hu
  exacts [h.l u hu, h'.l u hu, h.d u hu, h'.d u hu, h.pv u hu, h'.pv u hu]

theorem At.nil {L D : Nat → Prop} (s : Store α) : At L D s [] := ⟨by simp, by simp, by simp⟩

theorem At.sub {L D : Nat → Prop} {s : Store α} {ts us : List HProd} (h : At L D s ts) (hs : us.Sublist ts) : At L D s us :=
  ⟨fun t ht => h.l t (hs.subset ht), fun t ht => h.d t (hs.subset ht), fun t ht => h.pv t (hs.subset ht)⟩

/-- Addresses in use. -/
theorem Ok.at {s : Store α} {ts : List HProd} (h : Ok s ts) : At (fun a => a < s.nl) (fun r => r < s.nd) s ts := by
  refine ⟨fun t ht a ha => (h.good t ht).ps.lt a ha, fun t ht r hr => ((h.good t ht).ps.db r hr).1, fun t ht a ha => ?_⟩
  obtain ⟨a', e, h1, _⟩ := (h.good t ht).pv
  rw [e] at ha; cases ha; exact h1

theorem At.and {L D L' D' : Nat → Prop} {s : Store α} {ts : List HProd} (h : At L D s ts) (h' : At L' D' s ts) :
    At (fun a => L a ∧ L' a) (fun r => D r ∧ D' r) s ts :=
  ⟨fun t ht a ha => ⟨h.l t ht a ha, h'.l t ht a ha⟩, fun t ht a ha => ⟨h.d t ht a ha, h'.d t ht a ha⟩, fun t ht a ha => ⟨h.pv t ht a ha, h'.pv t ht a ha⟩⟩

/-- What is not changed stays. -/
theorem Ok.fr {A B L D : Nat → Prop} {s s' : Store α} {ts : List HProd} (h : Ok s ts) (f : Fr A B s s') (ha : At L D s ts)
    (hL : ∀ a, a < s.nl → L a → ¬ B a) (hD : ∀ r, r < s.nd → D r → ¬ A r) : Ok s' ts ∧ vals s' ts = vals s ts ∧ At L D s' ts := by
  have k := h.at
  have step : ∀ t ∈ ts, Good s' t ∧ rdP s' t = rdP s t := fun t ht =>
    (h.good t ht).fr f (fun r hr => hD r (k.d t ht r hr) (ha.d t ht r hr)) (fun a e => hD a (k.pv t ht a e) (ha.pv t ht a e))
      (fun a h' => hL a (k.l t ht a h') (ha.l t ht a h'))
  refine ⟨⟨fun t ht => (step t ht).1, h.l, h.pv⟩, vals_congr (fun t ht => (step t ht).2), ⟨ha.l, fun t ht r hr => ?_, ha.pv⟩⟩
  rw [dr_congr (s := s) (s' := s') (fun a h' => f.l a (k.l t ht a h') (hL a (k.l t ht a h') (ha.l t ht a h')))] at hr
  exact ha.d t ht r hr

/-! ## Copies -/

theorem shift_ke (nd nl : Nat) (t : HProd) : HKE.shift nd nl t.ke = (t.shift nd nl).ke := rfl

theorem lr_shift (nd nl : Nat) (t : HProd) : lr (t.shift nd nl).ps = (lr t.ps).map (nl + ·) := by
  simp [HProd.shift, lr, List.map_map, Function.comp_def]

theorem dup_l (s : Store α) (r : Nat) : s.dup.l (s.nl + r) = (s.l r).map (s.nd + ·) := by
  show (if s.nl + r < s.nl then _ else _) = _
  rw [if_neg (by omega), Nat.add_sub_cancel_left]

theorem dup_d (s : Store α) (r : Nat) : s.dup.d (s.nd + r) = s.d r := by
  show (if s.nd + r < s.nd then _ else _) = _
  rw [if_neg (by omega), Nat.add_sub_cancel_left]

theorem dr_shift {s : Store α} {t : HProd} : dr s.dup (t.shift s.nd s.nl).ps = (dr s t.ps).map (s.nd + ·) := by
  simp only [dr, HProd.shift, List.flatMap_map, List.map_flatMap, dup_l]

theorem rdP_shift {s : Store α} {t : HProd} : rdP s.dup (t.shift s.nd s.nl) = rdP s t := by
  have h : rdPs s.dup (t.shift s.nd s.nl).ps = rdPs s t.ps := by
    simp only [rdPs, HProd.shift, List.map_map]
    apply List.map_congr_left
    intro e _
    simp [rdL, dup_l, dup_d, Function.comp_def]
  have h' : rdPv s.dup (t.shift s.nd s.nl).pv = rdPv s t.pv := by
    cases hp : t.pv <;> simp [rdPv, HProd.shift, hp, dup_d]
  simp only [rdP, h, h']
  rfl

theorem Good.shift {s : Store α} {t : HProd} (h : Good s t) : Good s.dup (t.shift s.nd s.nl) := by
  refine ⟨⟨?_, ?_, ?_⟩, ?_⟩
  · rw [lr_shift]
    exact h.ps.nodup.map (fun a b e => by simpa using e)
  · intro a ha
    rw [lr_shift] at ha
    obtain ⟨a', h', rfl⟩ := List.mem_map.1 ha
    have := h.ps.lt a' h'
    simp [Store.dup]; omega
  · intro r hr
    rw [dr_shift] at hr
    obtain ⟨r', h', rfl⟩ := List.mem_map.1 hr
    have := h.ps.db r' h'
    rw [dup_d]
    exact ⟨by simp [Store.dup]; omega, this.2⟩
  · obtain ⟨a, e, h1, h2⟩ := h.pv
    exact ⟨s.nd + a, by simp [HProd.shift, e], by simp [Store.dup]; omega, by rw [dup_d]; exact h2⟩

theorem at_shift {s : Store α} (ts : List HProd) :
    At (fun a => s.nl ≤ a) (fun r => s.nd ≤ r) s.dup (ts.map (HProd.shift s.nd s.nl)) := by
  refine ⟨?_, ?_, ?_⟩ <;> intro t ht <;> obtain ⟨t, _, rfl⟩ := List.mem_map.1 ht
  · intro a ha
    rw [lr_shift] at ha
    obtain ⟨a', h', rfl⟩ := List.mem_map.1 ha
    omega
  · intro r hr
    rw [dr_shift] at hr
    obtain ⟨r', h', rfl⟩ := List.mem_map.1 hr
    omega
  · intro a ha
    obtain ⟨a', h', rfl⟩ := Option.map_eq_some_iff.1 (by simpa [HProd.shift] using ha)
    omega

theorem vals_shift {s : Store α} (ts : List HProd) : vals s.dup (ts.map (HProd.shift s.nd s.nl)) = vals s ts := by
  unfold vals
  have e : (ts.map (HProd.shift s.nd s.nl)).map (rdP s.dup) = ts.map (rdP s) := by
    rw [List.map_map]; exact List.map_congr_left (fun t _ => rdP_shift)
  rw [e]

theorem Ok.shift {s : Store α} {ts : List HProd} (h : Ok s ts) : Ok s.dup (ts.map (HProd.shift s.nd s.nl)) := by
  refine ⟨fun t ht => ?_, ?_, ?_⟩
  · obtain ⟨t, h', rfl⟩ := List.mem_map.1 ht
    exact (h.good t h').shift
  · have e : (ts.map (HProd.shift s.nd s.nl)).flatMap (fun t => lr t.ps) = (ts.flatMap (fun t => lr t.ps)).map (s.nl + ·) := by
      simp only [List.flatMap_map, List.map_flatMap, lr_shift]
    rw [e]
    exact h.l.map (fun a b e => by simpa using e)
  · have e : (ts.map (HProd.shift s.nd s.nl)).map (fun t => t.pv) = (ts.map (fun t => t.pv)).map (fun v => v.map (s.nd + ·)) := by
      simp [List.map_map, Function.comp_def, HProd.shift]
    rw [e]
    exact h.pv.map (fun a b e => Option.map_injective (fun a b e => by simpa using e) e)

theorem copyEach_ok : ∀ (ts : List HProd) (s : Store α), (∀ t ∈ ts, Good s t) →
    ∃ ts', (copyEach s (kes ts)).2 = kes ts' ∧ Ok (copyEach s (kes ts)).1 ts' ∧ Fr (fun _ => False) (fun _ => False) s (copyEach s (kes ts)).1 ∧
      vals (copyEach s (kes ts)).1 ts' = vals s ts ∧ At (fun a => s.nl ≤ a) (fun r => s.nd ≤ r) (copyEach s (kes ts)).1 ts'
  | [], s, _ => ⟨[], rfl, Ok.nil _, Fr.refl _, rfl, At.nil _⟩
  | t :: ts, s, h => by
    have f : Fr (fun _ => False) (fun _ => False) s s.dup := fr_dup s
    have hg : ∀ u ∈ ts, Good s.dup u ∧ rdP s.dup u = rdP s u := fun u hu =>
      (h u (by simp [hu])).fr f (fun _ _ => id) (fun _ _ => id) (fun _ _ => id)
    obtain ⟨ts', h1, h2, h3, h4, h5⟩ := copyEach_ok ts s.dup (fun u hu => (hg u hu).1)
    have ht : Ok s.dup [t.shift s.nd s.nl] := Ok.mk_cons (h t (by simp)).shift (Ok.nil _) (by simp) (by simp)
    have ha := at_shift (s := s) [t]
    obtain ⟨k1, k2, k3⟩ := ht.fr h3 ha (fun _ _ _ => id) (fun _ _ _ => id)
    have klt := ht.at
    simp only [kes_cons, copyEach]
    refine ⟨t.shift s.nd s.nl :: ts', ?_, ?_, f.trans h3, ?_, ?_⟩
    · rw [h1]; rfl
    · refine Ok.mk_cons (k1.good _ (by simp)) h2 (fun a ha u hu h' => ?_) (fun u hu e => ?_)
      · have := h5.l u hu a h'
        have := klt.l _ (by simp) a ha
        omega
      · obtain ⟨a, ea, _, _⟩ := (k1.good _ (List.mem_singleton.2 rfl)).pv
        have := h5.pv u hu a (e.trans ea)
        have := klt.pv _ (by simp) a ea
        omega
    · rw [vals_cons, vals_cons, h4, vals_congr (fun u hu => (hg u hu).2)]
      congr 1
      have : vals s.dup [t.shift s.nd s.nl] = vals s [t] := vals_shift [t]
      rw [this] at k2
      simpa [vals] using k2
    · refine At.cons.2 ⟨(At.cons.1 k3).1, h5.mono (fun a h' => f.nl.trans h') (fun r h' => f.nd.trans h')⟩

/-- A sum of products as an expression. -/
def sumH (u : Counter × List HProd) : HKE := .comm .sum u.1 [] none (kes u.2)

/-- Its value. -/
def sumV (s : Store α) (u : Counter × List HProd) : PKE α := .comm .sum u.1 [] none (vals s u.2)

theorem rd_sumH (s : Store α) (u : Counter × List HProd) : rd s (sumH u) = sumV s u := by
  simp [sumH, sumV, rd, rdAll_kes, rdPs, rdPv]

theorem collect_sim : ∀ (us : List (Counter × List HProd)) (s : Store α), (∀ u ∈ us, ∀ t ∈ u.2, Good s t) →
    Sim (collectH s (us.map sumH)) (collect (us.map (sumV s))) (fun s' r v => ∃ ts', r = kes ts' ∧ v = vals s' ts' ∧ Ok s' ts' ∧
      Fr (fun _ => False) (fun _ => False) s s' ∧ At (fun a => s.nl ≤ a) (fun r => s.nd ≤ r) s' ts')
  | [], s, _ => by
    simp only [List.map_nil, collectH, collect, Sim]
    exact ⟨[], rfl, rfl, Ok.nil _, Fr.refl _, At.nil _⟩
  | u :: us, s, h => by
    obtain ⟨c1, h1, h2, h3, h4, h5⟩ := copyEach_ok u.2 s (h u (by simp))
    simp only [List.map_cons, sumH, sumV, collectH, collect]
    have hg : ∀ w ∈ us, ∀ t ∈ w.2, Good (copyEach s (kes u.2)).1 t ∧ rdP (copyEach s (kes u.2)).1 t = rdP s t := fun w hw t ht =>
      (h w (by simp [hw]) t ht).fr h3 (fun _ _ => id) (fun _ _ => id) (fun _ _ => id)
    have ih := collect_sim us (copyEach s (kes u.2)).1 (fun w hw t ht => (hg w hw t ht).1)
    have e : us.map (sumV (copyEach s (kes u.2)).1) = us.map (sumV s) := by
      apply List.map_congr_left
      intro w hw
      simp only [sumV]
      rw [vals_congr (fun t ht => (hg w hw t ht).2)]
    rw [e] at ih
    refine ih.bind ?_
    rintro s2 r v ⟨ts2, rfl, rfl, k1, k2, k3⟩
    by_cases hu : u.1.total = 0
    · simp only [hu, if_true]
      obtain ⟨q1, q2, q3⟩ := h2.fr k2 h5 (fun _ _ _ => id) (fun _ _ _ => id)
      have klt := h2.at
      refine ⟨c1 ++ ts2, ?_, ?_, ?_, h3.trans k2, q3.append (k3.mono (fun a h' => h3.nl.trans h') (fun r h' => h3.nd.trans h'))⟩
      · rw [h1]; simp [kes]
      · rw [← h4, ← q2]; simp [vals]
      · refine q1.append k1 (fun t ht a ha w hw h' => ?_) (fun t ht w hw e => ?_)
        · have := k3.l w hw a h'
          have := klt.l t ht a ha
          omega
        · obtain ⟨a, ea, _, _⟩ := (q1.good t ht).pv
          have := k3.pv w hw a (e.trans ea)
          have := klt.pv t ht a ea
          omega
    · simp [hu, Sim]

/-! ## Multiplying out -/

section
variable [Mul α] [One α] (comb : α → α → α)

/-- Of the variance of a product only the variance is looked at. -/
def norm : Item α → Item α
  | (some b, p) => (some b, p)
  | (none, p) => (none, { variance := p.variance })

theorem addItems_norm : ∀ (l : List (Item α)) (n : Prod α), addItems n (l.map norm) = addItems n l
  | [], _ => rfl
  | (some b, p) :: l, n => by simp only [List.map_cons, norm, addItems, addItems_norm l]
  | (none, p) :: l, n => by
    simp only [List.map_cons, norm, addItems, addItems_norm l]
    have : addItem n (none, ({ variance := p.variance } : PD α)) = addItem n (none, p) := by simp [addItem]
    rw [this]

theorem newBases_norm (n : Prod α) (l : List (Item α)) : newBases comb n (l.map norm) = newBases comb n l := by
  simp only [newBases, addItems_norm]

theorem items_norm {s : Store α} {t : HProd} (h : Good s t) :
    (itemsH s t.ps t.pv).map (fun i => norm (i.1, s.d i.2)) = items (rdPs s t.ps) (rdPv s t.pv) := by
  obtain ⟨a, e, _, h2⟩ := h.pv
  obtain ⟨x, hx⟩ := Option.ne_none_iff_exists'.1 h2
  simp only [itemsH, items, List.map_append, e, rdPv, Option.bind_some, hx]
  congr 1
  · simp only [rdPs, List.map_flatMap, List.flatMap_map, rdL, List.map_map, Function.comp_def, norm]
  · simp [norm, hx]

theorem mem_itemsH {s : Store α} {t : HProd} {i : HItem} (h : i ∈ itemsH s t.ps t.pv) :
    (i.1 ≠ none ∧ i.2 ∈ dr s t.ps) ∨ (i.1 = none ∧ t.pv = some i.2) := by
  simp only [itemsH, List.mem_append, List.mem_flatMap, List.mem_map, Option.mem_toList] at h
  rcases h with ⟨e, he, p, hp, rfl⟩ | ⟨v, hv, rfl⟩
  · exact Or.inl ⟨by simp, mem_dr.2 ⟨_, List.mem_map_of_mem he, hp⟩⟩
  · exact Or.inr ⟨rfl, hv⟩

theorem multiplyPure_sim {s : Store α} {k0 : HProd} (h0 : Good s k0) (ts : List HProd) (h : ∀ t ∈ ts, Good s t) {L D : Nat → Prop}
    (hD : At L D s (k0 :: ts)) :
    Sim (multiplyPureH comb s k0.ps k0.pv (kes ts)) (multiplyPure comb (rdPs s k0.ps) (rdPv s k0.pv) (vals s ts)) (fun s' r v =>
      ∃ t', r = t'.ke ∧ v = (rdP s' t').ke ∧ Ok s' [t'] ∧ Fr (fun _ => False) (fun _ => False) s s' ∧ (∀ a ∈ lr t'.ps, s.nl ≤ a) ∧
      (∀ r ∈ dr s' t'.ps, D r ∨ s.nd ≤ r) ∧ ∀ a, t'.pv = some a → s.nd ≤ a) := by
  unfold multiplyPureH multiplyPure
  rw [asProdsH_kes, asProds_vals]
  simp only [Bind.bind, Except.bind]
  set l := itemsH s k0.ps k0.pv ++ ts.flatMap (fun n => itemsH s n.ps n.pv) with hl
  have hmem : ∀ i ∈ l, ∃ t ∈ k0 :: ts, Good s t ∧ ((i.1 ≠ none ∧ i.2 ∈ dr s t.ps) ∨ (i.1 = none ∧ t.pv = some i.2)) := by
    intro i hi
    rcases List.mem_append.1 hi with hi | hi
    · exact ⟨k0, by simp, h0, mem_itemsH hi⟩
    · obtain ⟨t, ht, hi⟩ := List.mem_flatMap.1 hi
      exact ⟨t, by simp [ht], h t ht, mem_itemsH hi⟩
  have hlt : ∀ i ∈ l, i.2 < s.nd := by
    intro i hi
    obtain ⟨t, _, hg, ⟨_, h'⟩ | ⟨_, h'⟩⟩ := hmem i hi
    · exact (hg.ps.db _ h').1
    · obtain ⟨a, e, h1, _⟩ := hg.pv
      rw [e] at h'; cases h'; exact h1
  have hvar : ∀ i ∈ l, i.1 ≠ none → (s.d i.2).variance = none := by
    intro i hi hn
    obtain ⟨t, _, hg, ⟨_, h'⟩ | ⟨h', _⟩⟩ := hmem i hi
    · exact (hg.ps.db _ h').2
    · exact absurd h' hn
  have sim := newBases_sim comb (s := s) (n := HProd.empty) (Or.inl rfl) l hlt (by simp [HProd.empty])
    (List.pairwise_of_forall_mem_list (fun i hi j _ a b => absurd (hvar i hi a) b))
  have e : newBases comb (rdP s HProd.empty) (l.map (fun i => (i.1, s.d i.2))) =
      newBases comb Prod.empty (items (rdPs s k0.ps) (rdPv s k0.pv) ++ (ts.map (rdP s)).flatMap (fun n => items n.ps n.pv)) := by
    rw [← newBases_norm, List.map_map, hl, List.map_append]
    congr 2
    · exact items_norm h0
    · rw [List.map_flatMap, List.flatMap_map]
      rw [List.flatMap_def, List.flatMap_def]
      congr 1
      exact List.map_congr_left (fun t ht => items_norm (h t ht))
  rw [e] at sim
  refine sim.bind ?_
  rintro s' n' m ⟨rfl, k1, k2, k3, k4⟩
  have f : Fr (fun _ => False) (fun _ => False) s s' := by
    refine k3.mono (fun r _ h' => ?_) (fun r _ h' => by simp [HProd.empty, lr] at h')
    rcases h' with h' | ⟨i, hi, a, b, c⟩
    · simp [HProd.empty] at h'
    · rw [← b] at c; exact c (hvar i hi a)
  refine ⟨n', rfl, rfl, Ok.mk_cons k1 (Ok.nil _) (by simp) (by simp), f, fun a ha => ?_, fun r hr => ?_, fun a ha => ?_⟩
  · rcases k4.l a ha with h' | h'
    · simp [HProd.empty, lr] at h'
    · exact h'
  · rcases k4.d r hr with h' | h' | h'
    · simp [HProd.empty, dr] at h'
    · obtain ⟨i, hi, rfl⟩ := List.mem_map.1 h'
      obtain ⟨t, ht, _, ⟨_, h''⟩ | ⟨_, h''⟩⟩ := hmem i hi
      · exact Or.inl (hD.d t ht _ h'')
      · exact Or.inl (hD.pv t ht _ h'')
    · exact Or.inr h'
  · rcases k2 with h' | ⟨_, a', h', h''⟩
    · rw [h'] at ha; simp [HProd.empty] at ha
    · rw [h'] at ha; cases ha; exact h''

theorem multiplyAll_sim : ∀ (TS : List (List HProd)) {s : Store α} {k0 : HProd} {L D : Nat → Prop}, Good s k0 →
    (∀ ts ∈ TS, ∀ t ∈ ts, Good s t) → At L D s [k0] → (∀ ts ∈ TS, At L D s ts) →
    Sim (multiplyAllH comb s k0.ps k0.pv (TS.map kes)) (multiplyAll comb (rdPs s k0.ps) (rdPv s k0.pv) (TS.map (vals s))) (fun s' r v =>
      ∃ ts', r = kes ts' ∧ v = vals s' ts' ∧ Ok s' ts' ∧ Fr (fun _ => False) (fun _ => False) s s' ∧
      At (fun a => s.nl ≤ a) (fun r => D r ∨ s.nd ≤ r) s' ts' ∧ ∀ t ∈ ts', ∀ a, t.pv = some a → s.nd ≤ a)
  | [], s, k0, L, D, _, _, _, _ => by
    simp only [List.map_nil, multiplyAllH, multiplyAll, Sim]
    exact ⟨[], rfl, rfl, Ok.nil _, Fr.refl _, At.nil _, by simp⟩
  | ts :: TS, s, k0, L, D, h0, h, a0, ha => by
    simp only [List.map_cons, multiplyAllH, multiplyAll]
    refine (multiplyPure_sim comb h0 ts (h ts (by simp)) (At.cons.2 ⟨(At.cons.1 a0).1, ha ts (by simp)⟩)).bind ?_
    rintro s1 r v ⟨t', rfl, rfl, h1, h2, h3, h4, h5⟩
    obtain ⟨g1, g2⟩ := h0.fr h2 (fun _ _ => id) (fun _ _ => id) (fun _ _ => id)
    have hg : ∀ us ∈ TS, ∀ t ∈ us, Good s1 t ∧ rdP s1 t = rdP s t := fun us hu t ht =>
      (h us (by simp [hu]) t ht).fr h2 (fun _ _ => id) (fun _ _ => id) (fun _ _ => id)
    have at' : ∀ us, (∀ t ∈ us, Good s t) → At L D s us → At L D s1 us := fun us hus h' =>
      ⟨h'.l, fun t ht r hr => h'.d t ht r (by rwa [dr_congr (s := s) (s' := s1) (fun a h'' => h2.l a ((hus t ht).ps.lt a h'') id)] at hr), h'.pv⟩
    have ih := multiplyAll_sim TS (L := L) (D := D) g1 (fun us hu t ht => (hg us hu t ht).1) (at' _ (by simpa using h0) a0)
      (fun us hu => at' _ (h us (by simp [hu])) (ha us (by simp [hu])))
    have e : TS.map (vals s1) = TS.map (vals s) := List.map_congr_left (fun us hu => vals_congr (fun t ht => (hg us hu t ht).2))
    have e' : rdPs s1 k0.ps = rdPs s k0.ps ∧ rdPv s1 k0.pv = rdPv s k0.pv := by
      simp only [rdP, Prod.mk.injEq] at g2; exact g2.2
    rw [e, e'.1, e'.2] at ih
    refine ih.bind ?_
    rintro s2 r v ⟨ts2, rfl, rfl, k1, k2, k3, k4⟩
    have klt := h1.at
    obtain ⟨q1, q2, q3⟩ := h1.fr k2 (L := fun a => s.nl ≤ a) (D := fun r => D r ∨ s.nd ≤ r)
      (At.cons.2 ⟨⟨h3, h4, fun a e => Or.inr (h5 a e)⟩, At.nil _⟩) (fun _ _ _ => id) (fun _ _ _ => id)
    refine ⟨t' :: ts2, rfl, ?_, ?_, h2.trans k2, ?_, ?_⟩
    · rw [vals_cons]
      congr 1
      simpa [vals] using q2.symm
    · refine Ok.mk_cons (q1.good _ (by simp)) k1 (fun a ha u hu h' => ?_) (fun u hu e => ?_)
      · have := k3.l u hu a h'
        have := klt.l _ (by simp) a ha
        omega
      · obtain ⟨a, ea, _, _⟩ := (q1.good _ (List.mem_singleton.2 rfl)).pv
        have := k4 u hu a (e.trans ea)
        have := klt.pv _ (by simp) a ea
        omega
    · exact At.cons.2 ⟨(At.cons.1 q3).1, k3.mono (fun a h' => h2.nl.trans h') (fun r h' => h'.imp id (fun h' => h2.nd.trans h'))⟩
    · intro t ht a e
      rcases List.mem_cons.1 ht with rfl | ht
      · exact h5 a e
      · exact h2.nd.trans (k4 t ht a e)

/-! ## Sigmoids -/

theorem addSig_sim : ∀ (ts : List HProd) {s : Store α} (b : Base) {p : Nat}, Ok s ts → p < s.nd → (s.d p).variance = none →
    Sim (addSigH comb s (some b, p) (kes ts)) (addSig comb (some b, s.d p) (vals s ts)) (fun s' r v => ∃ ts', r = kes ts' ∧ v = vals s' ts' ∧
      Ok s' ts' ∧ Fr (fun r => ∃ t ∈ ts, t.pv = some r) (fun a => ∃ t ∈ ts, a ∈ lr t.ps) s s' ∧
      At (fun a => (∃ t ∈ ts, a ∈ lr t.ps) ∨ s.nl ≤ a) (fun r => (∃ t ∈ ts, r ∈ dr s t.ps ∨ t.pv = some r) ∨ r = p ∨ s.nd ≤ r) s' ts' ∧
      ∀ t' ∈ ts', ∃ t ∈ ts, t'.pv = t.pv)
  | [], s, b, p, _, _, _ => by
    simp only [kes, vals, List.map_nil, addSigH, addSig, Sim]
    exact ⟨[], rfl, rfl, Ok.nil _, Fr.refl _, At.nil _, by simp⟩
  | t :: ts, s, b, p, h, hp, hv => by
    obtain ⟨g1, g2, g3, g4⟩ := h.cons
    obtain ⟨x, ex, hx, hxv⟩ := g1.pv
    have hpx : x ≠ p := by rintro rfl; exact hxv hv
    have sim := newBases_sim comb (s := s) (n := t) (Or.inr g1) [(some b, p)] (by simpa using hp) (by
      intro i hi e; simp at hi; subst hi; rw [ex] at e; cases e; exact hpx rfl) (by simp)
    simp only [kes_cons, vals_cons, HProd.ke, Prod.ke, addSigH, addSig]
    refine sim.bind ?_
    rintro s1 n1 m ⟨rfl, k1, k2, k3, k4⟩
    have k2 : n1.pv = t.pv := by
      rcases k2 with h' | ⟨h', _⟩
      · exact h'
      · rw [ex] at h'; cases h'
    have f : Fr (fun r => r = x) (fun a => a ∈ lr t.ps) s s1 := k3.mono (fun r _ h' => by
      rcases h' with h' | ⟨i, hi, _, e, c⟩
      · rw [ex] at h'; cases h'; rfl
      · simp at hi; subst hi; simp only at e; subst e; exact absurd hv c) (fun _ _ => id)
    have glt := g2.at
    -- the other terms are not changed
    have ga : At (fun a => ∃ u ∈ ts, a ∈ lr u.ps) (fun r => ∃ u ∈ ts, r ∈ dr s u.ps ∨ u.pv = some r) s ts :=
      ⟨fun u hu a ha => ⟨u, hu, ha⟩, fun u hu r hr => ⟨u, hu, Or.inl hr⟩, fun u hu a ha => ⟨u, hu, Or.inr ha⟩⟩
    obtain ⟨q1, q2, q3⟩ := g2.fr f ga (fun a _ ⟨u, hu, h'⟩ h'' => g3 a h'' u hu h') (fun r _ ⟨u, hu, h'⟩ e => by
      subst e
      rcases h' with h' | h'
      · exact hxv ((g2.good u hu).ps.db _ h').2
      · exact g4 u hu (h'.trans ex.symm))
    have ep : s1.d p = s.d p := f.d p hp (Ne.symm hpx)
    have ih := addSig_sim ts b (p := p) q1 (hp.trans_le f.nd) (by rw [ep]; exact hv)
    rw [q2, ep] at ih
    refine ih.bind ?_
    rintro s2 r v ⟨ts2, rfl, rfl, j1, j2, j3, j4⟩
    have n1ok : Ok s1 [n1] := Ok.mk_cons k1 (Ok.nil _) (by simp) (by simp)
    have n1lt := n1ok.at
    have n1a : At (fun a => a ∈ lr t.ps ∨ s.nl ≤ a) (fun r => (r ∈ dr s t.ps ∨ r = p ∨ s.nd ≤ r) ∧ (s1.d r).variance = none ∨ t.pv = some r) s1 [n1] := by
      refine At.cons.2 ⟨⟨k4.l, fun r hr => Or.inl ⟨?_, (k1.ps.db r hr).2⟩, fun a e => Or.inr (k2 ▸ e)⟩, At.nil _⟩
      rcases k4.d r hr with h' | h' | h'
      · exact Or.inl h'
      · exact Or.inr (Or.inl (by simpa using h'))
      · exact Or.inr (Or.inr h')
    have hlists : ∀ a, (a ∈ lr t.ps ∨ s.nl ≤ a) → ¬ ∃ u ∈ ts, a ∈ lr u.ps := by
      rintro a (h' | h') ⟨u, hu, h''⟩
      · exact g3 a h' u hu h''
      · have := glt.l u hu a h''; omega
    obtain ⟨w1, w2, w3⟩ := n1ok.fr j2 n1a (fun a _ h' => hlists a h') (fun r _ h' ⟨u, hu, e⟩ => by
      rcases h' with ⟨_, h'⟩ | h'
      · obtain ⟨a, ea, _, hav⟩ := (q1.good u hu).pv
        rw [ea] at e; cases e; exact hav h'
      · exact g4 u hu (e.trans h'.symm))
    refine ⟨n1 :: ts2, rfl, ?_, ?_, ?_, ?_, ?_⟩
    · rw [vals_cons]
      congr 1
      have : (rdP s1 n1).ke = (rdP s2 n1).ke := by simpa [vals] using w2.symm
      exact this
    · refine Ok.mk_cons (w1.good _ (by simp)) j1 (fun a ha u hu h' => ?_) (fun u hu e => ?_)
      · rcases j3.l u hu a h' with h'' | h''
        · exact hlists a (k4.l a ha) h''
        · have := n1lt.l n1 (by simp) a ha; omega
      · obtain ⟨w, hw, e'⟩ := j4 u hu
        exact g4 w hw (e'.symm.trans (e.trans k2))
    · refine (f.mono (fun r _ e => ⟨t, by simp, e ▸ ex⟩) (fun a _ h' => ⟨t, by simp, h'⟩)).trans (j2.mono (fun r _ ⟨u, hu, e⟩ => ⟨u, by simp [hu], e⟩) (fun a _ ⟨u, hu, e⟩ => ⟨u, by simp [hu], e⟩))
    · refine At.cons.2 ⟨⟨fun a ha => ?_, fun r hr => ?_, fun a e => ?_⟩, j3.mono (fun a h' => ?_) (fun r h' => ?_)⟩
      · exact (k4.l a ha).imp (fun h' => ⟨t, by simp, h'⟩) id
      · rcases (At.cons.1 w3).1.2.1 r hr with ⟨h' | h' | h', _⟩ | h'
        · exact Or.inl ⟨t, by simp, Or.inl h'⟩
        · exact Or.inr (Or.inl h')
        · exact Or.inr (Or.inr h')
        · exact Or.inl ⟨t, by simp, Or.inr h'⟩
      · exact Or.inl ⟨t, by simp, Or.inr (k2 ▸ e)⟩
      · rcases h' with ⟨u, hu, h'⟩ | h'
        · exact Or.inl ⟨u, by simp [hu], h'⟩
        · exact Or.inr (f.nl.trans h')
      · rcases h' with ⟨u, hu, h'⟩ | h' | h'
        · refine Or.inl ⟨u, by simp [hu], h'.imp (fun h' => ?_) id⟩
          rwa [dr_congr (s := s) (s' := s1) (fun a h'' => f.l a (glt.l u hu a h'') (fun h3 => g3 a h3 u hu h''))] at h'
        · exact Or.inr (Or.inl h')
        · exact Or.inr (Or.inr (f.nd.trans h'))
    · intro t' ht
      rcases List.mem_cons.1 ht with rfl | ht
      · exact ⟨t, by simp, k2⟩
      · obtain ⟨w, hw, e⟩ := j4 t' ht
        exact ⟨w, by simp [hw], e⟩

end
end Hp
end Sops
end GPyABCD
