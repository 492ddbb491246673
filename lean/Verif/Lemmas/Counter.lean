import Verif.Lemmas.Eq
import Mathlib.Data.List.Nodup

namespace GPyABCD
namespace Counter

/-- All stored counts are positive (no zero or negative entries). -/
def Pos (c : Counter) : Prop := ∀ p ∈ c, 0 < p.2

@[simp] theorem get_nil (b : Base) : get [] b = 0 := rfl
theorem get_cons (k : Base) (v : Int) (r : Counter) (b : Base) :
    get ((k, v) :: r) b = if k = b then v else get r b := rfl
@[simp] theorem has_nil (b : Base) : has [] b = false := rfl
theorem has_cons (k : Base) (v : Int) (r : Counter) (b : Base) :
    has ((k, v) :: r) b = if k = b then true else has r b := rfl

@[simp] theorem wf_nil : WF [] := by simp [WF]
theorem wf_cons {k : Base} {v : Int} {r : Counter} : WF ((k, v) :: r) ↔ (∀ w, (k, w) ∉ r) ∧ WF r := by
  simp [WF]

theorem has_iff {c : Counter} {b : Base} : c.has b = true ↔ ∃ v, (b, v) ∈ c := by
  induction c with
  | nil => simp
  | cons p r ih =>
    obtain ⟨k, w⟩ := p
    rw [has_cons]
    by_cases h : k = b
    · subst h; simp only [if_true, true_iff]; exact ⟨w, by simp⟩
    · simp only [h, if_false, ih, List.mem_cons, Prod.mk.injEq]
      constructor
      · rintro ⟨v, hv⟩; exact ⟨v, Or.inr hv⟩
      · rintro ⟨v, hv | hv⟩
        · exact absurd hv.1.symm h
        · exact ⟨v, hv⟩

theorem get_of_not_has {c : Counter} {b : Base} (h : c.has b = false) : c.get b = 0 := by
  apply get_of_not_mem
  rintro ⟨k, v⟩ hp rfl
  have : c.has k = true := has_iff.2 ⟨v, hp⟩
  simp [h] at this

theorem get_of_mem {c : Counter} (hc : c.WF) {b : Base} {v : Int} (h : (b, v) ∈ c) : c.get b = v := by
  induction c with
  | nil => simp at h
  | cons p r ih =>
    obtain ⟨k, w⟩ := p
    rw [wf_cons] at hc
    rw [get_cons]
    rcases List.mem_cons.1 h with h | h
    · simp at h; simp [h.1, h.2]
    · by_cases hk : k = b
      · subst hk; exact absurd h (hc.1 v)
      · simp [hk, ih hc.2 h]

theorem mem_of_has {c : Counter} (hc : c.WF) {b : Base} (h : c.has b = true) : (b, c.get b) ∈ c := by
  obtain ⟨v, hv⟩ := has_iff.1 h
  rw [get_of_mem hc hv]; exact hv

theorem mem_of_get_ne {c : Counter} (hc : c.WF) {b : Base} (h : c.get b ≠ 0) : (b, c.get b) ∈ c := by
  apply mem_of_has hc
  by_contra h'
  exact h (get_of_not_has (by simpa using h'))

theorem has_of_get_ne {c : Counter} {b : Base} (h : c.get b ≠ 0) : c.has b = true := by
  by_contra h'
  exact h (get_of_not_has (by simpa using h'))

theorem get_put (c : Counter) (b x : Base) (v : Int) : (c.put b v).get x = if b = x then v else c.get x := by
  induction c with
  | nil => simp [put, get]
  | cons p r ih =>
    obtain ⟨k, w⟩ := p
    simp only [put]
    by_cases h : k = b
    · subst h; simp only [if_true, get_cons]; split <;> rfl
    · simp only [h, if_false, get_cons, ih]
      by_cases hx : k = x
      · subst hx; simp [Ne.symm h]
      · simp [hx]

theorem mem_put {c : Counter} {b : Base} {v : Int} {p : Base × Int} (h : p ∈ c.put b v) :
    p = (b, v) ∨ p ∈ c := by
  induction c with
  | nil => simp [put] at h; exact Or.inl h
  | cons q r ih =>
    obtain ⟨k, w⟩ := q
    simp only [put] at h
    by_cases hk : k = b
    · subst hk; simp only [if_true] at h
      rcases List.mem_cons.1 h with h | h
      · exact Or.inl h
      · exact Or.inr (by simp [h])
    · simp only [hk, if_false] at h
      rcases List.mem_cons.1 h with h | h
      · exact Or.inr (by simp [h])
      · rcases ih h with h | h
        · exact Or.inl h
        · exact Or.inr (by simp [h])

theorem wf_put {c : Counter} (hc : c.WF) (b : Base) (v : Int) : (c.put b v).WF := by
  induction c with
  | nil => simp [put, WF]
  | cons q r ih =>
    obtain ⟨k, w⟩ := q
    rw [wf_cons] at hc
    simp only [put]
    by_cases hk : k = b
    · subst hk; simp only [if_true]; rw [wf_cons]; exact hc
    · simp only [hk, if_false]; rw [wf_cons]
      refine ⟨fun u hu => ?_, ih hc.2⟩
      rcases mem_put hu with h | h
      · simp at h; exact hk h.1
      · exact hc.1 u h

theorem wf_filter {c : Counter} (hc : c.WF) (p : Base × Int → Bool) : WF (c.filter p) :=
  List.Nodup.sublist (List.Sublist.map _ List.filter_sublist) hc

theorem get_filter {c : Counter} (hc : c.WF) (p : Base × Int → Bool) (b : Base) :
    get (c.filter p) b = if p (b, c.get b) = true then c.get b else 0 := by
  by_cases hb : c.has b = true
  · have hm := mem_of_has hc hb
    by_cases hp : p (b, c.get b) = true
    · rw [if_pos hp]
      exact get_of_mem (wf_filter hc p) (List.mem_filter.2 ⟨hm, hp⟩)
    · rw [if_neg hp]
      apply get_of_not_mem
      rintro ⟨k, v⟩ hkv rfl
      obtain ⟨h1, h2⟩ := List.mem_filter.1 hkv
      rw [← get_of_mem hc h1] at h2
      exact hp h2
  · have h0 : c.get b = 0 := get_of_not_has (by simpa using hb)
    have : get (c.filter p) b = 0 := by
      apply get_of_not_mem
      rintro ⟨k, v⟩ hkv rfl
      exact hb (has_iff.2 ⟨v, (List.mem_filter.1 hkv).1⟩)
    rw [this, h0]; simp

theorem wf_pos {c : Counter} (hc : c.WF) : c.pos.WF := wf_filter hc _
theorem pos_pos (c : Counter) : Pos c.pos := by
  intro p hp; simpa using (List.mem_filter.1 hp).2
theorem get_pos {c : Counter} (hc : c.WF) (b : Base) : c.pos.get b = if 0 < c.get b then c.get b else 0 := by
  unfold pos; rw [get_filter hc]; simp
theorem get_pos' {c : Counter} (hc : c.WF) (b : Base) : c.pos.get b = max (c.get b) 0 := by
  rw [get_pos hc]; split <;> omega
theorem pos_eq_self {c : Counter} (hc : Pos c) : c.pos = c := by
  unfold pos; rw [List.filter_eq_self]; intro p hp; simpa using hc p hp

theorem wf_del {c : Counter} (hc : c.WF) (b : Base) : (c.del b).WF := wf_filter hc _
theorem get_del {c : Counter} (hc : c.WF) (b x : Base) : (c.del b).get x = if x = b then 0 else c.get x := by
  unfold del; rw [get_filter hc]; by_cases h : x = b <;> simp [h]
theorem pos_del {c : Counter} (hc : Pos c) (b : Base) : Pos (c.del b) := by
  intro p hp; exact hc p (List.mem_filter.1 hp).1

theorem Pos.nonneg {c : Counter} (hp : Pos c) (b : Base) : 0 ≤ c.get b := by
  by_cases h : c.has b = true
  · induction c with
    | nil => simp
    | cons p r ih =>
      obtain ⟨k, v⟩ := p
      rw [get_cons]
      split
      · have := hp (k, v) (by simp); simp at this; omega
      · rename_i hk
        rw [has_cons, if_neg hk] at h
        exact ih (fun p hpr => hp p (by simp [hpr])) h
  · rw [get_of_not_has (by simpa using h)]; exact Int.le_refl 0

theorem Pos.has_iff_get {c : Counter} (hc : c.WF) (hp : Pos c) (b : Base) : c.has b = true ↔ 0 < c.get b := by
  constructor
  · intro h; exact hp _ (mem_of_has hc h)
  · intro h; exact has_of_get_ne (by omega)

theorem wf_updateList {c : Counter} (hc : c.WF) (l : List Base) : (c.updateList l).WF := by
  unfold updateList
  induction l generalizing c with
  | nil => exact hc
  | cons b l ih => exact ih (wf_put hc _ _)

theorem get_updateList (c : Counter) (l : List Base) (b : Base) :
    (c.updateList l).get b = c.get b + (l.count b : Int) := by
  unfold updateList
  induction l generalizing c with
  | nil => simp
  | cons a l ih =>
    rw [List.foldl_cons, ih, get_put, List.count_cons]
    by_cases h : a = b
    · subst h; simp; omega
    · simp [h]

theorem wf_ofList (l : List Base) : (ofList l).WF := wf_updateList wf_nil l
theorem get_ofList (l : List Base) (b : Base) : (ofList l).get b = (l.count b : Int) := by
  unfold ofList; rw [get_updateList]; simp

theorem pos_updateList {c : Counter} (hp : Pos c) (l : List Base) : Pos (c.updateList l) := by
  unfold updateList
  induction l generalizing c with
  | nil => exact hp
  | cons b l ih =>
    refine ih (c := c.put b (c.get b + 1)) ?_
    intro p h
    rcases mem_put h with rfl | h
    · have := hp.nonneg b; show 0 < c.get b + 1; omega
    · exact hp p h
theorem pos_ofList (l : List Base) : Pos (ofList l) := pos_updateList (by intro p h; simp at h) l

theorem wf_updateMap {c : Counter} (hc : c.WF) (m : Counter) : (c.updateMap m).WF := by
  unfold updateMap
  induction m generalizing c with
  | nil => exact hc
  | cons b l ih => exact ih (wf_put hc _ _)

theorem get_updateMap (c : Counter) {m : Counter} (hm : m.WF) (b : Base) :
    (c.updateMap m).get b = c.get b + m.get b := by
  unfold updateMap
  induction m generalizing c with
  | nil => simp
  | cons p r ih =>
    obtain ⟨k, v⟩ := p
    rw [wf_cons] at hm
    rw [List.foldl_cons, ih _ hm.2, get_put, get_cons]
    by_cases h : k = b
    · subst h
      have : get r k = 0 := get_of_not_mem (by rintro ⟨a, w⟩ hp rfl; exact hm.1 w hp)
      simp [this]; omega
    · simp [h]

theorem pos_updateMap {c m : Counter} (hp : Pos c) (hm : Pos m) : Pos (c.updateMap m) := by
  unfold updateMap
  induction m generalizing c with
  | nil => exact hp
  | cons q r ih =>
    refine ih (c := c.put q.1 (q.2 + c.get q.1)) ?_ (fun p h => hm p (by simp [h]))
    intro p h
    rcases mem_put h with rfl | h
    · have := hp.nonneg q.1; have := hm q (by simp); show 0 < q.2 + c.get q.1; omega
    · exact hp p h

private theorem wf_map {c : Counter} (hc : c.WF) (f : Base × Int → Int) : WF (c.map (fun p => (p.1, f p))) := by
  unfold WF at *; rw [List.map_map]; exact hc

private theorem get_map {c : Counter} (hc : c.WF) (f : Base × Int → Int) (b : Base) :
    get (c.map (fun p => (p.1, f p))) b = if c.has b = true then f (b, c.get b) else 0 := by
  by_cases h : c.has b = true
  · rw [if_pos h]
    apply get_of_mem (wf_map hc f)
    exact List.mem_map.2 ⟨(b, c.get b), mem_of_has hc h, rfl⟩
  · rw [if_neg h]
    apply get_of_not_mem
    rintro ⟨k, v⟩ hkv rfl
    obtain ⟨q, hq, he⟩ := List.mem_map.1 hkv
    simp at he
    exact h (has_iff.2 ⟨q.2, by rw [← he.1]; exact hq⟩)

private theorem get_append (c d : Counter) (b : Base) :
    get (c ++ d) b = if c.has b = true then c.get b else d.get b := by
  induction c with
  | nil => simp
  | cons p r ih =>
    obtain ⟨k, v⟩ := p
    rw [List.cons_append, get_cons, has_cons, get_cons, ih]
    by_cases h : k = b <;> simp [h]

private theorem has_pos {c : Counter} (hc : c.WF) (b : Base) : has c.pos b = true ↔ 0 < c.get b := by
  rw [Pos.has_iff_get (wf_pos hc) (pos_pos c), get_pos hc]; split <;> omega

theorem wf_append {c d : Counter} (hc : c.WF) (hd : d.WF) (h : ∀ b, c.has b = true → d.has b = true → False) :
    WF (c ++ d) := by
  unfold WF
  rw [List.map_append, List.nodup_append]
  refine ⟨hc, hd, ?_⟩
  intro a ha b hb e
  subst e
  obtain ⟨p, hp, e1⟩ := List.mem_map.1 ha
  obtain ⟨q, hq, e2⟩ := List.mem_map.1 hb
  exact h a (has_iff.2 ⟨p.2, by rw [← e1]; exact hp⟩) (has_iff.2 ⟨q.2, by rw [← e2]; exact hq⟩)

private theorem has_map (c : Counter) (f : Base × Int → Int) (b : Base) :
    has (c.map (fun p => (p.1, f p))) b = c.has b := by
  induction c with
  | nil => rfl
  | cons p r ih => obtain ⟨k, v⟩ := p; rw [List.map_cons, has_cons, has_cons, ih]

private theorem has_filter_le {c : Counter} {p : Base × Int → Bool} {b : Base}
    (h : has (c.filter p) b = true) : ∃ v, (b, v) ∈ c ∧ p (b, v) = true := by
  obtain ⟨v, hv⟩ := has_iff.1 h
  exact ⟨v, List.mem_filter.1 hv⟩

theorem wf_add {c d : Counter} (hc : c.WF) (hd : d.WF) : (c.add d).WF := by
  unfold add
  apply wf_append (wf_pos (wf_map hc _)) (wf_pos (wf_filter hd _))
  intro b h1 h2
  obtain ⟨v, hv, _⟩ := has_filter_le h1
  obtain ⟨w, hw, _⟩ := has_filter_le h2
  obtain ⟨q, hq, e⟩ := List.mem_map.1 hv
  have h3 := (List.mem_filter.1 hw).2
  simp at e
  have : c.has b = true := has_iff.2 ⟨q.2, by rw [← e.1]; exact hq⟩
  simp [this] at h3

theorem get_add {c d : Counter} (hc : c.WF) (hd : d.WF) (b : Base) :
    (c.add d).get b = max (c.get b + d.get b) 0 := by
  unfold add
  rw [get_append]
  have hm := wf_map hc (fun p => p.2 + d.get p.1)
  split
  · rename_i h
    rw [has_pos hm, get_map hc] at h
    rw [get_pos hm, get_map hc]
    by_cases hb : c.has b = true
    · simp only [hb, if_true] at h ⊢; simp only [h, if_true]; omega
    · simp [hb] at h
  · rename_i h
    rw [has_pos hm, get_map hc] at h
    rw [get_pos (wf_filter hd _), get_filter hd]
    by_cases hb : c.has b = true
    · simp only [hb, if_true] at h; simp [hb]; omega
    · have : c.get b = 0 := get_of_not_has (by simpa using hb)
      simp [hb, this]; split <;> omega

theorem pos_add (c d : Counter) : Pos (c.add d) := by
  intro p hp
  unfold add at hp
  rcases List.mem_append.1 hp with h | h
  · exact pos_pos _ p h
  · exact pos_pos _ p h

theorem wf_sub {c d : Counter} (hc : c.WF) (hd : d.WF) : (c.sub d).WF := by
  unfold sub
  apply wf_append (wf_pos (wf_map hc _)) (wf_pos (wf_map (wf_filter hd _) _))
  intro b h1 h2
  obtain ⟨v, hv, _⟩ := has_filter_le h1
  obtain ⟨w, hw, _⟩ := has_filter_le h2
  obtain ⟨q, hq, e⟩ := List.mem_map.1 hv
  obtain ⟨q', hq', e'⟩ := List.mem_map.1 hw
  have h3 := (List.mem_filter.1 hq').2
  simp at e e'
  have : c.has b = true := has_iff.2 ⟨q.2, by rw [← e.1]; exact hq⟩
  rw [e'.1] at h3
  simp [this] at h3

theorem get_sub {c d : Counter} (hc : c.WF) (hd : d.WF) (b : Base) :
    (c.sub d).get b = max (c.get b - d.get b) 0 := by
  unfold sub
  rw [get_append]
  have hm := wf_map hc (fun p => p.2 - d.get p.1)
  split
  · rename_i h
    rw [has_pos hm, get_map hc] at h
    rw [get_pos hm, get_map hc]
    by_cases hb : c.has b = true
    · simp only [hb, if_true] at h ⊢; simp only [h, if_true]; omega
    · simp [hb] at h
  · rename_i h
    rw [has_pos hm, get_map hc] at h
    rw [get_pos (wf_map (wf_filter hd _) _), get_map (wf_filter hd _), get_filter hd]
    by_cases hb : c.has b = true
    · simp only [hb, if_true] at h; simp [hb]; omega
    · have h0 : c.get b = 0 := get_of_not_has (by simpa using hb)
      have hb' : c.has b = false := by simpa using hb
      simp only [hb', Bool.not_false, if_true, h0]
      by_cases hd' : has (d.filter (fun p => !c.has p.1)) b = true
      · simp only [hd', if_true]; split <;> omega
      · have : d.get b = 0 := by
          by_contra hne
          apply hd'
          exact has_iff.2 ⟨d.get b, List.mem_filter.2 ⟨mem_of_get_ne hd hne, by simp [hb']⟩⟩
        simp [hd', this]

theorem pos_sub (c d : Counter) : Pos (c.sub d) := by
  intro p hp
  unfold sub at hp
  rcases List.mem_append.1 hp with h | h
  · exact pos_pos _ p h
  · exact pos_pos _ p h

theorem total_eq {c : Counter} (hc : c.WF) : c.total =
    c.get .WN + c.get .C + c.get .LIN + c.get .SE + c.get .PER + c.get .S + c.get .Sr + c.get .SI + c.get .SIr := by
  induction c with
  | nil => rfl
  | cons p r ih =>
    obtain ⟨k, v⟩ := p
    rw [wf_cons] at hc
    have h0 : get r k = 0 := get_of_not_mem (by rintro ⟨a, w⟩ hp rfl; exact hc.1 w hp)
    have := ih hc.2
    unfold total at *
    rw [List.map_cons, List.sum_cons, this]
    cases k <;> simp [get_cons, h0] <;> omega

theorem count_elements {c : Counter} (hc : c.WF) (b : Base) : c.elements.count b = (c.get b).toNat := by
  induction c with
  | nil => rfl
  | cons p r ih =>
    obtain ⟨k, v⟩ := p
    rw [wf_cons] at hc
    have := ih hc.2
    unfold elements at *
    rw [List.flatMap_cons, List.count_append, this, get_cons, List.count_replicate]
    by_cases h : k = b
    · subst h
      have h0 : get r k = 0 := get_of_not_mem (by rintro ⟨a, w⟩ hp rfl; exact hc.1 w hp)
      simp [h0]
    · simp [h]

theorem length_elements {c : Counter} (hp : Pos c) : (c.elements.length : Int) = c.total := by
  induction c with
  | nil => rfl
  | cons p r ih =>
    have h1 := ih (fun p h => hp p (by simp [h]))
    have h2 := hp p (by simp)
    unfold elements total at *
    rw [List.flatMap_cons, List.length_append, List.map_cons, List.sum_cons, List.length_replicate]
    push_cast
    rw [h1]; omega

theorem mem_elements {c : Counter} (hc : c.WF) (b : Base) : b ∈ c.elements ↔ 0 < c.get b := by
  rw [← List.count_pos_iff, count_elements hc]; omega

theorem elements_perm {c d : Counter} (hc : c.WF) (hd : d.WF) (h : ∀ b, c.get b = d.get b) :
    c.elements.Perm d.elements := by
  rw [List.perm_iff_count]; intro b; rw [count_elements hc, count_elements hd, h]

theorem total_congr {c d : Counter} (hc : c.WF) (hd : d.WF) (h : ∀ b, c.get b = d.get b) : c.total = d.total := by
  rw [total_eq hc, total_eq hd]; simp only [h]

theorem perm_of_get_eq {c d : Counter} (hc : c.WF) (hd : d.WF) (pc : Pos c) (pd : Pos d)
    (h : ∀ b, c.get b = d.get b) : c.Perm d := by
  have nd : ∀ {c : Counter}, c.WF → List.Nodup c := fun hc => List.Nodup.of_map Prod.fst hc
  rw [List.perm_ext_iff_of_nodup (nd hc) (nd hd)]
  rintro ⟨b, v⟩
  constructor
  · intro hm
    have h1 := get_of_mem hc hm
    have h2 := pc _ hm
    rw [← h1, h b]; apply mem_of_get_ne hd; rw [← h b, h1]; simp at h2; omega
  · intro hm
    have h1 := get_of_mem hd hm
    have h2 := pd _ hm
    rw [← h1, ← h b]; apply mem_of_get_ne hc; rw [h b, h1]; simp at h2; omega

end Counter
end GPyABCD
