import Verif.Lemmas.Refine

/-!
# The store does to trees what the model of trees says: equality and simplification
-/

namespace GPyABCD
namespace Objects
open Links KE

/-! ## Equality -/

theorem dropFirst_ok {β γ : Type} {p : β → Option Bool} {q : γ → Bool} {g : γ → β} (ys : List γ) (h : ∀ y ∈ ys, p (g y) = some (q y)) :
    dropFirst p (ys.map g) = some ((removeFirst q ys).map (fun l => l.map g)) := by
  induction ys with
  | nil => rfl
  | cons y ys ih =>
    rw [List.map_cons, dropFirst, h y (by simp), removeFirst, ih (fun z hz => h z (by simp [hz]))]
    cases hq : q y
    · cases removeFirst q ys <;> simp
    · simp

theorem removeFirst_mem {α : Type} {p : α → Bool} {l r : List α} (h : removeFirst p l = some r) : ∀ x ∈ r, x ∈ l := by
  intro x hx
  have := removeFirst_sub p l
  rw [h] at this
  exact this.subset hx

theorem elemsEq_ok {eq : Nat → Nat → Option Bool} (xs : List LK) : ∀ ys : List LK,
    (∀ x ∈ xs, ∀ y ∈ ys, eq (addr x) (addr y) = some (keq x.erase y.erase)) →
    elemsEq eq (xs.map addr) (ys.map addr) = some (KE.eqElems (xs.map LK.erase) (ys.map LK.erase)) := by
  induction xs with
  | nil => intro ys _; cases ys <;> rfl
  | cons x xs ih =>
    intro ys h
    rw [List.map_cons, elemsEq, dropFirst_ok (q := fun y => keq x.erase y.erase) ys (fun y hy => h x (by simp) y hy),
      List.map_cons, KE.eqElems, ← removeFirst_map LK.erase (fun y => keq x.erase y) ys]
    cases hr : removeFirst (fun y => keq x.erase y.erase) ys with
    | none => rfl
    | some l =>
      simp only [Option.map_some]
      exact ih l (fun x' hx' y hy => h x' (by simp [hx']) y (removeFirst_mem hr y hy))

/-- Equality of stored trees is equality of their values. -/
theorem eqF_ok {h : Heap} : (n : Nat) → (s t : LK) → Stored h s → Stored h t → depth s < n →
    eqF h n (toRef s) (toRef t) = some (keq s.erase t.erase)
  | 0, _, _, _, _, hd => by omega
  | n + 1, .str a, .str b, _, _, _ => by simp [eqF, toRef, LK.erase, keq]
  | n + 1, .str a, .comm .., _, _, _ => by simp [eqF, toRef, LK.erase, keq]
  | n + 1, .str a, .change .., _, _, _ => by simp [eqF, toRef, LK.erase, keq]
  | n + 1, .comm .., .str b, _, _, _ => by simp [eqF, toRef, LK.erase, keq]
  | n + 1, .change .., .str b, _, _, _ => by simp [eqF, toRef, LK.erase, keq]
  | n + 1, .comm i r p o c cs, .change i' r' p' c' l' rr', hs, ht, _ => by
    simp only [Stored] at hs ht
    simp [eqF, toRef, addr, LK.id?, hs.1, ht.1, LK.erase, keq]
  | n + 1, .change i' r' p' c' l' rr', .comm i r p o c cs, hs, ht, _ => by
    simp only [Stored] at hs ht
    simp [eqF, toRef, addr, LK.id?, hs.1, ht.1, LK.erase, keq]
  | n + 1, .comm i r p o c cs, .comm i' r' p' o' c' cs', hs, ht, hd => by
    simp only [Stored] at hs ht
    simp only [depth] at hd
    simp only [eqF, toRef, addr, LK.id?, Option.getD_some, hs.1, ht.1, LK.erase, keq, eraseL_eq]
    have he := elemsEq_ok (eq := fun u v => eqF h n (.obj u) (.obj v)) cs cs' (fun x hx y hy => by
      have h1 := storedL_iff.1 hs.2 x hx
      have h2 := storedL_iff.1 ht.2 y hy
      have := eqF_ok n x y h1.2 h2.2 (by have := depth_lt_of_mem hx; omega)
      rw [toRef_obj h1.1, toRef_obj h2.1] at this
      exact this)
    by_cases h1 : o = o' <;> cases h2 : c.eq c' <;> simp [h1, he]
  | n + 1, .change i r p c l rr, .change i' r' p' c' l' rr', hs, ht, hd => by
    simp only [Stored] at hs ht
    simp only [depth] at hd
    have h1 := eqF_ok n l l' hs.2.1 ht.2.1 (by omega)
    have h2 := eqF_ok n rr rr' hs.2.2 ht.2.2 (by omega)
    rw [show toRef (.change i r p c l rr) = .obj i from rfl, show toRef (.change i' r' p' c' l' rr') = .obj i' from rfl]
    simp only [eqF, hs.1, ht.1, LK.erase, keq]
    by_cases h0 : c = c'
    · rw [if_pos h0, h1, h2]
      simp only [h0, decide_true, Bool.true_and]
      cases keq l.erase l'.erase <;> rfl
    · simp [h0]
termination_by _ s => sizeOf s
decreasing_by
  all_goals simp_wf
  · have := List.sizeOf_lt_of_mem hx; omega
  · omega
  · omega

theorem eqR_ok {h : Heap} {s t : LK} (hs : Stored h s) (hn : (ids s).Nodup) (ht : Stored h t) : eqR h (toRef s) (toRef t) = some (keq s.erase t.erase) :=
  eqF_ok _ s t hs ht (depth_bound hs hn)

theorem eqO_ok {h : Heap} {s t : LK} (hs : Stored h s) (hn : (ids s).Nodup) (ht : Stored h t) (h1 : s.isStr = false) (h2 : t.isStr = false) :
    eqO h (addr s) (addr t) = some (keq s.erase t.erase) := by
  rw [eqO, ← toRef_obj h1, ← toRef_obj h2]; exact eqR_ok hs hn ht

/-! ## Singletons -/

theorem stored_comm {h : Heap} {i : Nat} {r p : Option Nat} {op : Op} {b : Counter} {c : List LK} :
    Stored h (.comm i r p op b c) ↔ h[i]? = some (.comm r p op b (c.map addr)) ∧ StoredL h c := by simp only [Stored]

/-- `extract_if_singleton` -/
theorem extract_ok {h : Heap} {k : LK} (hk : k.isStr = false) (hs : Stored h k) (hn : (ids k).Nodup) :
    ∃ h', extract (addr k) h = (.ok (toRef (LK.extract k)), h') ∧ Stored h' (LK.extract k) ∧ Same (· ∈ ids k) h h' := by
  cases k with
  | str => cases hk
  | change i r p c l r' =>
    have h0 := hs
    simp only [Stored] at h0
    refine ⟨h, ?_, hs, Same.refl _ _⟩
    rw [extract, show addr (.change i r p c l r') = i from rfl, run_bind (run_look h0.1)]
    rfl
  | comm i r p op b c =>
    have h0 := hs
    simp only [Stored] at h0
    rw [extract, show addr (.comm i r p op b c) = i from rfl, run_bind (run_look h0.1)]
    simp only
    rcases c with _ | ⟨ct, _ | ⟨ct', c⟩⟩
    · simp only [List.map_nil, LK.extract]
      cases b.elements with
      | nil => exact ⟨h, rfl, hs, Same.refl _ _⟩
      | cons x xs =>
        simp only
        split_ifs with h1
        · exact ⟨h, rfl, trivial, Same.refl _ _⟩
        · exact ⟨h, rfl, hs, Same.refl _ _⟩
    · simp only [List.map_cons, List.map_nil, LK.extract]
      simp only [StoredL] at h0
      simp only [ids, idsL, List.append_nil, List.nodup_cons] at hn
      by_cases h1 : b.total = 0
      · obtain ⟨h', e, s, m⟩ := setParent_ok p h0.2.1.1 h0.2.1.2 hn.2
        refine ⟨h', ?_, ?_, m.mono (fun a ha => ?_)⟩
        · cases b.elements <;>
          · simp only [h1, if_true]
            rw [run_bind e, toRef_obj (by simpa using h0.2.1.1), addr_setParent]; rfl
        · cases b.elements <;> simpa only [h1, if_true] using s
        · rw [ha]; simp [ids, idsL, addr_mem h0.2.1.1]
      · refine ⟨h, ?_, ?_, Same.refl _ _⟩
        · cases b.elements <;> simp only [h1, if_false] <;> rfl
        · cases b.elements <;> simpa only [h1, if_false] using hs
    · simp only [List.map_cons, LK.extract]
      refine ⟨h, ?_, ?_, Same.refl _ _⟩
      · cases b.elements <;> rfl
      · cases b.elements <;> exact hs

theorem ids_extract_sub (k : LK) : ∀ a ∈ ids (LK.extract k), a ∈ ids k := fun _ ha => (ids_extract k).subset ha

/-! ## Absorption -/

/-- Equal nodes are of the same kind. -/
theorem keq_kind {op : Op} {a b : LK} (h : keq a.erase b.erase = true) (ha : LK.isComm op a = true) : LK.isComm op b = true := by
  cases a <;> cases b <;> simp_all [LK.erase, keq, LK.isComm]

theorem dropFirst_at {β : Type} {p : β → Option Bool} {x : β} {pre post : List β} (h : ∀ y ∈ pre, p y = some false) (hx : p x = some true) :
    dropFirst p (pre ++ x :: post) = some (some (pre ++ post)) := by
  induction pre with
  | nil => simp [dropFirst, hx]
  | cons y pre ih => rw [List.cons_append, dropFirst, h y (by simp), ih (fun z hz => h z (by simp [hz]))]; rfl

theorem removeFirst_at {β : Type} {p : β → Bool} {x : β} {pre post : List β} (h : ∀ y ∈ pre, p y = false) (hx : p x = true) :
    removeFirst p (pre ++ x :: post) = some (pre ++ post) := by
  induction pre with
  | nil => simp [removeFirst, hx]
  | cons y pre ih => rw [List.cons_append, removeFirst, h y (by simp), ih (fun z hz => h z (by simp [hz]))]; rfl

theorem storedL_append {h : Heap} {a b : List LK} : StoredL h (a ++ b) ↔ StoredL h a ∧ StoredL h b := by
  simp only [storedL_iff, List.mem_append]
  exact ⟨fun hh => ⟨fun k hk => hh k (.inl hk), fun k hk => hh k (.inr hk)⟩, fun hh k hk => hk.elim (hh.1 k) (hh.2 k)⟩

theorem idsL_map {g : LK → LK} (hg : ∀ k, ids (g k) = ids k) (ks : List LK) : idsL (ks.map g) = idsL ks := by
  simp [idsL_eq, List.flatMap_map, hg]

/-- One absorbed term. -/
theorem absorbOne_ok {cfg : Cfg} {h : Heap} {a : Nat} {r p : Option Nat} {op : Op} {b : Counter} {pre post : List LK} {hc : LK}
    (hpre : ∀ y ∈ pre, LK.isComm op y = false) (hh : LK.isComm op hc = true)
    (hs : Stored h (.comm a r p op b (pre ++ hc :: post))) (hn : (ids (.comm a r p op b (pre ++ hc :: post))).Nodup) :
    ∃ b' hcts h', absorbOne cfg a (addr hc) h = (.ok (), h') ∧
      LK.absorbStep cfg op a (b, pre ++ hc :: post) hc = (b', pre ++ post ++ hcts) ∧
      Stored h' (.comm a r p op b' (pre ++ post ++ hcts)) ∧ (idsL hcts).Subperm (ids hc) ∧
      Same (· ∈ a :: ids hc) h h' := by
  cases hc with
  | str => cases hh
  | change => cases hh
  | comm j rj pj oj hb hcts =>
    have hoj : oj = op := by simpa [LK.isComm] using hh
    subst hoj
    rw [stored_comm, storedL_append] at hs
    obtain ⟨hs1, hs2, hs3⟩ := hs
    have hs3' := hs3
    simp only [StoredL] at hs3
    obtain ⟨⟨_, hs4⟩, hs5⟩ := hs3
    have hs4' := hs4
    rw [stored_comm] at hs4
    simp only [ids, idsL_append, idsL, List.nodup_cons, List.mem_append, not_or, List.nodup_append, List.mem_cons] at hn
    obtain ⟨⟨na1, ⟨na2, na3⟩, na4⟩, np, ⟨⟨nj, nh⟩, npost, ndis⟩, ndis2⟩ := hn
    -- the counter of the node
    have m1 := same_set h a (.comm r p oj (simplifyBase cfg oj (b.updateMap hb) (pre ++ LK.comm j rj pj oj hb hcts :: post).length) ((pre ++ LK.comm j rj pj oj hb hcts :: post).map addr))
    generalize hb' : simplifyBase cfg oj (b.updateMap hb) (pre ++ LK.comm j rj pj oj hb hcts :: post).length = b' at m1
    generalize e1 : h.set a (.comm r p oj b' ((pre ++ LK.comm j rj pj oj hb hcts :: post).map addr)) = h1 at m1
    have g1 : h1[a]? = some (.comm r p oj b' ((pre ++ LK.comm j rj pj oj hb hcts :: post).map addr)) := by rw [← e1]; exact get_set_self hs1
    have g1j : h1[j]? = some (.comm rj pj oj hb (hcts.map addr)) := by rw [m1.2 j (fun e => na2 e.symm)]; exact hs4.1
    have s1 : StoredL h1 hcts := m1.storedL (fun x hx e => na3 (e ▸ hx)) hs4.2
    -- the parents of the moved terms
    obtain ⟨h2, e2, s2, m2⟩ := each_ok (f := fun ct => setParent ct (some a)) (g := LK.setParent (some a)) hcts
      (fun k hk h hs hn => by
        obtain ⟨h', e, s, m⟩ := setParent_ok (some a) (storedL_iff.1 s1 k hk).1 hs hn
        exact ⟨h', e, s, m.mono (fun x hx => by rw [hx]; exact addr_mem (storedL_iff.1 s1 k hk).1)⟩)
      (fun k _ => ⟨by simp, fun x hx => by simpa using hx⟩) s1 nh
    have g2 : h2[a]? = some (.comm r p oj b' ((pre ++ LK.comm j rj pj oj hb hcts :: post).map addr)) := by rw [m2.2 a na3]; exact g1
    have g2j : h2[j]? = some (.comm rj pj oj hb (hcts.map addr)) := by rw [m2.2 j nj]; exact g1j
    -- the moved terms are put in
    have m3 := same_set h2 a (.comm r p oj b' ((pre ++ LK.comm j rj pj oj hb hcts :: post).map addr ++ hcts.map addr))
    generalize e3 : h2.set a (.comm r p oj b' ((pre ++ LK.comm j rj pj oj hb hcts :: post).map addr ++ hcts.map addr)) = h3 at m3
    have g3 : h3[a]? = some (.comm r p oj b' ((pre ++ LK.comm j rj pj oj hb hcts :: post).map addr ++ hcts.map addr)) := by rw [← e3]; exact get_set_self g2
    have g3j : h3[j]? = some (.comm rj pj oj hb (hcts.map addr)) := by rw [m3.2 j (fun e => na2 e.symm)]; exact g2j
    have s3 : StoredL h3 (hcts.map (LK.setParent (some a))) := m3.storedL (fun x hx e => na3 (by rw [idsL_map (by simp)] at hx; exact e ▸ hx)) s2
    have addrs : (hcts.map (LK.setParent (some a))).map addr = hcts.map addr := by
      rw [List.map_map]; congr 1; funext k; exact addr_setParent _ _
    have frame : ∀ (ks : List LK), StoredL h ks → (∀ x ∈ idsL ks, x ≠ a ∧ x ∉ idsL hcts) → StoredL h3 ks := by
      intro ks hks hd
      refine storedL_congr ks (fun x hx => ?_) hks
      rw [m3.2 x (hd x hx).1, m2.2 x (hd x hx).2, m1.2 x (hd x hx).1]
    have s3pre : StoredL h3 pre := frame pre hs2 (fun x hx => ⟨fun e => na1 (e ▸ hx), fun hh => ndis2 x hx x (Or.inl (Or.inr hh)) rfl⟩)
    have s3post : StoredL h3 post := frame post hs5 (fun x hx => ⟨fun e => na4 (e ▸ hx), fun hh => ndis x (Or.inr hh) x hx rfl⟩)
    have s3hc : Stored h3 (.comm j rj pj oj hb (hcts.map (LK.setParent (some a)))) := by
      rw [stored_comm]; exact ⟨by rw [addrs]; exact g3j, s3⟩
    have n3hc : (ids (.comm j rj pj oj hb (hcts.map (LK.setParent (some a))))).Nodup := by
      simp only [ids, idsL_map (g := LK.setParent (some a)) (by simp), List.nodup_cons]; exact ⟨nj, nh⟩
    have ehc : (LK.comm j rj pj oj hb (hcts.map (LK.setParent (some a)))).erase = (LK.comm j rj pj oj hb hcts).erase := by
      simp only [LK.erase, eraseL_eq, List.map_map]; congr 2; funext k; simp
    -- the absorbed term is taken out
    have drop : dropFirst (fun y => eqO h3 j y) ((pre ++ LK.comm j rj pj oj hb hcts :: post).map addr ++ hcts.map addr) =
        some (some ((pre ++ post ++ hcts.map (LK.setParent (some a))).map addr)) := by
      have : (pre ++ LK.comm j rj pj oj hb hcts :: post).map addr ++ hcts.map addr = pre.map addr ++ j :: (post.map addr ++ hcts.map addr) := by
        simp [addr, LK.id?]
      rw [this, dropFirst_at]
      · simp [addrs, List.append_assoc]
      · intro y hy
        obtain ⟨k, hk, rfl⟩ := List.mem_map.1 hy
        have h1 := storedL_iff.1 s3pre k hk
        have := eqO_ok s3hc n3hc h1.2 rfl h1.1
        rw [show addr (.comm j rj pj oj hb (hcts.map (LK.setParent (some a)))) = j from rfl, ehc] at this
        rw [this]
        cases hq : keq (LK.comm j rj pj oj hb hcts).erase k.erase
        · rfl
        · have := keq_kind hq hh
          rw [hpre k hk] at this; cases this
      · have := eqO_ok s3hc n3hc s3hc rfl rfl
        rw [show addr (.comm j rj pj oj hb (hcts.map (LK.setParent (some a)))) = j from rfl, KE.keq_refl] at this
        exact this
    refine ⟨b', hcts.map (LK.setParent (some a)), h3.set a (.comm r p oj b' ((pre ++ post ++ hcts.map (LK.setParent (some a))).map addr)), ?_, ?_, ?_, ?_, ?_⟩
    · rw [absorbOne, show addr (.comm j rj pj oj hb hcts) = j from rfl, run_bind (run_look hs4.1)]
      simp only
      rw [run_bind (run_edit hs1), simplifyBaseTerms, run_bind (run_edit (get_set_self hs1))]
      simp only [Obj.withBts, List.set_set, List.length_map]
      rw [hb', e1, run_bind (run_look g1j)]
      simp only [Obj.cts]
      rw [run_bind e2, run_bind (run_edit g2)]
      simp only [Obj.withCts]
      rw [e3, run_bind (run_look g3)]
      simp only
      rw [run_bind (run_ask drop)]
      simp only
      rw [run_edit g3]
      rfl
    · simp only [LK.absorbStep]
      rw [hb']
      congr 1
      rw [List.append_assoc, List.cons_append, removeFirst_at (x := LK.comm j rj pj oj hb hcts)]
      · simp
      · intro y hy
        cases hq : keq (LK.comm j rj pj oj hb hcts).erase y.erase
        · rfl
        · have := keq_kind hq hh
          rw [hpre y hy] at this; cases this
      · exact KE.keq_refl _
    · rw [stored_comm]
      refine ⟨get_set_self g3, ?_⟩
      refine (same_set h3 a _).storedL (fun x hx e => ?_) (storedL_append.2 ⟨storedL_append.2 ⟨s3pre, s3post⟩, s3⟩)
      simp only [idsL_append, List.mem_append, idsL_map (g := LK.setParent (some a)) (by simp)] at hx
      subst e
      exact hx.elim (fun hx => hx.elim na1 na4) na3
    · rw [idsL_map (by simp)]
      simp only [ids]
      exact (List.sublist_cons_self _ _).subperm
    · refine ((((m1.mono ?_).trans (m2.mono ?_)).trans (m3.mono ?_))).trans ((same_set h3 a _).mono ?_)
      · intro x hx; rw [hx]; simp
      · intro x hx; simp [ids, hx]
      · intro x hx; rw [hx]; simp
      · intro x hx; rw [hx]; simp

/-- The loop of `absorb_homogeneous_composites`. -/
theorem absorbLoop_ok {cfg : Cfg} {a : Nat} {r p : Option Nat} {op : Op} (suf : List LK) : ∀ {h : Heap} {b : Counter} {pre mv : List LK},
    (∀ y ∈ pre, LK.isComm op y = false) → Stored h (.comm a r p op b (pre ++ suf ++ mv)) → (ids (.comm a r p op b (pre ++ suf ++ mv))).Nodup →
    ∃ s' h', each (absorbOne cfg a) ((suf.filter (LK.isComm op)).map addr) h = (.ok (), h') ∧
      (suf.filter (LK.isComm op)).foldl (LK.absorbStep cfg op a) (b, pre ++ suf ++ mv) = s' ∧
      Stored h' (.comm a r p op s'.1 s'.2) ∧ (idsL s'.2).Subperm (idsL (pre ++ suf ++ mv)) ∧ Same (· ∈ a :: idsL (pre ++ suf ++ mv)) h h' := by
  induction suf with
  | nil =>
    intro h b pre mv _ hs _
    exact ⟨_, h, rfl, rfl, hs, List.Subperm.refl _, Same.refl _ _⟩
  | cons k suf ih =>
    intro h b pre mv hpre hs hn
    cases hk : LK.isComm op k with
    | false =>
      have e : pre ++ k :: suf ++ mv = (pre ++ [k]) ++ suf ++ mv := by simp
      rw [List.filter_cons, hk, e]
      rw [e] at hs hn
      refine ih (fun y hy => ?_) hs hn
      rcases List.mem_append.1 hy with hy | hy
      · exact hpre y hy
      · simp at hy; rw [hy]; exact hk
    | true =>
      have e : pre ++ k :: suf ++ mv = pre ++ k :: (suf ++ mv) := by simp
      rw [e] at hs hn
      obtain ⟨b', hcts, h1, e1, st1, s1, sub1, m1⟩ := absorbOne_ok (cfg := cfg) hpre hk hs hn
      have e' : pre ++ (suf ++ mv) ++ hcts = pre ++ suf ++ (mv ++ hcts) := by simp
      rw [e'] at st1 s1
      have hsub : (idsL (pre ++ suf ++ (mv ++ hcts))).Subperm (idsL (pre ++ k :: suf ++ mv)) := by
        rw [e]
        simp only [idsL_append, idsL, List.append_assoc]
        refine (List.Subperm.refl _).append ?_
        have : (idsL suf ++ (idsL mv ++ idsL hcts)).Perm (idsL hcts ++ (idsL suf ++ idsL mv)) := by
          rw [← List.append_assoc]; exact List.perm_append_comm
        exact this.subperm.trans (sub1.append (List.Subperm.refl _))
      obtain ⟨s', h2, e2, st2, s2, sub2, m2⟩ := ih (mv := mv ++ hcts) hpre s1 (by
        have := nodup_subperm ((List.subperm_cons a).2 hsub) (by rw [e]; exact hn)
        exact this)
      refine ⟨s', h2, ?_, ?_, s2, sub2.trans hsub, (m1.mono ?_).trans (m2.mono ?_)⟩
      · rw [List.filter_cons, if_pos hk, List.map_cons, each, run_bind e1, e2]
      · rw [List.filter_cons, if_pos hk, List.foldl_cons, e, st1, st2]
      · intro x hx
        rw [e]
        simp only [List.mem_cons, idsL_append, idsL, List.mem_append] at hx ⊢
        tauto
      · intro x hx
        rcases List.mem_cons.1 hx with hx | hx
        · simp [hx]
        · exact List.mem_cons_of_mem _ (hsub.subset hx)

theorem collect_look {h : Heap} {op : Op} (ks : List LK) (hs : StoredL h ks) :
    collect (fun ct => do
      let o ← look ct
      pure (ct, o.isComm op)) (ks.map addr) h = (.ok (ks.map (fun k => (addr k, LK.isComm op k))), h) := by
  induction ks with
  | nil => rfl
  | cons k ks ih =>
    simp only [StoredL] at hs
    have e1 : (do let o ← look (addr k); pure (addr k, o.isComm op) : M (Nat × Bool)) h = (.ok (addr k, LK.isComm op k), h) := by
      cases k with
      | str => cases hs.1.1
      | comm => have := hs.1.2; simp only [Stored] at this; rw [show addr (.comm _ _ _ _ _ _) = _ from rfl]; exact run_bind (run_look this.1)
      | change => have := hs.1.2; simp only [Stored] at this; rw [show addr (.change _ _ _ _ _ _) = _ from rfl]; exact run_bind (run_look this.1)
    rw [List.map_cons, collect, run_bind e1, run_bind (ih hs.2)]
    rfl

theorem absorbHomogeneous_ok {cfg : Cfg} {h : Heap} {a : Nat} {r p : Option Nat} {op : Op} {b : Counter} {c : List LK}
    (hs : Stored h (.comm a r p op b c)) (hn : (ids (.comm a r p op b c)).Nodup) :
    ∃ s' h', absorbHomogeneous cfg a op h = (.ok (), h') ∧ LK.absorbHomogeneous cfg op a b c = s' ∧
      Stored h' (.comm a r p op s'.1 s'.2) ∧ (idsL s'.2).Subperm (idsL c) ∧ Same (· ∈ a :: idsL c) h h' := by
  obtain ⟨s', h', e1, e2, s, sub, m⟩ := absorbLoop_ok (cfg := cfg) (a := a) (r := r) (p := p) (op := op) c (h := h) (b := b) (pre := []) (mv := [])
    (by simp) (by simpa using hs) (by simpa using hn)
  simp only [List.nil_append, List.append_nil] at e2 sub m
  refine ⟨s', h', ?_, e2, s, sub, m⟩
  rw [stored_comm] at hs
  rw [absorbHomogeneous, run_bind (run_look hs.1)]
  simp only [Obj.cts]
  rw [run_bind (collect_look c hs.2), ← e1]
  have : ((c.map (fun k => (addr k, LK.isComm op k))).filter (fun q => q.2)).map Prod.fst = (c.filter (LK.isComm op)).map addr := by
    rw [List.filter_map, List.map_map]; rfl
  rw [this]

theorem collect_extract {h : Heap} (ks : List LK) (hs : StoredL h ks) (hn : (idsL ks).Nodup) :
    ∃ h', collect extract (ks.map addr) h = (.ok ((ks.map LK.extract).map toRef), h') ∧ (∀ k ∈ ks, Stored h' (LK.extract k)) ∧ Same (· ∈ idsL ks) h h' := by
  induction ks generalizing h with
  | nil => exact ⟨h, rfl, by simp, Same.refl _ _⟩
  | cons k ks ih =>
    simp only [StoredL] at hs
    simp only [idsL, List.nodup_append] at hn
    obtain ⟨h1, e1, s1, m1⟩ := extract_ok hs.1.1 hs.1.2 hn.1
    obtain ⟨h2, e2, s2, m2⟩ := ih (m1.storedL (fun a ha hh => hn.2.2 a hh a ha rfl) hs.2) hn.2.1
    refine ⟨h2, ?_, ?_, ?_⟩
    · rw [List.map_cons, collect, run_bind e1, run_bind e2]; rfl
    · intro k' hk'
      rcases List.mem_cons.1 hk' with rfl | hk'
      · exact m2.stored (fun a ha hh => hn.2.2 a (ids_extract_sub _ a ha) a hh rfl) s1
      · exact s2 k' hk'
    · exact (m1.mono (fun a ha => by simp [idsL, ha])).trans (m2.mono (fun a ha => by simp [idsL, ha]))

/-- Strings and objects among branches. -/
theorem split_refs (es : List LK) :
    (es.map toRef).filterMap (fun e => match e with | .str b => some b | .obj _ => none) =
      es.filterMap (fun k => match k with | .str b => some b | _ => none) ∧
    (es.map toRef).filterMap (fun e => match e with | .str _ => none | .obj c => some c) = (es.filter (fun k => !k.isStr)).map addr := by
  induction es with
  | nil => exact ⟨rfl, rfl⟩
  | cons k es ih =>
    obtain ⟨h1, h2⟩ := ih
    cases k with
    | str b =>
      constructor
      · simp only [List.map_cons, toRef, List.filterMap_cons]; rw [h1]
      · simp only [List.map_cons, toRef, List.filterMap_cons, List.filter_cons, LK.isStr]; rw [h2]; rfl
    | comm =>
      constructor
      · simp only [List.map_cons, toRef, List.filterMap_cons]; rw [h1]
      · simp only [List.map_cons, toRef, List.filterMap_cons, List.filter_cons, LK.isStr]; rw [h2]; rfl
    | change =>
      constructor
      · simp only [List.map_cons, toRef, List.filterMap_cons]; rw [h1]
      · simp only [List.map_cons, toRef, List.filterMap_cons, List.filter_cons, LK.isStr]; rw [h2]; rfl

theorem idsL_rest (c : List LK) : (idsL ((c.map LK.extract).filter (fun k => !k.isStr))).Subperm (idsL c) := by
  induction c with
  | nil => exact List.Subperm.refl _
  | cons k c ih =>
    rw [List.map_cons, List.filter_cons]
    split_ifs
    · simp only [idsL]; exact (ids_extract k).subperm.append ih
    · simp only [idsL]; exact ih.trans (List.sublist_append_right _ _).subperm

theorem absorbSingletons_ok {cfg : Cfg} {h : Heap} {a : Nat} {r p : Option Nat} {op : Op} {b : Counter} {c : List LK}
    (hs : Stored h (.comm a r p op b c)) (hn : (ids (.comm a r p op b c)).Nodup) :
    ∃ s' h', absorbSingletons cfg a h = (.ok (), h') ∧ LK.absorbSingletons cfg op b c = s' ∧
      Stored h' (.comm a r p op s'.1 s'.2) ∧ (idsL s'.2).Subperm (idsL c) ∧ Same (· ∈ a :: idsL c) h h' := by
  rw [stored_comm] at hs
  simp only [ids, List.nodup_cons] at hn
  obtain ⟨h1, e1, s1, m1⟩ := collect_extract c hs.2 hn.2
  have g1 : h1[a]? = some (.comm r p op b (c.map addr)) := by rw [m1.2 a hn.1]; exact hs.1
  obtain ⟨f1, f2⟩ := split_refs (c.map LK.extract)
  generalize hnames : (c.map LK.extract).filterMap (fun k => match k with | .str b => some b | _ => none) = names at f1
  generalize hrest : (c.map LK.extract).filter (fun k => !k.isStr) = rest at f2
  refine ⟨(simplifyBase cfg op (b.updateList names) rest.length, rest),
    h1.set a (.comm r p op (simplifyBase cfg op (b.updateList names) rest.length) (rest.map addr)), ?_, ?_, ?_, ?_, ?_⟩
  · rw [absorbSingletons, run_bind (run_look hs.1)]
    simp only [Obj.cts]
    rw [run_bind e1]
    have key : ∀ N R, N = names → R = rest.map addr →
        (do edit a (Obj.withCts (fun _ => R)); edit a (Obj.withBts (fun _ b _ => b.updateList N)); simplifyBaseTerms cfg a : M Unit) h1 =
          (.ok (), h1.set a (.comm r p op (simplifyBase cfg op (b.updateList names) rest.length) (rest.map addr))) := by
      rintro _ _ rfl rfl
      rw [run_bind (run_edit g1), run_bind (run_edit (get_set_self g1)), simplifyBaseTerms, run_edit (get_set_self (get_set_self g1))]
      simp only [Obj.withCts, Obj.withBts, List.set_set, List.length_map]
    exact key _ _ f1 f2
  · rw [LK.absorbSingletons]; simp only [hrest]; rw [← hnames]; rfl
  · rw [stored_comm]
    refine ⟨get_set_self g1, (same_set h1 a _).storedL (fun x hx e => ?_) (storedL_iff.2 fun k hk => ?_)⟩
    · subst e
      rw [← hrest] at hx
      exact hn.1 ((idsL_rest c).subset hx)
    · rw [← hrest, List.mem_filter] at hk
      obtain ⟨k', hk', rfl⟩ := List.mem_map.1 hk.1
      exact ⟨by simpa using hk.2, s1 k' hk'⟩
  · rw [← hrest]; exact idsL_rest c
  · exact (m1.mono (fun x hx => by simp [hx])).trans ((same_set h1 a _).mono (fun x hx => by simp [hx]))

theorem absorb_ok {cfg : Cfg} {h : Heap} {a : Nat} {r p : Option Nat} {op : Op} {b : Counter} {c : List LK}
    (hs : Stored h (.comm a r p op b c)) (hn : (ids (.comm a r p op b c)).Nodup) :
    ∃ h', (do absorbHomogeneous cfg a op; absorbSingletons cfg a; simplifyBaseTerms cfg a : M Unit) h = (.ok (), h') ∧
      Stored h' (LK.absorb cfg a r p op b c) ∧ Same (· ∈ a :: idsL c) h h' := by
  obtain ⟨s1, h1, e1, r1, st1, sub1, m1⟩ := absorbHomogeneous_ok (cfg := cfg) hs hn
  obtain ⟨s2, h2, e2, r2, st2, sub2, m2⟩ := absorbSingletons_ok (cfg := cfg) st1
    (by simp only [ids]; exact nodup_subperm ((List.subperm_cons a).2 sub1) (by simpa only [ids] using hn))
  have st2' := st2
  rw [stored_comm] at st2'
  have hns : a ∉ idsL s2.2 := by
    simp only [ids, List.nodup_cons] at hn
    exact fun hh => hn.1 (sub1.subset (sub2.subset hh))
  refine ⟨h2.set a (.comm r p op (simplifyBase cfg op s2.1 s2.2.length) (s2.2.map addr)), ?_, ?_, ?_⟩
  · rw [run_bind e1, run_bind e2, simplifyBaseTerms, run_edit st2'.1]
    simp only [Obj.withBts, List.length_map]
  · rw [LK.absorb, r1]; simp only [r2]
    rw [stored_comm]
    exact ⟨get_set_self st2'.1, (same_set h2 a _).storedL (fun x hx e => hns (e ▸ hx)) st2'.2⟩
  · refine (m1.trans (m2.mono (fun x hx => ?_))).trans ((same_set h2 a _).mono (fun x hx => by simp [hx]))
    rcases List.mem_cons.1 hx with hx | hx
    · simp [hx]
    · exact List.mem_cons_of_mem _ (sub1.subset hx)

/-! ## `simplify` -/

theorem addr_simplify (cfg : Cfg) (k : LK) : addr (LK.simplify cfg k) = addr k := by rw [addr, (simplify_id cfg k).1]; rfl

theorem ids_simplify_sub (cfg : Cfg) (k : LK) : ∀ a ∈ ids (LK.simplify cfg k), a ∈ ids k := fun _ ha => (ids_simplify cfg k).subset ha

/-- A simplified branch is put in its place. -/
theorem simplifyF_ok (cfg : Cfg) : (n : Nat) → (k : LK) → {h : Heap} → k.isStr = false → Stored h k → (ids k).Nodup → depth k < n + 1 →
    ∃ h', simplifyF cfg n (addr k) h = (.ok (), h') ∧ Stored h' (LK.simplify cfg k) ∧ Same (· ∈ ids k) h h'
  | 0, k, h, hk, _, _, hd => by cases k <;> simp [depth, LK.isStr] at hd hk
  | n + 1, .str _, h, hk, _, _, _ => by cases hk
  | n + 1, .comm i r p op b c, h, hk, hs, hn, hd => by
    have hn0 := hn
    simp only [Stored] at hs
    simp only [ids, List.nodup_cons] at hn
    simp only [depth] at hd
    obtain ⟨h1, e1, s1, m1⟩ := each_ok (f := simplifyF cfg n) (g := LK.simplify cfg) c
      (fun k hk h hs' hn => simplifyF_ok cfg n k (storedL_iff.1 hs.2 k hk).1 hs' hn (by have := depth_lt_of_mem hk; omega))
      (fun k _ => ⟨(simplify_id cfg k).2.1, ids_simplify_sub cfg k⟩) hs.2 hn.2
    have ec : (c.map (LK.simplify cfg)).map addr = c.map addr := by
      rw [List.map_map]; congr 1; funext k; exact addr_simplify cfg k
    have g1 : h1[i]? = some (.comm r p op b (c.map addr)) := by rw [m1.2 i hn.1]; exact hs.1
    have hsub : (idsL (c.map (LK.simplify cfg))).Subperm (idsL c) := by
      clear * - c
      induction c with
      | nil => exact List.Subperm.refl _
      | cons k c ih => simp only [List.map_cons, idsL]; exact (ids_simplify cfg k).append ih
    have st : Stored (h1.set i (.comm r p op b (c.map addr))) (.comm i r p op b (c.map (LK.simplify cfg))) := by
      rw [stored_comm, ec]
      exact ⟨get_set_self g1, (same_set h1 i _).storedL (fun x hx e => hn.1 (e ▸ hsub.subset hx)) s1⟩
    obtain ⟨h2, e2, s2, m2⟩ := absorb_ok (cfg := cfg) st (by simp only [ids]; exact nodup_subperm ((List.subperm_cons i).2 hsub) (by simpa only [ids] using hn0))
    refine ⟨h2, ?_, ?_, ?_⟩
    · rw [simplifyF, show addr (.comm i r p op b c) = i from rfl, run_bind (run_look hs.1)]
      simp only
      rw [run_bind e1, run_bind (run_edit g1)]
      exact e2
    · rw [LK.simplify, simplifyL_eq']; exact s2
    · refine ((m1.mono (fun x hx => by simp [ids, hx])).trans ((same_set h1 i _).mono (fun x hx => by simp [ids, hx]))).trans (m2.mono (fun x hx => ?_))
      rcases List.mem_cons.1 hx with hx | hx
      · simp [ids, hx]
      · simp only [ids]; exact List.mem_cons_of_mem _ (hsub.subset hx)
  | n + 1, .change i rt p c l r, h, hk, hs, hn, hd => by
    simp only [Stored] at hs
    simp only [ids, List.nodup_cons, List.mem_append, not_or, List.nodup_append] at hn
    simp only [depth] at hd
    have side : ∀ (k : LK) (h : Heap) (w : Ref → Obj → Obj) (o : Obj), Stored h k → (ids k).Nodup → i ∉ ids k → depth k < n + 1 → h[i]? = some o →
        w (toRef k) o = o → (k.isStr = false → ∀ h, Stored h k → (ids k).Nodup → ∃ h', simplifyF cfg n (addr k) h = (.ok (), h') ∧ Stored h' (LK.simplify cfg k) ∧ Same (· ∈ ids k) h h') →
        ∃ h', onRef (fun b => do
            simplifyF cfg n b
            let e ← extract b
            edit i (w e)) (toRef k) h = (.ok (), h') ∧ Stored h' (LK.extract (LK.simplify cfg k)) ∧ h'[i]? = some (w (toRef (LK.extract (LK.simplify cfg k))) o) ∧
          Same (· ∈ i :: ids k) h h' := by
      intro k h w o hs hn hi hd ho hw hrec
      cases hk : k.isStr with
      | true =>
        cases k with
        | str b => exact ⟨h, rfl, trivial, by simp only [LK.simplify, LK.extract]; rw [hw]; exact ho, Same.refl _ _⟩
        | comm => cases hk
        | change => cases hk
      | false =>
        obtain ⟨h1, e1, s1, m1⟩ := hrec hk h hs hn
        have hns := nodup_subperm (ids_simplify cfg k) hn
        obtain ⟨h2, e2, s2, m2⟩ := extract_ok (by rw [(simplify_id cfg k).2.1]; exact hk) s1 hns
        rw [addr_simplify] at e2
        have m2' : Same (· ∈ ids k) h1 h2 := m2.mono (fun x hx => ids_simplify_sub cfg k x hx)
        have g2 : h2[i]? = some o := by rw [m2'.2 i hi, m1.2 i hi]; exact ho
        refine ⟨h2.set i (w (toRef (LK.extract (LK.simplify cfg k))) o), ?_, ?_, get_set_self g2, ?_⟩
        · rw [toRef_obj hk, onRef, run_bind e1, run_bind e2, run_edit g2]
        · exact (same_set h2 i _).stored (fun x hx e => hi (e ▸ ids_simplify_sub cfg k x (ids_extract_sub _ x hx))) s2
        · exact ((m1.trans m2').mono (fun x hx => by simp [hx])).trans ((same_set h2 i _).mono (fun x hx => by simp [hx]))
    obtain ⟨h1, e1, s1, g1, m1⟩ := side l h Obj.withLeft _ hs.2.1 hn.2.1 hn.1.1 (by omega) hs.1 rfl
      (fun hk h hs hn => simplifyF_ok cfg n l hk hs hn (by omega))
    simp only [Obj.withLeft] at g1
    obtain ⟨h2, e2, s2, g2, m2⟩ := side r h1 Obj.withRight _
      (m1.stored (fun x hx hh => by
        rcases List.mem_cons.1 hh with hh | hh
        · exact hn.1.2 (hh ▸ hx)
        · exact hn.2.2.2 x hh x hx rfl) hs.2.2) hn.2.2.1 hn.1.2 (by omega) g1 rfl
      (fun hk h hs hn => simplifyF_ok cfg n r hk hs hn (by omega))
    simp only [Obj.withRight] at g2
    refine ⟨h2, ?_, ?_, ?_⟩
    · rw [simplifyF, show addr (.change i rt p c l r) = i from rfl, run_bind (run_look hs.1)]
      simp only
      rw [run_bind e1, run_bind (run_look g1)]
      exact e2
    · rw [LK.simplify]
      simp only [Stored]
      refine ⟨g2, m2.stored (fun x hx hh => ?_) s1, s2⟩
      have hx' := ids_simplify_sub cfg l x (ids_extract_sub _ x hx)
      rcases List.mem_cons.1 hh with hh | hh
      · exact hn.1.1 (hh ▸ hx')
      · exact hn.2.2.2 x hx' x hh rfl
    · refine (m1.mono (fun x hx => ?_)).trans (m2.mono (fun x hx => ?_))
      · simp only [ids, List.mem_cons, List.mem_append] at hx ⊢; tauto
      · simp only [ids, List.mem_cons, List.mem_append] at hx ⊢; tauto
termination_by _ k => sizeOf k
decreasing_by
  all_goals simp_wf
  · have := List.sizeOf_lt_of_mem hk; omega
  · omega
  · omega

theorem simplify_ok (cfg : Cfg) {h : Heap} {k : LK} (hk : k.isStr = false) (hs : Stored h k) (hn : (ids k).Nodup) :
    ∃ h', simplify cfg (addr k) h = (.ok (), h') ∧ Stored h' (LK.simplify cfg k) ∧ Same (· ∈ ids k) h h' :=
  simplifyF_ok cfg (h.length + 1) k hk hs hn (by have := depth_bound hs hn; omega)

end Objects
end GPyABCD
