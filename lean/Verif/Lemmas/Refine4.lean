import Verif.Lemmas.Refine3

/-!
# The store does to trees what the model of trees says: operators
-/

namespace GPyABCD
namespace Objects
open Links KE

/-- The call gives new trees with these values, in this order, and does not change what was there. -/
def Gives (m : M (List Nat)) (h : Heap) (vs : List KE) : Prop :=
  ∃ ks h', m h = (.ok (ks.map addr), h') ∧ Ext h h' ∧ List.Forall₂ (Made h.length h') ks vs ∧ (idsL ks).Nodup

theorem Good.child {h : Heap} {i : Nat} {r p : Option Nat} {op : Op} {b : Counter} {c : List LK} (hg : Good h (.comm i r p op b c)) :
    (∀ ct ∈ c, ct.isStr = false ∧ Good h ct) ∧ (idsL c).Nodup := by
  have hs := hg.stored
  rw [stored_comm] at hs
  have hn := hg.nodup
  simp only [ids, List.nodup_cons] at hn
  have hp := hg.parents
  rw [parents_iff, G] at hp
  refine ⟨fun ct hct => ?_, hn.2⟩
  have h1 := storedL_iff.1 hs.2 ct hct
  have h2 := GL_iff.1 hp.2.2 ct hct
  refine ⟨h1.1, h1.2, ?_, (parents_iff ct).2 (G_mono (fun _ h => h) (fun _ _ => trivial) h2.2), fun a ha => hg.closed a ?_⟩
  · obtain ⟨m, hm, rfl⟩ := List.getElem_of_mem hct
    exact nodup_get hn.2 hm
  · simp only [ids]; exact List.mem_cons_of_mem _ (mem_idsL.2 ⟨ct, hct, ha⟩)

theorem Good.branches {h : Heap} {i : Nat} {rt p : Option Nat} {c : CC} {l r : LK} (hg : Good h (.change i rt p c l r)) : Good h l ∧ Good h r := by
  have hs := hg.stored
  simp only [Stored] at hs
  have hn := hg.nodup
  simp only [ids, List.nodup_cons, List.nodup_append] at hn
  have hp := hg.parents
  simp only [Parents] at hp
  exact ⟨⟨hs.2.1, hn.2.1, hp.2.2.1, fun a ha => hg.closed a (by simp [ids, ha])⟩, ⟨hs.2.2, hn.2.2.1, hp.2.2.2, fun a ha => hg.closed a (by simp [ids, ha])⟩⟩

/-- One result. -/
theorem gives_one {m : M Nat} {h : Heap} {v : KE} (hm : ∃ k h', m h = (.ok (addr k), h') ∧ Ext h h' ∧ Made h.length h' k v) :
    Gives (do let r ← m; pure [r]) h [v] := by
  obtain ⟨k, h', e, x, md⟩ := hm
  exact ⟨[k], h', by rw [run_bind e]; rfl, x, .cons md .nil, by simpa [idsL] using md.good.nodup⟩

theorem gives_nil (h : Heap) : Gives (pure []) h [] := ⟨[], h, rfl, Ext.refl h, .nil, by simp [idsL]⟩

theorem made_lt {N : Nat} {h : Heap} {ks : List LK} {vs : List KE} (hm : List.Forall₂ (Made N h) ks vs) : ∀ a ∈ idsL ks, N ≤ a ∧ a < h.length := by
  induction hm with
  | nil => simp [idsL]
  | cons h1 _ ih =>
    intro a ha
    simp only [idsL, List.mem_append] at ha
    rcases ha with ha | ha
    · exact ⟨h1.new a ha, stored_lt _ h1.good.stored a ha⟩
    · exact ih a ha

theorem forall₂_made {N N' : Nat} {h h' : Heap} {ks : List LK} {vs : List KE} (hm : List.Forall₂ (Made N h) ks vs) (he : Ext h h') (hN : N' ≤ N) :
    List.Forall₂ (Made N' h') ks vs := hm.imp fun _ _ h1 => (h1.ext he).le hN

/-- Two calls after each other. -/
theorem gives_append {m m' : M (List Nat)} {h : Heap} {vs vs' : List KE} (h1 : Gives m h vs) (h2 : ∀ h', Ext h h' → Gives m' h' vs') :
    Gives (do let x ← m; let y ← m'; pure (x ++ y)) h (vs ++ vs') := by
  obtain ⟨ks, h1, e1, x1, m1, n1⟩ := h1
  obtain ⟨ks', h2, e2, x2, m2, n2⟩ := h2 h1 x1
  refine ⟨ks ++ ks', h2, ?_, x1.trans x2, ?_, ?_⟩
  · rw [run_bind e1, run_bind e2, List.map_append]; rfl
  · exact List.rel_append (forall₂_made m1 x2 (Nat.le_refl _)) (forall₂_made m2 (Ext.refl _) x1.1)
  · rw [idsL_append, List.nodup_append]
    refine ⟨n1, n2, fun a ha b hb e => ?_⟩
    have := (made_lt m1 a ha).2
    have := (made_lt m2 b hb).1
    omega

/-- A comprehension. -/
theorem gives_collect {β : Type} {f : β → M Nat} {g : β → KE} (xs : List β) : ∀ {h : Heap},
    (∀ x ∈ xs, ∀ h', Ext h h' → ∃ k h'', f x h' = (.ok (addr k), h'') ∧ Ext h' h'' ∧ Made h'.length h'' k (g x)) → Gives (collect f xs) h (xs.map g) := by
  induction xs with
  | nil => intro h _; exact gives_nil h
  | cons x xs ih =>
    intro h hf
    obtain ⟨k, h1, e1, x1, m1⟩ := hf x (by simp) h (Ext.refl h)
    obtain ⟨ks, h2, e2, x2, m2, n2⟩ := ih (h := h1) (fun y hy h' he => hf y (by simp [hy]) h' (x1.trans he))
    refine ⟨k :: ks, h2, ?_, x1.trans x2, .cons (m1.ext x2) (forall₂_made m2 (Ext.refl _) x1.1), ?_⟩
    · rw [collect, run_bind e1, run_bind e2]; rfl
    · simp only [idsL, List.nodup_append]
      refine ⟨m1.good.nodup, n2, fun a ha b hb e => ?_⟩
      have := stored_lt _ m1.good.stored a ha
      have := (made_lt m2 b hb).1
      omega

/-- The same, when the value of the argument matters. -/
theorem gives_map {f : Nat → M Nat} {g : KE → KE} {N : Nat} {h0 : Heap} : ∀ {cs : List LK} {vs : List KE} {h : Heap}, List.Forall₂ (Made N h0) cs vs → Ext h0 h →
    (∀ k v, Made N h0 k v → ∀ h', Ext h0 h' → ∃ k' h'', f (addr k) h' = (.ok (addr k'), h'') ∧ Ext h' h'' ∧ Made h'.length h'' k' (g v)) →
    Gives (collect f (cs.map addr)) h (vs.map g) := by
  intro cs vs h hm
  induction hm generalizing h with
  | nil => intro _ _; exact gives_nil h
  | cons h1 _ ih =>
    intro hx hf
    obtain ⟨k, h1, e1, x1, m1⟩ := hf _ _ h1 h hx
    obtain ⟨ks, h2, e2, x2, m2, n2⟩ := ih (hx.trans x1) hf
    refine ⟨k :: ks, h2, ?_, x1.trans x2, .cons (m1.ext x2) (forall₂_made m2 (Ext.refl _) x1.1), ?_⟩
    · rw [List.map_cons, collect, run_bind e1, run_bind e2]; rfl
    · simp only [idsL, List.nodup_append]
      refine ⟨m1.good.nodup, n2, fun a ha b hb e => ?_⟩
      have := stored_lt _ m1.good.stored a ha
      have := (made_lt m2 b hb).1
      omega

/-- `SumKE(names)`, `ProductKE(names)` -/
theorem newList_nil (cfg : Cfg) (op : Op) (names : List Base) (h : Heap) :
    ∃ k h', newList cfg op names [] h = (.ok (addr k), h') ∧ Ext h h' ∧ Made h.length h' k (mkL cfg op names []) :=
  newComm_ok cfg op (Counter.ofList names) (h := h) (cts := []) (by simp) (by simp [idsL])

/-- With composite terms that are old ones followed by others. -/
theorem newComm_append (cfg : Cfg) (op : Op) (b : Counter) {h : Heap} {c c' : List LK} (hc : ∀ ct ∈ c, ct.isStr = false ∧ Good h ct) (hn : (idsL c).Nodup)
    (hc' : ∀ ct ∈ c', ct.isStr = false ∧ Good h ct) (hn' : (idsL c').Nodup) (hd : ∀ a ∈ idsL c, a ∉ idsL c') :
    ∃ k h', newComm cfg op b (c.map addr ++ c'.map addr) h = (.ok (addr k), h') ∧ Ext h h' ∧ Made h.length h' k (mkC cfg op b (c.map LK.erase ++ c'.map LK.erase)) := by
  have := newComm_ok cfg op b (h := h) (cts := c ++ c') (fun ct hct => (List.mem_append.1 hct).elim (hc ct) (hc' ct)) (by
    rw [idsL_append, List.nodup_append]
    exact ⟨hn, hn', fun a ha b hb e => hd a ha (e ▸ hb)⟩)
  rw [List.map_append, List.map_append] at this
  exact this

/-! ## `add` and `multiply` -/

/-- The values of `combine`. -/
def combineV (cfg : Cfg) (op op' : Op) : KE → KE → List KE
  | .base a, .base b => [mkL cfg op [a, b] []]
  | .base s, .comm o b c => strV s o b c
  | .comm o b c, .base s => strV s o b c
  | .base s, .change x l r => [mkL cfg op [s] [.change x l r]]
  | .change x l r, .base s => [mkL cfg op [s] [.change x l r]]
  | .comm o b c, .comm o' b' c' =>
    if o = op then (if o' = op then [mkC cfg op (b.pos.add b') (c ++ c')] else [mkC cfg op b.pos (c ++ [.comm o' b' c'])])
    else (if o' = op then [mkC cfg op b'.pos (c' ++ [.comm o b c])] else [mkL cfg op [] [.comm o b c, .comm o' b' c']])
  | .comm o b c, .change x l r => if o = op then [mkC cfg op b.pos (c ++ [.change x l r])] else [mkL cfg op [] [.comm o b c, .change x l r]]
  | .change x l r, .comm o b c => if o = op then [mkC cfg op b.pos (c ++ [.change x l r])] else [mkL cfg op [] [.change x l r, .comm o b c]]
  | .change x l r, .change x' l' r' => [mkL cfg op [] [.change x l r, .change x' l' r']]
where
  strV (s : Base) (o : Op) (b : Counter) (c : List KE) : List KE :=
    if o = op then [mkC cfg op (b.pos.add (Counter.ofList [s])) c]
    else mkL cfg op [s] [.comm o b c] :: b.elements.map (fun bt => mkC cfg op' (b.pos.sub (Counter.ofList [bt])) (c ++ [mkL cfg op [s, bt] []]))

theorem combineV_sum (cfg : Cfg) (k1 k2 : KE) : combineV cfg .sum .prod k1 k2 = KE.add cfg k1 k2 := by
  cases k1 with
  | base a =>
    cases k2 with
    | base => rfl
    | comm o => cases o <;> rfl
    | change => rfl
  | comm o =>
    cases k2 with
    | base => cases o <;> rfl
    | comm o' => cases o <;> cases o' <;> rfl
    | change => cases o <;> rfl
  | change =>
    cases k2 with
    | base => rfl
    | comm o => cases o <;> rfl
    | change => rfl

theorem combineV_prod (cfg : Cfg) (k1 k2 : KE) : combineV cfg .prod .sum k1 k2 = KE.multiply cfg k1 k2 := by
  cases k1 with
  | base a =>
    cases k2 with
    | base => rfl
    | comm o => cases o <;> rfl
    | change => rfl
  | comm o =>
    cases k2 with
    | base => cases o <;> rfl
    | comm o' => cases o <;> cases o' <;> rfl
    | change => cases o <;> rfl
  | change =>
    cases k2 with
    | base => rfl
    | comm o => cases o <;> rfl
    | change => rfl

theorem readArg_ok {h : Heap} {k : LK} (hs : Stored h k) : readArg (toRef k) h = (.ok (match k with
    | .str b => Arg.str b
    | .comm i _ _ op b c => Arg.comm i op b (c.map addr)
    | .change i _ _ c l r => Arg.change i c (toRef l) (toRef r)), h) := by
  cases k with
  | str => rfl
  | comm => rw [stored_comm] at hs; rw [toRef_obj rfl, readArg]; exact run_bind (run_look hs.1)
  | change => simp only [Stored] at hs; rw [toRef_obj rfl, readArg]; exact run_bind (run_look hs.1)

theorem mem_single {h : Heap} {k : LK} (hg : Good h k) (hk : k.isStr = false) : ∀ ct ∈ [k], ct.isStr = false ∧ Good h ct := by
  intro ct hct; simp at hct; subst hct; exact ⟨hk, hg⟩

theorem idsL_single (k : LK) : idsL [k] = ids k := by simp [idsL]

theorem strComm_ok (cfg : Cfg) (op op' : Op) (s : Base) {h : Heap} {i : Nat} {r p : Option Nat} {o : Op} {b : Counter} {c : List LK} (hg : Good h (.comm i r p o b c)) :
    Gives (combine.strComm cfg op op' s i o b (c.map addr)) h (combineV.strV cfg op op' s o b (LK.eraseL c)) := by
  rw [eraseL_eq]
  rw [combine.strComm, combineV.strV]
  by_cases ho : o = op
  · rw [if_pos ho, if_pos ho]
    exact gives_one (newComm_ok cfg op _ hg.child.1 hg.child.2)
  · rw [if_neg ho, if_neg ho]
    obtain ⟨k, h1, e1, x1, m1⟩ := newComm_ok cfg op (Counter.ofList [s]) (h := h) (cts := [.comm i r p o b c]) (mem_single hg rfl) (by rw [idsL_single]; exact hg.nodup)
    have hn := gives_collect (f := fun bt => do
        let t ← newList cfg op [s, bt] []
        newComm cfg op' (b.pos.sub (Counter.ofList [bt])) (c.map addr ++ [t]))
      (g := fun bt => mkC cfg op' (b.pos.sub (Counter.ofList [bt])) (c.map LK.erase ++ [mkL cfg op [s, bt] []])) b.elements (h := h1) (fun bt _ h' x' => by
        have hgc := (hg.ext (x1.trans x')).child
        obtain ⟨t, h2, e2, x2, m2⟩ := newList_nil cfg op [s, bt] h'
        have hgc2 := ((hg.ext (x1.trans x')).ext x2).child
        obtain ⟨k', h3, e3, x3, m3⟩ := newComm_append cfg op' (b.pos.sub (Counter.ofList [bt])) (c := c) (c' := [t]) hgc2.1 hgc2.2 (mem_single m2.good m2.node)
          (by rw [idsL_single]; exact m2.good.nodup) (by
            rw [idsL_single]
            intro a ha ha'
            obtain ⟨ct, hct, ha⟩ := mem_idsL.1 ha
            have := stored_lt ct (hgc.1 ct hct).2.stored a ha
            have := m2.new a ha'
            omega)
        refine ⟨k', h3, ?_, x2.trans x3, ?_⟩
        · rw [run_bind e2]; exact e3
        · rw [show [t].map LK.erase = [mkL cfg op [s, bt] []] by rw [List.map_singleton, m2.value]] at m3
          exact m3.le x2.1)
    obtain ⟨ks, h2, e2, x2, m2, n2⟩ := hn
    refine ⟨k :: ks, h2, ?_, x1.trans x2, .cons ?_ (forall₂_made m2 (Ext.refl _) x1.1), ?_⟩
    · rw [run_bind (show newList cfg op [s] [i] h = (.ok (addr k), h1) from e1), nested, run_bind e2]; rfl
    · rw [← eraseL_eq]; exact m1.ext x2
    · simp only [idsL, List.nodup_append]
      refine ⟨m1.good.nodup, n2, fun a ha b hb e => ?_⟩
      have := stored_lt _ m1.good.stored a ha
      have := (made_lt m2 b hb).1
      omega

theorem combine_ok (cfg : Cfg) (op op' : Op) {h : Heap} {k1 k2 : LK} (h1 : Good h k1) (h2 : Good h k2) (hd : ∀ a ∈ ids k1, a ∉ ids k2) :
    Gives (combine cfg op op' (toRef k1) (toRef k2)) h (combineV cfg op op' k1.erase k2.erase) := by
  have both : ∀ ka kb : LK, Good h ka → Good h kb → ka.isStr = false → kb.isStr = false → (∀ a ∈ ids ka, a ∉ ids kb) →
      Gives (do let r ← newList cfg op [] [addr ka, addr kb]; pure [r]) h [mkL cfg op [] [ka.erase, kb.erase]] := by
    intro ka kb ga gb na nb hd
    refine gives_one (newComm_ok cfg op _ (h := h) (cts := [ka, kb]) ?_ ?_)
    · intro ct hct
      simp at hct
      rcases hct with rfl | rfl
      · exact ⟨na, ga⟩
      · exact ⟨nb, gb⟩
    · simp only [idsL, List.append_nil, List.nodup_append]
      exact ⟨ga.nodup, gb.nodup, fun a ha b hb e => hd a ha (e ▸ hb)⟩
  have one : ∀ (s : Base) (k : LK), Good h k → k.isStr = false → Gives (do let r ← newList cfg op [s] [addr k]; pure [r]) h [mkL cfg op [s] [k.erase]] := by
    intro s k g n
    exact gives_one (newComm_ok cfg op _ (h := h) (cts := [k]) (mem_single g n) (by rw [idsL_single]; exact g.nodup))
  have put : ∀ (i : Nat) (r p : Option Nat) (o : Op) (b b' : Counter) (c c' : List LK), Good h (.comm i r p o b c) → (∀ ct ∈ c', ct.isStr = false ∧ Good h ct) → (idsL c').Nodup →
      (∀ a ∈ ids (.comm i r p o b c), a ∉ idsL c') →
      Gives (do let r ← newComm cfg op b' (c.map addr ++ c'.map addr); pure [r]) h [mkC cfg op b' (LK.eraseL c ++ c'.map LK.erase)] := by
    intro i r p o b b' c c' g g' n' hd
    rw [eraseL_eq]
    exact gives_one (newComm_append cfg op b' g.child.1 g.child.2 g' n' (fun a ha => hd a (by simp only [ids]; exact List.mem_cons_of_mem _ ha)))
  rw [combine]
  unfold Gives
  rw [run_bind (readArg_ok h1.stored), run_bind (readArg_ok h2.stored)]
  cases k1 with
  | str a =>
    cases k2 with
    | str b => exact gives_one (newList_nil cfg op [a, b] h)
    | comm => exact strComm_ok cfg op op' a h2
    | change => exact one a _ h2 rfl
  | comm i r p o b c =>
    cases k2 with
    | str a => exact strComm_ok cfg op op' a h1
    | comm i' r' p' o' b' c' =>
      simp only [LK.erase, combineV]
      by_cases ho : o = op
      · by_cases ho' : o' = op
        · simp only [ho, ho', if_true]
          have := put i r p o b (b.pos.add b') c c' h1 h2.child.1 h2.child.2 (fun a ha hh => hd a ha (by simp only [ids]; exact List.mem_cons_of_mem _ hh))
          rw [← eraseL_eq] at this
          exact this
        · simp only [ho, ho', if_true, if_false]
          exact put i r p o b b.pos c [.comm i' r' p' o' b' c'] h1 (mem_single h2 rfl) (by rw [idsL_single]; exact h2.nodup) (by rw [idsL_single]; exact hd)
      · by_cases ho' : o' = op
        · simp only [ho, ho', if_true, if_false]
          exact put i' r' p' o' b' b'.pos c' [.comm i r p o b c] h2 (mem_single h1 rfl) (by rw [idsL_single]; exact h1.nodup)
            (by rw [idsL_single]; exact fun a ha hh => hd a hh ha)
        · simp only [ho, ho', if_false]
          exact both _ _ h1 h2 rfl rfl hd
    | change i' r' p' x l' rr' =>
      simp only [LK.erase, combineV]
      by_cases ho : o = op
      · simp only [ho, if_true]
        exact put i r p o b b.pos c [.change i' r' p' x l' rr'] h1 (mem_single h2 rfl) (by rw [idsL_single]; exact h2.nodup) (by rw [idsL_single]; exact hd)
      · simp only [ho, if_false]
        exact both _ _ h1 h2 rfl rfl hd
  | change i r p x l rr =>
    cases k2 with
    | str a => exact one a _ h1 rfl
    | comm i' r' p' o' b' c' =>
      simp only [LK.erase, combineV]
      by_cases ho' : o' = op
      · simp only [ho', if_true]
        exact put i' r' p' o' b' b'.pos c' [.change i r p x l rr] h2 (mem_single h1 rfl) (by rw [idsL_single]; exact h1.nodup)
          (by rw [idsL_single]; exact fun a ha hh => hd a hh ha)
      · simp only [ho', if_false]
        exact both _ _ h1 h2 rfl rfl hd
    | change i' r' p' x' l' rr' => exact both _ _ h1 h2 rfl rfl hd

theorem add_ok (cfg : Cfg) {h : Heap} {k1 k2 : LK} (h1 : Good h k1) (h2 : Good h k2) (hd : ∀ a ∈ ids k1, a ∉ ids k2) :
    Gives (add cfg (toRef k1) (toRef k2)) h (KE.add cfg k1.erase k2.erase) := by
  rw [← combineV_sum]; exact combine_ok cfg .sum .prod h1 h2 hd

theorem multiply_ok (cfg : Cfg) {h : Heap} {k1 k2 : LK} (h1 : Good h k1) (h2 : Good h k2) (hd : ∀ a ∈ ids k1, a ∉ ids k2) :
    Gives (multiply cfg (toRef k1) (toRef k2)) h (KE.multiply cfg k1.erase k2.erase) := by
  rw [← combineV_prod]; exact combine_ok cfg .prod .sum h1 h2 hd

/-! ## The other operators -/

theorem look_comm {h : Heap} {i : Nat} {r p : Option Nat} {o : Op} {b : Counter} {c : List LK} (hg : Good h (.comm i r p o b c)) :
    look i h = (.ok (.comm r p o b (c.map addr)), h) := by
  have hs := hg.stored
  rw [stored_comm] at hs
  exact run_look hs.1

theorem look_change {h : Heap} {i : Nat} {rt p : Option Nat} {x : CC} {l r : LK} (hg : Good h (.change i rt p x l r)) :
    look i h = (.ok (.change rt p x (toRef l) (toRef r)), h) := by
  have hs := hg.stored
  simp only [Stored] at hs
  exact run_look hs.1

theorem gives_onlyIf {m : M Nat} {h : Heap} {v : KE} (c : Bool) (hm : ∃ k h', m h = (.ok (addr k), h') ∧ Ext h h' ∧ Made h.length h' k v) :
    Gives (onlyIf c m) h (if c then [v] else []) := by
  cases c with
  | true => exact gives_one hm
  | false => exact gives_nil h

theorem otherStr_ok (k : LK) (B : Base) : otherStr (toRef k) B = (k.erase.isBase && !keq k.erase (base B)) := by
  cases k with
  | str b => simp [otherStr, toRef, LK.erase, KE.isBase, keq]
  | comm => simp [otherStr, toRef, LK.erase, KE.isBase]
  | change => simp [otherStr, toRef, LK.erase, KE.isBase]

theorem gives_run {m m' : M (List Nat)} {h : Heap} {vs : List KE} (hm : Gives m' h vs) (e : m h = m' h) : Gives m h vs := by
  unfold Gives; rw [e]; exact hm

theorem swapBase_ok (cfg : Cfg) (B : Base) {h : Heap} {s : LK} (hk : s.isStr = false) (hg : Good h s) :
    Gives (swapBase cfg (addr s) B) h (KE.swapBase cfg s.erase B) := by
  cases s with
  | str => cases hk
  | comm i r p o b c =>
    simp only [LK.erase, KE.swapBase, eraseL_eq]
    have h1 : Gives (collect (fun q : Base × Int => newComm cfg o (b.pos.add (swapDict q.1 B)) (c.map addr)) b.pos) h
        (b.pos.map (fun q => mkC cfg o (b.pos.add (swapDict q.1 B)) (c.map LK.erase))) := by
      refine gives_collect b.pos ?_
      intro q _ h' x
      exact newComm_ok cfg o (b.pos.add (swapDict q.1 B)) (hg.ext x).child.1 hg.child.2
    refine gives_run h1 ?_
    rw [swapBase]
    exact run_bind (look_comm hg)
  | change i rt p x l r =>
    simp only [LK.erase, KE.swapBase, ← otherStr_ok]
    exact gives_run (gives_append (gives_onlyIf _ (newChange_ok cfg x (good_str h B) hg.branches.2))
      (fun h' e => gives_onlyIf _ (newChange_ok cfg x (hg.ext e).branches.1 (good_str h' B)))) (by rw [swapBase]; exact run_bind (look_change hg))

theorem changesOf_ok (cfg : Cfg) (x : CC) {h : Heap} {s : LK} (hg : Good h s) (s2 : Option LK) (hg2 : ∀ k ∈ s2, Good h k) :
    Gives (changesOf cfg (toRef s) x (s2.map toRef)) h (KE.oneChange cfg s.erase x (s2.map LK.erase)) := by
  have same : ∀ h, Good h s → Gives (do let r ← newChange cfg x (toRef s) (toRef s); pure [r]) h [mkChange cfg x s.erase s.erase] :=
    fun h hg => gives_one (newChange_ok cfg x hg hg)
  cases s2 with
  | none => exact gives_run (same h hg) (by rw [changesOf]; exact run_bind (x := true) rfl)
  | some k =>
    have hk := hg2 k rfl
    have e1 : ask (fun h => eqR h (toRef k) (toRef s)) h = (.ok (keq k.erase s.erase), h) := run_ask (eqR_ok hk.stored hk.nodup hg.stored)
    simp only [Option.map_some, KE.oneChange]
    cases hq : keq k.erase s.erase with
    | true =>
      rw [hq] at e1
      exact gives_run (same h hg) (by rw [changesOf]; exact run_bind e1)
    | false =>
      rw [hq] at e1
      have h1 := gives_append (gives_one (newChange_ok cfg x hg hk)) (fun h' e => gives_one (newChange_ok cfg x (hk.ext e) (hg.ext e)))
      refine gives_run h1 ?_
      rw [changesOf]
      refine (run_bind e1).trans ?_
      obtain ⟨k1, h1, e1, x1, _⟩ := newChange_ok cfg x hg hk
      obtain ⟨k2, h2, e2, _⟩ := newChange_ok cfg x (hk.ext x1) (hg.ext x1)
      refine ((run_bind e1).trans (run_bind e2)).trans (Eq.symm ?_)
      refine (run_bind (x := [addr k1]) (h1 := h1) ((run_bind e1).trans rfl)).trans ?_
      exact (run_bind (x := [addr k2]) (h1 := h2) ((run_bind e2).trans rfl)).trans rfl

theorem bothChanges_ok (cfg : Cfg) {h : Heap} {s : LK} (hg : Good h s) (s2 : Option LK) (hg2 : ∀ k ∈ s2, Good h k) :
    Gives (bothChanges cfg (toRef s) (s2.map toRef)) h (KE.bothChanges cfg s.erase (s2.map LK.erase)) := by
  have : KE.bothChanges cfg s.erase (s2.map LK.erase) = KE.oneChange cfg s.erase .CP (s2.map LK.erase) ++ KE.oneChange cfg s.erase .CW (s2.map LK.erase) := by
    simp only [KE.bothChanges, List.flatMap_cons, List.flatMap_nil, List.append_nil]
    cases s2 <;> rfl
  rw [this]
  exact gives_append (changesOf_ok cfg .CP hg s2 hg2) (fun h' e => changesOf_ok cfg .CW (hg.ext e) s2 (fun k hk => (hg2 k hk).ext e))

theorem edit_refs {h : Heap} {a : Nat} {o o' : Obj} (h0 : h[a]? = some o) (hr : o'.refs = o.refs) {b : Nat} (hb : Cl h b) : Cl (h.set a o') b := by
  refine ⟨Cl h, fun d hd => ?_, hb⟩
  obtain ⟨u, hu, hx⟩ := closed_cl h d hd
  by_cases e : a = d
  · subst e
    rw [h0] at hu
    obtain rfl : o = u := by simpa using hu
    exact ⟨o', get_set_self h0, by rw [hr]; exact hx⟩
  · exact ⟨u, by rw [List.getElem?_set_ne e]; exact hu, hx⟩

/-- A node without SE. -/
def dropSE : LK → LK
  | .comm i r p o b c => .comm i r p o (b.del .SE) c
  | k => k

theorem delSE_one {h : Heap} {k : LK} (hk : k.isStr = false) (hs : Stored h k) (hn : (ids k).Nodup) :
    ∃ h', edit (addr k) (Obj.withBts (fun _ b _ => b.del .SE)) h = (.ok (), h') ∧ Stored h' (dropSE k) ∧ Same (· = addr k) h h' ∧ ∀ b, Cl h b → Cl h' b := by
  cases k with
  | str => cases hk
  | comm i r p o b c =>
    rw [stored_comm] at hs
    simp only [ids, List.nodup_cons] at hn
    refine ⟨_, run_edit hs.1, ?_, same_set h i _, fun d hd => edit_refs hs.1 (by rfl) hd⟩
    rw [dropSE, stored_comm]
    exact ⟨get_set_self hs.1, (same_set h i _).storedL (fun a ha e => hn.1 (e ▸ ha)) hs.2⟩
  | change i rt p x l r =>
    have hs' := hs
    simp only [Stored] at hs'
    refine ⟨_, run_edit hs'.1, ?_, same_set h i _, fun b hb => edit_refs hs'.1 rfl hb⟩
    have : h.set i (Obj.withBts (fun _ b _ => b.del .SE) (.change rt p x (toRef l) (toRef r))) = h := by
      apply List.ext_getElem?
      intro j
      by_cases e : i = j
      · subst e; rw [get_set_self hs'.1, hs'.1]; rfl
      · rw [List.getElem?_set_ne e]
    rw [addr, LK.id?, Option.getD_some, this]
    exact hs

theorem delSE_ok {N : Nat} (c : Bool) {ks : List LK} {vs : List KE} {h : Heap} (hm : List.Forall₂ (Made N h) ks vs) (hn : (idsL ks).Nodup) :
    ∃ ks' h', delSE c (ks.map addr) h = (.ok (), h') ∧ ks'.map addr = ks.map addr ∧ idsL ks' = idsL ks ∧
      List.Forall₂ (Made N h') ks' (if c then vs.map KE.delSE else vs) ∧ Same (· ∈ idsL ks) h h' := by
  cases c with
  | false => exact ⟨ks, h, rfl, rfl, rfl, hm, Same.refl _ _⟩
  | true =>
    have go : ∀ {ks : List LK} {vs : List KE} {h : Heap}, List.Forall₂ (Made N h) ks vs → (idsL ks).Nodup →
        ∃ ks' h', each (fun r => edit r (Obj.withBts (fun _ b _ => b.del .SE))) (ks.map addr) h = (.ok (), h') ∧ ks'.map addr = ks.map addr ∧ idsL ks' = idsL ks ∧
          List.Forall₂ (Made N h') ks' (vs.map KE.delSE) ∧ Same (· ∈ idsL ks) h h' ∧ ∀ b, Cl h b → Cl h' b := by
      intro ks
      induction ks with
      | nil => intro vs h hm _; cases hm; exact ⟨[], h, rfl, rfl, rfl, .nil, Same.refl _ _, fun _ hb => hb⟩
      | cons k ks ih =>
        intro vs h hm hn
        cases hm with
        | @cons _ v _ vs h1 hr =>
          simp only [idsL, List.nodup_append] at hn
          obtain ⟨h', e1, s1, m1, c1⟩ := delSE_one h1.node h1.good.stored h1.good.nodup
          have hd : ∀ k' ∈ ks, ∀ a ∈ ids k', ¬ a = addr k := fun k' hk' a ha e => hn.2.2 _ (addr_mem h1.node) a (mem_idsL.2 ⟨k', hk', ha⟩) e.symm
          have hr' : List.Forall₂ (Made N h') ks vs := by
            rw [List.forall₂_iff_get] at hr ⊢
            refine ⟨hr.1, fun i hi hj => ?_⟩
            have := hr.2 i hi hj
            exact ⟨this.node, ⟨m1.stored (hd _ (List.get_mem _ _)) this.good.stored, this.good.nodup, this.good.parents, fun a ha => c1 a (this.good.closed a ha)⟩, this.value, this.new⟩
          obtain ⟨ks', h'', e2, a2, i2, f2, m2, c2⟩ := ih hr' hn.2.1
          have hid : ids (dropSE k) = ids k := by cases k <;> rfl
          refine ⟨dropSE k :: ks', h'', ?_, ?_, ?_, .cons ⟨?_, ⟨?_, ?_, ?_, ?_⟩, ?_, ?_⟩ f2, ?_, fun b hb => c2 b (c1 b hb)⟩
          · rw [List.map_cons, each, run_bind e1]; exact e2
          · rw [List.map_cons, a2]; congr 1; cases k <;> rfl
          · simp only [idsL, i2, hid]
          · have := h1.node; cases k <;> simp_all [dropSE, LK.isStr]
          · exact m2.stored (fun a ha hh => hn.2.2 a (hid ▸ ha) a hh rfl) s1
          · rw [hid]; exact h1.good.nodup
          · have := h1.good.parents; cases k <;> simp_all [dropSE, Parents]
          · rw [hid]; exact fun a ha => c2 a (c1 a (h1.good.closed a ha))
          · rw [← h1.value]; cases k <;> rfl
          · rw [hid]; exact h1.new
          · refine (m1.mono ?_).trans (m2.mono ?_)
            · rintro a rfl; simp only [idsL, List.mem_append]; exact .inl (addr_mem h1.node)
            · intro a ha; simp only [idsL, List.mem_append]; exact .inr ha
    obtain ⟨ks', h', e, a, i, f, m, _⟩ := go hm hn
    exact ⟨ks', h', e, a, i, f, m⟩

theorem higherCurves_ok (cfg : Cfg) {h : Heap} {s : LK} (hk : s.isStr = false) (hg : Good h s) :
    Gives (higherCurves cfg (addr s)) h (KE.higherCurves cfg s.erase) := by
  obtain ⟨k2, h1, e1, x1, m1⟩ := newList_nil cfg .prod [.LIN, .LIN] h
  obtain ⟨k3, h2, e2, x2, m2⟩ := newList_nil cfg .prod [.LIN, .LIN, .LIN] h1
  have hg2 := hg.ext (x1.trans x2)
  have m1' := m1.ext x2
  have m2' := m2.le x1.1
  have hks : List.Forall₂ (Made h.length h2) [k2, k3] (higherKers cfg) := .cons m1' (.cons m2' .nil)
  have ext : ∀ {m : M (List Nat)} {vs : List KE}, Gives m h2 vs → higherCurves cfg (addr s) h = m h2 → Gives (higherCurves cfg (addr s)) h vs := by
    rintro m vs ⟨ks, h', e, x, f, n⟩ e'
    exact ⟨ks, h', by rw [e', e], (x1.trans x2).trans x, forall₂_made f (Ext.refl _) (x1.trans x2).1, n⟩
  have del : ∀ {m : M (List Nat)} {vs : List KE} (c : Bool), Gives m h2 vs → Gives (do let rs ← m; delSE c rs; pure rs) h2 (if c then vs.map KE.delSE else vs) := by
    rintro m vs c ⟨ks, h', e, x, f, n⟩
    obtain ⟨ks', h'', e', a', i', f', m'⟩ := delSE_ok c f n
    refine ⟨ks', h'', ?_, x.same m' (fun a ha => (made_lt f a ha).1), f', by rw [i']; exact n⟩
    rw [run_bind e, run_bind e', a']; rfl
  cases s with
  | str => cases hk
  | comm i r p o b c =>
    cases o with
    | sum =>
      have h3 : Gives (collect (fun ct => newComm cfg .sum b.pos (c.map addr ++ [ct])) ([k2, k3].map addr)) h2
          ((higherKers cfg).map (fun ct => mkC cfg .sum b.pos (c.map LK.erase ++ [ct]))) := by
        refine gives_map hks (Ext.refl _) ?_
        intro k v hm h' x
        have := newComm_append cfg .sum b.pos (h := h') (c := c) (c' := [k]) (hg2.ext x).child.1 hg.child.2 (mem_single (hm.good.ext x) hm.node)
          (by rw [idsL_single]; exact hm.good.nodup) (by
            rw [idsL_single]
            intro a ha ha'
            obtain ⟨ct, hct, ha⟩ := mem_idsL.1 ha
            have := stored_lt ct (hg.child.1 ct hct).2.stored a ha
            have := hm.new a ha'
            omega)
        rw [List.map_singleton, List.map_singleton, hm.value] at this
        exact this
      have h4 := ext (del (b.pos.has .SE) h3) (by
        rw [higherCurves]
        exact (run_bind e1).trans ((run_bind e2).trans (run_bind (look_comm hg2))))
      rw [← eraseL_eq] at h4
      exact h4
    | prod =>
      have h3 : Gives (collect (fun bts => newComm cfg .prod (b.pos.add bts) (c.map addr))
          [[(Base.LIN, (2 : Int))], [(Base.LIN, 3)], if b.pos.has .PER then [(Base.PER, 1)] else [(Base.PER, 2)]]) h2
          ([[(Base.LIN, (2 : Int))], [(Base.LIN, 3)], if b.pos.has .PER then [(Base.PER, 1)] else [(Base.PER, 2)]].map
            (fun bts => mkC cfg .prod (b.pos.add bts) (c.map LK.erase))) := by
        refine gives_collect _ ?_
        intro bts _ h' x
        exact newComm_ok cfg .prod (b.pos.add bts) (hg2.ext x).child.1 hg.child.2
      have h4 := ext (del (b.pos.has .SE) h3) (by
        rw [higherCurves]
        exact (run_bind e1).trans ((run_bind e2).trans (run_bind (look_comm hg2))))
      rw [← eraseL_eq] at h4
      exact h4
  | change i rt p x l r =>
    have h3 : Gives (match toRef l with
        | .str _ => collect (fun ct => newChange cfg x (.obj ct) (toRef r)) ([k2, k3].map addr)
        | .obj _ => pure []) h2 (if l.erase.isBase then (higherKers cfg).map (fun ct => mkChange cfg x ct r.erase) else []) := by
      cases l with
      | str b =>
        refine gives_map hks (Ext.refl _) ?_
        intro k v hm h' x'
        have := newChange_ok cfg x (hm.good.ext x') (hg2.ext x').branches.2
        rw [toRef_obj hm.node, hm.value] at this
        exact this
      | comm => exact gives_nil h2
      | change => exact gives_nil h2
    have h4 : ∀ h', Ext h2 h' → Gives (match toRef r with
        | .str _ => collect (fun ct => newChange cfg x (toRef l) (.obj ct)) ([k2, k3].map addr)
        | .obj _ => pure []) h' (if r.erase.isBase then (higherKers cfg).map (fun ct => mkChange cfg x l.erase ct) else []) := by
      intro h' xx
      cases r with
      | str b =>
        refine gives_map hks xx ?_
        intro k v hm h' x'
        have := newChange_ok cfg x (hg2.ext x').branches.1 (hm.good.ext x')
        rw [toRef_obj hm.node, hm.value] at this
        exact this
      | comm => exact gives_nil h'
      | change => exact gives_nil h'
    refine ext (gives_append h3 h4) ?_
    rw [higherCurves]
    exact (run_bind e1).trans ((run_bind e2).trans (run_bind (look_change hg2)))

/-- One of the two branches. -/
def Branch (k : LK) : LK → Prop
  | .change _ _ _ _ l r => k = l ∨ k = r
  | _ => False

/-- As `Gives`, where the trees may also be branches of the argument. -/
def GivesFrom (s : LK) (m : M (List Nat)) (h : Heap) (vs : List KE) : Prop :=
  ∃ ks h', m h = (.ok (ks.map addr), h') ∧ Ext h h' ∧
    List.Forall₂ (fun k v => k.isStr = false ∧ Good h' k ∧ k.erase = v ∧ ((∀ a ∈ ids k, h.length ≤ a) ∨ Branch k s)) ks vs

theorem Gives.from {m : M (List Nat)} {h : Heap} {vs : List KE} (hm : Gives m h vs) (s : LK) : GivesFrom s m h vs := by
  obtain ⟨ks, h', e, x, f, _⟩ := hm
  exact ⟨ks, h', e, x, f.imp fun k v hm => ⟨hm.node, hm.good, hm.value, .inl hm.new⟩⟩

theorem asNode_ok (cfg : Cfg) {h : Heap} {k : LK} (hg : Good h k) :
    ∃ k' h', asNode cfg (toRef k) h = (.ok (addr k'), h') ∧ Ext h h' ∧ (k'.isStr = false ∧ Good h' k' ∧ k'.erase = branchNode cfg k.erase ∧ ((∀ a ∈ ids k', h.length ≤ a) ∨ k' = k)) := by
  cases k with
  | str b =>
    obtain ⟨k', h', e, x, m⟩ := newList_nil cfg .sum [b] h
    exact ⟨k', h', e, x, m.node, m.good, m.value, .inl m.new⟩
  | comm i r p o b c => exact ⟨.comm i r p o b c, h, rfl, Ext.refl _, rfl, hg, rfl, .inr rfl⟩
  | change i rt p x l r => exact ⟨.change i rt p x l r, h, rfl, Ext.refl _, rfl, hg, rfl, .inr rfl⟩

theorem removeATerm_ok (cfg : Cfg) {h : Heap} {s : LK} (hk : s.isStr = false) (hg : Good h s) :
    GivesFrom s (removeATerm cfg (addr s)) h (KE.removeATerm cfg s.erase) := by
  cases s with
  | str => cases hk
  | comm i r p o b c =>
    refine Gives.from ?_ _
    simp only [LK.erase, KE.removeATerm, eraseL_eq, termCount, List.length_map]
    by_cases ht : b.total + (c.length : Int) > 1
    · rw [if_pos ht]
      have h1 : Gives (collect (fun q : Base × Int => newComm cfg o (b.pos.add [(q.1, -1)]) (c.map addr)) b.pos) h
          (b.pos.map (fun q => mkC cfg o (b.pos.add [(q.1, -1)]) (c.map LK.erase))) := by
        refine gives_collect _ ?_
        intro q _ h' x
        exact newComm_ok cfg o _ (hg.ext x).child.1 hg.child.2
      have h2 : ∀ h', Ext h h' → Gives (collect (fun i => newComm cfg o b.pos ((c.map addr).take i ++ (c.map addr).drop (i + 1))) (List.range (c.map addr).length)) h'
          ((List.range c.length).map (fun i => mkC cfg o b.pos ((c.map LK.erase).take i ++ (c.map LK.erase).drop (i + 1)))) := by
        intro h' x
        rw [List.length_map]
        refine gives_collect _ ?_
        intro j _ h'' x'
        have hsub : (c.take j ++ c.drop (j + 1)).Sublist c := by
          have h0 : (c.drop (j + 1)).Sublist (c.drop j) := by
            rw [← List.drop_drop, List.drop_one]; exact List.tail_sublist _
          have := (List.Sublist.refl (c.take j)).append h0
          rwa [List.take_append_drop] at this
        have := newComm_ok cfg o b.pos (h := h'') (cts := c.take j ++ c.drop (j + 1)) (fun ct hct => ((hg.ext x).ext x').child.1 ct (hsub.subset hct)) (by
          have h0 : (idsL (c.take j ++ c.drop (j + 1))).Sublist (idsL c) := idsL_sub hsub
          exact hg.child.2.sublist h0)
        rw [List.map_append, List.map_append, List.map_take, List.map_take, List.map_drop, List.map_drop] at this
        exact this
      refine gives_run (gives_append h1 h2) ?_
      rw [removeATerm]
      refine (run_bind (look_comm hg)).trans ?_
      simp only [List.length_map]
      rw [if_pos ht]
    · rw [if_neg ht]
      refine gives_run (gives_nil h) ?_
      rw [removeATerm]
      refine (run_bind (look_comm hg)).trans ?_
      simp only [List.length_map]
      rw [if_neg ht]
  | change i rt p x l r =>
    obtain ⟨k1, h1, e1, x1, n1, g1, v1, b1⟩ := asNode_ok cfg hg.branches.1
    obtain ⟨k2, h2, e2, x2, n2, g2, v2, b2⟩ := asNode_ok cfg (hg.ext x1).branches.2
    refine ⟨[k1, k2], h2, ?_, x1.trans x2, .cons ⟨n1, g1.ext x2, v1, b1.imp id .inl⟩ (.cons ⟨n2, g2, v2, b2.imp (fun h0 a ha => Nat.le_trans x1.1 (h0 a ha)) .inr⟩ .nil)⟩
    rw [removeATerm]
    refine (run_bind (look_change hg)).trans ((run_bind e1).trans ((run_bind e2).trans rfl))

end Objects
end GPyABCD
