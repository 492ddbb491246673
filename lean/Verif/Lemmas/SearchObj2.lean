import Verif.Lemmas.SearchObj

/-!
# Lemmas: the rounds of a search over objects
-/

namespace GPyABCD
namespace SearchObj
open Objects Links
open Search (Mod St slice sameMod)

variable {D R ε : Type}

/-! ## Computations in step -/

/-- A computation with the store goes as this one does without: it raises the same exception, or gives a related result; what was in the store stays as it was. -/
def Goes {α β : Type} (m : P ε α) (h : Heap) (x : Except (Search.Err ε) β) (Q : α → β → Heap → Prop) : Prop :=
  match x with
  | .error e => ∃ h', m h = (.error (.search e), h') ∧ Ext h h'
  | .ok y => ∃ a h', m h = (.ok a, h') ∧ Ext h h' ∧ Q a y h'

theorem Goes.bind {α β α' β' : Type} {m : P ε α} {h : Heap} {x : Except (Search.Err ε) β} {Q : α → β → Heap → Prop} (hm : Goes m h x Q) {f : α → P ε α'}
    {g : β → Except (Search.Err ε) β'} {Q' : α' → β' → Heap → Prop} (hf : ∀ a y h', Ext h h' → Q a y h' → Goes (f a) h' (g y) Q') : Goes (m >>= f) h (x >>= g) Q' := by
  cases x with
  | error e =>
    obtain ⟨h', e1, x1⟩ := hm
    exact ⟨h', by simp only [Bind.bind, e1], x1⟩
  | ok y =>
    obtain ⟨a, h1, e1, x1, q1⟩ := hm
    have h2 := hf a y h1 x1 q1
    have e2 : (m >>= f) h = f a h1 := by simp only [Bind.bind, e1]
    show Goes (m >>= f) h (g y) Q'
    revert h2
    cases g y
    · rintro ⟨h', e3, x3⟩
      exact ⟨h', e2.trans e3, x1.trans x3⟩
    · rintro ⟨a', h', e3, x3, q3⟩
      exact ⟨a', h', e2.trans e3, x1.trans x3, q3⟩

/-- A step that the search over values does not have. -/
theorem Goes.step {α α' β' : Type} {m : P ε α} {h h1 : Heap} {a : α} (hm : m h = (.ok a, h1)) (he : Ext h h1) {f : α → P ε α'}
    {x : Except (Search.Err ε) β'} {Q' : α' → β' → Heap → Prop} (hf : Goes (f a) h1 x Q') : Goes (m >>= f) h x Q' :=
  Goes.bind (x := .ok ()) (Q := fun a' _ h' => a' = a ∧ h' = h1) (g := fun _ => x) ⟨a, h1, hm, he, rfl, rfl⟩ (by rintro _ _ _ _ ⟨rfl, rfl⟩; exact hf)

theorem Goes.pure {α β : Type} {h : Heap} {a : α} {y : β} {Q : α → β → Heap → Prop} (hq : Q a y h) : Goes (ε := ε) (Pure.pure a) h (.ok y) Q := ⟨a, h, rfl, .refl h, hq⟩

theorem Goes.lift {α β : Type} {h : Heap} {x : Except (Search.Err ε) α} {y : Except (Search.Err ε) β} {Q : α → β → Heap → Prop}
    (hq : match x, y with
      | .ok a, .ok b => Q a b h
      | .error e, .error e' => e = e'
      | _, _ => False) : Goes (lift x) h y Q := by
  cases x <;> cases y <;> simp only at hq
  · subst hq; exact ⟨h, rfl, .refl h⟩
  · exact ⟨_, h, rfl, .refl h, hq⟩

theorem Goes.same {β : Type} {h : Heap} {x : Except (Search.Err ε) β} : Goes (SearchObj.lift x) h x (fun a b h' => a = b ∧ h' = h) :=
  Goes.lift (by cases x <;> simp)

theorem Goes.mono {α β : Type} {m : P ε α} {h : Heap} {x : Except (Search.Err ε) β} {Q Q' : α → β → Heap → Prop} (hm : Goes m h x Q)
    (hq : ∀ a y h', Ext h h' → Q a y h' → Q' a y h') : Goes m h x Q' := by
  cases x with
  | error e => exact hm
  | ok y => obtain ⟨a, h1, e1, x1, q1⟩ := hm; exact ⟨a, h1, e1, x1, hq a y h1 x1 q1⟩

theorem run_ok {α : Type} {m : M α} {h h' : Heap} {a : α} (hm : m h = (.ok a, h')) : SearchObj.run (ε := ε) m h = (.ok a, h') := by rw [SearchObj.run, hm]

/-! ## Fitting -/

/-- The search over values with the same parameters. -/
def Env.values (E : Env D R ε) : Search.Env KE D R ε := ⟨KE.keq, KE.expandNamed E.cfg E.orders E.rules, E.le, E.score, E.fit⟩

theorem fitAll_goes (E : Env D R ε) {h : Heap} {as : List Nat} {vs : List KE} (hv : List.Forall₂ (RootAt h) as vs) (n : Nat) :
    Goes (fitAll E n as) h (Search.fitAll E.values n vs) (fun ms ms' h' => h' = h ∧ List.Forall₂ (ShowsMod h) ms ms' ∧ ms.map (·.kex) = as) := by
  induction hv generalizing n with
  | nil => exact Goes.pure ⟨rfl, .nil, rfl⟩
  | @cons a v as vs h1 _ ih =>
    rw [fitAll, Search.fitAll]
    refine Goes.step (run_ok (run_ask (valueAt_root h1))) (.refl h) ?_
    have e : E.values.fit n v = E.fit n v := rfl
    rw [e]
    cases E.fit n v with
    | error e => exact ⟨h, rfl, .refl h⟩
    | ok d =>
      refine Goes.step (a := d) (h1 := h) rfl (.refl h) ?_
      have := (ih (n + 1)).bind (f := fun ms => (Pure.pure (⟨n, a, d, E.score d⟩ :: ms) : P ε (List (Mod Nat D R)))) (g := fun ms => .ok (⟨n, v, d, E.score d⟩ :: ms))
        (Q' := fun ms ms' h' => h' = h ∧ List.Forall₂ (ShowsMod h) ms ms' ∧ ms.map (·.kex) = a :: as) (by
          rintro ms ms' h' _ ⟨rfl, h2, h3⟩
          exact Goes.pure ⟨rfl, .cons ⟨rfl, h1, rfl, rfl⟩ h2, by simp [h3]⟩)
      revert this
      cases Search.fitAll E.values (n + 1) vs <;> exact id

theorem pickle_ok {lo : Nat} {h : Heap} {ms : List (Mod Nat D R)} {ms' : List (Mod KE D R)} (hm : List.Forall₂ (ShowsMod h) ms ms') (ha : Apart lo h (ms.map (·.kex))) :
    ∃ rs h', pickle ms h = (.ok rs, h') ∧ Ext h h' ∧ List.Forall₂ (ShowsMod h') rs ms' ∧ Apart h.length h' (rs.map (·.kex)) := by
  obtain ⟨f, h', e, x, a1, r1⟩ := deepcopy_apart ha
  refine ⟨ms.map (fun m => { m with kex := f m.kex }), h', ?_, x, ?_, ?_⟩
  · rw [pickle]; exact (run_bind e).trans rfl
  · rw [List.forall₂_map_left_iff]
    exact forall₂_imp_mem hm (fun m hm m' _ h1 => ⟨h1.uid, r1 _ (List.mem_map_of_mem hm) _ h1.kex, h1.data, h1.cached⟩)
  · simpa [List.map_map, Function.comp_def] using a1

theorem pickles_ok {h : Heap} {css : List (List (Mod Nat D R))} {css' : List (List (Mod KE D R))} (hc : List.Forall₂ (List.Forall₂ (ShowsMod h)) css css')
    (ha : ∀ cs ∈ css, Apart 0 h (cs.map (·.kex))) :
    ∃ rss h', collect pickle css h = (.ok rss, h') ∧ Ext h h' ∧ List.Forall₂ (ShowsMod h') rss.flatten css'.flatten ∧ Apart h.length h' (rss.flatten.map (·.kex)) := by
  induction css generalizing h css' with
  | nil => cases hc; exact ⟨[], h, rfl, .refl h, .nil, .nil _ _⟩
  | cons cs css ih =>
    cases hc with
    | cons h1 h2 =>
      obtain ⟨rs, h1', e1, x1, f1, a1⟩ := pickle_ok h1 (ha cs (by simp))
      obtain ⟨rss, h', e2, x2, f2, a2⟩ := ih (h2.imp (fun _ _ h3 => mods_ext x1 h3)) (fun cs' hcs' => (ha cs' (by simp [hcs'])).ext x1)
      refine ⟨rs :: rss, h', ?_, x1.trans x2, forall₂_append (mods_ext x2 f1) f2, ?_⟩
      · rw [collect]; exact (run_bind e1).trans ((run_bind e2).trans rfl)
      · rw [List.flatten_cons, List.map_append]; exact a1.append x2 a2 x1.1

theorem chunks_flatten {α : Type} (size : Nat) (hs : 0 < size) (xs : List α) : (chunks size xs).flatten = xs := by
  refine Util.flatten_chunk xs size _ ?_
  have h1 := Nat.div_add_mod (xs.length + size - 1) size
  have h2 := Nat.mod_lt (xs.length + size - 1) hs
  rw [Nat.mul_comm] at h1
  omega

theorem chunks_forall₂ {α β : Type} {Q : α → β → Prop} (size : Nat) {xs : List α} {ys : List β} (h : List.Forall₂ Q xs ys) :
    List.Forall₂ (List.Forall₂ Q) (chunks size xs) (chunks size ys) := by
  rw [chunks, chunks, h.length_eq, List.forall₂_map_left_iff, List.forall₂_map_right_iff, List.forall₂_same]
  exact fun j _ => forall₂_take _ (forall₂_drop _ h)

theorem fitMods_goes (E : Env D R ε) {lo : Nat} {h : Heap} (hl : lo ≤ h.length) {as : List Nat} {vs : List KE} (hv : List.Forall₂ (RootAt h) as vs) (ha : Apart lo h as) (n : Nat) :
    Goes (fitMods E n as) h (Search.fitAll E.values n vs) (fun ms ms' h' => List.Forall₂ (ShowsMod h') ms ms' ∧ Apart lo h' (ms.map (·.kex)) ∧ (E.cpus.isSome = true → Apart h.length h' (ms.map (·.kex))) ∧ (E.cpus = none → ms.map (·.kex) = as)) := by
  have key := (fitAll_goes E hv n).bind (f := fun ms => match E.cpus with
      | none => (Pure.pure ms : P ε (List (Mod Nat D R)))
      | some c => do
        let cs ← SearchObj.run (Objects.collect pickle (chunks (Search.chunkSize as.length c) ms))
        Pure.pure cs.flatten) (g := fun ms' => .ok ms') (Q' := fun ms ms' h' => List.Forall₂ (ShowsMod h') ms ms' ∧ Apart lo h' (ms.map (·.kex)) ∧ (E.cpus.isSome = true → Apart h.length h' (ms.map (·.kex))) ∧ (E.cpus = none → ms.map (·.kex) = as)) (by
    rintro ms ms' h' _ ⟨rfl, f1, k1⟩
    cases E.cpus with
    | none => exact Goes.pure ⟨f1, by rw [k1]; exact ha, by simp, fun _ => k1⟩
    | some c =>
      have hpos : 0 < Search.chunkSize as.length c := by simp [Search.chunkSize]
      obtain ⟨rss, h2, e2, x2, f2, a2⟩ := pickles_ok (chunks_forall₂ (Search.chunkSize as.length c) f1) (by
        intro cs hcs
        have hsub : cs.Sublist ms := by
          obtain ⟨j, _, rfl⟩ := List.mem_map.1 hcs
          exact (List.take_sublist ..).trans (List.drop_sublist ..)
        refine (ha.le (Nat.zero_le _)).sublist ?_
        rw [← k1]
        exact hsub.map _)
      refine Goes.step (run_ok e2) x2 (Goes.pure ⟨?_, a2.le hl, fun _ => a2, by simp⟩)
      rwa [chunks_flatten _ hpos] at f2)
  rw [fitMods]
  revert key
  cases Search.fitAll E.values n vs <;> exact id

/-! ## New expressions -/

theorem isIn_ok {h : Heap} {a : Nat} {v : KE} (ha : RootAt h a v) {ts : List Nat} {ws : List KE} (ht : List.Forall₂ (RootAt h) ts ws) :
    isIn h a ts = some (ws.any (fun t => KE.keq v t)) := by
  induction ht with
  | nil => rfl
  | @cons t w ts ws h1 _ ih =>
    rw [isIn, eqO_val (val_root ha) (val_root h1), List.any_cons]
    cases KE.keq v w
    · simpa using ih
    · rfl

theorem notIn_ok {h : Heap} {ts : List Nat} {ws : List KE} (ht : List.Forall₂ (RootAt h) ts ws) {as : List Nat} {vs : List KE} (ha : List.Forall₂ (RootAt h) as vs) :
    ∃ rs, notIn h ts as = some rs ∧ List.Forall₂ (RootAt h) rs (vs.filter (fun k => !ws.any (fun t => KE.keq k t))) ∧ rs.Sublist as := by
  induction ha with
  | nil => exact ⟨[], rfl, .nil, .slnil⟩
  | @cons a v as vs h1 _ ih =>
    obtain ⟨rs, e, f, s⟩ := ih
    rw [notIn, isIn_ok h1 ht, List.filter_cons]
    cases ws.any (fun t => KE.keq v t)
    · exact ⟨a :: rs, by simp only [e]; rfl, .cons h1 f, s.cons_cons _⟩
    · exact ⟨rs, e, f, s.cons _⟩

theorem unique_roots {h : Heap} {as : List Nat} {vs : List KE} (ha : List.Forall₂ (RootAt h) as vs) :
    ∃ us, uniqueM as h = (.ok us, h) ∧ List.Forall₂ (RootAt h) us (Util.unique KE.keq vs) ∧ us.Sublist as := by
  obtain ⟨zs, rfl, rfl, hz⟩ := forall₂_map_fst ha
  refine ⟨_, uniqueM_val Prod.fst Prod.snd zs (fun z hz' => val_root (hz z hz')), ?_, ?_⟩
  · have hsub : (Util.unique (fun x y : Nat × KE => KE.keq x.2 y.2) zs).Sublist zs := Util.uniqueGo_sublist _ _ _
    have := forall₂_of_zip (P := RootAt h) (Util.unique (fun x y : Nat × KE => KE.keq x.2 y.2) zs) (fun z h1 => hz z (hsub.subset h1))
    rw [Util.unique, unique_map Prod.snd KE.keq zs []] at this
    exact this
  · exact List.Sublist.map _ (Util.uniqueGo_sublist _ _ _)

/-- The values for which expansion is right. -/
structure Expands (E : Env D R ε) (G : KE → Prop) : Prop where
  /-- the results stay in it -/
  closed : ∀ v, G v → ∀ w ∈ KE.expandNamed E.cfg E.orders E.rules v, G w
  /-- objects behave as values -/
  right : ∀ (h : Heap) (t : LK), Stored h t → WellLinked t → G t.erase →
    ∃ rs h', expand E.cfg E.orders E.rules (addr t) h = (.ok (rs.map addr), h') ∧ Ext h h' ∧ rs.map LK.erase = KE.expandNamed E.cfg E.orders E.rules t.erase ∧
      (∀ r ∈ rs, Stored h' r ∧ WellLinked r) ∧ (idsL rs).Nodup ∧ ∀ a ∈ idsL rs, h.length ≤ a

theorem Expands.one {E : Env D R ε} {G : KE → Prop} (hE : Expands E G) {h : Heap} {a : Nat} {v : KE} (hr : RootAt h a v) (hg : G v) :
    ∃ rs h', expand E.cfg E.orders E.rules a h = (.ok rs, h') ∧ Ext h h' ∧ List.Forall₂ (RootAt h') rs (KE.expandNamed E.cfg E.orders E.rules v) ∧ Apart h.length h' rs := by
  obtain ⟨t, rfl, h1, h2, rfl⟩ := hr
  obtain ⟨rs, h', e, x, v1, o1, n1, l1⟩ := hE.right h t h1 h2 hg
  refine ⟨_, h', e, x, ?_, rs, rfl, o1, n1, l1⟩
  rw [← v1, List.forall₂_map_left_iff, List.forall₂_map_right_iff, List.forall₂_same]
  exact fun r hr => ⟨r, rfl, (o1 r hr).1, (o1 r hr).2, rfl⟩

theorem Expands.all {E : Env D R ε} {G : KE → Prop} (hE : Expands E G) {h : Heap} {ms : List (Mod Nat D R)} {ms' : List (Mod KE D R)} (hm : List.Forall₂ (ShowsMod h) ms ms')
    (hg : ∀ m ∈ ms', G m.kex) :
    ∃ rss h', collect (fun m : Mod Nat D R => expand E.cfg E.orders E.rules m.kex) ms h = (.ok rss, h') ∧ Ext h h' ∧
      List.Forall₂ (RootAt h') rss.flatten (ms'.map (fun m => KE.expandNamed E.cfg E.orders E.rules m.kex)).flatten ∧ Apart h.length h' rss.flatten := by
  induction ms generalizing h ms' with
  | nil => cases hm; exact ⟨[], h, rfl, .refl h, .nil, .nil _ _⟩
  | cons m ms ih =>
    cases hm with
    | cons h1 h2 =>
      obtain ⟨rs, h1', e1, x1, f1, a1⟩ := hE.one h1.kex (hg _ (by simp))
      obtain ⟨rss, h', e2, x2, f2, a2⟩ := ih (mods_ext x1 h2) (fun m' hm' => hg m' (by simp [hm']))
      refine ⟨rs :: rss, h', ?_, x1.trans x2, forall₂_append (roots_ext x2 f1) f2, ?_⟩
      · rw [collect]; exact (run_bind e1).trans ((run_bind e2).trans rfl)
      · exact a1.append x2 a2 x1.1

theorem newKexs_ok {E : Env D R ε} {G : KE → Prop} (hE : Expands E G) {h : Heap} (b : Int) {s : St Nat D R} {s' : St KE D R} (hk : List.Forall₂ (RootAt h) s.ktested s'.ktested)
    (hn : List.Forall₂ (ShowsMod h) s.notExpanded s'.notExpanded) (hg : ∀ m ∈ s'.notExpanded, G m.kex) :
    ∃ rs h', newKexs E b s h = (.ok rs, h') ∧ Ext h h' ∧ List.Forall₂ (RootAt h') rs (Search.newKexs E.values b s') ∧ Apart h.length h' rs ∧
      ∀ v ∈ Search.newKexs E.values b s', G v := by
  have hg' : ∀ m ∈ slice s'.notExpanded b, G m.kex := by
    intro m hm
    obtain ⟨n, e⟩ := Search.slice_prefix s'.notExpanded b
    rw [e] at hm
    exact hg m (List.take_subset _ _ hm)
  obtain ⟨rss, h', e1, x1, f1, a1⟩ := hE.all (forall₂_slice b hn) hg'
  obtain ⟨us, e2, f2, s2⟩ := unique_roots f1
  obtain ⟨rs, e3, f3, s3⟩ := notIn_ok (roots_ext x1 hk) f2
  refine ⟨rs, h', ?_, x1, ?_, a1.sublist (s3.trans s2), ?_⟩
  · rw [newKexs]; exact (run_bind e1).trans ((run_bind e2).trans (run_ask e3))
  · rw [Search.newKexs, flatten_eq]; exact f3
  · intro v hv
    rw [Search.newKexs, flatten_eq] at hv
    have h1 := (Util.uniqueGo_sublist _ _ _).subset (List.mem_filter.1 hv).1
    obtain ⟨l, hl, hv⟩ := List.mem_flatten.1 h1
    obtain ⟨m, hm, rfl⟩ := List.mem_map.1 hl
    exact hE.closed _ (hg' m hm) v hv

end SearchObj
end GPyABCD
