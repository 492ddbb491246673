import Verif.Lemmas.Dag2
import Verif.Lemmas.Growing

/-!
# Values of objects in a store: simplification where parts may be shared
-/

namespace GPyABCD
namespace Objects
open Links Links.LK
open KE hiding nodes

/-! ## Depth -/

theorem kdepthL_le {cs : List KE} {D : Nat} (h : ∀ k ∈ cs, kdepth k ≤ D) : kdepthL cs ≤ D := by
  induction cs with
  | nil => simp [kdepthL]
  | cons k ks ih =>
    simp only [kdepthL]
    have := h k (by simp)
    have := ih (fun k hk => h k (by simp [hk]))
    omega

theorem kdepth_extract (k : KE) : kdepth (KE.extract k) ≤ kdepth k := by
  cases k with
  | base b => simp [KE.extract]
  | change => simp [KE.extract]
  | comm o b cs =>
    unfold KE.extract
    simp only
    split
    · split
      · simp [kdepth]
      · omega
    · split
      · simp only [kdepth, kdepthL]; omega
      · omega
    · omega

theorem mem_removeFirst {p : KE → Bool} {xs ys : List KE} (h : removeFirst p xs = some ys) : ∀ y ∈ ys, y ∈ xs := by
  induction xs generalizing ys with
  | nil => simp [removeFirst] at h
  | cons x xs ih =>
    rw [removeFirst] at h
    split at h
    · cases h; intro y hy; simp [hy]
    · obtain ⟨zs, h1, rfl⟩ := Option.map_eq_some_iff.1 h
      intro y hy
      rcases List.mem_cons.1 hy with rfl | hy
      · simp
      · simp [ih h1 y hy]

theorem kdepth_absorb {cfg : Cfg} {o : Op} {b : Counter} {cs : List KE} {D : Nat} (h : ∀ k ∈ cs, kdepth k ≤ D) : kdepth (KE.absorb cfg o b cs) ≤ D + 1 := by
  have fold : ∀ (hs : List KE) (s : Counter × List KE), (∀ k ∈ hs, kdepth k ≤ D) → (∀ k ∈ s.2, kdepth k ≤ D) → ∀ k ∈ (hs.foldl (KE.absorbStep cfg o) s).2, kdepth k ≤ D := by
    intro hs
    induction hs with
    | nil => intro s _ h; exact h
    | cons x hs ih =>
      intro s h1 h2
      rw [List.foldl_cons]
      refine ih _ (fun k hk => h1 k (by simp [hk])) ?_
      have hx := h1 x (by simp)
      cases x with
      | base => exact h2
      | change => exact h2
      | comm o' b' cs' =>
        have h3 : ∀ k ∈ s.2 ++ cs', kdepth k ≤ D := by
          intro k hk
          rcases List.mem_append.1 hk with hk | hk
          · exact h2 k hk
          · have := kdepth_mem hk; simp only [kdepth] at hx; omega
        simp only [KE.absorbStep]
        cases hr : removeFirst (fun y => keq (KE.comm o' b' cs') y) (s.2 ++ cs') with
        | none => exact h3
        | some ys => exact fun k hk => h3 k (mem_removeFirst hr k hk)
  rw [KE.absorb]
  simp only [kdepth, KE.absorbSingletons, KE.absorbHomogeneous]
  refine Nat.add_le_add_right (kdepthL_le fun k hk => ?_) 1
  obtain ⟨y, hy, rfl⟩ := List.mem_map.1 (List.mem_filter.1 hk).1
  have := fold (cs.filter (KE.isComm o)) (b, cs) (fun k hk => h k (List.mem_filter.1 hk).1) h y hy
  have := kdepth_extract y
  omega

theorem kdepth_simplify (cfg : Cfg) : (n : Nat) → (k : KE) → kdepth k ≤ n → kdepth (KE.simplify cfg k) ≤ kdepth k
  | _, .base b, _ => by simp [KE.simplify]
  | 0, .comm o b cs, h => by simp [kdepth] at h
  | n + 1, .comm o b cs, h => by
    rw [KE.simplify, simplifyL_eq]
    refine kdepth_absorb (fun k hk => ?_)
    obtain ⟨y, hy, rfl⟩ := List.mem_map.1 hk
    have := kdepth_mem hy
    simp only [kdepth] at h
    have := kdepth_simplify cfg n y (by omega)
    omega
  | 0, .change c l r, h => by simp [kdepth] at h
  | n + 1, .change c l r, h => by
    simp only [KE.simplify, kdepth] at *
    have := kdepth_simplify cfg n l (by omega)
    have := kdepth_simplify cfg n r (by omega)
    have := kdepth_extract (KE.simplify cfg l)
    have := kdepth_extract (KE.simplify cfg r)
    omega

/-! ## Expressions that simplify to a normal form at every level -/

inductive Sound (cfg : Cfg) : KE → Prop
  | base (b : Base) : Sound cfg (.base b)
  | comm {o : Op} {b : Counter} {cs : List KE} : normal cfg (KE.simplify cfg (.comm o b cs)) = true → (∀ k ∈ cs, Sound cfg k) → Sound cfg (.comm o b cs)
  | change {c : CC} {l r : KE} : normal cfg (KE.simplify cfg (.change c l r)) = true → Sound cfg l → Sound cfg r → Sound cfg (.change c l r)

theorem Sound.normal {cfg : Cfg} {k : KE} (h : Sound cfg k) : normal cfg (KE.simplify cfg k) = true := by
  cases h with
  | base b => rfl
  | comm h _ => exact h
  | change h _ _ => exact h

theorem sound_of_normal {cfg : Cfg} : (n : Nat) → (k : KE) → kdepth k ≤ n → normal cfg k = true → Sound cfg k
  | _, .base b, _, _ => .base b
  | 0, .comm o b cs, h, _ => by simp [kdepth] at h
  | n + 1, .comm o b cs, h, hn => by
    refine .comm (by rw [simplify_of_normal hn]; exact hn) (fun k hk => ?_)
    have := kdepth_mem hk
    simp only [kdepth] at h
    exact sound_of_normal n k (by omega) (normal_child hn k hk).1
  | 0, .change c l r, h, _ => by simp [kdepth] at h
  | n + 1, .change c l r, h, hn => by
    simp only [kdepth] at h
    obtain ⟨⟨h1, _⟩, h2, _⟩ := normal_branch hn
    exact .change (by rw [simplify_of_normal hn]; exact hn) (sound_of_normal n l (by omega) h1) (sound_of_normal n r (by omega) h2)

theorem extract_extract {cfg : Cfg} {k : KE} (h : normal cfg k = true) : KE.extract (KE.extract k) = KE.extract k := by
  have hw := (normal_iff.1 h).1
  rcases extract_cases hw with ⟨_, e⟩ | ⟨o, b, rfl, e⟩ | ⟨o, ct, rfl, e⟩
  · rw [e, e]
  · rw [e]; rfl
  · rw [e]
    obtain ⟨h1, h2, _⟩ := normal_child h ct (by simp)
    exact extract_of_not_singleton (normal_iff.1 h1).1 h2

/-- One expression turns into another without being told apart by `simplify`. -/
structure Moves (cfg : Cfg) (w w' : KE) : Prop where
  simp : KE.simplify cfg w' = KE.simplify cfg w
  sound : Sound cfg w'
  depth : kdepth w' ≤ kdepth w
  rigid : KE.normal cfg w = true → w' = w

theorem Moves.refl {cfg : Cfg} {w : KE} (h : Sound cfg w) : Moves cfg w w := ⟨rfl, h, Nat.le_refl _, fun _ => rfl⟩

theorem Moves.trans {cfg : Cfg} {a b c : KE} (h1 : Moves cfg a b) (h2 : Moves cfg b c) : Moves cfg a c :=
  ⟨h2.simp.trans h1.simp, h2.sound, Nat.le_trans h2.depth h1.depth, fun h => by
    have e := h1.rigid h
    subst e
    exact h2.rigid h⟩

theorem moves_comm {cfg : Cfg} {o : Op} {b : Counter} {vs ws : List KE} (h : Sound cfg (.comm o b vs)) (hm : List.Forall₂ (Moves cfg) vs ws) : Moves cfg (.comm o b vs) (.comm o b ws) := by
  have e : ws.map (KE.simplify cfg) = vs.map (KE.simplify cfg) := by
    clear h
    induction hm with
    | nil => rfl
    | cons h1 _ ih => rw [List.map_cons, List.map_cons, ih, h1.simp]
  have e' : KE.simplify cfg (.comm o b ws) = KE.simplify cfg (.comm o b vs) := by simp only [KE.simplify, simplifyL_eq, e]
  refine ⟨e', .comm (by rw [e']; exact h.normal) ?_, ?_, ?_⟩
  · clear h e e'
    induction hm with
    | nil => simp
    | cons h1 _ ih =>
      intro k hk
      rcases List.mem_cons.1 hk with rfl | hk
      · exact h1.sound
      · exact ih k hk
  · clear h e e'
    simp only [kdepth]
    induction hm with
    | nil => simp
    | cons h1 _ ih => simp only [kdepthL]; have := h1.depth; omega
  · intro hn
    have hc := fun k hk => (normal_child hn k hk).1
    clear h e e' hn
    congr 1
    induction hm with
    | nil => rfl
    | cons h1 _ ih => rw [h1.rigid (hc _ (by simp)), ih (fun k hk => hc k (by simp [hk]))]

theorem moves_change {cfg : Cfg} {c : CC} {l r l' r' : KE} (h : Sound cfg (.change c l r)) (hl : Moves cfg l l') (hr : Moves cfg r r') : Moves cfg (.change c l r) (.change c l' r') := by
  have e' : KE.simplify cfg (.change c l' r') = KE.simplify cfg (.change c l r) := by simp only [KE.simplify, hl.simp, hr.simp]
  refine ⟨e', .change (by rw [e']; exact h.normal) hl.sound hr.sound, ?_, fun hn => ?_⟩
  · simp only [kdepth]; have := hl.depth; have := hr.depth; omega
  · obtain ⟨⟨h1, _⟩, h2, _⟩ := normal_branch hn
    rw [hl.rigid h1, hr.rigid h2]

theorem Sound.vals {cfg : Cfg} {o : Op} {b : Counter} {cs : List KE} (h : Sound cfg (.comm o b cs)) : ∀ k ∈ cs, Sound cfg k := by
  cases h with
  | comm _ h => exact h

theorem Sound.sides {cfg : Cfg} {c : CC} {l r : KE} (h : Sound cfg (.change c l r)) : Sound cfg l ∧ Sound cfg r := by
  cases h with
  | change _ h1 h2 => exact ⟨h1, h2⟩

/-- Absorbing at a node whose terms are simplified. -/
theorem moves_absorb {cfg : Cfg} {o : Op} {b : Counter} {vs : List KE} (h : Sound cfg (.comm o b vs)) :
    Moves cfg (.comm o b (vs.map (KE.simplify cfg))) (KE.simplify cfg (.comm o b vs)) := by
  have e : KE.simplify cfg (.comm o b (vs.map (KE.simplify cfg))) = KE.simplify cfg (.comm o b vs) := by
    simp only [KE.simplify, simplifyL_eq, List.map_map]
    congr 1
    refine List.map_congr_left (fun k hk => ?_)
    exact simplify_of_normal (h.vals k hk).normal
  refine ⟨?_, sound_of_normal _ _ (Nat.le_refl _) h.normal, ?_, fun hn => ?_⟩
  · rw [e]; exact simplify_of_normal h.normal
  · rw [← e]; exact kdepth_simplify cfg _ _ (Nat.le_refl _)
  · rw [← e]; exact simplify_of_normal hn

theorem moves_extract {cfg : Cfg} {l : KE} (h : Sound cfg l) : KE.extract (KE.simplify cfg (KE.extract (KE.simplify cfg l))) = KE.extract (KE.simplify cfg l) ∧
    Sound cfg (KE.extract (KE.simplify cfg l)) := by
  have hn := normal_extract h.normal
  exact ⟨by rw [simplify_of_normal hn, extract_extract h.normal], sound_of_normal _ _ (Nat.le_refl _) hn⟩

theorem moves_left {cfg : Cfg} {c : CC} {l r : KE} (h : Sound cfg (.change c l r)) : Moves cfg (.change c l r) (.change c (KE.extract (KE.simplify cfg l)) r) := by
  obtain ⟨e, s⟩ := moves_extract h.sides.1
  have e' : KE.simplify cfg (.change c (KE.extract (KE.simplify cfg l)) r) = KE.simplify cfg (.change c l r) := by simp only [KE.simplify, e]
  refine ⟨e', .change (by rw [e']; exact h.normal) s h.sides.2, ?_, fun hn => ?_⟩
  · simp only [kdepth]
    have := kdepth_extract (KE.simplify cfg l)
    have := kdepth_simplify cfg _ l (Nat.le_refl _)
    omega
  · have := simplify_of_normal hn
    simp only [KE.simplify, KE.change.injEq] at this
    rw [this.2.1]

theorem moves_right {cfg : Cfg} {c : CC} {l r : KE} (h : Sound cfg (.change c l r)) : Moves cfg (.change c l r) (.change c l (KE.extract (KE.simplify cfg r))) := by
  obtain ⟨e, s⟩ := moves_extract h.sides.2
  have e' : KE.simplify cfg (.change c l (KE.extract (KE.simplify cfg r))) = KE.simplify cfg (.change c l r) := by simp only [KE.simplify, e]
  refine ⟨e', .change (by rw [e']; exact h.normal) h.sides.1 s, ?_, fun hn => ?_⟩
  · simp only [kdepth]
    have := kdepth_extract (KE.simplify cfg r)
    have := kdepth_simplify cfg _ r (Nat.le_refl _)
    omega
  · have := simplify_of_normal hn
    simp only [KE.simplify, KE.change.injEq] at this
    rw [this.2.2]

/-! ## What happens to the values of the store -/

/-- Every value moves. -/
def Drift (cfg : Cfg) (h h' : Heap) : Prop := ∀ x w, Val h x w → Sound cfg w → ∃ w', Val h' x w' ∧ Moves cfg w w'

theorem Drift.refl (cfg : Cfg) (h : Heap) : Drift cfg h h := fun _ w hv hs => ⟨w, hv, Moves.refl hs⟩

theorem Drift.trans {cfg : Cfg} {h h' h'' : Heap} (h1 : Drift cfg h h') (h2 : Drift cfg h' h'') : Drift cfg h h'' := by
  intro x w hv hs
  obtain ⟨w1, v1, m1⟩ := h1 x w hv hs
  obtain ⟨w2, v2, m2⟩ := h2 x w1 v1 m1.sound
  exact ⟨w2, v2, m1.trans m2⟩

theorem Alike.drift {cfg : Cfg} {h h' : Heap} (ha : Alike h h') : Drift cfg h h' := fun _ w hv hs => ⟨w, ha.val hv, Moves.refl hs⟩

theorem Drift.normal {cfg : Cfg} {h h' : Heap} (hd : Drift cfg h h') {x : Ref} {w : KE} (hv : Val h x w) (hn : KE.normal cfg w = true) : Val h' x w := by
  obtain ⟨w', v, m⟩ := hd x w hv (sound_of_normal _ _ (Nat.le_refl _) hn)
  rw [m.rigid hn] at v; exact v

/-- If only the object at `a` changes, and its value moves, all values move. -/
theorem drift_at {cfg : Cfg} {h h' : Heap} {a : Nat} {u u' : KE} (ho : Off a h h') (hu : Val h (.obj a) u) (hu' : Val h' (.obj a) u') (hm : Moves cfg u u') : Drift cfg h h' := by
  have key : ∀ n x w, read h n x = some w → Sound cfg w → ∃ w', Val h' x w' ∧ Moves cfg w w' := by
    intro n
    induction n with
    | zero =>
      intro x w hr hs
      cases x with
      | str b => simp [read] at hr; subst hr; exact ⟨_, val_str.2 rfl, Moves.refl hs⟩
      | obj y => simp [read] at hr
    | succ n ih =>
      intro x w hr hs
      cases x with
      | str b => simp [read] at hr; subst hr; exact ⟨_, val_str.2 rfl, Moves.refl hs⟩
      | obj y =>
        by_cases e : y = a
        · subst e
          rw [val_unique ⟨_, hr⟩ hu]
          exact ⟨u', hu', hm⟩
        · rw [read] at hr
          split at hr
          · rename_i e1
            obtain ⟨rt', p', e2⟩ := (ho y e).comm e1
            simp only [Option.map_eq_some_iff] at hr
            obtain ⟨vs, hv, rfl⟩ := hr
            have hv := mapM_iff.1 hv
            have : ∀ {cs : List Nat} {vs : List KE}, List.Forall₂ (fun c v => read h n (.obj c) = some v) cs vs → (∀ k ∈ vs, Sound cfg k) → ∃ ws, Vals h' cs ws ∧ List.Forall₂ (Moves cfg) vs ws := by
              intro cs vs hv
              induction hv with
              | nil => intro _; exact ⟨[], .nil, .nil⟩
              | cons h1 _ ih2 =>
                intro hs
                obtain ⟨w, v1, m1⟩ := ih _ _ h1 (hs _ (by simp))
                obtain ⟨ws, v2, m2⟩ := ih2 (fun k hk => hs k (by simp [hk]))
                exact ⟨w :: ws, .cons v1 v2, .cons m1 m2⟩
            obtain ⟨ws, v, m⟩ := this hv hs.vals
            exact ⟨_, (val_comm e2).2 ⟨ws, rfl, v⟩, moves_comm hs m⟩
          · rename_i e1
            obtain ⟨rt', p', e2⟩ := (ho y e).change e1
            simp only [Option.bind_eq_some_iff, Option.map_eq_some_iff] at hr
            obtain ⟨l, hl, r, hr, rfl⟩ := hr
            obtain ⟨l', v1, m1⟩ := ih _ _ hl hs.sides.1
            obtain ⟨r', v2, m2⟩ := ih _ _ hr hs.sides.2
            exact ⟨_, (val_change e2).2 ⟨l', r', rfl, v1, v2⟩, moves_change hs m1 m2⟩
          · cases hr
  rintro x w ⟨n, hn⟩ hs
  exact key n x w hn hs

/-- The objects of depth below `D`, and what will be allocated. -/
def Low (h : Heap) (D : Nat) (x : Nat) : Prop := h.length ≤ x ∨ ∃ w, Val h (.obj x) w ∧ kdepth w < D

theorem shut_low (h : Heap) (D : Nat) : Shut (Low h D) (fun _ => True) h := by
  refine ⟨fun a ha => Or.inl ha, fun a ha o ho => ?_⟩
  rcases ha with ha | ⟨w, hw, hd⟩
  · rw [List.getElem?_eq_none ha] at ho; cases ho
  · cases o with
    | comm rt p op b cs =>
      obtain ⟨vs, rfl, hv⟩ := (val_comm ho).1 hw
      refine ⟨fun _ _ => trivial, fun _ _ => trivial, fun x hx => ?_⟩
      obtain ⟨v, hm, h1⟩ := hv.mem hx
      have := kdepth_mem hm
      simp only [kdepth] at hd
      exact .inr ⟨v, h1, by omega⟩
    | change rt p c l r =>
      obtain ⟨x, y, rfl, h1, h2⟩ := (val_change ho).1 hw
      simp only [kdepth] at hd
      refine ⟨fun _ _ => trivial, fun _ _ => trivial, fun z hz => ?_, fun z hz => ?_⟩
      · cases l with
        | str => simp [Ref.addr] at hz
        | obj l => simp [Ref.addr] at hz; subst hz; exact .inr ⟨x, h1, by omega⟩
      · cases r with
        | str => simp [Ref.addr] at hz
        | obj l => simp [Ref.addr] at hz; subst hz; exact .inr ⟨y, h2, by omega⟩

theorem not_low {h : Heap} {a : Nat} {u : KE} (hu : Val h (.obj a) u) {D : Nat} (hD : D ≤ kdepth u) : ¬ Low h D a := by
  rintro (h1 | ⟨w, h1, h2⟩)
  · obtain ⟨o, ho⟩ := val_obj hu
    have := (List.getElem?_eq_some_iff.1 ho).1
    omega
  · rw [val_unique h1 hu] at h2; omega

/-- Simplifying what is below `a` leaves the object at `a` alone. -/
theorem simplifyF_below {cfg : Cfg} {h : Heap} {a : Nat} {u : KE} (hu : Val h (.obj a) u) {c : Nat} {w : KE} (hc : Val h (.obj c) w) (hd : kdepth w < kdepth u) {n : Nat} :
    (simplifyF cfg n c h).2[a]? = h[a]? :=
  (ins_simplifyF (P := Low h (kdepth u)) (Q := fun _ => True) (fun _ _ => trivial) n c (.inr ⟨w, hc, hd⟩) h (shut_low h _)).2.1.2 a (not_low hu (Nat.le_refl _))

/-- A simplified and extracted side of a change operator. -/
theorem simplifySide {cfg : Cfg} {n a : Nat} {x : Ref} {w u : KE} {wr : Ref → Obj → Obj} {o : Obj} {h : Heap}
    (ih : ∀ (a : Nat) (v : KE) (h : Heap), Val h (.obj a) v → Sound cfg v → kdepth v ≤ n → ∃ h', simplifyF cfg n a h = (.ok (), h') ∧ Val h' (.obj a) (KE.simplify cfg v) ∧ Drift cfg h h')
    (ho : h[a]? = some o) (hp : ∀ (h' : Heap) (u w : KE), h'[a]? = some o → Val h' (.obj a) u → Val h' x w → kdepth w < kdepth u) (hw : ∀ b, x = .str b → wr (.str b) o = o)
    (hu : Val h (.obj a) u) (hsu : Sound cfg u) (hx : Val h x w) (hs : Sound cfg w) (hd : kdepth w ≤ n) :
    ∃ e h1, onRef (fun b => do
        simplifyF cfg n b
        let e ← extract b
        edit a (wr e)) x h = (.ok (), h1.set a (wr e o)) ∧ Drift cfg h h1 ∧ h1[a]? = some o ∧ Val h1 x (KE.simplify cfg w) ∧ Free a h1 e (KE.extract (KE.simplify cfg w)) := by
  cases x with
  | str b =>
    have e := val_str.1 hx
    subst e
    refine ⟨.str b, h, ?_, Drift.refl cfg h, ho, val_str.2 rfl, fun _ _ => val_str.2 rfl⟩
    have : h.set a (wr (.str b) o) = h := by
      rw [hw b rfl]
      apply List.ext_getElem?
      intro i
      by_cases e : i = a
      · subst e; rw [get_set_self ho, ho]
      · rw [List.getElem?_set_ne (fun e' => e e'.symm)]
    rw [this]; rfl
  | obj b =>
    obtain ⟨h1, e1, v1, d1⟩ := ih b w h hx hs hd
    have g1 : h1[a]? = some o := by
      have := simplifyF_below (cfg := cfg) (n := n) hu hx (hp h u w ho hu hx)
      rw [e1] at this
      exact this.trans ho
    obtain ⟨u1, vu1, _⟩ := d1 _ _ hu hsu
    obtain ⟨r, h2, e2, l2, v2, k2⟩ := extract_val v1
    obtain ⟨k2, f2⟩ := k2 a o g1 (free_of_depth vu1 v1 (hp h1 _ _ g1 vu1 v1))
    refine ⟨r, h2, ?_, d1.trans l2.drift, k2.trans g1, l2.val v1, f2.off l2.off⟩
    rw [onRef, run_bind e1, run_bind e2, run_edit (k2.trans g1)]

theorem simplifyF_val (cfg : Cfg) : (n : Nat) → (a : Nat) → (v : KE) → (h : Heap) → Val h (.obj a) v → Sound cfg v → kdepth v ≤ n →
    ∃ h', simplifyF cfg n a h = (.ok (), h') ∧ Val h' (.obj a) (KE.simplify cfg v) ∧ Drift cfg h h' := by
  intro n
  induction n with
  | zero =>
    intro a v h hv _ hd
    obtain ⟨o, ho⟩ := val_obj hv
    cases o with
    | comm => obtain ⟨_, rfl, _⟩ := (val_comm ho).1 hv; simp [kdepth] at hd
    | change => obtain ⟨_, _, rfl, _⟩ := (val_change ho).1 hv; simp [kdepth] at hd
  | succ n ih =>
    intro a v h hv hs hd
    obtain ⟨o, ho⟩ := val_obj hv
    cases o with
    | comm rt p op b cs =>
      -- the terms
      have loop : ∀ (post pre : List Nat) (h : Heap) (us vs : List KE), h[a]? = some (.comm rt p op b (pre ++ post)) → Vals h pre (us.map (KE.simplify cfg)) → Vals h post vs → (∀ k ∈ us, Sound cfg k) → (∀ k ∈ vs, Sound cfg k) →
          (∀ k ∈ vs, kdepth k ≤ n) →
          ∃ h', each (simplifyF cfg n) post h = (.ok (), h') ∧ h'[a]? = some (.comm rt p op b (pre ++ post)) ∧ Vals h' (pre ++ post) ((us ++ vs).map (KE.simplify cfg)) ∧ Drift cfg h h' := by
        intro post
        induction post with
        | nil =>
          intro pre h us vs ho hp hv _ _ _
          cases hv
          exact ⟨h, rfl, ho, by simpa using hp, Drift.refl cfg h⟩
        | cons c post ih2 =>
          intro pre h us vs ho hp hv hus hvs hdv
          cases hv with
          | @cons _ v _ vs hc hpost =>
            have hva : Val h (.obj a) (.comm op b (us.map (KE.simplify cfg) ++ v :: vs)) := (val_comm ho).2 ⟨_, rfl, List.rel_append hp (.cons hc hpost)⟩
            obtain ⟨h1, e1, v1, d1⟩ := ih c v h hc (hvs v (by simp)) (hdv v (by simp))
            have g1 : h1[a]? = some (.comm rt p op b (pre ++ c :: post)) := by
              have := simplifyF_below (cfg := cfg) (n := n) hva hc (by
                have := kdepth_mem (cs := us.map (KE.simplify cfg) ++ v :: vs) (k := v) (by simp)
                simp only [kdepth]; omega)
              rw [e1] at this
              exact this.trans ho
            have p1 : Vals h1 pre (us.map (KE.simplify cfg)) := by
              refine List.forall₂_iff_get.2 ⟨hp.length_eq, fun i i1 i2 => ?_⟩
              refine d1.normal ((List.forall₂_iff_get.1 hp).2 i i1 i2) ?_
              have := List.get_mem (us.map (KE.simplify cfg)) ⟨i, i2⟩
              obtain ⟨k, hk, e⟩ := List.mem_map.1 this
              rw [← e]
              exact (hus k hk).normal
            have : ∀ {cs : List Nat} {vs : List KE}, Vals h cs vs → (∀ k ∈ vs, Sound cfg k) → ∃ ws, Vals h1 cs ws ∧ List.Forall₂ (Moves cfg) vs ws := by
              intro cs vs hv
              induction hv with
              | nil => intro _; exact ⟨[], .nil, .nil⟩
              | cons h1 _ ih2 =>
                intro hs
                obtain ⟨w, v1, m1⟩ := d1 _ _ h1 (hs _ (by simp))
                obtain ⟨ws, v2, m2⟩ := ih2 (fun k hk => hs k (by simp [hk]))
                exact ⟨w :: ws, .cons v1 v2, .cons m1 m2⟩
            obtain ⟨ws, pv, pm⟩ := this hpost (fun k hk => hvs k (by simp [hk]))
            have facts : ws.map (KE.simplify cfg) = vs.map (KE.simplify cfg) ∧ (∀ k ∈ ws, Sound cfg k) ∧ ∀ k ∈ ws, kdepth k ≤ n := by
              have hdv' : ∀ k ∈ vs, kdepth k ≤ n := fun k hk => hdv k (List.mem_cons_of_mem _ hk)
              clear this pv hpost hvs hva ih2 hdv
              induction pm with
              | nil => simp
              | cons h1 _ ih2 =>
                obtain ⟨i1, i2, i3⟩ := ih2 (fun k hk => hdv' k (by simp [hk]))
                refine ⟨by rw [List.map_cons, List.map_cons, i1, h1.simp], fun k hk => ?_, fun k hk => ?_⟩
                · rcases List.mem_cons.1 hk with rfl | hk
                  · exact h1.sound
                  · exact i2 k hk
                · rcases List.mem_cons.1 hk with rfl | hk
                  · exact Nat.le_trans h1.depth (hdv' _ (by simp))
                  · exact i3 k hk
            obtain ⟨h2, e2, g2, v2, d2⟩ := ih2 (pre ++ [c]) h1 (us ++ [v]) ws (by simpa using g1) (by rw [List.map_append]; exact List.rel_append p1 (.cons v1 .nil)) pv
              (fun k hk => by
                rcases List.mem_append.1 hk with hk | hk
                · exact hus k hk
                · simp at hk; subst hk; exact hvs _ (by simp)) facts.2.1 facts.2.2
            refine ⟨h2, by rw [each, run_bind e1, e2], by simpa using g2, ?_, d1.trans d2⟩
            rw [List.map_append, List.map_append, facts.1] at v2
            simpa using v2
      obtain ⟨vs, rfl, hvs⟩ := (val_comm ho).1 hv
      simp only [kdepth] at hd
      obtain ⟨h1, e1, g1, v1, d1⟩ := loop cs [] h [] vs (by simpa using ho) .nil hvs (by simp) hs.vals (fun k hk => by have := kdepth_mem hk; omega)
      simp only [List.nil_append] at g1 v1
      have va1 : Val h1 (.obj a) (.comm op b (vs.map (KE.simplify cfg))) := (val_comm g1).2 ⟨_, rfl, v1⟩
      have hset : h1.set a (.comm rt p op b cs) = h1 := by
        apply List.ext_getElem?
        intro i
        by_cases e : i = a
        · subst e; rw [get_set_self g1, g1]
        · rw [List.getElem?_set_ne (fun e' => e e'.symm)]
      have hfree : List.Forall₂ (fun c w => Free a h1 (.obj c) w) cs (vs.map (KE.simplify cfg)) := by
        refine List.forall₂_iff_get.2 ⟨v1.length_eq, fun i i1 i2 => ?_⟩
        refine free_of_depth va1 ((List.forall₂_iff_get.1 v1).2 i i1 i2) ?_
        have := kdepth_mem (List.get_mem (vs.map (KE.simplify cfg)) ⟨i, i2⟩)
        simp only [kdepth]; omega
      obtain ⟨ms, m1, m2, m3⟩ := pairs hfree
      obtain ⟨h2, e2, o2, v2⟩ := absorb_val (cfg := cfg) (ms := ms) (by rw [m1]; exact g1) m3
      rw [m2] at v2
      have hm := moves_absorb hs
      have es : KE.absorb cfg op b (vs.map (KE.simplify cfg)) = KE.simplify cfg (.comm op b vs) := by rw [KE.simplify, simplifyL_eq]
      rw [es] at v2
      refine ⟨h2, ?_, v2, d1.trans (drift_at o2 va1 v2 hm)⟩
      rw [simplifyF, run_bind (run_look ho)]
      simp only
      rw [run_bind e1, run_bind (run_edit g1)]
      simp only [Obj.withCts, hset]
      exact e2
    | change rt p c l r =>
      obtain ⟨lv, rv, rfl, hl, hr⟩ := (val_change ho).1 hv
      simp only [kdepth] at hd
      obtain ⟨sl, sr⟩ := hs.sides
      obtain ⟨e, h1, e1, d1, g1, v1, f1⟩ := simplifySide (cfg := cfg) (n := n) (a := a) (x := l) (w := lv) (wr := Obj.withLeft) (h := h) ih ho (fun h' u w ho' hu hw => by
        obtain ⟨x, y, rfl, hx, _⟩ := (val_change ho').1 hu
        rw [val_unique hw hx]; simp only [kdepth]; omega) (fun b hb => by rw [hb]; rfl) hv hs hl sl (by omega)
      obtain ⟨r1, vr1, m1⟩ := d1 _ _ hr sr
      have va1 : Val h1 (.obj a) (.change c (KE.simplify cfg lv) r1) := (val_change g1).2 ⟨_, _, rfl, v1, vr1⟩
      have sa1 : Sound cfg (.change c (KE.simplify cfg lv) r1) := by
        obtain ⟨w', h2, h3⟩ := d1 _ _ hv hs
        rw [val_unique va1 h2]; exact h3.sound
      have fr1 : Free a h1 r r1 := free_of_depth va1 vr1 (by simp only [kdepth]; omega)
      have mv1 := moves_left sa1
      rw [simplify_of_normal sl.normal] at mv1
      generalize hh2 : h1.set a (Obj.withLeft e (.change rt p c l r)) = h2 at e1
      have o2 : Off a h1 h2 := by rw [← hh2]; exact off_set h1 a _
      have g2 : h2[a]? = some (.change rt p c e r) := by rw [← hh2]; exact get_set_self g1
      have va2 : Val h2 (.obj a) (.change c (KE.extract (KE.simplify cfg lv)) r1) := (val_change g2).2 ⟨_, _, rfl, f1 h2 o2, fr1 h2 o2⟩
      have d2 := drift_at o2 va1 va2 mv1
      obtain ⟨e', h3, e3, d3, g3, v3, f3⟩ := simplifySide (cfg := cfg) (n := n) (a := a) (x := r) (w := r1) (wr := Obj.withRight) (h := h2) ih g2 (fun h' u w ho' hu hw => by
        obtain ⟨x, y, rfl, _, hy⟩ := (val_change ho').1 hu
        rw [val_unique hw hy]; simp only [kdepth]; omega) (fun b hb => by rw [hb]; rfl) va2 mv1.sound (fr1 h2 o2) m1.sound (by have := m1.depth; omega)
      have vl3 : Val h3 e (KE.extract (KE.simplify cfg lv)) := d3.normal (f1 h2 o2) (normal_extract sl.normal)
      have va3 : Val h3 (.obj a) (.change c (KE.extract (KE.simplify cfg lv)) (KE.simplify cfg r1)) := (val_change g3).2 ⟨_, _, rfl, vl3, v3⟩
      have sa3 : Sound cfg (.change c (KE.extract (KE.simplify cfg lv)) (KE.simplify cfg r1)) := by
        obtain ⟨w', h2, h3⟩ := d3 _ _ va2 mv1.sound
        rw [val_unique va3 h2]; exact h3.sound
      have fl3 : Free a h3 e (KE.extract (KE.simplify cfg lv)) := free_of_depth va3 vl3 (by simp only [kdepth]; omega)
      have mv3 := moves_right sa3
      rw [simplify_of_normal m1.sound.normal] at mv3
      generalize hh4 : h3.set a (Obj.withRight e' (.change rt p c e r)) = h4 at e3
      have o4 : Off a h3 h4 := by rw [← hh4]; exact off_set h3 a _
      have g4 : h4[a]? = some (.change rt p c e e') := by rw [← hh4]; exact get_set_self g3
      have va4 : Val h4 (.obj a) (.change c (KE.extract (KE.simplify cfg lv)) (KE.extract (KE.simplify cfg r1))) := (val_change g4).2 ⟨_, _, rfl, fl3 h4 o4, f3 h4 o4⟩
      refine ⟨h4, ?_, ?_, ((d1.trans d2).trans d3).trans (drift_at o4 va3 va4 mv3)⟩
      · rw [simplifyF, run_bind (run_look ho)]
        simp only
        rw [run_bind e1, run_bind (run_look g2)]
        exact e3
      · rw [KE.simplify, ← m1.simp]; exact va4

theorem simplify_val {cfg : Cfg} {a : Nat} {v : KE} {h : Heap} (hv : Val h (.obj a) v) (hs : Sound cfg v) :
    ∃ h', simplify cfg a h = (.ok (), h') ∧ Val h' (.obj a) (KE.simplify cfg v) ∧ Drift cfg h h' :=
  simplifyF_val cfg (h.length + 1) a v h hv hs (Nat.le_succ_of_le (val_bound hv))

end Objects
end GPyABCD
