import Verif.Lemmas.Dag4
import Verif.Lemmas.Late

/-!
# Expansion where some of the new objects share parts
-/

namespace GPyABCD
namespace Objects
open Links Links.LK
open KE hiding nodes

/-! ## New objects -/

/-- A new object: its node, the values of the whole and of the node, whether it may share parts, and the addresses it is stored at. -/
structure Piece where
  node : Nat
  vt : KE
  vm : KE
  shared : Prop
  reg : Nat → Prop

/-- What is known of a new object made at addresses from `L` on. -/
structure Piece.Ok (cfg : Cfg) (L : Nat) (h : Heap) (p : Piece) : Prop where
  low : ∀ a, p.reg a → L ≤ a ∧ a < h.length
  val : ∀ h', Agree p.reg h h' → Val h' (.obj p.node) p.vm
  go : ∀ h', Agree p.reg h h' → ∃ (r : Nat) (w : KE) (B : Nat → Prop) (h'' : Heap), rootOf cfg p.node h' = (.ok r, h'') ∧ Frame p.reg h' h'' ∧
    (∃ n, KE.standardiseF cfg n p.vt = some w) ∧ (∀ a, B a → (p.reg a ∨ h'.length ≤ a) ∧ a < h''.length) ∧ (∀ h3, Agree B h'' h3 → Val h3 (.obj r) w) ∧
    (¬ p.shared → ∃ t : LK, addr t = r ∧ Stored h'' t ∧ WellLinked t ∧ t.erase = w ∧ ∀ a ∈ ids t, B a)

theorem Ext.agree {A : Nat → Prop} {h h' : Heap} (he : Ext h h') (hA : ∀ a, A a → a < h.length) : Agree A h h' := ⟨he.1, fun a ha => he.2 a (hA a ha)⟩

theorem Piece.Ok.agree {cfg : Cfg} {L : Nat} {h h' : Heap} {p : Piece} (hp : p.Ok cfg L h) (ha : Agree p.reg h h') : p.Ok cfg L h' :=
  ⟨fun a h1 => ⟨(hp.low a h1).1, Nat.lt_of_lt_of_le (hp.low a h1).2 ha.1⟩, fun h2 h3 => hp.val h2 (ha.trans h3), fun h2 h3 => hp.go h2 (ha.trans h3)⟩

theorem Piece.Ok.ext {cfg : Cfg} {L : Nat} {h h' : Heap} {p : Piece} (hp : p.Ok cfg L h) (he : Ext h h') : p.Ok cfg L h' := hp.agree (he.agree fun a ha => (hp.low a ha).2)

theorem Piece.Ok.le {cfg : Cfg} {L L' : Nat} {h : Heap} {p : Piece} (hp : p.Ok cfg L h) (hL : L' ≤ L) : p.Ok cfg L' h :=
  ⟨fun a h1 => ⟨Nat.le_trans hL (hp.low a h1).1, (hp.low a h1).2⟩, hp.val, hp.go⟩

/-- A new tree. -/
theorem piece_of_grown (cfg : Cfg) {L : Nat} {h : Heap} {t m : LK} {vt vm : KE} (hg : Grown L h t m vt vm) (C : Prop) :
    Piece.Ok cfg L h ⟨addr m, vt, vm, C, (· ∈ ids t)⟩ := by
  refine ⟨fun a ha => ⟨hg.new a ha, stored_lt t hg.stored a ha⟩, fun h' ha => ?_, fun h' ha => ?_⟩
  · have h1 := stored_congr m (fun a hm => ha.2 a (hg.msub a hm)) hg.mstored
    have h2 := val_stored h1
    rw [toRef_obj hg.node, hg.mvalue] at h2
    exact h2
  · obtain ⟨t', h'', e, f, s, w, i, v⟩ := rootOf_ok cfg (h := h') (stored_congr t (fun a hm => ha.2 a hm) hg.stored) hg.linked hg.node
      (stored_congr m (fun a hm => ha.2 a (hg.msub a hm)) hg.mstored) hg.mroot
    rw [hg.value] at v
    refine ⟨addr t', t'.erase, (· ∈ ids t'), h'', e, f, v, fun a hB => ⟨i a hB, stored_lt t' s a hB⟩, fun h3 h4 => ?_, fun _ => ⟨t', rfl, s, w, rfl, fun a ha => ha⟩⟩
    have h2 := val_stored (stored_congr t' (fun a hm => h4.2 a hm) s)
    rw [toRef_obj (wellLinked_root w).1] at h2
    exact h2

/-! ## Objects that share parts -/

/-- Addresses from `lo` on with a value. -/
def Valued (lo : Nat) (h : Heap) (a : Nat) : Prop := lo ≤ a ∧ ∃ w, Val h (.obj a) w

/-- The region is closed in any later store that agrees on it. -/
theorem shut_valued {lo : Nat} {Q : Nat → Prop} {h h' : Heap} (hc : Closed lo Q h) (ha : Agree (Valued lo h) h h') :
    Shut (fun a => Valued lo h a ∨ h'.length ≤ a) (fun _ => True) h' := by
  refine ⟨fun a h1 => .inr h1, fun a h1 o ho => ?_⟩
  have hlt := (List.getElem?_eq_some_iff.1 ho).1
  rcases h1 with h1 | h1
  · have ho' : h[a]? = some o := by rw [← ha.2 a h1]; exact ho
    obtain ⟨h2, w, hw⟩ := h1
    have hin := hc.2 a h2 o ho'
    cases o with
    | comm rt p op b cs =>
      obtain ⟨vs, rfl, hv⟩ := (val_comm ho').1 hw
      refine ⟨fun _ _ => trivial, fun _ _ => trivial, fun x hx => ?_⟩
      obtain ⟨v, _, h5⟩ := hv.mem hx
      exact .inl ⟨hin.2.2 x hx, v, h5⟩
    | change rt p c l r =>
      obtain ⟨x, y, rfl, h3, h4⟩ := (val_change ho').1 hw
      refine ⟨fun _ _ => trivial, fun _ _ => trivial, fun z hz => ?_, fun z hz => ?_⟩
      · have := hin.2.2.1 z hz
        cases l with
        | str => simp [Ref.addr] at hz
        | obj l => simp [Ref.addr] at hz; subst hz; exact .inl ⟨this, x, h3⟩
      · have := hin.2.2.2 z hz
        cases r with
        | str => simp [Ref.addr] at hz
        | obj l => simp [Ref.addr] at hz; subst hz; exact .inl ⟨this, y, h4⟩
  · omega

theorem valued_lt {lo : Nat} {h : Heap} {a : Nat} (ha : Valued lo h a) : a < h.length := by
  obtain ⟨_, w, hw⟩ := ha
  obtain ⟨o, ho⟩ := val_obj hw
  exact (List.getElem?_eq_some_iff.1 ho).1

theorem valued_val {lo : Nat} {Q : Nat → Prop} {h h' : Heap} (hc : Closed lo Q h) (ha : Agree (Valued lo h) h h') {a : Nat} {w : KE} (hl : lo ≤ a) (hw : Val h (.obj a) w) :
    Val h' (.obj a) w := by
  refine (shut_valued hc (Agree.refl _ h)).val (fun b hb hlt => ?_) (a := a) (.inl ⟨hl, w, hw⟩) hw
  rcases hb with hb | hb
  · exact ha.2 b hb
  · omega

/-- Two rounds are enough. -/
theorem standardiseF_two {cfg : Cfg} {v : KE} (hs : Sound cfg v) (hb : v.isBase = false) : ∃ w, ∀ n, KE.standardiseF cfg (n + 2) v = some w := by
  have hn := hs.normal
  have hwf := (normal_iff.1 hn).1
  rcases KE.extract_cases hwf with ⟨hx, hy⟩ | ⟨o, b, hx, hy⟩ | ⟨o, ct, hx, hy⟩
  · have := extractsSelf_of hwf hx
    exact ⟨KE.simplify cfg v, fun n => by rw [KE.standardiseF]; simp [this]⟩
  · refine ⟨mkL cfg .sum [b] [], fun n => ?_⟩
    rw [KE.standardiseF]
    simp only [hy]
    rw [hx]
    rfl
  · rw [hx] at hn
    obtain ⟨h1, h2, _⟩ := normal_child hn ct (by simp)
    have hcb := ((wf_comm.1 (normal_iff.1 hn).1).2.2 ct (by simp)).1
    refine ⟨ct, fun n => ?_⟩
    have h3 : KE.standardiseF cfg (n + 1) ct = some ct := by
      rw [KE.standardiseF]
      simp [simplify_of_normal h1, extractsSelf_of (normal_iff.1 h1).1 h2]
    rw [KE.standardiseF]
    simp only [hy]
    rw [hx]
    simp only [show extractsSelf (KE.comm o [] [ct]) = false from rfl, Bool.false_eq_true, if_false]
    cases ct with
    | base => cases hcb
    | comm => exact h3
    | change => exact h3

/-- A new object with shared parts. -/
theorem piece_of_shared {cfg : Cfg} {lo : Nat} {Q : Nat → Prop} {h : Heap} {m : Nat} {vt vm : KE} (hg : Shared lo h m vt vm) (hc : Closed lo Q h) (hs : Sound cfg vt) {C : Prop} (hC : C) :
    Piece.Ok cfg lo h ⟨m, vt, vm, C, Valued lo h⟩ := by
  obtain ⟨k, n, n1, rfl, n3, rfl, k1, k2, rfl, n5, k3, n6⟩ := hg
  have vn := val_stored n3
  have vk := val_stored k2
  rw [toRef_obj n1] at vn
  rw [toRef_obj k1] at vk
  refine ⟨fun a ha => ⟨ha.1, valued_lt ha⟩, fun h' ha => valued_val hc ha n6 vn, fun h' ha => ?_⟩
  obtain ⟨o, ho, hor⟩ := look_root n1 n3
  have ho' : h'[addr n]? = some o := by rw [ha.2 _ ⟨n6, _, vn⟩]; exact ho
  have vk' := valued_val hc ha k3 vk
  obtain ⟨w, hw⟩ := standardiseF_two hs (val_obj_not_base vk)
  have hpos : 0 < h'.length := by have := valued_lt (a := addr k) ⟨Nat.zero_le _, _, vk'⟩; omega
  obtain ⟨l, hl⟩ : ∃ l, h'.length + 1 = l + 2 := ⟨h'.length - 1, by omega⟩
  obtain ⟨r, h'', e, v⟩ := standardiseF_val cfg (h'.length + 1) (addr k) k.erase w h' vk' hs (by rw [hl]; exact hw l)
  have hins := ins_standardiseF (P := fun a => Valued lo h a ∨ h'.length ≤ a) (Q := fun _ => True) (cfg := cfg) (fun _ _ => trivial) (h'.length + 1) (addr k) (.inl ⟨k3, _, vk⟩) h' (shut_valued hc ha)
  rw [e] at hins
  obtain ⟨i1, i2, i3⟩ := hins
  have hr := i3 r rfl
  refine ⟨r, w, fun a => (Valued lo h a ∨ h'.length ≤ a) ∧ a < h''.length, h'', ?_, ⟨i2.1, fun a hlt hA => i2.2 a ?_⟩, ⟨_, hw 0⟩, fun a ha => ha, fun h3 h4 => ?_, fun hn => absurd hC hn⟩
  · rw [rootOf]
    refine (run_bind (run_look ho')).trans ?_
    rw [hor, n5]
    exact e
  · rintro (hh | hh)
    · exact hA hh
    · omega
  · exact i1.val (fun a hP hlt => h4.2 a ⟨hP, hlt⟩) hr v

/-! ## Programs that give new objects -/

/-- The call gives nodes of new objects with these values, and does not change what was there. -/
def GrowsP (cfg : Cfg) (m : M (List Nat)) (h : Heap) (vs : List (KE × KE × Prop)) : Prop :=
  ∃ (ps : List Piece) (h' : Heap), m h = (.ok (ps.map Piece.node), h') ∧ Ext h h' ∧ (∀ p ∈ ps, p.Ok cfg h.length h') ∧ ps.map (fun p => (p.vt, p.vm, p.shared)) = vs ∧
    ps.Pairwise (fun p q => ∀ a, p.reg a → ¬ q.reg a)

theorem growsP_nil (cfg : Cfg) (h : Heap) : GrowsP cfg (pure []) h [] := ⟨[], h, rfl, Ext.refl h, by simp, rfl, .nil⟩

theorem GrowsP.of {cfg : Cfg} {m : M (List Nat)} {h : Heap} {vs : List (KE × KE)} (hm : Grows m h vs) (C : Prop) : GrowsP cfg m h (vs.map (fun v => (v.1, v.2, C))) := by
  obtain ⟨ts, h', e, x, g, v, n⟩ := hm
  refine ⟨ts.map (fun p => ⟨addr p.2, p.1.erase, p.2.erase, C, (· ∈ ids p.1)⟩), h', ?_, x, ?_, ?_, ?_⟩
  · rw [e, List.map_map]; rfl
  · intro p hp
    obtain ⟨q, hq, rfl⟩ := List.mem_map.1 hp
    exact piece_of_grown cfg (g q hq) C
  · rw [← v, List.map_map, List.map_map]; rfl
  · rw [List.pairwise_map]
    clear e g v
    induction ts with
    | nil => exact .nil
    | cons p ts ih =>
      simp only [List.map_cons, idsL, List.nodup_append] at n
      refine .cons (fun q hq a ha ha' => ?_) (ih n.2.1)
      exact n.2.2 a ha a (mem_idsL.2 ⟨q.1, List.mem_map_of_mem hq, ha'⟩) rfl

theorem growsP_append {cfg : Cfg} {m m' : M (List Nat)} {h : Heap} {vs vs' : List (KE × KE × Prop)} (h1 : GrowsP cfg m h vs) (h2 : ∀ h', Ext h h' → GrowsP cfg m' h' vs') :
    GrowsP cfg (do let x ← m; let y ← m'; pure (x ++ y)) h (vs ++ vs') := by
  obtain ⟨ks, h1, e1, x1, m1, v1, n1⟩ := h1
  obtain ⟨ks', h2, e2, x2, m2, v2, n2⟩ := h2 h1 x1
  refine ⟨ks ++ ks', h2, ?_, x1.trans x2, ?_, by rw [List.map_append, v1, v2], ?_⟩
  · rw [run_bind e1, run_bind e2, List.map_append]; rfl
  · intro p hp
    rcases List.mem_append.1 hp with hp | hp
    · exact (m1 p hp).ext x2
    · exact (m2 p hp).le x1.1
  · rw [List.pairwise_append]
    refine ⟨n1, n2, fun p hp q hq a ha ha' => ?_⟩
    have := ((m1 p hp).low a ha).2
    have := ((m2 q hq).low a ha').1
    omega

theorem growsP_run {cfg : Cfg} {m m' : M (List Nat)} {h : Heap} {vs : List (KE × KE × Prop)} (hm : GrowsP cfg m' h vs) (e : m h = m' h) : GrowsP cfg m h vs := by
  obtain ⟨ts, h', e1, r⟩ := hm
  exact ⟨ts, h', e.trans e1, r⟩

theorem GrowsP.after {cfg : Cfg} {m : M (List Nat)} {h h1 : Heap} {vs : List (KE × KE × Prop)} (he : Ext h h1) (hm : GrowsP cfg m h1 vs) {m' : M (List Nat)} (e : m' h = m h1) : GrowsP cfg m' h vs := by
  obtain ⟨ts, h', e1, x1, g1, v1, n1⟩ := hm
  exact ⟨ts, h', e.trans e1, he.trans x1, fun p hp => (g1 p hp).le he.1, v1, n1⟩

/-- A list of lists, from a call that gives one list. -/
theorem flatten_run {α : Type} {f : α → M (List Nat)} {xs : List α} {h h' : Heap} {r : List Nat} (e : (do let r ← collect f xs; pure r.flatten : M (List Nat)) h = (.ok r, h')) :
    ∃ rs, collect f xs h = (.ok rs, h') ∧ rs.flatten = r := by
  revert e
  cases hc : collect f xs h with
  | mk a b =>
    cases a with
    | error e => intro e2; simp [bind, hc] at e2
    | ok r =>
      intro e2
      rw [run_bind hc] at e2
      simp only [run_pure, Prod.mk.injEq, Except.ok.injEq] at e2
      exact ⟨r, by rw [e2.2], e2.1⟩

theorem growsP_flat {cfg : Cfg} {β γ : Type} {R : γ → β → Prop} {f : β → M (List Nat)} {g : γ → List (KE × KE × Prop)} {qs : List γ} {xs : List β} (hR : List.Forall₂ R qs xs) :
    ∀ {h : Heap}, (∀ q ∈ qs, ∀ x ∈ xs, R q x → ∀ h', Ext h h' → GrowsP cfg (f x) h' (g q)) → GrowsP cfg (do let r ← collect f xs; pure r.flatten) h (qs.flatMap g) := by
  induction hR with
  | nil => intro h _; exact growsP_run (growsP_nil cfg h) rfl
  | @cons q x qs xs hq _ ih =>
    intro h hf
    have h1 := hf q (by simp) x (by simp) hq h (Ext.refl h)
    have h2 : ∀ h', Ext h h' → GrowsP cfg (do let r ← collect f xs; pure r.flatten) h' (qs.flatMap g) :=
      fun h' he => ih (fun q' hq' x' hx' hr h'' he' => hf q' (by simp [hq']) x' (by simp [hx']) hr h'' (he.trans he'))
    rw [List.flatMap_cons]
    refine growsP_run (growsP_append h1 h2) ?_
    obtain ⟨ks, h1, e1, x1, _⟩ := h1
    obtain ⟨ks', h2', e2, _⟩ := h2 h1 x1
    obtain ⟨r, e3, e4⟩ := flatten_run e2
    have e5 : collect f (x :: xs) h = (.ok (ks.map Piece.node :: r), h2') := by
      rw [collect, run_bind e1, run_bind e3]; rfl
    rw [run_bind e5, run_bind e1, run_bind e2, run_pure, run_pure, List.flatten_cons, e4]

/-! ## At one node -/

/-- A term before the one at this position is equal to it. -/
def LateAt (t : KE) (pos : List Step) (s : KE) : Prop := ∃ p0 s0, Late t pos s p0 s0

/-- The values `deep_apply` gives. -/
def grownP (t : KE) (pos : List Step) (C : Prop) (vs : List KE) : List (KE × KE × Prop) := vs.map (fun v => (replaceAt t pos v, v, C))

theorem grownP_of (t : KE) (pos : List Step) (C : Prop) (vs : List KE) : grownP t pos C vs = (grownOf t pos vs).map (fun v => (v.1, v.2, C)) := by
  simp [grownP, grownOf]

theorem collect_newTreeP {cfg : Cfg} {N : Nat} {t s : LK} {pos : List Step} (hS : ∀ k, Branch k s → k.isStr = false → Sound cfg (replaceAt t.erase pos k.erase)) : (ks : List LK) → {h : Heap} → Site cfg N h t pos s →
    (∀ k ∈ ks, k.isStr = false ∧ Good h k ∧ ((∀ x ∈ ids k, x ∉ ids t) ∨ Branch k s)) →
    GrowsP cfg (collect (newTree (addr s)) (ks.map addr)) h (grownP t.erase pos (LateAt t.erase pos s.erase) (ks.map LK.erase))
  | [], h, _, _ => growsP_nil cfg h
  | k :: ks, h, hs, hk => by
    obtain ⟨hk1, hk2, hk3⟩ := hk k (by simp)
    obtain ⟨n, hn, hv⟩ := hs.visited
    obtain ⟨m, h1, e1, x1, g1⟩ := newTree_any cfg hs.linked hs.stored hs.lt hn hv hs.node hs.good hk1 hk2 hk3
    have hp : ∃ p : Piece, p.node = m ∧ p.vt = replaceAt t.erase pos k.erase ∧ p.vm = k.erase ∧ p.shared = LateAt t.erase pos s.erase ∧ p.Ok cfg h.length h1 := by
      rcases g1 with ⟨t', m', rfl, g1⟩ | ⟨hp, ⟨_, hb, hf⟩, g1⟩
      · exact ⟨_, rfl, rfl, rfl, rfl, piece_of_grown cfg g1 _⟩
      · have hcl := (keeps_newTree (n := h.length) (Q := (h.length ≤ ·)) (a := addr s) (new := addr k) (fun _ h => h) (fun _ h => h) h (closed_end _ h)).1
        rw [e1] at hcl
        exact ⟨_, rfl, rfl, rfl, rfl, piece_of_shared g1 hcl (hS k hb hk1) (late_of_not_first hs.linked hv hp hb hf)⟩
    obtain ⟨p, rfl, p2, p3, p4, p5⟩ := hp
    obtain ⟨ts, h2, e2, x2, g2, v2, n2⟩ := collect_newTreeP hS ks (hs.ext x1) (fun k' hk' => ⟨(hk k' (by simp [hk'])).1, (hk k' (by simp [hk'])).2.1.ext x1, (hk k' (by simp [hk'])).2.2⟩)
    refine ⟨p :: ts, h2, ?_, x1.trans x2, ?_, ?_, ?_⟩
    · rw [List.map_cons, collect, run_bind e1, run_bind e2]; rfl
    · intro q hq
      rcases List.mem_cons.1 hq with rfl | hq
      · exact p5.ext x2
      · exact (g2 q hq).le x1.1
    · rw [List.map_cons, v2]; simp only [grownP, List.map_cons, p2, p3, p4]
    · refine .cons (fun q hq a ha ha' => ?_) n2
      have := (p5.low a ha).2
      have := ((g2 q hq).low a ha').1
      omega

theorem deepApply_fromP {cfg : Cfg} {N : Nat} {h : Heap} {t s : LK} {pos : List Step} {op : M (List Nat)} {vs : List KE} (hS : ∀ k, Branch k s → k.isStr = false → Sound cfg (replaceAt t.erase pos k.erase))
    (hs : Site cfg N h t pos s) (hop : GivesFrom s op h vs) : GrowsP cfg (deepApply op (addr s)) h (grownP t.erase pos (LateAt t.erase pos s.erase) vs) := by
  obtain ⟨ks, h1, e1, x1, f1⟩ := hop
  obtain ⟨v1, p1⟩ := forall₂_erase (P := fun k => k.isStr = false ∧ Good h1 k ∧ ((∀ a ∈ ids k, h.length ≤ a) ∨ Branch k s)) (f1.imp (fun k v hk => ⟨⟨hk.1, hk.2.1, hk.2.2.2⟩, hk.2.2.1⟩))
  rw [← v1]
  refine GrowsP.after x1 (collect_newTreeP hS ks (hs.ext x1) ?_) (by rw [deepApply, run_bind e1])
  intro k hk
  obtain ⟨h1, h2, h3⟩ := p1 k hk
  refine ⟨h1, h2, h3.imp (fun hx x hxk hxt => ?_) id⟩
  have := hs.lt x hxt
  have := hx x hxk
  have := hs.le
  omega

theorem ruleOf_okP {cfg : Cfg} {N : Nat} {h : Heap} {t s : LK} {pos : List Step} (hS : ∀ k, Branch k s → k.isStr = false → Sound cfg (replaceAt t.erase pos k.erase))
    (hs : Site cfg N h t pos s) (o : Orders) (r : RuleName) : GrowsP cfg (ruleOf cfg o (addr s) r) h (grownP t.erase pos (LateAt t.erase pos s.erase) (r.rule cfg o s.erase)) := by
  by_cases hr : r = .remove_some_term
  · subst hr
    exact deepApply_fromP hS hs (removeATerm_ok cfg hs.node hs.good)
  · rw [grownP_of]
    exact GrowsP.of (ruleOf_ok hs o r (fun e => absurd e hr)) _

/-! ## Without repetitions -/

/-- `unique` of objects in a store. -/
theorem uniqueM_val {α : Type} (f : α → Nat) (v : α → KE) (xs : List α) {h : Heap} (hx : ∀ x ∈ xs, Val h (.obj (f x)) (v x)) :
    uniqueM (xs.map f) h = (.ok ((Util.unique (fun x y => keq (v x) (v y)) xs).map f), h) := by
  refine run_ask ?_
  refine uniqueF_ok (f := f) (eq := eqO h) (eqv := fun x y => keq (v x) (v y)) xs [] ?_
  intro x hx' y hy
  exact eqO_val (hx x hx') (hx y (by simpa using hy))

theorem GrowsP.unique {cfg : Cfg} {m : M (List Nat)} {h : Heap} {vs : List (KE × KE × Prop)} (hm : GrowsP cfg m h vs) :
    GrowsP cfg (do let r ← m; uniqueM r) h (Util.unique (fun x y => keq x.2.1 y.2.1) vs) := by
  obtain ⟨ps, h1, e1, x1, g1, v1, n1⟩ := hm
  have hsub : (Util.unique (fun x y : Piece => keq x.vm y.vm) ps).Sublist ps := Util.uniqueGo_sublist _ _ _
  refine ⟨Util.unique (fun x y : Piece => keq x.vm y.vm) ps, h1, ?_, x1, fun p hp => g1 p (hsub.subset hp), ?_, n1.sublist hsub⟩
  · rw [run_bind e1]
    exact uniqueM_val Piece.node Piece.vm ps (fun p hp => (g1 p hp).val h1 (Agree.refl _ _))
  · rw [← v1]
    exact unique_map (fun p : Piece => (p.vt, p.vm, p.shared)) (fun x y => keq x.2.1 y.2.1) ps []

theorem expandNode_okP {cfg : Cfg} {N : Nat} {h : Heap} {t s : LK} {pos : List Step} (hS : ∀ k, Branch k s → k.isStr = false → Sound cfg (replaceAt t.erase pos k.erase))
    (hs : Site cfg N h t pos s) (o : Orders) (rules : List RuleName) :
    GrowsP cfg (expandNode cfg o rules (addr s)) h (grownP t.erase pos (LateAt t.erase pos s.erase) (KE.expandNode (rules.map (RuleName.rule cfg o)) s.erase)) := by
  have h1 : GrowsP cfg (do let r ← collect (ruleOf cfg o (addr s)) rules; pure r.flatten) h (rules.flatMap (fun r => grownP t.erase pos (LateAt t.erase pos s.erase) (r.rule cfg o s.erase))) := by
    refine growsP_flat (R := Eq) (List.forall₂_eq_eq_eq ▸ rfl) ?_
    rintro r _ _ _ rfl h' he
    exact ruleOf_okP hS (hs.ext he) o r
  have h2 := h1.unique
  have e : grownP t.erase pos (LateAt t.erase pos s.erase) (KE.expandNode (rules.map (RuleName.rule cfg o)) s.erase) =
      Util.unique (fun x y => keq x.2.1 y.2.1) (rules.flatMap (fun r => grownP t.erase pos (LateAt t.erase pos s.erase) (r.rule cfg o s.erase))) := by
    rw [KE.expandNode, List.flatMap_map]
    have := unique_map (fun v => (replaceAt t.erase pos v, v, LateAt t.erase pos s.erase)) (fun x y : KE × KE × Prop => keq x.2.1 y.2.1) (rules.flatMap (fun r => r.rule cfg o s.erase)) []
    simp only [grownP, Util.unique]
    refine this.trans ?_
    simp only [List.map_flatMap, List.map_nil]
  rw [e]
  refine growsP_run h2 ?_
  obtain ⟨ts, h', e1, _⟩ := h1
  obtain ⟨r, e3, e4⟩ := flatten_run e1
  rw [run_bind e1, expandNode, run_bind e3, e4]

end Objects
end GPyABCD
