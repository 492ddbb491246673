import Verif.Lemmas.Dag

/-!
# Values of objects in a store: absorption
-/

namespace GPyABCD
namespace Objects
open Links Links.LK
open KE hiding nodes

/-- An object without its links. -/
def view : Obj → (Op × Counter × List Nat) ⊕ (CC × Ref × Ref)
  | .comm _ _ op b cs => .inl (op, b, cs)
  | .change _ _ c l r => .inr (c, l, r)

/-- The same object up to links. -/
def Like (h h' : Heap) (y : Nat) : Prop := h[y]?.map view = h'[y]?.map view

theorem Like.refl (h : Heap) (y : Nat) : Like h h y := rfl
theorem Like.trans {h h' h'' : Heap} {y : Nat} (h1 : Like h h' y) (h2 : Like h' h'' y) : Like h h'' y := Eq.trans h1 h2
theorem Like.symm {h h' : Heap} {y : Nat} (h1 : Like h h' y) : Like h' h y := Eq.symm h1

theorem Like.comm {h h' : Heap} {y : Nat} (hl : Like h h' y) {rt p : Option Nat} {op : Op} {b : Counter} {cs : List Nat} (ho : h[y]? = some (.comm rt p op b cs)) :
    ∃ rt' p', h'[y]? = some (.comm rt' p' op b cs) := by
  rw [Like, ho] at hl
  simp only [Option.map_some, view] at hl
  obtain ⟨o, h1, h2⟩ := Option.map_eq_some_iff.1 hl.symm
  cases o with
  | comm rt' p' op' b' cs' => simp only [view, Sum.inl.injEq, Prod.mk.injEq] at h2; obtain ⟨rfl, rfl, rfl⟩ := h2; exact ⟨_, _, h1⟩
  | change => simp [view] at h2

theorem Like.change {h h' : Heap} {y : Nat} (hl : Like h h' y) {rt p : Option Nat} {c : CC} {l r : Ref} (ho : h[y]? = some (.change rt p c l r)) :
    ∃ rt' p', h'[y]? = some (.change rt' p' c l r) := by
  rw [Like, ho] at hl
  simp only [Option.map_some, view] at hl
  obtain ⟨o, h1, h2⟩ := Option.map_eq_some_iff.1 hl.symm
  cases o with
  | comm => simp [view] at h2
  | change rt' p' c' l' r' => simp only [view, Sum.inr.injEq, Prod.mk.injEq] at h2; obtain ⟨rfl, rfl, rfl⟩ := h2; exact ⟨_, _, h1⟩

/-- Everything up to links. -/
def Alike (h h' : Heap) : Prop := ∀ y, Like h h' y
/-- Everything up to links, except at one address. -/
def Off (a : Nat) (h h' : Heap) : Prop := ∀ y, y ≠ a → Like h h' y

theorem Alike.refl (h : Heap) : Alike h h := fun _ => rfl
theorem Alike.trans {h h' h'' : Heap} (h1 : Alike h h') (h2 : Alike h' h'') : Alike h h'' := fun y => (h1 y).trans (h2 y)
theorem Alike.off {a : Nat} {h h' : Heap} (h1 : Alike h h') : Off a h h' := fun y _ => h1 y
theorem Off.refl (a : Nat) (h : Heap) : Off a h h := fun _ _ => rfl
theorem Off.trans {a : Nat} {h h' h'' : Heap} (h1 : Off a h h') (h2 : Off a h' h'') : Off a h h'' := fun y hy => (h1 y hy).trans (h2 y hy)

theorem off_set (h : Heap) (a : Nat) (o : Obj) : Off a h (h.set a o) := by
  intro y hy
  rw [Like, List.getElem?_set_ne (fun e => hy e.symm)]

theorem alike_set {h : Heap} {a : Nat} {o o' : Obj} (ho : h[a]? = some o) (hv : view o' = view o) : Alike h (h.set a o') := by
  intro y
  by_cases e : y = a
  · subst e; rw [Like, ho, get_set_self ho, Option.map_some, Option.map_some, hv]
  · exact off_set h a o' y e

/-- Values of low depth need only what is below them. -/
theorem val_keep {h h' : Heap} {D : Nat} (hk : ∀ y w, Val h (.obj y) w → kdepth w < D → Like h h' y) : (n : Nat) → (x : Ref) → (v : KE) → kdepth v < D → read h n x = some v →
    read h' n x = some v
  | n, .str b, v, _, hr => by cases n <;> simpa [read] using hr
  | 0, .obj a, v, _, hr => by simp [read] at hr
  | n + 1, .obj a, v, hd, hr => by
    have hl := hk a v ⟨_, hr⟩ hd
    rw [read] at hr
    split at hr
    · rename_i e
      obtain ⟨rt', p', e'⟩ := hl.comm e
      simp only [Option.map_eq_some_iff] at hr
      obtain ⟨vs, hv, rfl⟩ := hr
      rw [read, e']
      simp only [Option.map_eq_some_iff]
      refine ⟨vs, mapM_iff.2 ?_, rfl⟩
      have hv := mapM_iff.1 hv
      simp only [kdepth] at hd
      refine List.forall₂_iff_get.2 ⟨hv.length_eq, fun i h1 h2 => ?_⟩
      have h3 := (List.forall₂_iff_get.1 hv).2 i h1 h2
      exact val_keep hk n _ _ (by have := kdepth_mem (List.get_mem vs ⟨i, h2⟩); omega) h3
    · rename_i e
      obtain ⟨rt', p', e'⟩ := hl.change e
      simp only [Option.bind_eq_some_iff, Option.map_eq_some_iff] at hr
      obtain ⟨x, hx, y, hy, rfl⟩ := hr
      simp only [kdepth] at hd
      rw [read, e']
      simp only [val_keep hk n _ _ (by omega) hx, val_keep hk n _ _ (by omega) hy, Option.bind_some, Option.map_some]
    · cases hr

theorem Alike.val {h h' : Heap} (ha : Alike h h') {x : Ref} {v : KE} (hv : Val h x v) : Val h' x v := by
  obtain ⟨n, hn⟩ := hv
  exact ⟨n, val_keep (D := kdepth v + 1) (fun y _ _ _ => ha y) n x v (by omega) hn⟩

theorem Alike.vals {h h' : Heap} (ha : Alike h h') {cs : List Nat} {vs : List KE} (hv : Vals h cs vs) : Vals h' cs vs := hv.imp (fun _ _ => ha.val)

/-- A value that does not depend on the object at `a`. -/
def Free (a : Nat) (h : Heap) (x : Ref) (w : KE) : Prop := ∀ h', Off a h h' → Val h' x w

theorem Free.val {a : Nat} {h : Heap} {x : Ref} {w : KE} (hf : Free a h x w) : Val h x w := hf h (Off.refl a h)

theorem Free.off {a : Nat} {h h' : Heap} {x : Ref} {w : KE} (hf : Free a h x w) (ho : Off a h h') : Free a h' x w := fun _ h1 => hf _ (ho.trans h1)

theorem free_of_depth {a : Nat} {h : Heap} {u : KE} (ha : Val h (.obj a) u) {x : Ref} {w : KE} (hx : Val h x w) (hd : kdepth w < kdepth u) : Free a h x w := by
  intro h' ho
  obtain ⟨n, hn⟩ := hx
  refine ⟨n, val_keep (D := kdepth u) (fun y w' hy hw => ho y ?_) n x w hd hn⟩
  rintro rfl
  rw [val_unique hy ha] at hw
  omega

theorem loop_read {h : Heap} {a : Nat} (ha : h[a]? = some (.comm none none .sum [] [a])) : ∀ n, read h n (.obj a) = none
  | 0 => by simp [read]
  | n + 1 => by rw [read, ha]; simp [loop_read ha n]

theorem Free.ne {a b : Nat} {h : Heap} {w : KE} {o : Obj} (ha : h[a]? = some o) (hf : Free a h (.obj b) w) : b ≠ a := by
  rintro rfl
  obtain ⟨n, hn⟩ := hf _ (off_set h b (.comm none none .sum [] [b]))
  rw [loop_read (get_set_self ha)] at hn
  cases hn

theorem Free.children {a b : Nat} {h : Heap} {o : Obj} (ha : h[a]? = some o) {rt p : Option Nat} {op : Op} {bts : Counter} {cs : List Nat} (hb : h[b]? = some (.comm rt p op bts cs)) {vs : List KE}
    (hf : Free a h (.obj b) (.comm op bts vs)) : List.Forall₂ (fun c w => Free a h (.obj c) w) cs vs := by
  have hne := hf.ne ha
  obtain ⟨vs', e, hv⟩ := (val_comm hb).1 hf.val
  cases e
  refine List.forall₂_iff_get.2 ⟨hv.length_eq, fun i h1 h2 h' ho => ?_⟩
  obtain ⟨rt', p', hb'⟩ := (ho b hne).comm hb
  obtain ⟨vs', e, hv'⟩ := (val_comm hb').1 (hf h' ho)
  cases e
  exact (List.forall₂_iff_get.1 hv').2 i h1 h2

theorem each_setParent {p : Option Nat} : (cs : List Nat) → {h : Heap} → (∀ c ∈ cs, ∃ o, h[c]? = some o) →
    ∃ h', each (fun ct => setParent ct p) cs h = (.ok (), h') ∧ Alike h h' ∧ ∀ a, a ∉ cs → h'[a]? = h[a]?
  | [], h, _ => ⟨h, rfl, Alike.refl h, fun _ _ => rfl⟩
  | c :: cs, h, hc => by
    obtain ⟨o, ho⟩ := hc c (by simp)
    have h1 : Alike h (h.set c (o.withParent p)) := alike_set ho (by cases o <;> rfl)
    obtain ⟨h', e, h2, h3⟩ := each_setParent cs (h := h.set c (o.withParent p)) (fun c' hc' => by
      obtain ⟨o', ho'⟩ := hc c' (by simp [hc'])
      by_cases e : c' = c
      · subst e; exact ⟨_, get_set_self ho⟩
      · exact ⟨o', by rw [List.getElem?_set_ne (fun e' => e e'.symm)]; exact ho'⟩)
    refine ⟨h', ?_, h1.trans h2, fun a ha => ?_⟩
    · rw [each, setParent, run_bind (run_edit ho)]; exact e
    · simp only [List.mem_cons, not_or] at ha
      rw [h3 a ha.2, List.getElem?_set_ne (fun e' => ha.1 e'.symm)]

theorem keq_isComm {op : Op} {a b : KE} (h : keq a b = true) (ha : KE.isComm op a = true) : KE.isComm op b = true := by
  cases a <;> cases b <;> simp_all [keq, KE.isComm]

/-- Addresses and the values they have. -/
theorem pairs {a : Nat} {h : Heap} {cs : List Nat} {vs : List KE} (hf : List.Forall₂ (fun c w => Free a h (.obj c) w) cs vs) :
    ∃ ms : List (Nat × KE), ms.map Prod.fst = cs ∧ ms.map Prod.snd = vs ∧ ∀ q ∈ ms, Free a h (.obj q.1) q.2 := by
  induction hf with
  | nil => exact ⟨[], rfl, rfl, by simp⟩
  | cons h1 _ ih =>
    obtain ⟨ms, e1, e2, h2⟩ := ih
    refine ⟨(_, _) :: ms, by rw [List.map_cons, e1], by rw [List.map_cons, e2], fun q hq => ?_⟩
    rcases List.mem_cons.1 hq with rfl | hq
    · exact h1
    · exact h2 q hq

/-- One absorbed term. -/
theorem absorbOne_val {cfg : Cfg} {h : Heap} {a c : Nat} {w : KE} {rt p : Option Nat} {op : Op} {b : Counter} {pre post : List (Nat × KE)}
    (ho : h[a]? = some (.comm rt p op b ((pre ++ (c, w) :: post).map Prod.fst))) (hf : ∀ q ∈ pre ++ (c, w) :: post, Free a h (.obj q.1) q.2)
    (hw : KE.isComm op w = true) (hpre : ∀ q ∈ pre, KE.isComm op q.2 = false) :
    ∃ (b' : Counter) (ms : List (Nat × KE)) (h' : Heap), absorbOne cfg a c h = (.ok (), h') ∧ Off a h h' ∧ h'[a]? = some (.comm rt p op b' ((pre ++ post ++ ms).map Prod.fst)) ∧
      (∀ q ∈ pre ++ post ++ ms, Free a h' (.obj q.1) q.2) ∧ KE.absorbStep cfg op (b, (pre ++ (c, w) :: post).map Prod.snd) w = (b', (pre ++ post ++ ms).map Prod.snd) := by
  have hfc : Free a h (.obj c) w := hf (c, w) (by simp)
  have hca := hfc.ne ho
  obtain ⟨o, hc⟩ := val_obj hfc.val
  cases o with
  | change =>
    obtain ⟨_, _, rfl, _⟩ := (val_change hc).1 hfc.val
    cases hw
  | comm rj pj oj hb hcs =>
    obtain ⟨hvs, rfl, hv⟩ := (val_comm hc).1 hfc.val
    have hfs := Free.children ho hc hfc
    have hoj : oj = op := by simpa [KE.isComm] using hw
    subst hoj
    obtain ⟨ms, rfl, rfl, hm3⟩ := pairs hfs
    generalize hcs0 : (pre ++ (c, KE.comm oj hb (ms.map Prod.snd)) :: post).map Prod.fst = cs0 at ho
    generalize hb' : simplifyBase cfg oj (b.updateMap hb) cs0.length = b'
    generalize e1 : h.set a (.comm rt p oj b' cs0) = h1
    have o1 : Off a h h1 := by rw [← e1]; exact off_set h a _
    have g1 : h1[a]? = some (.comm rt p oj b' cs0) := by rw [← e1]; exact get_set_self ho
    obtain ⟨rj1, pj1, g1c⟩ := (o1 c hca).comm hc
    obtain ⟨h2, e2, l2, k2⟩ := each_setParent (p := some a) (ms.map Prod.fst) (h := h1) (fun y hy => by
      obtain ⟨q, hq, rfl⟩ := List.mem_map.1 hy
      exact val_obj (hm3 q hq h1 o1))
    have hna : a ∉ ms.map Prod.fst := by
      intro hy
      obtain ⟨q, hq, e⟩ := List.mem_map.1 hy
      exact (hm3 q hq).ne ho e
    have g2 : h2[a]? = some (.comm rt p oj b' cs0) := by rw [k2 a hna]; exact g1
    generalize e3 : h2.set a (.comm rt p oj b' (cs0 ++ ms.map Prod.fst)) = h3
    have g3 : h3[a]? = some (.comm rt p oj b' (cs0 ++ ms.map Prod.fst)) := by rw [← e3]; exact get_set_self g2
    have o3 : Off a h h3 := (o1.trans l2.off).trans (by rw [← e3]; exact off_set h2 a _)
    have ed : dropFirst (fun y => eqO h3 c y) (cs0 ++ ms.map Prod.fst) = some (some ((pre ++ post ++ ms).map Prod.fst)) := by
      rw [← hcs0]
      simp only [List.map_append, List.map_cons, List.append_assoc, List.cons_append]
      rw [dropFirst_at]
      · intro y hy
        obtain ⟨q, hq, rfl⟩ := List.mem_map.1 hy
        rw [eqO_val (hfc h3 o3) (hf q (by simp [hq]) h3 o3)]
        congr 1
        cases hq' : keq (KE.comm oj hb (ms.map Prod.snd)) q.2
        · rfl
        · have := keq_isComm hq' hw
          rw [hpre q hq] at this; cases this
      · rw [eqO_val (hfc h3 o3) (hfc h3 o3), KE.keq_refl]
    refine ⟨b', ms, h3.set a (.comm rt p oj b' ((pre ++ post ++ ms).map Prod.fst)), ?_, o3.trans (off_set h3 a _), get_set_self g3, ?_, ?_⟩
    · rw [absorbOne, run_bind (run_look hc)]
      simp only
      rw [run_bind (run_edit ho), simplifyBaseTerms, run_bind (run_edit (get_set_self ho))]
      simp only [Obj.withBts, List.set_set, hb', e1]
      rw [run_bind (run_look g1c)]
      simp only [Obj.cts]
      rw [run_bind e2, run_bind (run_edit g2)]
      simp only [Obj.withCts, e3]
      rw [run_bind (run_look g3)]
      simp only [Obj.cts]
      rw [run_bind (run_ask ed)]
      simp only
      rw [run_edit g3]
      rfl
    · intro q hq
      refine Free.off (Free.off ?_ o3) (off_set h3 a _)
      simp only [List.mem_append] at hq
      rcases hq with (hq | hq) | hq
      · exact hf q (by simp [hq])
      · exact hf q (by simp [hq])
      · exact hm3 q hq
    · rw [KE.absorbStep]
      simp only [List.map_append, List.map_cons, List.append_assoc, List.cons_append]
      rw [removeFirst_at]
      · simp only [Option.getD_some, Prod.mk.injEq, and_true]
        rw [← hb', ← hcs0]; simp
      · intro y hy
        obtain ⟨q, hq, rfl⟩ := List.mem_map.1 hy
        cases hq' : keq (KE.comm oj hb (ms.map Prod.snd)) q.2
        · rfl
        · have := keq_isComm hq' hw
          rw [hpre q hq] at this; cases this
      · exact KE.keq_refl _

theorem absorbLoop_val {cfg : Cfg} {a : Nat} {rt p : Option Nat} {op : Op} (suf : List (Nat × KE)) : ∀ {h : Heap} {b : Counter} {pre mv : List (Nat × KE)},
    (∀ q ∈ pre, KE.isComm op q.2 = false) → h[a]? = some (.comm rt p op b ((pre ++ suf ++ mv).map Prod.fst)) → (∀ q ∈ pre ++ suf ++ mv, Free a h (.obj q.1) q.2) →
    ∃ (b' : Counter) (ms : List (Nat × KE)) (h' : Heap), each (absorbOne cfg a) ((suf.filter (fun q => KE.isComm op q.2)).map Prod.fst) h = (.ok (), h') ∧ Off a h h' ∧ h'[a]? = some (.comm rt p op b' (ms.map Prod.fst)) ∧
      (∀ q ∈ ms, Free a h' (.obj q.1) q.2) ∧
      ((suf.map Prod.snd).filter (KE.isComm op)).foldl (KE.absorbStep cfg op) (b, (pre ++ suf ++ mv).map Prod.snd) = (b', ms.map Prod.snd) := by
  induction suf with
  | nil =>
    intro h b pre mv _ ho hf
    exact ⟨b, pre ++ [] ++ mv, h, rfl, Off.refl a h, ho, hf, rfl⟩
  | cons k suf ih =>
    intro h b pre mv hpre ho hf
    cases hk : KE.isComm op k.2 with
    | false =>
      have e : pre ++ k :: suf ++ mv = (pre ++ [k]) ++ suf ++ mv := by simp
      rw [e] at ho hf
      obtain ⟨b', ms, h', e1, o1, g1, f1, s1⟩ := ih (pre := pre ++ [k]) (fun y hy => by
        rcases List.mem_append.1 hy with hy | hy
        · exact hpre y hy
        · simp at hy; rw [hy]; exact hk) ho hf
      refine ⟨b', ms, h', ?_, o1, g1, f1, ?_⟩
      · rw [List.filter_cons, hk]; exact e1
      · rw [List.map_cons, List.filter_cons, hk, e]; exact s1
    | true =>
      obtain ⟨c, w⟩ := k
      have e : pre ++ (c, w) :: suf ++ mv = pre ++ (c, w) :: (suf ++ mv) := by simp
      rw [e] at ho hf
      obtain ⟨b1, m1, h1, e1, o1, g1, f1, s1⟩ := absorbOne_val (cfg := cfg) ho hf hk hpre
      have e' : pre ++ (suf ++ mv) ++ m1 = pre ++ suf ++ (mv ++ m1) := by simp
      rw [e'] at g1 f1 s1
      obtain ⟨b', ms, h', e2, o2, g2, f2, s2⟩ := ih (mv := mv ++ m1) hpre g1 f1
      refine ⟨b', ms, h', ?_, o1.trans o2, g2, f2, ?_⟩
      · rw [List.filter_cons, if_pos hk, List.map_cons, each, run_bind e1, e2]
      · rw [List.map_cons, List.filter_cons, if_pos hk, List.foldl_cons, e, s1, s2]

theorem collect_kinds {h : Heap} {op : Op} (ms : List (Nat × KE)) (hv : ∀ q ∈ ms, Val h (.obj q.1) q.2) :
    collect (fun ct => do
      let o ← look ct
      pure (ct, o.isComm op)) (ms.map Prod.fst) h = (.ok (ms.map (fun q => (q.1, KE.isComm op q.2))), h) := by
  induction ms with
  | nil => rfl
  | cons q ms ih =>
    have hq := hv q (by simp)
    obtain ⟨o, ho⟩ := val_obj hq
    have e : o.isComm op = KE.isComm op q.2 := by
      cases o with
      | comm => obtain ⟨_, e, _⟩ := (val_comm ho).1 hq; rw [e]; rfl
      | change => obtain ⟨_, _, e, _⟩ := (val_change ho).1 hq; rw [e]; rfl
    rw [List.map_cons, collect, run_bind (show _ = (Except.ok (q.1, KE.isComm op q.2), h) from by rw [run_bind (run_look ho), ← e]; rfl), run_bind (ih (fun q hq => hv q (by simp [hq])))]
    rfl

theorem absorbHomogeneous_val {cfg : Cfg} {h : Heap} {a : Nat} {rt p : Option Nat} {op : Op} {b : Counter} {ms : List (Nat × KE)}
    (ho : h[a]? = some (.comm rt p op b (ms.map Prod.fst))) (hf : ∀ q ∈ ms, Free a h (.obj q.1) q.2) :
    ∃ (b' : Counter) (ms' : List (Nat × KE)) (h' : Heap), absorbHomogeneous cfg a op h = (.ok (), h') ∧ Off a h h' ∧ h'[a]? = some (.comm rt p op b' (ms'.map Prod.fst)) ∧
      (∀ q ∈ ms', Free a h' (.obj q.1) q.2) ∧ KE.absorbHomogeneous cfg op b (ms.map Prod.snd) = (b', ms'.map Prod.snd) := by
  obtain ⟨b', ms', h', e1, o1, g1, f1, s1⟩ := absorbLoop_val (cfg := cfg) ms (pre := []) (mv := []) (by simp) (by simpa using ho) (by simpa using hf)
  refine ⟨b', ms', h', ?_, o1, g1, f1, ?_⟩
  · rw [absorbHomogeneous, run_bind (run_look ho)]
    simp only [Obj.cts]
    rw [run_bind (collect_kinds ms (fun q hq => (hf q hq).val))]
    rw [← e1]
    congr 1
    rw [List.filter_map, List.map_map]
    rfl
  · rw [KE.absorbHomogeneous]; simpa using s1

/-- What is extracted from an object, and its value. -/
theorem extract_val {h : Heap} {c : Nat} {w : KE} (hv : Val h (.obj c) w) :
    ∃ r h', extract c h = (.ok r, h') ∧ Alike h h' ∧ Val h r (KE.extract w) ∧
      ∀ a o, h[a]? = some o → Free a h (.obj c) w → h'[a]? = h[a]? ∧ Free a h r (KE.extract w) := by
  obtain ⟨o, ho⟩ := val_obj hv
  have same : ∀ {w : KE}, Val h (.obj c) w → KE.extract w = w → extract c h = (.ok (.obj c), h) → ∃ r h', extract c h = (.ok r, h') ∧ Alike h h' ∧ Val h r (KE.extract w) ∧
      ∀ a o, h[a]? = some o → Free a h (.obj c) w → h'[a]? = h[a]? ∧ Free a h r (KE.extract w) := by
    intro w hv ew er
    rw [ew]
    exact ⟨_, h, er, Alike.refl h, hv, fun a o _ hf => ⟨rfl, hf⟩⟩
  cases o with
  | change =>
    obtain ⟨_, _, rfl, _⟩ := (val_change ho).1 hv
    exact same hv rfl (by rw [extract, run_bind (run_look ho)]; rfl)
  | comm rt p op b cs =>
    obtain ⟨vs, rfl, hvs⟩ := (val_comm ho).1 hv
    cases hvs with
    | nil =>
      cases hb : b.elements with
      | nil => exact same hv (by simp [KE.extract, hb]) (by rw [extract, run_bind (run_look ho)]; simp only [hb]; rfl)
      | cons x xs =>
        by_cases ht : b.total = 1
        · have e : KE.extract (KE.comm op b []) = .base x := by simp [KE.extract, hb, ht]
          rw [e]
          refine ⟨.str x, h, by rw [extract, run_bind (run_look ho)]; simp only [hb]; rw [if_pos ht]; rfl, Alike.refl h, val_str.2 rfl, fun a o _ _ => ⟨rfl, fun h' _ => val_str.2 rfl⟩⟩
        · exact same hv (by simp [KE.extract, hb, ht]) (by rw [extract, run_bind (run_look ho)]; simp only [hb]; rw [if_neg ht]; rfl)
    | @cons z v cs vs hz hvs =>
      cases hvs with
      | nil =>
        by_cases ht : b.total = 0
        · have e : KE.extract (KE.comm op b [v]) = v := by simp [KE.extract, ht]
          rw [e]
          obtain ⟨o, hoz⟩ := val_obj hz
          refine ⟨.obj z, h.set z (o.withParent p), ?_, alike_set hoz (by cases o <;> rfl), hz, fun a o' ha hf => ?_⟩
          · rw [extract, run_bind (run_look ho)]
            have : (do if b.total = 0 then (do setParent z p; pure (.obj z)) else pure (.obj c) : M Ref) h = (.ok (.obj z), h.set z (o.withParent p)) := by
              rw [if_pos ht, setParent, run_bind (run_edit hoz)]; rfl
            cases hb : b.elements <;> (simp only [hb]; exact this)
          · have := Free.children ha ho hf
            cases this with
            | cons hz' _ => exact ⟨by rw [List.getElem?_set_ne (hz'.ne ha)], hz'⟩
        · refine same hv (by simp [KE.extract, ht]) ?_
          rw [extract, run_bind (run_look ho)]
          have : (do if b.total = 0 then (do setParent z p; pure (.obj z)) else pure (.obj c) : M Ref) h = (.ok (.obj c), h) := by
            rw [if_neg ht]; rfl
          cases hb : b.elements <;> (simp only [hb]; exact this)
      | cons _ _ =>
        refine same hv (by cases hb : b.elements <;> simp [KE.extract, hb]) ?_
        rw [extract, run_bind (run_look ho)]
        cases hb : b.elements <;> (simp only [hb]; rfl)

theorem collect_extract_val {a : Nat} (ms : List (Nat × KE)) : ∀ {h : Heap} {o : Obj}, h[a]? = some o → (∀ q ∈ ms, Free a h (.obj q.1) q.2) →
    ∃ rs h', collect extract (ms.map Prod.fst) h = (.ok rs, h') ∧ Alike h h' ∧ h'[a]? = some o ∧ List.Forall₂ (fun r w => Free a h' r w) rs ((ms.map Prod.snd).map KE.extract) := by
  induction ms with
  | nil => intro h o ho _; exact ⟨[], h, rfl, Alike.refl h, ho, .nil⟩
  | cons q ms ih =>
    intro h o ho hf
    obtain ⟨r, h1, e1, l1, v1, k1⟩ := extract_val (hf q (by simp)).val
    obtain ⟨k1, f1⟩ := k1 a o ho (hf q (by simp))
    obtain ⟨rs, h2, e2, l2, g2, v2⟩ := ih (h := h1) (by rw [k1]; exact ho) (fun q hq => (hf q (by simp [hq])).off l1.off)
    refine ⟨r :: rs, h2, ?_, l1.trans l2, g2, .cons (f1.off (l1.trans l2).off) v2⟩
    rw [List.map_cons, collect, run_bind e1, run_bind e2]
    rfl

theorem split_vals {a : Nat} {h : Heap} {rs : List Ref} {vs : List KE} (hv : List.Forall₂ (fun r w => Free a h r w) rs vs) :
    rs.filterMap (fun e => match e with | .str b => some b | .obj _ => none) = vs.filterMap (fun k => match k with | KE.base b => some b | _ => none) ∧
    List.Forall₂ (fun c w => Free a h (.obj c) w) (rs.filterMap (fun e => match e with | .str _ => none | .obj c => some c)) (vs.filter (fun k => !k.isBase)) := by
  induction hv with
  | nil => exact ⟨rfl, .nil⟩
  | @cons r w rs vs h1 _ ih =>
    cases r with
    | str b =>
      have := val_str.1 h1.val
      subst this
      exact ⟨by simp [ih.1], by simpa [KE.isBase] using ih.2⟩
    | obj c =>
      have hb : w.isBase = false := by
        obtain ⟨o, ho⟩ := val_obj h1.val
        cases o with
        | comm => obtain ⟨_, rfl, _⟩ := (val_comm ho).1 h1.val; rfl
        | change => obtain ⟨_, _, rfl, _⟩ := (val_change ho).1 h1.val; rfl
      refine ⟨?_, ?_⟩
      · rw [List.filterMap_cons, List.filterMap_cons, ih.1]
        cases w <;> first | rfl | cases hb
      · rw [List.filterMap_cons, List.filter_cons, hb]
        exact .cons h1 ih.2

theorem absorbSingletons_val {cfg : Cfg} {h : Heap} {a : Nat} {rt p : Option Nat} {op : Op} {b : Counter} {ms : List (Nat × KE)}
    (ho : h[a]? = some (.comm rt p op b (ms.map Prod.fst))) (hf : ∀ q ∈ ms, Free a h (.obj q.1) q.2) :
    ∃ (b' : Counter) (ms' : List (Nat × KE)) (h' : Heap), absorbSingletons cfg a h = (.ok (), h') ∧ Off a h h' ∧ h'[a]? = some (.comm rt p op b' (ms'.map Prod.fst)) ∧
      (∀ q ∈ ms', Free a h' (.obj q.1) q.2) ∧ KE.absorbSingletons cfg op b (ms.map Prod.snd) = (b', ms'.map Prod.snd) := by
  obtain ⟨rs, h1, e1, l1, g1, v1⟩ := collect_extract_val ms ho hf
  obtain ⟨f1, f2⟩ := split_vals v1
  generalize hnames : ((ms.map Prod.snd).map KE.extract).filterMap (fun k => match k with | KE.base b => some b | _ => none) = names at f1
  generalize hrest : ((ms.map Prod.snd).map KE.extract).filter (fun k => !k.isBase) = rest at f2
  obtain ⟨ms', m1, m2, m3⟩ := pairs f2
  refine ⟨simplifyBase cfg op (b.updateList names) rest.length, ms', h1.set a (.comm rt p op (simplifyBase cfg op (b.updateList names) rest.length) (ms'.map Prod.fst)), ?_, l1.off.trans (off_set h1 a _),
    get_set_self g1, fun q hq => (m3 q hq).off (off_set h1 a _), ?_⟩
  · rw [absorbSingletons, run_bind (run_look ho)]
    simp only [Obj.cts]
    rw [run_bind e1]
    have key : ∀ N R, N = names → R = ms'.map Prod.fst →
        (do edit a (Obj.withCts (fun _ => R)); edit a (Obj.withBts (fun _ b _ => b.updateList N)); simplifyBaseTerms cfg a : M Unit) h1 =
          (.ok (), h1.set a (.comm rt p op (simplifyBase cfg op (b.updateList names) rest.length) (ms'.map Prod.fst))) := by
      rintro _ _ rfl rfl
      rw [run_bind (run_edit g1), run_bind (run_edit (get_set_self g1)), simplifyBaseTerms, run_edit (get_set_self (get_set_self g1))]
      simp only [Obj.withCts, Obj.withBts, List.set_set, ← m2, List.length_map]
    exact key _ _ f1 m1.symm
  · rw [KE.absorbSingletons]; simp only [hrest, m2]; rw [← hnames]; rfl

/-- The absorbing steps on a node whose terms do not depend on it. -/
theorem absorb_val {cfg : Cfg} {h : Heap} {a : Nat} {rt p : Option Nat} {op : Op} {b : Counter} {ms : List (Nat × KE)}
    (ho : h[a]? = some (.comm rt p op b (ms.map Prod.fst))) (hf : ∀ q ∈ ms, Free a h (.obj q.1) q.2) :
    ∃ h', (do absorbHomogeneous cfg a op; absorbSingletons cfg a; simplifyBaseTerms cfg a : M Unit) h = (.ok (), h') ∧
      Off a h h' ∧ Val h' (.obj a) (KE.absorb cfg op b (ms.map Prod.snd)) := by
  obtain ⟨b1, m1, h1, e1, o1, g1, f1, s1⟩ := absorbHomogeneous_val (cfg := cfg) ho hf
  obtain ⟨b2, m2, h2, e2, o2, g2, f2, s2⟩ := absorbSingletons_val (cfg := cfg) g1 f1
  refine ⟨h2.set a (.comm rt p op (simplifyBase cfg op b2 m2.length) (m2.map Prod.fst)), ?_, (o1.trans o2).trans (off_set h2 a _), ?_⟩
  · rw [run_bind e1, run_bind e2, simplifyBaseTerms, run_edit g2]
    simp only [Obj.withBts, List.length_map]
  · rw [val_comm (get_set_self g2)]
    refine ⟨m2.map Prod.snd, ?_, ?_⟩
    · rw [KE.absorb, s1]; simp only [s2, List.length_map]
    · rw [Vals, List.forall₂_map_left_iff, List.forall₂_map_right_iff, List.forall₂_same]
      exact fun q hq => f2 q hq _ (off_set h2 a _)

end Objects
end GPyABCD
