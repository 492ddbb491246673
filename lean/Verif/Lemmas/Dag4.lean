import Verif.Lemmas.Dag3
import Verif.Lemmas.Refine12

/-!
# Values of objects in a store: roots where parts may be shared
-/

namespace GPyABCD
namespace Objects
open Links Links.LK
open KE hiding nodes

/-! ## Simplified expressions -/

theorem settled_comm_of {cfg : Cfg} {o : Op} {c : Counter} {cs : List KE} (hc : c.WF) (pc : c.Pos) (hne : c.elements ≠ [] ∨ cs ≠ []) (hcan : canonNode cfg (.comm o c cs) = true)
    (h : ∀ x ∈ cs, x.isBase = false ∧ settled cfg x = true ∧ isSingleton x = false) : settled cfg (.comm o c cs) = true := by
  refine settled_iff.2 ⟨wf_comm.2 ⟨hc, pc, fun x hx => ⟨(h x hx).1, (settled_iff.1 (h x hx).2.1).1⟩⟩, noEmpty_comm.2 ⟨hne, fun x hx => (settled_iff.1 (h x hx).2.1).2.1⟩, ?_, ?_⟩
  · simp only [allNodes, Bool.and_eq_true, allNodesL_iff]
    exact ⟨hcan, fun x hx => (settled_iff.1 (h x hx).2.1).2.2.1⟩
  · simp only [allBelow, allNodesL_iff]
    intro x hx
    obtain ⟨h1, h2, h3⟩ := h x hx
    have hb := (settled_iff.1 h2).2.2.2
    cases x with
    | base b => cases h1
    | comm => simp only [allNodes, Bool.and_eq_true]; exact ⟨by simpa using h3, hb⟩
    | change => simp only [allBelow, Bool.and_eq_true] at hb; simp only [allNodes, Bool.and_eq_true]; exact ⟨⟨rfl, hb.1⟩, hb.2⟩

theorem settled_change_of {cfg : Cfg} {c : CC} {l r : KE} (hl : settled cfg l = true ∧ isSingleton l = false) (hr : settled cfg r = true ∧ isSingleton r = false) :
    settled cfg (.change c l r) = true := by
  have key : ∀ {x : KE}, settled cfg x = true ∧ isSingleton x = false → allNodes (fun n => !n.isSingleton) x = true := by
    intro x h
    have hb := (settled_iff.1 h.1).2.2.2
    cases x with
    | base b => rfl
    | comm => simp only [allNodes, Bool.and_eq_true]; exact ⟨by simpa using h.2, hb⟩
    | change => simp only [allBelow, Bool.and_eq_true] at hb; simp only [allNodes, Bool.and_eq_true]; exact ⟨⟨rfl, hb.1⟩, hb.2⟩
  have h1 := settled_iff.1 hl.1
  have h2 := settled_iff.1 hr.1
  refine settled_iff.2 ⟨wf_change.2 ⟨h1.1, h2.1⟩, ?_, ?_, ?_⟩
  · simp only [noEmpty, allNodes, Bool.and_eq_true]
    exact ⟨⟨rfl, h1.2.1⟩, h2.2.1⟩
  · simp only [allNodes, Bool.and_eq_true]
    exact ⟨⟨rfl, h1.2.2.1⟩, h2.2.2.1⟩
  · simp only [allBelow, Bool.and_eq_true]
    exact ⟨key hl, key hr⟩

/-- Simplified expressions simplify to a normal form at every level. -/
theorem sound_of_settled {cfg : Cfg} : (n : Nat) → (k : KE) → kdepth k ≤ n → settled cfg k = true →
    Sound cfg k ∧ (isSingleton k = false → isWrapper (KE.simplify cfg k) = false)
  | _, .base b, _, _ => ⟨.base b, fun _ => rfl⟩
  | 0, .comm .., h, _ => by simp [kdepth] at h
  | 0, .change .., h, _ => by simp [kdepth] at h
  | n + 1, .comm o b cs, h, hs => by
    simp only [kdepth] at h
    obtain ⟨wb, pb, wc⟩ := wf_comm.1 (settled_iff.1 hs).1
    have hch := settled_child hs
    have ih : ∀ k ∈ cs, Sound cfg k ∧ isWrapper (KE.simplify cfg k) = false := by
      intro k hk
      have := sound_of_settled n k (by have := kdepth_mem hk; omega) (hch k hk).1
      exact ⟨this.1, this.2 (hch k hk).2⟩
    refine ⟨.comm (normal_simplify_comm wb pb (fun k hk => ⟨(wc k hk).1, (ih k hk).1.normal, (ih k hk).2⟩)) (fun k hk => (ih k hk).1), fun hsi => ?_⟩
    exact not_wrapper wb pb (fun k hk => ⟨(wc k hk).1, (wc k hk).2, (ih k hk).2, nonconst_of_settled (hch k hk).1 (wc k hk).1 (hch k hk).2⟩) (terms_left hs hsi rfl)
  | n + 1, .change c l r, h, hs => by
    simp only [kdepth] at h
    obtain ⟨⟨l1, _⟩, r1, _⟩ := settled_branch hs
    have hl := (sound_of_settled n l (by omega) l1).1
    have hr := (sound_of_settled n r (by omega) r1).1
    exact ⟨.change (normal_simplify_change (settled_iff.1 l1).1 (settled_iff.1 r1).1 hl.normal hr.normal) hl hr, fun _ => rfl⟩

theorem canonNode_congr {cfg : Cfg} {o : Op} {c : Counter} {cs cs' : List KE} (h : cs.isEmpty = cs'.isEmpty) : canonNode cfg (.comm o c cs) = canonNode cfg (.comm o c cs') := by
  cases o with
  | sum => rfl
  | prod => simp only [canonNode, h]

/-- Putting a simplified expression in the place of a change operator. -/
theorem repl_settled {cfg : Cfg} {S new k k' : KE} (h : Repl S new k k') (hk : settled cfg k = true) (hS : isChange S = true)
    (hn : settled cfg new = true) (hns : isSingleton new = false) (hnb : new.isBase = false) :
    settled cfg k' = true ∧ k'.isBase = false ∧ (isSingleton k = false → isSingleton k' = false) := by
  induction h with
  | here => exact ⟨hn, hnb, fun _ => hns⟩
  | @term o b l1 l2 y hSy =>
    obtain ⟨wb, pb, wc⟩ := wf_comm.1 (settled_iff.1 hk).1
    have hch := settled_child hk
    have hcan := (settled_iff.1 hk).2.2.1
    simp only [allNodes, Bool.and_eq_true] at hcan
    refine ⟨settled_comm_of wb pb (.inr (by simp)) ?_ ?_, rfl, ?_⟩
    · refine (canonNode_congr ?_).trans hcan.1; cases l1 <;> cases l2 <;> rfl
    · intro x hx
      simp only [List.mem_append, List.mem_singleton] at hx
      rcases hx with (hx | hx) | rfl
      · exact ⟨(wc x (by simp [hx])).1, hch x (by simp [hx])⟩
      · exact ⟨(wc x (by simp [hx])).1, hch x (by simp [hx])⟩
      · exact ⟨hnb, hn, hns⟩
    · simp only [isSingleton, List.length_append, List.length_cons, List.length_nil, decide_eq_false_iff_not]
      omega
  | @sub o b l1 l2 a a' _ ih =>
    obtain ⟨wb, pb, wc⟩ := wf_comm.1 (settled_iff.1 hk).1
    have hch := settled_child hk
    have hcan := (settled_iff.1 hk).2.2.1
    simp only [allNodes, Bool.and_eq_true] at hcan
    obtain ⟨i1, i2, i3⟩ := ih (hch a (by simp)).1
    refine ⟨settled_comm_of wb pb (.inr (by simp)) ?_ ?_, rfl, ?_⟩
    · refine (canonNode_congr ?_).trans hcan.1; cases l1 <;> cases l2 <;> rfl
    · intro x hx
      simp only [List.mem_append, List.mem_cons] at hx
      rcases hx with hx | rfl | hx
      · exact ⟨(wc x (by simp [hx])).1, hch x (by simp [hx])⟩
      · exact ⟨i2, i1, i3 (hch a (by simp)).2⟩
      · exact ⟨(wc x (by simp [hx])).1, hch x (by simp [hx])⟩
    · simp only [isSingleton, List.length_append, List.length_cons, decide_eq_false_iff_not]
      omega
  | @left c l l' r _ ih =>
    obtain ⟨h1, h2⟩ := settled_branch hk
    obtain ⟨i1, _, i3⟩ := ih h1.1
    exact ⟨settled_change_of ⟨i1, i3 h1.2⟩ h2, rfl, fun _ => rfl⟩
  | @right c l r r' _ ih =>
    obtain ⟨h1, h2⟩ := settled_branch hk
    obtain ⟨i1, _, i3⟩ := ih h2.1
    exact ⟨settled_change_of h1 ⟨i1, i3 h2.2⟩, rfl, fun _ => rfl⟩
  | @leafL c b r h => rw [h] at hS; cases hS
  | @leafR c b l h => rw [h] at hS; cases hS

/-! ## Values inside a region -/

/-- The store has grown, and is as before at addresses in `A`. -/
def Agree (A : Nat → Prop) (h h' : Heap) : Prop := h.length ≤ h'.length ∧ ∀ a, A a → h'[a]? = h[a]?

theorem Agree.refl (A : Nat → Prop) (h : Heap) : Agree A h h := ⟨Nat.le_refl _, fun _ _ => rfl⟩

theorem Agree.trans {A : Nat → Prop} {h h' h'' : Heap} (h1 : Agree A h h') (h2 : Agree A h' h'') : Agree A h h'' :=
  ⟨Nat.le_trans h1.1 h2.1, fun a ha => (h2.2 a ha).trans (h1.2 a ha)⟩

theorem val_agree {P Q : Nat → Prop} {h h' : Heap} (hs : Shut P Q h) (ha : ∀ a, P a → a < h.length → h'[a]? = h[a]?) : (n : Nat) → (x : Ref) → (v : KE) → (∀ a ∈ x.addr, P a) →
    read h n x = some v → read h' n x = some v
  | n, .str b, v, _, hr => by cases n <;> simpa [read] using hr
  | 0, .obj a, v, _, hr => by simp [read] at hr
  | n + 1, .obj a, v, hp, hr => by
    have hpa := hp a (by simp [Ref.addr])
    rw [read] at hr
    split at hr
    · rename_i e
      have hin := hs.2 a hpa _ e
      have hlt := (List.getElem?_eq_some_iff.1 e).1
      simp only [Option.map_eq_some_iff] at hr
      obtain ⟨vs, hv, rfl⟩ := hr
      rw [read, ha a hpa hlt, e]
      simp only [Option.map_eq_some_iff]
      refine ⟨vs, mapM_iff.2 ?_, rfl⟩
      have hv := mapM_iff.1 hv
      refine List.forall₂_iff_get.2 ⟨hv.length_eq, fun i h1 h2 => ?_⟩
      refine val_agree hs ha n _ _ (fun y hy => ?_) ((List.forall₂_iff_get.1 hv).2 i h1 h2)
      simp only [Ref.addr, List.mem_singleton] at hy
      subst hy
      exact hin.2.2 _ (List.get_mem _ _)
    · rename_i e
      have hin := hs.2 a hpa _ e
      have hlt := (List.getElem?_eq_some_iff.1 e).1
      simp only [Option.bind_eq_some_iff, Option.map_eq_some_iff] at hr
      obtain ⟨x, hx, y, hy, rfl⟩ := hr
      rw [read, ha a hpa hlt, e]
      simp only [val_agree hs ha n _ _ hin.2.2.1 hx, val_agree hs ha n _ _ hin.2.2.2 hy, Option.bind_some, Option.map_some]
    · cases hr

theorem Shut.val {P Q : Nat → Prop} {h h' : Heap} (hs : Shut P Q h) (ha : ∀ a, P a → a < h.length → h'[a]? = h[a]?) {a : Nat} {v : KE} (hp : P a) (hv : Val h (.obj a) v) : Val h' (.obj a) v := by
  obtain ⟨n, hn⟩ := hv
  exact ⟨n, val_agree hs ha n _ _ (fun y hy => by simp only [Ref.addr, List.mem_singleton] at hy; subst hy; exact hp) hn⟩

/-! ## The root -/

theorem each_setRootTo {x n : Nat} (ih : ∀ a v h, Val h (.obj a) v → kdepth v ≤ n → ∃ h', setRootTo x n a h = (.ok (), h') ∧ Alike h h') : (cs : List Nat) → (vs : List KE) → (h : Heap) → Vals h cs vs → (∀ v ∈ vs, kdepth v ≤ n) →
    ∃ h', each (setRootTo x n) cs h = (.ok (), h') ∧ Alike h h'
  | _, _, h, .nil, _ => ⟨h, rfl, Alike.refl h⟩
  | _, _, h, .cons (b := v) (l₁ := cs) (l₂ := vs) h1 h2, hd => by
    obtain ⟨h', e1, l1⟩ := ih _ _ h h1 (hd _ (by simp))
    obtain ⟨h'', e2, l2⟩ := each_setRootTo ih cs vs h' (l1.vals h2) (fun v hv => hd v (by simp [hv]))
    exact ⟨h'', by rw [each, run_bind e1, e2], l1.trans l2⟩

theorem setRootTo_val (x : Nat) : (n : Nat) → (a : Nat) → (v : KE) → (h : Heap) → Val h (.obj a) v → kdepth v ≤ n → ∃ h', setRootTo x n a h = (.ok (), h') ∧ Alike h h'
  | 0, a, v, h, hv, hd => by
    obtain ⟨o, ho⟩ := val_obj hv
    cases o with
    | comm => obtain ⟨_, rfl, _⟩ := (val_comm ho).1 hv; simp [kdepth] at hd
    | change => obtain ⟨_, _, rfl, _⟩ := (val_change ho).1 hv; simp [kdepth] at hd
  | n + 1, a, v, h, hv, hd => by
    obtain ⟨o, ho⟩ := val_obj hv
    have l1 : Alike h (h.set a (o.withRoot (some x))) := alike_set ho (by cases o <;> rfl)
    have g1 : (h.set a (o.withRoot (some x)))[a]? = some (o.withRoot (some x)) := get_set_self ho
    cases o with
    | comm rt p op b cs =>
      obtain ⟨vs, rfl, hvs⟩ := (val_comm ho).1 hv
      simp only [kdepth] at hd
      obtain ⟨h', e, l2⟩ := each_setRootTo (setRootTo_val x n) cs vs _ (l1.vals hvs) (fun v hv => by have := kdepth_mem hv; omega)
      refine ⟨h', ?_, l1.trans l2⟩
      rw [setRootTo, run_bind (run_edit ho), run_bind (run_look g1)]
      exact e
    | change rt p c l r =>
      obtain ⟨lv, rv, rfl, hl, hr⟩ := (val_change ho).1 hv
      simp only [kdepth] at hd
      have side : ∀ (y : Ref) (w : KE) (h : Heap), Val h y w → kdepth w ≤ n → ∃ h', onRef (setRootTo x n) y h = (.ok (), h') ∧ Alike h h' := by
        intro y w h hy hw
        cases y with
        | str b => exact ⟨h, rfl, Alike.refl h⟩
        | obj b => exact setRootTo_val x n b w h hy hw
      obtain ⟨h2, e2, l2⟩ := side l lv _ (l1.val hl) (by omega)
      obtain ⟨h3, e3, l3⟩ := side r rv _ ((l1.trans l2).val hr) (by omega)
      refine ⟨h3, ?_, (l1.trans l2).trans l3⟩
      rw [setRootTo, run_bind (run_edit ho), run_bind (run_look g1)]
      exact (run_bind e2).trans e3

theorem setRoot_val {h : Heap} {a : Nat} {v : KE} (hv : Val h (.obj a) v) (x : Option Nat) : ∃ h', setRoot a x h = (.ok (), h') ∧ Alike h h' :=
  setRootTo_val _ (h.length + 1) a v h hv (Nat.le_succ_of_le (val_bound hv))

theorem setParent_val {h : Heap} {a : Nat} {v : KE} (hv : Val h (.obj a) v) (x : Option Nat) : ∃ h', setParent a x h = (.ok (), h') ∧ Alike h h' := by
  obtain ⟨o, ho⟩ := val_obj hv
  exact ⟨_, run_edit ho, alike_set ho (by cases o <;> rfl)⟩

theorem val_obj_not_base {h : Heap} {a : Nat} {v : KE} (hv : Val h (.obj a) v) : v.isBase = false := by
  obtain ⟨o, ho⟩ := val_obj hv
  cases o with
  | comm => obtain ⟨_, rfl, _⟩ := (val_comm ho).1 hv; rfl
  | change => obtain ⟨_, _, rfl, _⟩ := (val_change ho).1 hv; rfl

theorem extractsSelf_of {k : KE} (hw : wf k = true) (hs : isSingleton k = false) : extractsSelf k = true := by
  cases k with
  | base => rfl
  | change => rfl
  | comm o b cs =>
    have := Counter.length_elements (wf_comm.1 hw).2.1
    simp only [isSingleton, decide_eq_false_iff_not] at hs
    simp only [extractsSelf, Bool.not_eq_true', Bool.or_eq_false_iff, Bool.and_eq_false_iff, decide_eq_false_iff_not, List.isEmpty_eq_false_iff]
    constructor
    · by_cases h : cs = []
      · subst h; simp at hs; left; omega
      · exact .inr h
    · by_cases h : cs.length = 1
      · left; omega
      · exact .inr h

theorem extract_stays {h : Heap} {a : Nat} {v : KE} (hv : Val h (.obj a) v) (he : extractsSelf v = true) : extract a h = (.ok (.obj a), h) := by
  obtain ⟨o, ho⟩ := val_obj hv
  rw [extract, run_bind (run_look ho)]
  cases o with
  | change => rfl
  | comm rt p op b cs =>
    obtain ⟨vs, rfl, hvs⟩ := (val_comm ho).1 hv
    have hl := hvs.length_eq
    simp only [extractsSelf, Bool.not_eq_true', Bool.or_eq_false_iff, Bool.and_eq_false_iff, decide_eq_false_iff_not, List.isEmpty_eq_false_iff] at he
    rcases vs with _ | ⟨v, _ | ⟨v', vs⟩⟩
    · obtain rfl : cs = [] := by simpa using hl
      have h1 : b.total ≠ 1 := by simpa using he.1
      cases hb : b.elements with
      | nil => simp only [hb]; rfl
      | cons => simp only [hb]; rw [if_neg h1]; rfl
    · obtain ⟨z, rfl⟩ := List.length_eq_one_iff.1 hl
      have h1 : b.total ≠ 0 := by simpa using he.2
      have : (if b.total = 0 then (do setParent z p; pure (.obj z)) else pure (.obj a) : M Ref) h = (.ok (.obj a), h) := by
        rw [if_neg h1]; rfl
      cases hb : b.elements <;> (simp only [hb]; exact this)
    · obtain ⟨z, z', zs, rfl⟩ : ∃ z z' zs, cs = z :: z' :: zs := by
        rcases cs with _ | ⟨z, _ | ⟨z', zs⟩⟩ <;> simp at hl
        exact ⟨_, _, _, rfl⟩
      cases hb : b.elements <;> (simp only [hb]; rfl)

/-- `standardise_singleton_root` on an object whose parts may be shared. -/
theorem standardiseF_val (cfg : Cfg) : (n : Nat) → (a : Nat) → (v w : KE) → (h : Heap) → Val h (.obj a) v → Sound cfg v → KE.standardiseF cfg n v = some w →
    ∃ r h', standardiseF cfg n a h = (.ok r, h') ∧ Val h' (.obj r) w
  | 0, _, _, _, _, _, _, hw => by cases hw
  | n + 1, a, v, w, h, hv, hs, hw => by
    obtain ⟨h1, e1, v1, _⟩ := simplify_val hv hs
    obtain ⟨e, h2, e2, l2, v2, _⟩ := extract_val v1
    have hnor := hs.normal
    have hwf := (normal_iff.1 hnor).1
    rw [KE.standardiseF] at hw
    have run : standardiseF cfg (n + 1) a h = (match (generalizing := false) e with
        | .str b => do
          let t ← newList cfg .sum [b] []
          setRoot t none
          pure t
        | .obj c =>
          if c = a then pure a
          else do
            setParent c none
            setRoot c none
            standardiseF cfg n c : M Nat) h2 := by
      rw [standardiseF]
      refine (run_bind e1).trans ((run_bind e2).trans ?_)
      rfl
    have vnb := val_obj_not_base v1
    generalize KE.simplify cfg v = s at *
    rcases KE.extract_cases hwf with ⟨hx, hy⟩ | ⟨o, b, rfl, hy⟩ | ⟨o, ct, rfl, hy⟩
    · have hself := extractsSelf_of hwf hx
      have := extract_stays v1 hself
      rw [this] at e2
      simp only [Prod.mk.injEq, Except.ok.injEq] at e2
      obtain ⟨rfl, rfl⟩ := e2
      simp only [hself, if_true, Option.some.injEq] at hw
      subst hw
      exact ⟨a, h1, by rw [run]; simp [run_pure], v1⟩
    · rw [hy] at v2
      simp only [show extractsSelf (KE.comm o [(b, 1)] []) = false from rfl, Bool.false_eq_true, if_false, hy, Option.some.injEq] at hw
      cases e with
      | obj c => have := val_obj_not_base v2; cases this
      | str b' =>
        have := val_str.1 v2
        cases this
        obtain ⟨k, hc, ec, xc, mc, pc⟩ := newComm_top cfg .sum (Counter.ofList [b]) (h := h2) (cts := []) (by simp) (by simp [idsL])
        obtain ⟨hd, ed, sd, md⟩ := setRoot_ok none mc.node mc.good.stored mc.good.nodup
        refine ⟨addr k, hd, ?_, ?_⟩
        · rw [run]
          simp only
          rw [newList]
          exact (run_bind ec).trans ((run_bind ed).trans rfl)
        · have h5 := val_stored sd
          rw [toRef_obj (by simpa using mc.node)] at h5
          have h6 : addr (LK.setRoot none k) = addr k := by simp [addr]
          rw [h6, erase_setRoot, mc.value] at h5
          rw [← hw]
          exact h5
    · rw [hy] at v2
      have hct := normal_child hnor ct (by simp)
      simp only [show extractsSelf (KE.comm o [] [ct]) = false from rfl, Bool.false_eq_true, if_false, hy] at hw
      have hcb := ((wf_comm.1 hwf).2.2 ct (by simp)).1
      have hw' : KE.standardiseF cfg n ct = some w := by
        cases ct with
        | base => cases hcb
        | comm => exact hw
        | change => exact hw
      cases e with
      | str b => have := val_str.1 v2; subst this; cases hcb
      | obj c =>
        have hne : c ≠ a := by
          rintro rfl
          have := congrArg kdepth (val_unique v1 v2)
          simp only [kdepth, kdepthL] at this
          omega
        obtain ⟨h3, e3, l3⟩ := setParent_val (l2.val v2) none
        obtain ⟨h4, e4, l4⟩ := setRoot_val (l3.val (l2.val v2)) none
        obtain ⟨r, h5, e5, v5⟩ := standardiseF_val cfg n c ct w h4 (l4.val (l3.val (l2.val v2))) (sound_of_normal _ ct (Nat.le_refl _) hct.1) hw'
        refine ⟨r, h5, ?_, v5⟩
        rw [run]
        simp only [hne, if_false]
        exact (run_bind e3).trans ((run_bind e4).trans e5)

end Objects
end GPyABCD
