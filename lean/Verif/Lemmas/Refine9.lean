import Verif.Lemmas.Refine8

/-!
# The store does to trees what the model of trees says: `new_tree_with_self_replaced`, continued
-/

namespace GPyABCD
namespace Objects
open Links Links.LK
open KE hiding nodes

/-- The tree `t` with the node `m` in it, made at addresses from `L` on. -/
structure Grown (L : Nat) (h : Heap) (t m : LK) (vt vm : KE) : Prop where
  stored : Stored h t
  linked : WellLinked t
  value : t.erase = vt
  new : ∀ a ∈ ids t, L ≤ a
  node : m.isStr = false
  mstored : Stored h m
  mnodup : (ids m).Nodup
  mroot : m.root = some (addr t)
  mvalue : m.erase = vm
  msub : ∀ a ∈ ids m, a ∈ ids t

theorem Grown.ext {L : Nat} {h h' : Heap} {t m : LK} {vt vm : KE} (hg : Grown L h t m vt vm) (he : Ext h h') : Grown L h' t m vt vm :=
  ⟨he.stored hg.stored, hg.linked, hg.value, hg.new, hg.node, he.stored hg.mstored, hg.mnodup, hg.mroot, hg.mvalue, hg.msub⟩

theorem noTwinsL_iff {ks : List KE} : NoTwinsL ks ↔ ∀ k ∈ ks, NoTwins k := by
  induction ks with
  | nil => simp [NoTwinsL]
  | cons k ks ih => simp [NoTwinsL, ih]

theorem noTwins_nodes : (k : LK) → NoTwins k.erase → ∀ u ∈ nodes k, NoTwins u.erase
  | .str _, _, u, hu => by simp [nodes] at hu
  | .comm i r p op b c, hs, u, hu => by
    simp only [nodes, List.mem_cons] at hu
    rcases hu with rfl | hu
    · exact hs
    · simp only [erase, NoTwins, eraseL_eq, noTwinsL_iff] at hs
      obtain ⟨k, hk, hu⟩ := mem_nodesL.1 hu
      exact noTwins_nodes k (hs.2 _ (List.mem_map_of_mem hk)) u hu
  | .change i rt p c l r, hs, u, hu => by
    simp only [nodes, List.mem_cons, List.mem_append] at hu
    rcases hu with rfl | hu | hu
    · exact hs
    · simp only [erase, NoTwins] at hs; exact noTwins_nodes l hs.1 u hu
    · simp only [erase, NoTwins] at hs; exact noTwins_nodes r hs.2 u hu
termination_by k => sizeOf k
decreasing_by
  all_goals simp_wf
  · have := List.sizeOf_lt_of_mem hk; omega
  · omega
  · omega

theorem ids_branch {w s : LK} (hb : Branch w s) : (ids w).Sublist (ids s) ∧ addr s ∈ ids s ∧ s.isStr = false ∧ ((ids s).Nodup → addr s ∉ ids w) := by
  cases s with
  | str => cases hb
  | comm => cases hb
  | change i rt p c l r =>
    simp only [ids]
    rcases hb with rfl | rfl
    · refine ⟨(List.sublist_append_left _ _).cons _, by simp [addr, LK.id?], rfl, fun hn => ?_⟩
      simp only [List.nodup_cons, List.mem_append, not_or] at hn
      exact hn.1.1
    · refine ⟨(List.sublist_append_right _ _).cons _, by simp [addr, LK.id?], rfl, fun hn => ?_⟩
      simp only [List.nodup_cons, List.mem_append, not_or] at hn
      exact hn.1.2

theorem branch_copy {w s : LK} (f : Nat → Nat) (hb : Branch w s) : Branch (copy f w) (copy f s) := by
  cases s with
  | str => cases hb
  | comm => cases hb
  | change i rt p c l r =>
    rcases hb with rfl | rfl
    · exact .inl rfl
    · exact .inr rfl

/-- What the copied trees are like, and what is done with them. -/
theorem newTree_run {h h1 : Heap} {f : Nat → Nat} {a b : Nat} {bool : Bool} (hd : deepcopy [b, a] h = (.ok f, h1)) (hr : isRoot (f a) h1 = (.ok bool, h1)) :
    newTree a b h = (if bool then do
        setParent (f b) none
        setRoot (f b) none
        pure (f b)
      else do
        let s ← look (f a)
        setParent (f b) s.parent
        setRoot (f b) s.root
        let o ← look (f b)
        match o.parent with
        | none => raise .attribute
        | some p => reassignChild p (f a) (f b) : M Nat) h1 := by
  rw [newTree, run_bind hd, run_bind hr]
  cases bool <;> rfl

/-- The parts common to both cases. -/
theorem newTree_top {h1 : Heap} {W : LK} (hw : W.isStr = false) (hp : Parents W) (hn : (ids W).Nodup) (hs : Stored h1 W) :
    ∃ h', (do
        setParent (addr W) none
        setRoot (addr W) none
        pure (addr W) : M Nat) h1 = (.ok (addr (LK.setRoot none (LK.setParent none W))), h') ∧ Same (· ∈ ids W) h1 h' ∧
      Stored h' (LK.setRoot none (LK.setParent none W)) ∧ WellLinked (LK.setRoot none (LK.setParent none W)) := by
  obtain ⟨h2, e2, s2, m2⟩ := setParent_ok none hw hs hn
  obtain ⟨h3, e3, s3, m3⟩ := setRoot_ok none (k := LK.setParent none W) (by simpa using hw) s2 (by simpa using hn)
  rw [addr_setParent] at e3
  refine ⟨h3, ?_, ?_, s3, wellLinked_top hw hp hn⟩
  · rw [run_bind e2, run_bind e3, run_pure]
    congr 2
    simp [addr]
  · exact (m2.mono (by rintro a rfl; exact addr_mem hw)).trans (m3.mono (by simp))

theorem nodes_trans : (k : LK) → ∀ u ∈ nodes k, ∀ v ∈ nodes u, v ∈ nodes k
  | .str _, u, hu, _, _ => by simp [nodes] at hu
  | .comm i r p op b c, u, hu, v, hv => by
    simp only [nodes, List.mem_cons] at hu
    rcases hu with rfl | hu
    · exact hv
    · obtain ⟨k, hk, hu⟩ := mem_nodesL.1 hu
      simp only [nodes]
      exact List.mem_cons_of_mem _ (mem_nodesL.2 ⟨k, hk, nodes_trans k u hu v hv⟩)
  | .change i rt p c l r, u, hu, v, hv => by
    simp only [nodes, List.mem_cons, List.mem_append] at hu
    rcases hu with rfl | hu | hu
    · exact hv
    · simp only [nodes]; exact List.mem_cons_of_mem _ (List.mem_append_left _ (nodes_trans l u hu v hv))
    · simp only [nodes]; exact List.mem_cons_of_mem _ (List.mem_append_right _ (nodes_trans r u hu v hv))
termination_by k => sizeOf k
decreasing_by
  all_goals simp_wf
  · have := List.sizeOf_lt_of_mem hk; omega
  · omega
  · omega

theorem branch_mem {w s : LK} (hb : Branch w s) (hw : w.isStr = false) : w ∈ nodes s := by
  cases s with
  | str => cases hb
  | comm => cases hb
  | change i rt p c l r =>
    simp only [nodes]
    rcases hb with rfl | rfl
    · exact List.mem_cons_of_mem _ (List.mem_append_left _ (self_mem_nodes hw))
    · exact List.mem_cons_of_mem _ (List.mem_append_right _ (self_mem_nodes hw))

/-- A change operator below `u` is a part of it. -/
theorem held_mem {cfg : Cfg} {fresh : Nat → Bool → Nat} {s u w : LK} (hh : Held cfg fresh s u) (hb : Branch w s) (hn : (ids u).Nodup) :
    s ∈ nodes u ∧ addr u ∉ ids s ∧ ∀ a ∈ ids s, a ∈ ids u := by
  obtain ⟨_, _, hs, _⟩ := ids_branch hb
  cases u with
  | str => cases hh
  | comm i r p o b c =>
    simp only [Held] at hh
    simp only [ids, List.nodup_cons] at hn
    refine ⟨?_, fun hh' => hn.1 (mem_idsL.2 ⟨s, hh, hh'⟩), fun a ha => ?_⟩
    · simp only [nodes]; exact List.mem_cons_of_mem _ (mem_nodesL.2 ⟨s, hh, self_mem_nodes hs⟩)
    · simp only [ids]; exact List.mem_cons_of_mem _ (mem_idsL.2 ⟨s, hh, ha⟩)
  | change i rt p c l r =>
    simp only [ids, List.nodup_cons, List.mem_append, not_or] at hn
    rcases hh with rfl | rfl | ⟨b, x, rfl⟩
    · refine ⟨?_, hn.1.1, fun a ha => ?_⟩
      · simp only [nodes]; exact List.mem_cons_of_mem _ (List.mem_append_left _ (self_mem_nodes hs))
      · simp only [ids]; simp [ha]
    · refine ⟨?_, hn.1.2, fun a ha => ?_⟩
      · simp only [nodes]; exact List.mem_cons_of_mem _ (List.mem_append_right _ (self_mem_nodes hs))
      · simp only [ids]; simp [ha]
    · obtain ⟨bts, t1, _⟩ := temp_eq cfg i rt (fresh i x) b
      rw [t1] at hb; cases hb

/-- No term of `u` before `s` is equal to it, so that `list.remove` finds `s`. -/
def FirstIn (s : LK) : LK → Prop
  | .comm _ _ _ _ _ c => ∃ pre post, c = pre ++ s :: post ∧ ∀ y ∈ pre, keq s.erase y.erase = false
  | _ => True

/-- No term before `s` among the terms of its parent is equal to it. -/
def First (t s : LK) : Prop := ∀ u ∈ nodes t, s.parent = some (addr u) → FirstIn s u

theorem branch_isChange {w s : LK} (hb : Branch w s) : isChange s.erase = true := by
  cases s with
  | str => cases hb
  | comm => cases hb
  | change => rfl

theorem firstIn_of_noTwins {cfg : Cfg} {fresh : Nat → Bool → Nat} {s u w : LK} (hh : Held cfg fresh s u) (hb : Branch w s) (ht : NoTwins u.erase) : FirstIn s u := by
  have hch := branch_isChange hb
  cases u with
  | str => trivial
  | change => trivial
  | comm i r p o b c =>
    simp only [Held] at hh
    simp only [erase, NoTwins, eraseL_eq] at ht
    obtain ⟨pre, post, rfl⟩ := List.append_of_mem hh
    refine ⟨pre, post, rfl, ?_⟩
    intro y hy
    rw [keq_comm]
    by_cases hc : isChange y.erase = true
    · have := ht.1
      rw [List.map_append, List.map_cons, List.pairwise_append] at this
      exact this.2.2 _ (List.mem_map_of_mem hy) _ (by simp) hc hch
    · cases y with
      | str => cases s <;> simp_all [erase, keq, isChange]
      | comm => cases s <;> simp_all [erase, keq, isChange]
      | change => exact absurd rfl hc

theorem first_of_noTwins {cfg : Cfg} {fresh : Nat → Bool → Nat} {t s w : LK} {pos : List Step} {R T : Option Nat → Prop} (hG : G R T t) (hn : (ids t).Nodup)
    (hq : (pos, s) ∈ LK.traverse cfg fresh t) (hp : pos ≠ []) (hb : Branch w s) (ht : NoTwins t.erase) : First t s := by
  intro u hu hpar
  obtain ⟨u', hu', _, hpar', hheld⟩ := parent_holds t hG hq hp
  simp only at hpar' hheld
  rw [hpar] at hpar'
  obtain rfl := nodes_inj t hn u hu u' hu' (Option.some.inj hpar')
  exact firstIn_of_noTwins hheld hb (noTwins_nodes t ht u hu)

/-- If no earlier term is equal, the node itself is replaced, whatever has been done below it. -/
theorem reassign_self {cfg : Cfg} {fresh : Nat → Bool → Nat} {s u w new : LK} {adj : LK → LK} (hh : Held cfg fresh s u) (hb : Branch w s) (hw : w.isStr = false)
    (hn : (ids u).Nodup) (hf : FirstIn s u) (ha : (adj w).erase = w.erase) :
    reassign (update (addr w) adj s) new (update (addr w) adj u) = reassign s new u ∧ (ids (reassign s new u) ++ ids s).Perm (ids u ++ ids new) ∧
      (∀ {i r p o b c}, update (addr w) adj u = .comm i r p o b c → update (addr w) adj s ∈ c) := by
  obtain ⟨b1, b2, hs, b4⟩ := ids_branch hb
  obtain ⟨m1, m2, m3⟩ := held_mem hh hb hn
  have hws := branch_mem hb hw
  have hns := nodes_nodup u hn s m1
  have hwid : addr w ∈ ids s := b1.subset (addr_mem hw)
  have hne : addr s ≠ addr w := fun e => b4 hns (e ▸ addr_mem hw)
  have hes : (update (addr w) adj s).erase = s.erase := update_erase ha s hns hws
  have hid : (update (addr w) adj s).id? = s.id? := by
    cases s with
    | str => rfl
    | comm i => rw [update, if_neg (show ¬ i = addr w from hne)]; rfl
    | change i => rw [update, if_neg (show ¬ i = addr w from hne)]; rfl
  cases u with
  | str => cases hh
  | comm i r p o b c =>
    simp only [Held] at hh
    have hn' := hn
    simp only [ids, List.nodup_cons] at hn
    obtain ⟨pre, post, rfl, hpre⟩ := hf
    have hiw : ¬ i = addr w := fun e => m2 (by rw [show addr (.comm i r p o b (pre ++ s :: post)) = addr w from e]; exact hwid)
    have hrem : removeFirst (fun y : LK => keq s.erase y.erase) (pre ++ s :: post) = some (pre ++ post) := removeFirst_at hpre (keq_refl _)
    have hnn := hn.2
    simp only [idsL_append, idsL, List.nodup_append, List.mem_append] at hnn
    have hpre' : addr w ∉ idsL pre := fun hx => hnn.2.2 _ hx _ (.inl hwid) rfl
    have hpost' : addr w ∉ idsL post := fun hx => hnn.2.1.2.2 _ hwid _ hx rfl
    have hup : updateL (addr w) adj (pre ++ s :: post) = pre ++ update (addr w) adj s :: post := by
      have happ : ∀ xs ys : List LK, updateL (addr w) adj (xs ++ ys) = updateL (addr w) adj xs ++ updateL (addr w) adj ys := by
        intro xs ys
        induction xs with
        | nil => rfl
        | cons x xs ih => simp only [List.cons_append, updateL, ih]
      rw [happ, updateL, updateL_of_not_mem _ adj pre hpre', updateL_of_not_mem _ adj post hpost']
    have hrem' : removeFirst (fun y : LK => keq (update (addr w) adj s).erase y.erase) (pre ++ update (addr w) adj s :: post) = some (pre ++ post) :=
      removeFirst_at (by rw [hes]; exact hpre) (keq_refl _)
    rw [update, if_neg hiw, hup]
    simp only [reassign, hrem, hrem', Option.getD_some]
    refine ⟨trivial, ?_, ?_⟩
    · rw [List.perm_iff_count]
      intro a
      simp only [ids, idsL_append, idsL, List.append_nil, List.count_append, List.count_cons]
      omega
    · rintro i r p o b c e
      cases e
      simp
  | change i rt p c l r =>
    have hiw : ¬ i = addr w := fun e => m2 (by rw [show addr (.change i rt p c l r) = addr w from e]; exact hwid)
    simp only [ids, List.nodup_cons, List.mem_append, not_or, List.nodup_append] at hn
    rw [update, if_neg hiw]
    have hidn : s.id? ≠ none := by rw [id_addr hs]; simp
    rcases hh with rfl | rfl | ⟨b, x, rfl⟩
    · have hr : addr w ∉ ids r := fun hx => hn.2.2.2 _ hwid _ hx rfl
      rw [update_of_not_mem _ adj r hr, reassign, if_pos ⟨rfl, by rw [hid]; exact hidn⟩, reassign, if_pos ⟨rfl, hidn⟩]
      refine ⟨rfl, ?_, by intro _ _ _ _ _ _ e; cases e⟩
      rw [List.perm_iff_count]; intro a
      simp only [ids, List.count_append, List.count_cons]; omega
    · have hl : addr w ∉ ids l := fun hx => hn.2.2.2 _ hx _ hwid rfl
      have hneq : ¬ (l.id? = s.id? ∧ l.id? ≠ none) := by
        rintro ⟨e, _⟩
        rw [id_addr hs] at e
        exact hn.2.2.2 _ (id_mem e) _ (addr_mem hs) rfl
      rw [update_of_not_mem _ adj l hl, reassign, if_neg (by rw [hid]; exact hneq), reassign, if_neg hneq]
      refine ⟨rfl, ?_, by intro _ _ _ _ _ _ e; cases e⟩
      rw [List.perm_iff_count]; intro a
      simp only [ids, List.count_append, List.count_cons]; omega
    · obtain ⟨bts, t1, _⟩ := temp_eq cfg i rt (fresh i x) b
      rw [t1] at hb; cases hb

/-- The node `m` of an object that reads as `vt`, whose parts may be shared, made at addresses from `L` on. -/
def Shared (L : Nat) (h : Heap) (m : Nat) (vt vm : KE) : Prop :=
  ∃ k n : LK, n.isStr = false ∧ addr n = m ∧ Stored h n ∧ n.erase = vm ∧ k.isStr = false ∧ Stored h k ∧ k.erase = vt ∧ n.root = some (addr k) ∧ L ≤ addr k ∧ L ≤ m

theorem update_erase_congr {g g' : LK → LK} {u : LK} (hv : (g u).erase = (g' u).erase) : (k : LK) → (ids k).Nodup → u ∈ nodes k →
    (update (addr u) g k).erase = (update (addr u) g' k).erase
  | .str _, _, h => by simp [nodes] at h
  | .comm i r p op b c, hn, hu => by
    rw [update, update]
    split_ifs with hi
    · have : u = .comm i r p op b c := nodes_inj _ hn u hu _ (self_mem_nodes rfl) (by rw [← hi]; rfl)
      subst this
      exact hv
    · simp only [ids, List.nodup_cons] at hn
      simp only [nodes, List.mem_cons] at hu
      have hu : u ∈ nodesL c := by
        rcases hu with rfl | hu
        · exact absurd rfl hi
        · exact hu
      obtain ⟨hu1, hu2⟩ := nodesL_ids c u hu
      obtain ⟨k, hk, hu⟩ := mem_nodesL.1 hu
      obtain ⟨m, hlt, rfl⟩ := List.getElem_of_mem hk
      obtain ⟨_, hu3⟩ := nodes_ids _ u hu
      have ih := update_erase_congr (g := g) (g' := g') hv c[m] (nodup_get hn.2 hlt) hu
      rw [updateL_at _ g c hn.2 hlt (hu3 _ (addr_mem hu1)), updateL_at _ g' c hn.2 hlt (hu3 _ (addr_mem hu1)), erase, erase, eraseL_set, eraseL_set, ih]
  | .change i rt p c l r, hn, hu => by
    rw [update, update]
    split_ifs with hi
    · have : u = .change i rt p c l r := nodes_inj _ hn u hu _ (self_mem_nodes rfl) (by rw [← hi]; rfl)
      subst this
      exact hv
    · simp only [ids, List.nodup_cons, List.mem_append, not_or, List.nodup_append] at hn
      simp only [nodes, List.mem_cons, List.mem_append] at hu
      rcases hu with rfl | hu | hu
      · exact absurd rfl hi
      · obtain ⟨hu1, hu2⟩ := nodes_ids l u hu
        have hx := fun hh => hn.2.2.2 _ (hu2 _ (addr_mem hu1)) _ hh rfl
        rw [update_of_not_mem _ g r hx, update_of_not_mem _ g' r hx, erase, erase, update_erase_congr hv l hn.2.1 hu]
      · obtain ⟨hu1, hu2⟩ := nodes_ids r u hu
        have hx := fun hh => hn.2.2.2 _ hh _ (hu2 _ (addr_mem hu1)) rfl
        rw [update_of_not_mem _ g l hx, update_of_not_mem _ g' l hx, erase, erase, update_erase_congr hv r hn.2.2.1 hu]
termination_by k => sizeOf k
decreasing_by
  all_goals simp_wf
  · have := List.sizeOf_lt_of_mem (List.getElem_mem hlt); omega
  · omega
  · omega

theorem mem_updateL {y : Nat} {g : LK → LK} {s : LK} : {c : List LK} → s ∈ c → update y g s ∈ updateL y g c
  | _ :: _, h => by
    rw [updateL]
    rcases List.mem_cons.1 h with rfl | h
    · exact List.mem_cons_self
    · exact List.mem_cons_of_mem _ (mem_updateL h)

/-- The value of the parent after the replacement, also where another term is dropped. -/
theorem reassign_value {cfg : Cfg} {fresh : Nat → Bool → Nat} {s u w new : LK} {adj : LK → LK} (hh : Held cfg fresh s u) (hb : Branch w s) (hw : w.isStr = false)
    (hn : (ids u).Nodup) (ha : (adj w).erase = w.erase) :
    (reassign (update (addr w) adj s) new (update (addr w) adj u)).erase = (reassign s new u).erase ∧
      (∀ {i r p o b c}, update (addr w) adj u = .comm i r p o b c → update (addr w) adj s ∈ c) := by
  cases u with
  | str => cases hh
  | change =>
    obtain ⟨r1, _, r3⟩ := reassign_self (new := new) (adj := adj) hh hb hw hn trivial ha
    exact ⟨by rw [r1], r3⟩
  | comm i r p o b c =>
    obtain ⟨b1, b2, hs, b4⟩ := ids_branch hb
    obtain ⟨m1, m2, m3⟩ := held_mem hh hb hn
    have hws := branch_mem hb hw
    have hes := update_erase ha s (nodes_nodup _ hn s m1) hws
    have heu := update_erase ha _ hn (nodes_trans _ s m1 w hws)
    have hiw : ¬ i = addr w := fun e => m2 (by rw [show addr (.comm i r p o b c) = addr w from e]; exact b1.subset (addr_mem hw))
    simp only [Held] at hh
    rw [update, if_neg hiw] at heu ⊢
    refine ⟨?_, fun e => by cases e; exact mem_updateL hh⟩
    simp only [erase, eraseL_eq, KE.comm.injEq, true_and] at heu
    simp only [reassign, erase, eraseL_append, hes]
    have key : ∀ xs : List LK, ((removeFirst (fun y : LK => keq s.erase y.erase) xs).getD xs).map LK.erase =
        (removeFirst (fun y => keq s.erase y) (xs.map LK.erase)).getD (xs.map LK.erase) := by
      intro xs
      rw [← removeFirst_map LK.erase (fun y => keq s.erase y) xs]
      cases removeFirst (fun y : LK => keq s.erase y.erase) xs <;> rfl
    simp only [eraseL_eq, key, heu]

/-- Below the top: the new node is linked to the parent and the root, and the parent takes it in. -/
theorem newTree_below (cfg : Cfg) {L x : Nat} {h1 : Heap} {T S W : LK} {pos : List Step} (hTL : WellLinked T) (hST : Stored h1 T) (hfn : x ∉ ids T)
    (hq : (pos, S) ∈ LK.traverse cfg (fun _ _ => x) T) (hp : pos ≠ []) (hsS : S.isStr = false) (hSS : Stored h1 S) (hsW : W.isStr = false) (hSW : Stored h1 W)
    (hdW : (ids W).Nodup) (hpW : Parents W) (hd : (∀ x ∈ ids W, x ∉ ids T) ∨ First T S ∧ Branch W S)
    (hnewW : ∀ a ∈ ids W, L ≤ a) (hnewT : ∀ a ∈ ids T, L ≤ a) :
    ∃ t' m h', (do
        let s ← look (addr S)
        setParent (addr W) s.parent
        setRoot (addr W) s.root
        let o ← look (addr W)
        match o.parent with
        | none => raise .attribute
        | some p => reassignChild p (addr S) (addr W) : M Nat) h1 = (.ok (addr m), h') ∧ Same (fun a => a ∈ ids T ∨ a ∈ ids W) h1 h' ∧
      Grown L h' t' m (replaceAt T.erase pos W.erase) W.erase := by
  obtain ⟨⟨i, hTi, hTl⟩, hTn⟩ := hTL
  have hTG := (linked_iff _ _ _).1 hTl
  obtain ⟨u, hu, _, hpar, hheld⟩ := parent_holds T hTG hq hp
  simp only at hpar hheld
  obtain ⟨y, _, hpar', hroot, _, hrep⟩ := update_ok T hTG hTn (fun _ _ => hfn) hq hp
  simp only at hpar' hroot hrep
  obtain rfl : addr u = y := by rw [hpar] at hpar'; exact Option.some.inj hpar'
  obtain ⟨hu1, hu2⟩ := nodes_ids T u hu
  have hun := nodes_nodup T hTn u hu
  -- the links of the new node
  obtain ⟨o, ho, hor, hop⟩ := obj_of_node hsS hSS
  obtain ⟨h2, e2, s2, m2⟩ := setParent_ok (some (addr u)) hsW hSW hdW
  obtain ⟨h3, e3, s3, m3⟩ := setRoot_ok (some i) (k := LK.setParent (some (addr u)) W) (by simpa using hsW) s2 (by simpa using hdW)
  rw [addr_setParent] at e3
  have mW : Same (· ∈ ids W) h1 h3 := (m2.mono (by rintro a rfl; exact addr_mem hsW)).trans (m3.mono (by simp))
  generalize hadj : (fun w => LK.setRoot (some i) (LK.setParent (some (addr u)) w)) = adj
  have hW' : LK.setRoot (some i) (LK.setParent (some (addr u)) W) = adj W := by rw [← hadj]
  have hG' : G (fun r => r = some i) (fun p => p = some (addr u)) (adj W) := by
    rw [← hW']
    obtain ⟨j, hj⟩ : ∃ j, W.id? = some j := ⟨_, id_addr hsW⟩
    rw [setRoot_eq]
    simp only [id_setParent, hj, Option.getD_some]
    exact G_setRootTo i _ (G_setParent ((parents_iff W).1 hpW) rfl)
  have hidW : ids (adj W) = ids W := by rw [← hW']; simp
  have haW : addr (adj W) = addr W := by rw [← hW']; simp [addr]
  have hsW' : (adj W).isStr = false := by rw [← hW']; simp [hsW]
  have hvW : (adj W).erase = W.erase := by rw [← hW']; simp
  have hrW : (adj W).root = some i := by rw [← hW']; rw [root_setRoot _ (by simpa using hsW)]; rfl
  have hpW' : (adj W).parent = some (addr u) := by
    have := (G_top.1 hG').2 hsW'
    exact this
  rw [hW'] at s3
  have H := hrep (adj W) hsW' hG'
  obtain ⟨o', ho', _, hop'⟩ := obj_of_node hsW' s3
  rw [haW] at ho'
  rw [hpW'] at hop'
  -- the parent takes it in
  have main : addr u ∉ ids W ∧ (ids (update (addr u) (reassign S (adj W)) T)).Nodup ∧
      ∃ h4, reassignChild (addr u) (addr S) (addr W) h3 = (.ok (addr W), h4) ∧ Stored h4 (update (addr u) (reassign S (adj W)) T) ∧ Same (· = addr u) h3 h4 := by
    rcases hd with hd | ⟨hd, hb⟩
    · have h0 : addr u ∉ ids W := fun hh => hd _ hh (hu2 _ (addr_mem hu1))
      refine ⟨h0, ?_, ?_⟩
      · refine nodup_subperm H.ids ?_
        rw [List.nodup_append]
        refine ⟨hTn, by rw [hidW]; exact hdW, ?_⟩
        intro a ha b hb e
        subst e
        rw [hidW] at hb
        exact hd a hb ha
      · have hST3 := mW.stored (fun a ha hh => hd a hh ha) hST
        obtain ⟨h4, e4, s4, m4⟩ := reassign_ok (h := h3) (u := u) (s := S) (new := adj W) hu1 (stored_nodes T hST3 u hu) hun hsS
          (by rintro i r p o b c rfl; exact hheld) hsW' s3 (by rw [hidW]; exact h0)
        refine ⟨h4, by rw [haW] at e4; exact e4, ?_, m4⟩
        exact stored_update m4 s4 (addr_reassign _ _ _).1 ((addr_reassign _ _ _).2.trans hu1) T hST3 hTn hu (by rintro a _ rfl; exact addr_mem hu1)
    · obtain ⟨b1, b2, _, b4⟩ := ids_branch hb
      obtain ⟨n1, n2, n3⟩ := held_mem hheld hb hun
      have hWS := branch_mem hb hsW
      have hWu := nodes_trans u S n1 W hWS
      have hWT := nodes_trans T u hu W hWu
      have h0 : addr u ∉ ids W := fun hh => n2 (b1.subset hh)
      obtain ⟨r1, r2, r3⟩ := reassign_self (new := adj W) (adj := adj) hheld hb hsW hun (hd u hu hpar) hvW
      have hyu : addr W ∈ ids u := n3 _ (b1.subset (addr_mem hsW))
      have hyne : addr W ≠ addr u := fun e => h0 (e ▸ addr_mem hsW)
      have hyS : addr W ≠ addr S := fun e => b4 (nodes_nodup u hun S n1) (e ▸ addr_mem hsW)
      refine ⟨h0, ?_, ?_⟩
      · have p1 := update_perm (g := reassign S (adj W)) T hTn hu
        rw [List.nodup_iff_count_le_one] at hTn ⊢
        intro a
        have c1 := (List.perm_iff_count.1 p1) a
        have c2 := (List.perm_iff_count.1 r2) a
        have c3 := hTn a
        have c4 := b1.count_le a
        rw [hidW] at c2
        simp only [List.count_append] at c1 c2
        omega
      · have hST3 : Stored h3 (update (addr W) adj T) := stored_update mW s3 haW hsW' T hST hTn hWT (fun a _ ha => ha)
        have hTn3 : (ids (update (addr W) adj T)).Nodup := by
          have p1 := update_perm (g := adj) T hTn hWT
          rw [List.nodup_iff_count_le_one] at hTn ⊢
          intro a
          have c1 := (List.perm_iff_count.1 p1) a
          have c3 := hTn a
          rw [hidW] at c1
          simp only [List.count_append] at c1
          omega
        have hu3 := mem_update (adj := adj) hyu hyne T hTn hu
        have hau : addr (update (addr W) adj u) = addr u ∧ (update (addr W) adj u).isStr = false := by
          have := addr_update (y := addr W) (g := adj) haW hsW' u hun hWu rfl
          exact ⟨this.1, this.2.trans hu1⟩
        have haS : addr (update (addr W) adj S) = addr S ∧ (update (addr W) adj S).isStr = false := by
          have := addr_update (y := addr W) (g := adj) haW hsW' S (nodes_nodup u hun S n1) hWS rfl
          exact ⟨this.1, this.2.trans hsS⟩
        obtain ⟨h4, e4, s4, m4⟩ := reassign_ok (h := h3) (u := update (addr W) adj u) (s := update (addr W) adj S) (new := adj W) hau.2
          (stored_nodes _ hST3 _ hu3) (nodes_nodup _ hTn3 _ hu3) haS.2 r3 hsW' s3 (by rw [hau.1, hidW]; exact h0)
        rw [hau.1, haS.1, haW] at e4
        rw [hau.1] at m4
        refine ⟨h4, e4, ?_, m4⟩
        have := stored_update (A := (· = addr u)) m4 s4 (addr_reassign _ _ _).1 ((addr_reassign _ _ _).2.trans hau.2) _ hST3 hTn3 hu3
          (by rintro a _ rfl; rw [← hau.1]; exact addr_mem hau.2)
        rw [hau.1, update_update hyu hyne r1 T hTn hu] at this
        exact this
  obtain ⟨h0, hnd, h4, e4, s4, m4⟩ := main
  have hat := addr_update (y := addr u) (g := reassign S (adj W)) (addr_reassign _ _ _).1 ((addr_reassign _ _ _).2.trans hu1) T hTn hu rfl
  have haT : addr T = i := by rw [addr, hTi]; rfl
  refine ⟨_, adj W, h4, ?_, ?_, ⟨s4, ⟨⟨i, by rw [H.top.1, hTi], (linked_iff _ _ _).2 H.links⟩, hnd⟩, ?_, ?_, hsW', ?_, by rw [hidW]; exact hdW, ?_, hvW, ?_⟩⟩
  · rw [run_bind (run_look ho), hop, hor, hroot, hpar]
    rw [run_bind e2, run_bind e3, run_bind (run_look ho')]
    rw [hop', haW]
    exact e4
  · exact (mW.mono fun _ h => .inr h).trans (m4.mono (by rintro a rfl; exact .inl (hu2 _ (addr_mem hu1))))
  · rw [H.erase, hvW]
  · intro a ha
    have p1 := update_perm (g := reassign S (adj W)) T hTn hu
    rcases List.mem_append.1 (p1.subset (List.mem_append_left _ ha)) with ha | ha
    · exact hnewT a ha
    · rcases ids_reassign _ _ _ a ha with ha | ha
      · exact hnewT a (hu2 a ha)
      · exact hnewW a (hidW ▸ ha)
  · exact m4.stored (by rintro a ha rfl; exact h0 (hidW ▸ ha)) s3
  · rw [hrW, hat.1, haT]
  · intro a ha
    have p1 := (List.perm_iff_count.1 (update_perm (g := reassign S (adj W)) T hTn hu)) a
    have ha' := List.count_pos_iff.2 (ids_reassign_new S (adj W) hu1 a ha)
    rw [← List.count_pos_iff]
    simp only [List.count_append] at p1
    have c1 := (List.nodup_iff_count_le_one.1 hun) a
    by_cases hau : a ∈ ids u
    · have := List.count_pos_iff.2 (hu2 a hau)
      omega
    · rw [List.count_eq_zero.2 hau] at p1
      omega

/-- The same where the new node is a branch of a change operator that has an equal one before it. -/
theorem newTree_shared (cfg : Cfg) {L x : Nat} {h1 : Heap} {T S W : LK} {pos : List Step} (hTL : WellLinked T) (hST : Stored h1 T) (hfn : x ∉ ids T)
    (hq : (pos, S) ∈ LK.traverse cfg (fun _ _ => x) T) (hp : pos ≠ []) (hsS : S.isStr = false) (hSS : Stored h1 S) (hsW : W.isStr = false) (hSW : Stored h1 W)
    (hdW : (ids W).Nodup) (hpW : Parents W) (hb : Branch W S)
    (hnewW : ∀ a ∈ ids W, L ≤ a) (hnewT : ∀ a ∈ ids T, L ≤ a) :
    ∃ h', (do
        let s ← look (addr S)
        setParent (addr W) s.parent
        setRoot (addr W) s.root
        let o ← look (addr W)
        match o.parent with
        | none => raise .attribute
        | some p => reassignChild p (addr S) (addr W) : M Nat) h1 = (.ok (addr W), h') ∧ Same (fun a => a ∈ ids T ∨ a ∈ ids W) h1 h' ∧
      Shared L h' (addr W) (replaceAt T.erase pos W.erase) W.erase := by
  obtain ⟨⟨i, hTi, hTl⟩, hTn⟩ := hTL
  have hTG := (linked_iff _ _ _).1 hTl
  obtain ⟨u, hu, _, hpar, hheld⟩ := parent_holds T hTG hq hp
  simp only at hpar hheld
  obtain ⟨y, _, hpar', hroot, _, hrep⟩ := update_ok T hTG hTn (fun _ _ => hfn) hq hp
  simp only at hpar' hroot hrep
  obtain rfl : addr u = y := by rw [hpar] at hpar'; exact Option.some.inj hpar'
  obtain ⟨hu1, hu2⟩ := nodes_ids T u hu
  have hun := nodes_nodup T hTn u hu
  -- the links of the new node
  obtain ⟨o, ho, hor, hop⟩ := obj_of_node hsS hSS
  obtain ⟨h2, e2, s2, m2⟩ := setParent_ok (some (addr u)) hsW hSW hdW
  obtain ⟨h3, e3, s3, m3⟩ := setRoot_ok (some i) (k := LK.setParent (some (addr u)) W) (by simpa using hsW) s2 (by simpa using hdW)
  rw [addr_setParent] at e3
  have mW : Same (· ∈ ids W) h1 h3 := (m2.mono (by rintro a rfl; exact addr_mem hsW)).trans (m3.mono (by simp))
  generalize hadj : (fun w => LK.setRoot (some i) (LK.setParent (some (addr u)) w)) = adj
  have hW' : LK.setRoot (some i) (LK.setParent (some (addr u)) W) = adj W := by rw [← hadj]
  have hG' : G (fun r => r = some i) (fun p => p = some (addr u)) (adj W) := by
    rw [← hW']
    obtain ⟨j, hj⟩ : ∃ j, W.id? = some j := ⟨_, id_addr hsW⟩
    rw [setRoot_eq]
    simp only [id_setParent, hj, Option.getD_some]
    exact G_setRootTo i _ (G_setParent ((parents_iff W).1 hpW) rfl)
  have hidW : ids (adj W) = ids W := by rw [← hW']; simp
  have haW : addr (adj W) = addr W := by rw [← hW']; simp [addr]
  have hsW' : (adj W).isStr = false := by rw [← hW']; simp [hsW]
  have hvW : (adj W).erase = W.erase := by rw [← hW']; simp
  have hrW : (adj W).root = some i := by rw [← hW']; rw [root_setRoot _ (by simpa using hsW)]; rfl
  have hpW' : (adj W).parent = some (addr u) := by
    have := (G_top.1 hG').2 hsW'
    exact this
  rw [hW'] at s3
  have H := hrep (adj W) hsW' hG'
  obtain ⟨o', ho', _, hop'⟩ := obj_of_node hsW' s3
  rw [haW] at ho'
  rw [hpW'] at hop'
  obtain ⟨b1, b2, _, b4⟩ := ids_branch hb
  obtain ⟨n1, n2, n3⟩ := held_mem hheld hb hun
  have hWS := branch_mem hb hsW
  have hWu := nodes_trans u S n1 W hWS
  have hWT := nodes_trans T u hu W hWu
  have h0 : addr u ∉ ids W := fun hh => n2 (b1.subset hh)
  obtain ⟨r1, r3⟩ := reassign_value (new := adj W) (adj := adj) hheld hb hsW hun hvW
  have hyu : addr W ∈ ids u := n3 _ (b1.subset (addr_mem hsW))
  have hyne : addr W ≠ addr u := fun e => h0 (e ▸ addr_mem hsW)
  have hST3 : Stored h3 (update (addr W) adj T) := stored_update mW s3 haW hsW' T hST hTn hWT (fun a _ ha => ha)
  have hTn3 : (ids (update (addr W) adj T)).Nodup := by
    have p1 := update_perm (g := adj) T hTn hWT
    rw [List.nodup_iff_count_le_one] at hTn ⊢
    intro a
    have c1 := (List.perm_iff_count.1 p1) a
    have c3 := hTn a
    rw [hidW] at c1
    simp only [List.count_append] at c1
    omega
  have hu3 := mem_update (adj := adj) hyu hyne T hTn hu
  have hau : addr (update (addr W) adj u) = addr u ∧ (update (addr W) adj u).isStr = false := by
    have := addr_update (y := addr W) (g := adj) haW hsW' u hun hWu rfl
    exact ⟨this.1, this.2.trans hu1⟩
  have haS : addr (update (addr W) adj S) = addr S ∧ (update (addr W) adj S).isStr = false := by
    have := addr_update (y := addr W) (g := adj) haW hsW' S (nodes_nodup u hun S n1) hWS rfl
    exact ⟨this.1, this.2.trans hsS⟩
  obtain ⟨h4, e4, s4, m4⟩ := reassign_ok (h := h3) (u := update (addr W) adj u) (s := update (addr W) adj S) (new := adj W) hau.2
    (stored_nodes _ hST3 _ hu3) (nodes_nodup _ hTn3 _ hu3) haS.2 r3 hsW' s3 (by rw [hau.1, hidW]; exact h0)
  rw [hau.1, haS.1, haW] at e4
  rw [hau.1] at m4
  have s5 := stored_update (A := (· = addr u)) m4 s4 (addr_reassign _ _ _).1 ((addr_reassign _ _ _).2.trans hau.2) _ hST3 hTn3 hu3
    (by rintro a _ rfl; rw [← hau.1]; exact addr_mem hau.2)
  generalize hK : reassign (update (addr W) adj S) (adj W) = g at *
  rw [hau.1, update_update (g' := fun _ => g (update (addr W) adj u)) hyu hyne rfl T hTn hu] at s5
  have hat := addr_update (y := addr u) (g := fun _ => g (update (addr W) adj u)) (u := u) (by rw [← hK, (addr_reassign _ _ _).1, hau.1])
    (by rw [← hK, (addr_reassign _ _ _).2]; exact hau.2) T hTn hu rfl
  have hTs : T.isStr = false := (wellLinked_root ⟨⟨i, hTi, hTl⟩, hTn⟩).1
  have haT : addr T = i := by rw [addr, hTi]; rfl
  have s6 := m4.stored (by rintro a ha rfl; exact h0 (hidW ▸ ha)) s3
  refine ⟨h4, ?_, ?_, ?_⟩
  · rw [run_bind (run_look ho), hop, hor, hroot, hpar]
    rw [run_bind e2, run_bind e3, run_bind (run_look ho')]
    rw [hop']
    exact e4
  · exact (mW.mono fun _ h => .inr h).trans (m4.mono (by rintro a rfl; exact .inl (hu2 _ (addr_mem hu1))))
  · refine ⟨update (addr u) (fun _ => g (update (addr W) adj u)) T, adj W, hsW', haW, s6, hvW, hat.2.trans hTs, s5, ?_, ?_, ?_, ?_⟩
    · rw [update_erase_congr (g' := reassign S (adj W)) r1 T hTn hu, H.erase, hvW]
    · rw [hrW, hat.1, haT]
    · rw [hat.1]; exact hnewT _ (addr_mem hTs)
    · exact hnewW _ (addr_mem hsW)

/-- A visited node of a tree is replaced by a new one, or by a branch of it. -/
theorem newTree_any (cfg : Cfg) {N n : Nat} {h : Heap} {t s new : LK} {pos : List Step} (ht : WellLinked t) (hst : Stored h t) (hN : ∀ x ∈ ids t, x < N)
    (hn : N ≤ n) (hq : (pos, s) ∈ LK.traverse cfg (fun _ _ => n) t) (hs : s.isStr = false) (hgs : Good h s) (hw : new.isStr = false) (hg : Good h new)
    (hd : (∀ x ∈ ids new, x ∉ ids t) ∨ Branch new s) :
    ∃ m h', newTree (addr s) (addr new) h = (.ok m, h') ∧ Ext h h' ∧
      ((∃ t' m', addr m' = m ∧ Grown h.length h' t' m' (replaceAt t.erase pos new.erase) new.erase) ∨
        pos ≠ [] ∧ (¬ (∀ x ∈ ids new, x ∉ ids t) ∧ Branch new s ∧ ¬ First t s) ∧ Shared h.length h' m (replaceAt t.erase pos new.erase) new.erase) := by
  obtain ⟨f, l, h1, e1, c1, r1⟩ := deepcopy_ok (h := h) (roots := [addr new, addr s]) (by
    intro a ha
    simp only [List.mem_cons, List.not_mem_nil, or_false] at ha
    rcases ha with rfl | rfl
    · exact hg.closed _ (addr_mem hw)
    · exact hgs.closed _ (addr_mem hs))
  have x1 : Ext h h1 := c1.old
  have hln : ∀ a ∈ ids new, a ∈ l := ids_copied c1 new hg.stored (fun _ => r1 _ (by simp))
  have hls : ∀ a ∈ ids s, a ∈ l := ids_copied c1 s hgs.stored (fun _ => r1 _ (by simp))
  have hnt : n ∉ ids t := fun hh => absurd (hN n hh) (by omega)
  obtain ⟨⟨i, hti, htl⟩, htn⟩ := ht
  have ht : WellLinked t := ⟨⟨i, hti, htl⟩, htn⟩
  obtain ⟨hts, htr⟩ := wellLinked_root ht
  have hi : addr t = i := by rw [addr, hti]; rfl
  -- the root link of the visited node leads to the tree
  have hsr : s.root = some (addr t) := by
    by_cases hp : pos = []
    · rw [show s = t from traverse_top hq hp]; exact htr
    · obtain ⟨_, _, _, r, _⟩ := update_ok t ((linked_iff _ _ _).1 htl) htn (fun _ _ => hnt) hq hp
      rw [hi]; exact r
  have hlt : ∀ a ∈ ids t, a ∈ l := by
    refine ids_copied c1 t hst (fun _ => ?_)
    obtain ⟨o, ho, hor, _⟩ := obj_of_node hs hgs.stored
    obtain ⟨o', ho', hrefs, _⟩ := c1.closed (addr s) (r1 _ (by simp))
    rw [ho] at ho'
    obtain rfl := Option.some.inj ho'
    refine hrefs _ ?_
    rw [hsr] at hor
    cases o <;> simp only [Obj.root] at hor <;> subst hor <;> simp [Obj.refs]
  -- the copies
  have hST := stored_copy c1 t hst hlt
  have hSS := stored_copy c1 s hgs.stored hls
  have hSW := stored_copy c1 new hg.stored hln
  have hTL : WellLinked (copy f t) := wellLinked_copy ht (fun a ha b e => c1.inj a (hlt a ha) b e)
  have hq' : (pos, copy f s) ∈ LK.traverse cfg (fun _ _ => f n) (copy f t) := by
    rw [traverse_copy]; exact List.mem_map.2 ⟨_, hq, rfl⟩
  have hfn : f n ∉ ids (copy f t) := by
    rw [ids_copy]; intro hh
    obtain ⟨b, hb, e⟩ := List.mem_map.1 hh
    exact hnt (c1.inj b (hlt b hb) n e ▸ hb)
  have hnewW : ∀ a ∈ ids (copy f new), h.length ≤ a := by
    rw [ids_copy]; intro a ha
    obtain ⟨b, hb, rfl⟩ := List.mem_map.1 ha
    exact c1.new b (hln b hb)
  have hnewT : ∀ a ∈ ids (copy f t), h.length ≤ a := by
    rw [ids_copy]; intro a ha
    obtain ⟨b, hb, rfl⟩ := List.mem_map.1 ha
    exact c1.new b (hlt b hb)
  have hdW : (ids (copy f new)).Nodup := by rw [ids_copy]; exact nodup_map hg.nodup (fun a ha b _ e => c1.inj a (hln a ha) b e)
  have hpW : Parents (copy f new) := (parents_iff _).2 (G_copy f (fun _ _ => trivial) new ((parents_iff new).1 hg.parents))
  have hd' : ((∀ x ∈ ids (copy f new), x ∉ ids (copy f t)) ∨ First (copy f t) (copy f s) ∧ Branch (copy f new) (copy f s)) ∨
      ((¬ (∀ x ∈ ids new, x ∉ ids t) ∧ Branch new s ∧ ¬ First t s) ∧ Branch (copy f new) (copy f s)) := by
    by_cases hdis : ∀ x ∈ ids new, x ∉ ids t
    · refine .inl (.inl fun x hx hx' => ?_)
      rw [ids_copy] at hx hx'
      obtain ⟨b, hb, rfl⟩ := List.mem_map.1 hx
      obtain ⟨b', hb', e⟩ := List.mem_map.1 hx'
      rw [c1.inj b' (hlt b' hb') b e] at hb'
      exact hdis b hb hb'
    rcases hd with hd | hb
    · exact absurd hd hdis
    · by_cases hf : First t s
      · refine .inl (.inr ⟨?_, branch_copy f hb⟩)
        intro u' hu' hpar
        rw [nodes_copy] at hu'
        obtain ⟨u, hu, rfl⟩ := List.mem_map.1 hu'
        obtain ⟨hu1, hu2⟩ := nodes_ids t u hu
        have hpar' : s.parent = some (addr u) := by
          rw [addr_copy f hu1] at hpar
          cases hp : s.parent with
          | none => cases s <;> simp_all [copy, LK.parent]
          | some y =>
            have : f (addr u) = f y := by cases s <;> simp_all [copy, LK.parent]
            rw [c1.inj _ (hlt _ (hu2 _ (addr_mem hu1))) y this]
        have := hf u hu hpar'
        cases u with
        | str => trivial
        | change => trivial
        | comm i r p o b c =>
          obtain ⟨pre, post, rfl, hpre⟩ := this
          refine ⟨pre.map (copy f), post.map (copy f), by simp [copyL_eq], ?_⟩
          intro y hy
          obtain ⟨z, hz, rfl⟩ := List.mem_map.1 hy
          rw [erase_copy, erase_copy]
          exact hpre z hz
      · exact .inr ⟨⟨hdis, hb, hf⟩, branch_copy f hb⟩
  have hroot := C08_is_root cfg (copy f t) hTL _ (fun _ _ => hfn) _ hq'
  have haS := addr_copy f hs
  have haW := addr_copy f hw
  have hr := isRoot_ok (by rw [isStr_copy]; exact hs) hSS hroot
  rw [haS] at hr
  have run := newTree_run e1 hr
  rw [show t.erase = (copy f t).erase from (erase_copy f t).symm, show new.erase = (copy f new).erase from (erase_copy f new).symm]
  rw [← haS, ← haW] at run
  have hsW : (copy f new).isStr = false := by rw [isStr_copy]; exact hw
  have hsS : (copy f s).isStr = false := by rw [isStr_copy]; exact hs
  clear hd hroot hr hq hnt hsr
  generalize copy f t = T at *
  generalize copy f s = S at *
  generalize copy f new = W at *
  generalize f n = x at *
  by_cases hp : pos = []
  · obtain ⟨h', e', m', s', w'⟩ := newTree_top hsW hpW hdW hSW
    refine ⟨_, h', ?_, x1.same m' hnewW, .inl ⟨_, _, rfl, ⟨s', w', ?_, ?_, (wellLinked_root w').1, s', w'.2, (wellLinked_root w').2, ?_, ?_⟩⟩⟩
    · rw [run]; simp only [hp, decide_true, if_true]; exact e'
    · rw [hp, erase_setRoot, erase_setParent]; cases T.erase <;> rfl
    · simpa using hnewW
    · simp
    · exact fun _ h => h
  · rcases hd' with hd' | ⟨hd1, hd'⟩
    · obtain ⟨t', m, h', e', m', g'⟩ := newTree_below cfg hTL hST hfn hq' hp hsS hSS hsW hSW hdW hpW hd' hnewW hnewT
      refine ⟨addr m, h', ?_, x1.same m' (by rintro a (ha | ha); exacts [hnewT a ha, hnewW a ha]), .inl ⟨t', m, rfl, g'⟩⟩
      rw [run]; simp only [hp, decide_false]; exact e'
    · obtain ⟨h', e', m', g'⟩ := newTree_shared cfg hTL hST hfn hq' hp hsS hSS hsW hSW hdW hpW hd' hnewW hnewT
      refine ⟨addr W, h', ?_, x1.same m' (by rintro a (ha | ha); exacts [hnewT a ha, hnewW a ha]), .inr ⟨hp, hd1, g'⟩⟩
      rw [run]; simp only [hp, decide_false]; exact e'

/-- A visited node of a tree is replaced by a new one. -/
theorem newTree_ok (cfg : Cfg) {N n : Nat} {h : Heap} {t s new : LK} {pos : List Step} (ht : WellLinked t) (hst : Stored h t) (hN : ∀ x ∈ ids t, x < N)
    (hn : N ≤ n) (hq : (pos, s) ∈ LK.traverse cfg (fun _ _ => n) t) (hs : s.isStr = false) (hgs : Good h s) (hw : new.isStr = false) (hg : Good h new)
    (hd : (∀ x ∈ ids new, x ∉ ids t) ∨ NoTwins t.erase ∧ Branch new s) :
    ∃ t' m h', newTree (addr s) (addr new) h = (.ok (addr m), h') ∧ Ext h h' ∧ Grown h.length h' t' m (replaceAt t.erase pos new.erase) new.erase := by
  obtain ⟨m, h', e, x, g⟩ := newTree_any cfg ht hst hN hn hq hs hgs hw hg (hd.imp id (·.2))
  rcases g with ⟨t', m', rfl, g⟩ | ⟨hp, ⟨hnd, hb, hf⟩, g⟩
  · exact ⟨t', m', h', e, x, g⟩
  · obtain ⟨⟨i, _, htl⟩, htn⟩ := ht
    exact absurd (first_of_noTwins ((linked_iff _ _ _).1 htl) htn hq hp hb (hd.resolve_left hnd).1) hf

end Objects
end GPyABCD
