import Verif.Lemmas.Refine9
import Verif.Props.Expand

/-!
# The store does to trees what the model of trees says: `standardise_singleton_root`
-/

namespace GPyABCD
namespace Objects
open Links Links.LK
open KE hiding nodes

/-- The store may have grown, and only addresses in `A` have changed. -/
def Frame (A : Nat → Prop) (h h' : Heap) : Prop := h.length ≤ h'.length ∧ ∀ a, a < h.length → ¬ A a → h'[a]? = h[a]?

theorem Frame.refl (A : Nat → Prop) (h : Heap) : Frame A h h := ⟨Nat.le_refl _, fun _ _ _ => rfl⟩

theorem Frame.trans {A : Nat → Prop} {h h' h'' : Heap} (h1 : Frame A h h') (h2 : Frame A h' h'') : Frame A h h'' :=
  ⟨Nat.le_trans h1.1 h2.1, fun a ha hA => (h2.2 a (Nat.lt_of_lt_of_le ha h1.1) hA).trans (h1.2 a ha hA)⟩

theorem Frame.mono {A B : Nat → Prop} {h h' : Heap} (h1 : Frame A h h') (hAB : ∀ a, a < h.length → A a → B a) : Frame B h h' :=
  ⟨h1.1, fun a ha hB => h1.2 a ha (fun hA => hB (hAB a ha hA))⟩

theorem Same.frame {A : Nat → Prop} {h h' : Heap} (h1 : Same A h h') : Frame A h h' := ⟨Nat.le_of_eq h1.1.symm, fun a _ hA => h1.2 a hA⟩

theorem Ext.frame {A : Nat → Prop} {h h' : Heap} (h1 : Ext h h') : Frame A h h' := ⟨h1.1, fun a ha _ => h1.2 a ha⟩

theorem Frame.ext {A : Nat → Prop} {h0 h h' : Heap} (h0' : Ext h0 h) (h1 : Frame A h h') (hA : ∀ a, A a → h0.length ≤ a) : Ext h0 h' :=
  ⟨Nat.le_trans h0'.1 h1.1, fun a ha => (h1.2 a (Nat.lt_of_lt_of_le ha h0'.1) (fun hh => by have := hA a hh; omega)).trans (h0'.2 a ha)⟩

theorem Frame.stored {A : Nat → Prop} {h h' : Heap} (h1 : Frame A h h') {k : LK} (hd : ∀ a ∈ ids k, ¬ A a) (hs : Stored h k) : Stored h' k :=
  stored_congr k (fun a ha => h1.2 a (stored_lt k hs a ha) (hd a ha)) hs

/-! ## Extraction -/

theorem total_le_of_elements {c : Counter} (h : c.elements = []) : c.total ≤ 0 := by
  induction c with
  | nil => simp [Counter.total]
  | cons p c ih =>
    simp only [Counter.elements, List.flatMap_cons, List.append_eq_nil_iff, List.replicate_eq_nil_iff] at h
    have := ih h.2
    simp only [Counter.total, List.map_cons, List.sum_cons] at *
    omega

theorem extract_self {k : LK} (h : extractsSelf k.erase = true) : LK.extract k = k := by
  cases k with
  | str => rfl
  | change => rfl
  | comm i r p o b c =>
    simp only [erase, extractsSelf, eraseL_eq, List.isEmpty_map, List.length_map, Bool.not_eq_true', Bool.or_eq_false_iff, Bool.and_eq_false_iff,
      decide_eq_false_iff_not] at h
    simp only [LK.extract]
    split
    · simp at h; simp [h]
    · simp at h; simp [h]
    · rfl

theorem extract_other {k : LK} (hk : k.isStr = false) (hs : ∀ {i r p o b c}, k = .comm i r p o b c → ∀ x ∈ c, x.isStr = false) (h : extractsSelf k.erase = false) :
    (∃ b, LK.extract k = .str b) ∨ ∃ i r p o b ct, k = .comm i r p o b [ct] ∧ ct.isStr = false ∧ LK.extract k = LK.setParent p ct := by
  cases k with
  | str => cases hk
  | change => simp [erase, extractsSelf] at h
  | comm i r p o b c =>
    have hs := hs rfl
    simp only [erase, extractsSelf, eraseL_eq, List.isEmpty_map, List.length_map, Bool.not_eq_false', Bool.or_eq_true, Bool.and_eq_true, decide_eq_true_eq,
      List.isEmpty_iff] at h
    rcases h with ⟨h1, rfl⟩ | ⟨h1, h2⟩
    · cases hb : b.elements with
      | nil => have := total_le_of_elements hb; omega
      | cons b0 bs => exact .inl ⟨b0, by simp only [LK.extract, hb]; simp [h1]⟩
    · obtain ⟨ct, rfl⟩ := List.length_eq_one_iff.1 h2
      refine .inr ⟨i, r, p, o, b, ct, rfl, hs ct (by simp), ?_⟩
      simp only [LK.extract]
      cases hb : b.elements <;> simp [h1]

/-! ## `standardise_singleton_root` -/

theorem standardiseF_ok (cfg : Cfg) : (n : Nat) → (t : LK) → {h : Heap} → Stored h t → WellLinked t → (ids t).length < n →
    ∃ t' h', standardiseF cfg n (addr t) h = (.ok (addr t'), h') ∧ Frame (· ∈ ids t) h h' ∧ Stored h' t' ∧ WellLinked t' ∧
      (∀ a ∈ ids t', a ∈ ids t ∨ h.length ≤ a) ∧ KE.standardiseF cfg n t.erase = some t'.erase
  | 0, _, _, _, _, hn => absurd hn (by omega)
  | n + 1, t, h, hs, hw, hn => by
    obtain ⟨hts, _⟩ := wellLinked_root hw
    obtain ⟨⟨i, h1, h2⟩, h3⟩ := hw
    rw [linked_iff] at h2
    have hsG := simplify_G cfg t _ h2
    have hid := simplify_id cfg t
    have hnd := nodup_subperm (ids_simplify cfg t) h3
    have hsub := ids_simplify_sub cfg t
    have hlen := (ids_simplify cfg t).length_le
    obtain ⟨ha, ea, sa, ma⟩ := simplify_ok cfg hts hs h3
    have hss : (LK.simplify cfg t).isStr = false := hid.2.1.trans hts
    have haddr := addr_simplify cfg t
    rw [KE.standardiseF]
    simp only [← simplify_erase]
    generalize LK.simplify cfg t = s at *
    obtain ⟨hb, eb, sb, mb⟩ := extract_ok hss sa hnd
    rw [haddr] at eb
    have fab : Frame (· ∈ ids t) h hb := ma.frame.trans (mb.mono hsub).frame
    have hlenb : hb.length = h.length := mb.1.trans ma.1
    have run : standardiseF cfg (n + 1) (addr t) h = (match toRef (LK.extract s) with
        | .str b => do
          let t ← newList cfg .sum [b] []
          setRoot t none
          pure t
        | .obj c =>
          if c = addr t then pure (addr t)
          else do
            setParent c none
            setRoot c none
            standardiseF cfg n c : M Nat) hb := by
      rw [standardiseF]
      refine (run_bind ea).trans ((run_bind eb).trans ?_)
      rfl
    cases he : extractsSelf s.erase with
    | true =>
      have hx := extract_self he
      rw [hx] at sb run
      refine ⟨s, hb, ?_, fab, sb, ⟨⟨i, by rw [hid.1, h1], (linked_iff _ _ _).2 hsG⟩, hnd⟩, fun a ha => .inl (hsub a ha), by simp⟩
      rw [run, toRef_obj hss, haddr]
      simp [run_pure]
    | false =>
      have hchild : ∀ {i r p o b c}, s = .comm i r p o b c → ∀ x ∈ c, x.isStr = false := by
        rintro i r p o b c rfl x hx
        rw [stored_comm] at sa
        exact (storedL_iff.1 sa.2 x hx).1
      rcases extract_other hss hchild he with ⟨b, hx⟩ | ⟨i', r, p, o, b, ct, rfl, hct, hx⟩
      · obtain ⟨k, hc, ec, xc, mc, pc⟩ := newComm_top cfg .sum (Counter.ofList [b]) (h := hb) (cts := []) (by simp) (by simp [idsL])
        obtain ⟨hd, ed, sd, md⟩ := setRoot_ok none mc.node mc.good.stored mc.good.nodup
        have hkw := wellLinked_top mc.node mc.good.parents mc.good.nodup
        have hkp : LK.setParent none k = k := by
          cases k with
          | str => rfl
          | comm => simp only [LK.parent] at pc; subst pc; rfl
          | change => simp only [LK.parent] at pc; subst pc; rfl
        rw [hkp] at hkw
        have hidk : ids (LK.setRoot none k) = ids k := by simp
        have xd : Ext hb hd := Frame.ext xc md.frame mc.new
        refine ⟨LK.setRoot none k, hd, ?_, fab.trans xd.frame, sd, hkw, ?_, ?_⟩
        · rw [run, hx]
          simp only [toRef]
          rw [newList]
          refine (run_bind ec).trans ((run_bind ed).trans ?_)
          rw [run_pure]
          congr 2
          simp [addr]
        · intro a ha
          rw [hidk] at ha
          have := mc.new a ha
          exact .inr (by omega)
        · simp only [Bool.false_eq_true, if_false]
          rw [← extract_erase, hx]
          simp only [erase, erase_setRoot, mc.value]
          rfl
      · have hne : addr ct ≠ addr t := by
          intro hh
          rw [← haddr] at hh
          simp only [ids, idsL, List.append_nil, List.nodup_cons] at hnd
          exact hnd.1 ((show addr ct = i' from hh) ▸ addr_mem hct)
        have hnc : (ids ct).Nodup := by
          simp only [ids, idsL, List.append_nil, List.nodup_cons] at hnd
          exact hnd.2
        have hsubc : ∀ a ∈ ids ct, a ∈ ids t := fun a ha => hsub a (by simp [ids, idsL, ha])
        have hlenc : (ids ct).length < n := by
          simp only [ids, idsL, List.append_nil, List.length_cons] at hlen
          omega
        have hpc : Parents ct := by
          simp only [G, GL] at hsG
          exact (parents_iff ct).2 (G_mono (fun _ _ => trivial) (fun _ _ => trivial) hsG.2.2.1.2)
        rw [hx] at sb
        have hk1 : (LK.setParent p ct).isStr = false := by simpa using hct
        have hn1 : (ids (LK.setParent p ct)).Nodup := by simpa using hnc
        obtain ⟨hc, ec, sc, mc⟩ := setParent_ok none hk1 sb hn1
        have hk2 : (LK.setParent none (LK.setParent p ct)).isStr = false := by simpa using hct
        obtain ⟨hd, ed, sd, md⟩ := setRoot_ok none hk2 sc (by simpa using hnc)
        have hpp : LK.setParent none (LK.setParent p ct) = LK.setParent none ct := by cases ct <;> rfl
        have ac : addr (LK.setParent p ct) = addr ct := by simp [addr]
        have ac2 : addr (LK.setParent none ct) = addr ct := by simp [addr]
        have ac3 : addr (LK.setRoot none (LK.setParent none ct)) = addr ct := by simp [addr]
        rw [hpp] at sd ed md
        rw [ac] at ec
        rw [ac2] at ed
        have hi3 : ids (LK.setRoot none (LK.setParent none ct)) = ids ct := by simp
        obtain ⟨t', h', er, fr, sr, wr, ir, vr⟩ := standardiseF_ok cfg n _ sd (wellLinked_top hct hpc hnc) (by rw [hi3]; exact hlenc)
        rw [ac3] at er
        have fd : Frame (· ∈ ids t) h hd := by
          refine (fab.trans (mc.mono ?_).frame).trans (md.mono ?_).frame
          · rintro a rfl; rw [ac]; exact hsubc _ (addr_mem hct)
          · intro a ha; exact hsubc a (by simpa using ha)
        refine ⟨t', h', ?_, fd.trans (fr.mono ?_), sr, wr, ?_, ?_⟩
        · rw [run, hx, toRef_obj hk1, ac]
          simp only [if_neg hne]
          exact (run_bind ec).trans ((run_bind ed).trans er)
        · intro a _ ha; rw [hi3] at ha; exact hsubc a ha
        · intro a ha
          rcases ir a ha with h5 | h5
          · rw [hi3] at h5; exact .inl (hsubc a h5)
          · exact .inr (Nat.le_trans fd.1 h5)
        · simp only [Bool.false_eq_true, if_false]
          rw [← extract_erase, hx]
          simp only [erase_setRoot, erase_setParent] at vr ⊢
          cases ct with
          | str => cases hct
          | comm => exact vr
          | change => exact vr

end Objects
end GPyABCD
