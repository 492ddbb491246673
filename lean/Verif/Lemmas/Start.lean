import Verif.Lemmas.Refine14
import Verif.Props.Links

/-!
# Preparing start kernels in the store
-/

namespace GPyABCD
namespace Objects
open Links Links.LK
open KE hiding nodes

/-- A start kernel as the user gives it: an expression, held as a tree of objects, or the name of a base kernel. -/
inductive Start
  | tree (t : LK)
  | name (b : Base)

/-- What is passed. -/
def Start.given : Start → Given
  | .tree t => .kex (addr t)
  | .name b => .name b

/-- The same as a value. -/
def Start.pseudo : Start → Pseudo
  | .tree t => .kex t.erase
  | .name b => .name b

/-- The objects of it that are there already. -/
def Start.ids : Start → List Nat
  | .tree t => Links.ids t
  | .name _ => []

/-- The expression that is prepared. -/
def Start.value (cfg : Cfg) : Start → KE
  | .tree t => t.erase
  | .name b => mkL cfg .sum [b] []

/-- Given properly: an expression of its own (not a term of another one) that is in the store, or one of the base kernels. The `root` links in it may be anything. -/
def Start.Fine (h : Heap) : Start → Prop
  | .tree t => t.isStr = false ∧ Stored h t ∧ t.parent = none ∧ (Links.ids t).Nodup
  | .name b => b ∈ baseKerns

/-- The tree that becomes of it. -/
structure Start.Becomes (cfg : Cfg) (h h' : Heap) (e : Start) (t : LK) : Prop where
  stored : Stored h' t
  linked : WellLinked t
  value : t.erase = KE.simplify cfg (e.value cfg)
  same : ∀ t', e = .tree t' → addr t = addr t'
  own : ∀ a ∈ Links.ids t, a ∈ e.ids ∨ h.length ≤ a

theorem ids_initialise (cfg : Cfg) (k : LK) : ∀ a ∈ Links.ids (LK.initialise cfg k), a ∈ Links.ids k := by
  intro a ha
  have := ids_simplify_sub cfg _ a ha
  rw [ids_setAllParents] at this
  simpa using this

theorem addr_initialise (cfg : Cfg) (k : LK) : addr (LK.initialise cfg k) = addr k := (addr_simplify cfg _).trans (by simp [addr])

/-- `_initialise` on a tree without parent. -/
theorem initialise_root (cfg : Cfg) {h : Heap} {k : LK} (hk : k.isStr = false) (hs : Stored h k) (hp : k.parent = none) (hn : (Links.ids k).Nodup) :
    ∃ h', initialise cfg (addr k) h = (.ok (addr (LK.initialise cfg k)), h') ∧ Stored h' (LK.initialise cfg k) ∧ WellLinked (LK.initialise cfg k) ∧
      (LK.initialise cfg k).erase = KE.simplify cfg k.erase ∧ Same (· ∈ Links.ids k) h h' := by
  obtain ⟨h', e, s, m⟩ := initialise_ok cfg hk hs hn
  exact ⟨h', e, s, C08_well_linked cfg k hk (stored_proper k hs) hp hn, C08_simplifies cfg k, m⟩

/-- One start kernel. -/
theorem start_ok (cfg : Cfg) {h : Heap} {e : Start} (hf : e.Fine h) :
    ∃ t h', (do let a ← pseudoToReal cfg e.given; initialise cfg a) h = (.ok (addr t), h') ∧ e.Becomes cfg h h' t ∧ Frame (· ∈ e.ids) h h' := by
  cases e with
  | tree t =>
    obtain ⟨f1, f2, f3, f4⟩ := hf
    obtain ⟨h', e1, s1, w1, v1, m1⟩ := initialise_root cfg f1 f2 f3 f4
    refine ⟨_, h', (run_bind (run_pure _ _)).trans e1, ⟨s1, w1, v1, ?_, ?_⟩, m1.frame⟩
    · rintro _ ⟨⟩; exact addr_initialise cfg t
    · exact fun a ha => Or.inl (ids_initialise cfg t a ha)
  | name b =>
    have hb : baseKerns.contains b = true := List.elem_iff.2 hf
    obtain ⟨k, h1, e1, x1, m1, p1⟩ := newComm_top cfg .sum (Counter.ofList [b]) (h := h) (cts := []) (by simp) (by simp [idsL])
    obtain ⟨h', e2, s2, w2, v2, m2⟩ := initialise_root cfg m1.node m1.good.stored p1 m1.good.nodup
    refine ⟨_, h', ?_, ⟨s2, w2, ?_, ?_, ?_⟩, ?_⟩
    · refine (run_bind (x := addr k) (h1 := h1) ?_).trans e2
      show (if baseKerns.contains b = true then newList cfg .sum [b] [] else raise .value) h = _
      rw [if_pos hb]; exact e1
    · rw [v2, m1.value]; rfl
    · rintro _ ⟨⟩
    · exact fun a ha => Or.inr (m1.new a (ids_initialise cfg k a ha))
    · refine ⟨by rw [m2.1]; exact x1.1, fun a ha _ => ?_⟩
      rw [m2.2 a (fun hh => by have := m1.new a hh; omega), x1.2 a ha]

theorem Start.Fine.frame {h h' : Heap} {A : Nat → Prop} {e : Start} (hf : e.Fine h) (hfr : Frame A h h') (hd : ∀ a ∈ e.ids, ¬ A a) : e.Fine h' := by
  cases e with
  | tree t => exact ⟨hf.1, stored_congr t (fun a ha => hfr.2 a (stored_lt t hf.2.1 a ha) (hd a ha)) hf.2.1, hf.2.2⟩
  | name b => exact hf

theorem Start.Fine.lt {h : Heap} {e : Start} (hf : e.Fine h) : ∀ a ∈ e.ids, a < h.length := by
  cases e with
  | tree t => exact stored_lt t hf.2.1
  | name b => simp [Start.ids]

/-- All of them. -/
theorem starts_ok (cfg : Cfg) : (es : List Start) → {h : Heap} → (∀ e ∈ es, e.Fine h) → (es.flatMap Start.ids).Nodup →
    ∃ ts h', makeSimpleKexs cfg (es.map Start.given) h = (.ok (ts.map addr), h') ∧ List.Forall₂ (Start.Becomes cfg h h') es ts ∧
      (idsL ts).Nodup ∧ (∀ a ∈ idsL ts, a ∈ es.flatMap Start.ids ∨ h.length ≤ a) ∧ Frame (· ∈ es.flatMap Start.ids) h h'
  | [], h, _, _ => ⟨[], h, rfl, .nil, by simp [idsL], by simp [idsL], Frame.refl _ _⟩
  | e :: es, h, hf, hn => by
    rw [List.flatMap_cons, List.nodup_append] at hn
    obtain ⟨t, h1, e1, b1, r1⟩ := start_ok cfg (hf e (by simp))
    have hf1 : ∀ e' ∈ es, e'.Fine h1 := fun e' he' => (hf e' (by simp [he'])).frame r1 (fun a ha hh =>
      hn.2.2 a hh a (List.mem_flatMap.2 ⟨e', he', ha⟩) rfl)
    obtain ⟨ts, h2, e2, b2, n2, o2, r2⟩ := starts_ok cfg es hf1 hn.2.1
    have hlt : ∀ a ∈ es.flatMap Start.ids, a < h.length := by
      intro a ha
      obtain ⟨e', he', ha'⟩ := List.mem_flatMap.1 ha
      exact (hf e' (by simp [he'])).lt a ha'
    have hsep : ∀ a ∈ Links.ids t, a ∉ es.flatMap Start.ids := by
      intro a ha hh
      rcases b1.own a ha with h3 | h3
      · exact hn.2.2 a h3 a hh rfl
      · have := hlt a hh; omega
    have hs2 : Stored h2 t := stored_congr t (fun a ha => r2.2 a (stored_lt t b1.stored a ha) (hsep a ha)) b1.stored
    refine ⟨t :: ts, h2, ?_, .cons ⟨hs2, b1.linked, b1.value, b1.same, b1.own⟩ (b2.imp ?_), ?_, ?_, ?_⟩
    · show collect _ (e.given :: es.map Start.given) h = _
      rw [collect, run_bind e1, run_bind (show collect _ (es.map Start.given) h1 = _ from e2)]
      rfl
    · exact fun e' t' hb => ⟨hb.stored, hb.linked, hb.value, hb.same, fun a ha => (hb.own a ha).imp_right (Nat.le_trans r1.1)⟩
    · rw [idsL, List.nodup_append]
      refine ⟨b1.linked.tree, n2, ?_⟩
      rintro a ha b hb rfl
      rcases o2 a hb with h3 | h3
      · exact hsep a ha h3
      · have := stored_lt t b1.stored a ha; omega
    · intro a ha
      rw [idsL, List.mem_append] at ha
      rw [List.flatMap_cons, List.mem_append]
      rcases ha with ha | ha
      · exact (b1.own a ha).imp_left Or.inl
      · exact (o2 a ha).imp Or.inr (Nat.le_trans r1.1)
    · exact (r1.mono (fun a _ ha => by simp only [List.flatMap_cons, List.mem_append]; exact Or.inl ha)).trans
        (r2.mono (fun a _ ha => by simp only [List.flatMap_cons, List.mem_append]; exact Or.inr ha))

end Objects
end GPyABCD
