import Verif.Lemmas.Objects

/-!
# Lemmas: programs write only inside a region of the store
-/

namespace GPyABCD
namespace Objects

variable {α β γ : Type}

/-- Objects in the region `P` have their parts in it, and links in `Q`; whatever is allocated will be in it. -/
def Shut (P Q : Nat → Prop) (h : Heap) : Prop := (∀ a, h.length ≤ a → P a) ∧ ∀ a, P a → ∀ o, h[a]? = some o → o.In P Q

/-- The program, started where the region is closed, leaves objects outside of it alone, keeps it closed, and returns values with `R`. -/
def Inside (P Q : Nat → Prop) (m : M α) (R : α → Prop) : Prop :=
  ∀ h, Shut P Q h → Shut P Q (m h).2 ∧ (h.length ≤ (m h).2.length ∧ ∀ a, ¬ P a → (m h).2[a]? = h[a]?) ∧ ∀ x, (m h).1 = .ok x → R x

variable {P Q : Nat → Prop}

theorem Inside.mono {m : M α} {R R' : α → Prop} (h : Inside P Q m R) (hr : ∀ x, R x → R' x) : Inside P Q m R' := by
  intro s hs
  obtain ⟨h1, h2, h3⟩ := h s hs
  exact ⟨h1, h2, fun x hx => hr x (h3 x hx)⟩

theorem ins_pure {R : α → Prop} {x : α} (hx : R x) : Inside P Q (pure x : M α) R := by
  intro h hc
  refine ⟨hc, ⟨Nat.le_refl _, fun _ _ => rfl⟩, ?_⟩
  intro y hy
  simp only [pure, Except.ok.injEq] at hy
  exact hy ▸ hx

theorem ins_raise {R : α → Prop} {e : Err} : Inside P Q (raise e : M α) R := by
  intro h hc
  exact ⟨hc, ⟨Nat.le_refl _, fun _ _ => rfl⟩, by simp [raise]⟩

theorem ins_bind {m : M α} {f : α → M β} {R : α → Prop} {R' : β → Prop} (hm : Inside P Q m R) (hf : ∀ x, R x → Inside P Q (f x) R') :
    Inside P Q (m >>= f) R' := by
  intro h hc
  obtain ⟨h1, h2, h3⟩ := hm h hc
  simp only [bind]
  cases hmh : m h with
  | mk r h' =>
    rw [hmh] at h1 h2 h3
    cases r with
    | error e => exact ⟨h1, h2, by simp⟩
    | ok x =>
      obtain ⟨k1, k2, k3⟩ := hf x (h3 x rfl) h' h1
      exact ⟨k1, ⟨Nat.le_trans h2.1 k2.1, fun a ha => (k2.2 a ha).trans (h2.2 a ha)⟩, k3⟩

theorem ins_ask {f : Heap → Option α} {R : α → Prop} (hr : ∀ h x, f h = some x → R x) : Inside P Q (ask f) R := by
  intro h hc
  unfold ask
  cases hf : f h with
  | none => exact ⟨hc, ⟨Nat.le_refl _, fun _ _ => rfl⟩, by simp⟩
  | some x => exact ⟨hc, ⟨Nat.le_refl _, fun _ _ => rfl⟩, by simp only [Except.ok.injEq]; rintro _ rfl; exact hr h _ hf⟩

theorem ins_look_any (a : Nat) : Inside P Q (look a) (fun _ => True) := by
  intro h hc
  unfold look
  cases h[a]? <;> exact ⟨hc, ⟨Nat.le_refl _, fun _ _ => rfl⟩, fun _ _ => trivial⟩

theorem ins_look {a : Nat} (ha : P a) : Inside P Q (look a) (Obj.In P Q) := by
  intro h hc
  unfold look
  cases ho : h[a]? with
  | none => exact ⟨hc, ⟨Nat.le_refl _, fun _ _ => rfl⟩, by simp⟩
  | some o => exact ⟨hc, ⟨Nat.le_refl _, fun _ _ => rfl⟩, by simp only [Except.ok.injEq]; rintro _ rfl; exact hc.2 a ha _ ho⟩

theorem ins_edit {a : Nat} (ha : P a) {f : Obj → Obj} (hf : ∀ o, o.In P Q → (f o).In P Q) : Inside P Q (edit a f) (fun _ => True) := by
  intro h hc
  unfold edit
  cases ho : h[a]? with
  | none => exact ⟨hc, ⟨Nat.le_refl _, fun _ _ => rfl⟩, fun _ _ => trivial⟩
  | some o =>
    refine ⟨⟨by simpa using hc.1, ?_⟩, ?_, fun _ _ => trivial⟩
    · intro b hb o' ho'
      rw [List.getElem?_set] at ho'
      split_ifs at ho' with e1 e2
      · cases ho'; exact hf o (hc.2 a ha o ho)
      · exact hc.2 b hb o' ho'
    · refine ⟨by simp, fun b hb => ?_⟩
      rw [List.getElem?_set_ne (by rintro rfl; exact hb ha)]

theorem ins_alloc {o : Obj} (ho : o.In P Q) : Inside P Q (alloc o) P := by
  intro h hc
  unfold alloc
  refine ⟨⟨fun a ha => hc.1 a (by simp at ha; omega), ?_⟩, ⟨by simp, ?_⟩, ?_⟩
  · intro b hb o' ho'
    rw [List.getElem?_append] at ho'
    split_ifs at ho' with e1
    · exact hc.2 b hb o' ho'
    · have := List.mem_of_getElem? ho'
      simp only [List.mem_singleton] at this
      exact this ▸ ho
  · intro b hb
    exact List.getElem?_append_left (by by_contra hh; exact hb (hc.1 b (by omega)))
  · intro x hx
    simp only [Except.ok.injEq] at hx
    exact hx ▸ hc.1 _ (Nat.le_refl _)

theorem ins_levels {f : Nat → M α} {R : α → Prop} (hf : ∀ m, Inside P Q (f m) R) : Inside P Q (levels f) R :=
  fun h hc => hf (h.length + 1) h hc

theorem Obj.ins_copy {f : Nat → Nat} (o : Obj) (hf : ∀ x, P (f x)) (hQ : ∀ x, P x → Q x) : (o.copy f).In P Q := by
  cases o with
  | comm r p op bts cts =>
    refine ⟨?_, ?_, ?_⟩
    · intro x hx; simp only [Option.mem_def, Option.map_eq_some_iff] at hx; obtain ⟨y, _, rfl⟩ := hx; exact hQ _ (hf y)
    · intro x hx; simp only [Option.mem_def, Option.map_eq_some_iff] at hx; obtain ⟨y, _, rfl⟩ := hx; exact hQ _ (hf y)
    · intro x hx; simp only [List.mem_map] at hx; obtain ⟨y, _, rfl⟩ := hx; exact hf y
  | change r p c l r' =>
    refine ⟨?_, ?_, ?_, ?_⟩
    · intro x hx; simp only [Option.mem_def, Option.map_eq_some_iff] at hx; obtain ⟨y, _, rfl⟩ := hx; exact hQ _ (hf y)
    · intro x hx; simp only [Option.mem_def, Option.map_eq_some_iff] at hx; obtain ⟨y, _, rfl⟩ := hx; exact hQ _ (hf y)
    · cases l <;> simp [Ref.copy, Ref.addr, hf]
    · cases r' <;> simp [Ref.copy, Ref.addr, hf]

theorem ins_deepcopy {roots : List Nat} (hQ : ∀ x, P x → Q x) : Inside P Q (deepcopy roots) (fun f => ∀ x, P (f x)) := by
  intro h hc
  unfold deepcopy
  split
  · exact ⟨hc, ⟨Nat.le_refl _, fun _ _ => rfl⟩, by simp⟩
  · rename_i l _
    have hf : ∀ x, P (h.length + l.idxOf x) := fun x => hc.1 _ (by omega)
    refine ⟨⟨fun a ha => hc.1 a (by simp at ha; omega), ?_⟩, ⟨by simp, ?_⟩, ?_⟩
    · intro b hb o' ho'
      rw [List.getElem?_append] at ho'
      split_ifs at ho' with e1
      · exact hc.2 b hb o' ho'
      · have := List.mem_of_getElem? ho'
        obtain ⟨a, _, ha⟩ := List.mem_filterMap.1 this
        simp only [Option.map_eq_some_iff] at ha
        obtain ⟨o, _, rfl⟩ := ha
        exact Obj.ins_copy o hf hQ
    · intro b hb
      exact List.getElem?_append_left (by by_contra hh; exact hb (hc.1 b (by omega)))
    · intro x hx
      simp only [Except.ok.injEq] at hx
      exact hx ▸ hf

theorem ins_each {f : β → M Unit} {xs : List β} (hf : ∀ x ∈ xs, Inside P Q (f x) (fun _ => True)) : Inside P Q (each f xs) (fun _ => True) := by
  induction xs with
  | nil => exact ins_pure trivial
  | cons x xs ih =>
    exact ins_bind (hf x (List.mem_cons_self ..)) (fun _ _ => ih (fun y hy => hf y (List.mem_cons_of_mem _ hy)))

theorem ins_collect {f : β → M γ} {xs : List β} {R : γ → Prop} (hf : ∀ x ∈ xs, Inside P Q (f x) R) : Inside P Q (collect f xs) (fun l => ∀ y ∈ l, R y) := by
  induction xs with
  | nil => exact ins_pure (by simp)
  | cons x xs ih =>
    refine ins_bind (hf x (List.mem_cons_self ..)) (fun y hy => ?_)
    refine ins_bind (ih (fun z hz => hf z (List.mem_cons_of_mem _ hz))) (fun ys hys => ins_pure ?_)
    intro z hz
    rcases List.mem_cons.1 hz with rfl | hz
    · exact hy
    · exact hys z hz

theorem ins_if {c : Prop} [Decidable c] {m m' : M α} {R : α → Prop} (h : Inside P Q m R) (h' : Inside P Q m' R) : Inside P Q (if c then m else m') R := by
  split_ifs <;> assumption

/-! ## Methods -/

theorem ins_setParent {a : Nat} {p : Option Nat} (ha : P a) (hp : ∀ x ∈ p, Q x) : Inside P Q (setParent a p) (fun _ => True) :=
  ins_edit ha (in_withParent hp)

theorem ins_onRef {f : Nat → M Unit} {x : Ref} (hf : ∀ a ∈ x.addr, Inside P Q (f a) (fun _ => True)) : Inside P Q (onRef f x) (fun _ => True) := by
  cases x with
  | str => exact ins_pure trivial
  | obj a => exact hf a (by simp [Ref.addr])

theorem ins_setRootTo {x : Nat} (hx : Q x) (m : Nat) : ∀ a, P a → Inside P Q (setRootTo x m a) (fun _ => True) := by
  induction m with
  | zero => intro a _; exact ins_raise
  | succ m ih =>
    intro a ha
    refine ins_bind (ins_edit ha (in_withRoot (by simpa using hx))) (fun _ _ => ?_)
    refine ins_bind (ins_look ha) (fun o ho => ?_)
    cases o with
    | comm => exact ins_each (fun ct hct => ih ct (ho.2.2 ct hct))
    | change =>
      refine ins_bind (ins_onRef fun b hb => ih b (ho.2.2.1 b hb)) (fun _ _ => ?_)
      exact ins_onRef fun b hb => ih b (ho.2.2.2 b hb)

theorem ins_setRoot {a : Nat} {x : Option Nat} (ha : P a) (hx : ∀ y ∈ x, Q y) (hQ : Q a) : Inside P Q (setRoot a x) (fun _ => True) := by
  refine ins_levels fun m => ins_setRootTo ?_ m a ha
  cases x with
  | none => exact hQ
  | some y => exact hx y rfl

/-- Addresses of a reference. -/
abbrev RefOf (P : Nat → Prop) (x : Ref) : Prop := ∀ a ∈ x.addr, P a

theorem ins_extract {a : Nat} (ha : P a) : Inside P Q (extract a) (RefOf P) := by
  have self : RefOf P (.obj a) := by intro b hb; simp only [Ref.addr, List.mem_singleton] at hb; exact hb ▸ ha
  refine ins_bind (ins_look ha) (fun o ho => ?_)
  cases o with
  | change => exact ins_pure self
  | comm r p op bts cts =>
    dsimp only
    split
    · exact ins_if (ins_pure (by simp [RefOf, Ref.addr])) (ins_pure self)
    · rename_i ct
      refine ins_if ?_ (ins_pure self)
      have hct : P ct := ho.2.2 ct (by simp)
      refine ins_bind (ins_setParent hct ho.2.1) (fun _ _ => ins_pure ?_)
      intro b hb; simp only [Ref.addr, List.mem_singleton] at hb; exact hb ▸ hct
    · exact ins_pure self

theorem ins_simplifyBaseTerms {cfg : Cfg} {a : Nat} (ha : P a) : Inside P Q (simplifyBaseTerms cfg a) (fun _ => True) :=
  ins_edit ha in_withBts

theorem ins_absorbOne {cfg : Cfg} {a hc : Nat} (hQ : ∀ x, P x → Q x) (ha : P a) (hhc : P hc) : Inside P Q (absorbOne cfg a hc) (fun _ => True) := by
  refine ins_bind (ins_look hhc) (fun o ho => ?_)
  cases o with
  | change => exact ins_raise
  | comm =>
    refine ins_bind (ins_edit ha in_withBts) (fun _ _ => ?_)
    refine ins_bind (ins_simplifyBaseTerms ha) (fun _ _ => ?_)
    refine ins_bind (ins_look hhc) (fun o ho => ?_)
    refine ins_bind (ins_each fun ct hct => ins_setParent (in_cts ho ct hct) (by simpa using hQ a ha)) (fun _ _ => ?_)
    refine ins_bind (ins_edit ha (fun o' ho' => in_withCts o' ho' ?_)) (fun _ _ => ?_)
    · intro l hl x hx
      rcases List.mem_append.1 hx with hx | hx
      · exact hl x hx
      · exact in_cts ho x hx
    refine ins_bind (ins_look ha) (fun s hs => ?_)
    refine ins_bind (ins_ask (R := fun r => ∀ cts, r = some cts → ∀ x ∈ cts, P x) ?_) (fun r hr => ?_)
    · intro h x hx cts e x' hx'
      subst e
      exact in_cts hs x' (dropFirst_sub hx x' hx')
    · cases r with
      | none => exact ins_raise
      | some cts => exact ins_edit ha (fun o' ho' => in_withCts o' ho' (fun _ _ => hr cts rfl))

theorem ins_absorbHomogeneous {cfg : Cfg} {a : Nat} {op : Op} (hQ : ∀ x, P x → Q x) (ha : P a) :
    Inside P Q (absorbHomogeneous cfg a op) (fun _ => True) := by
  refine ins_bind (ins_look ha) (fun s hs => ?_)
  refine ins_bind (ins_collect (R := fun q => P q.1) fun ct hct => ?_) (fun os hos => ?_)
  · exact ins_bind (ins_look_any ct) (fun _ _ => ins_pure (in_cts hs ct hct))
  · refine ins_each (fun hc hhc => ins_absorbOne hQ ha ?_)
    obtain ⟨q, hq, rfl⟩ := List.mem_map.1 hhc
    exact hos q (List.mem_filter.1 hq).1

theorem ins_absorbSingletons {cfg : Cfg} {a : Nat} (ha : P a) : Inside P Q (absorbSingletons cfg a) (fun _ => True) := by
  refine ins_bind (ins_look ha) (fun s hs => ?_)
  refine ins_bind (ins_collect (R := RefOf P) fun ct hct => ins_extract (in_cts hs ct hct)) (fun es hes => ?_)
  refine ins_bind (ins_edit ha (fun o' ho' => in_withCts o' ho' ?_)) (fun _ _ => ?_)
  · intro l _ x hx
    obtain ⟨e, he, h⟩ := List.mem_filterMap.1 hx
    cases e with
    | str => cases h
    | obj c => cases h; exact hes _ he x (by simp [Ref.addr])
  · exact ins_bind (ins_edit ha in_withBts) (fun _ _ => ins_simplifyBaseTerms ha)

theorem ins_simplifyF {cfg : Cfg} (hQ : ∀ x, P x → Q x) (m : Nat) : ∀ a, P a → Inside P Q (simplifyF cfg m a) (fun _ => True) := by
  induction m with
  | zero => intro a _; exact ins_raise
  | succ m ih =>
    intro a ha
    refine ins_bind (ins_look ha) (fun o ho => ?_)
    cases o with
    | comm r p op bts cts =>
      refine ins_bind (ins_each fun ct hct => ih ct (ho.2.2 ct hct)) (fun _ _ => ?_)
      refine ins_bind (ins_edit ha (fun o' ho' => in_withCts o' ho' (fun _ _ => ho.2.2))) (fun _ _ => ?_)
      refine ins_bind (ins_absorbHomogeneous hQ ha) (fun _ _ => ?_)
      exact ins_bind (ins_absorbSingletons ha) (fun _ _ => ins_simplifyBaseTerms ha)
    | change r p c l r' =>
      refine ins_bind (ins_onRef fun b hb => ?_) (fun _ _ => ?_)
      · refine ins_bind (ih b (ho.2.2.1 b hb)) (fun _ _ => ?_)
        refine ins_bind (ins_extract (ho.2.2.1 b hb)) (fun e he => ?_)
        exact ins_edit ha (in_withLeft he)
      · refine ins_bind (ins_look ha) (fun o ho => ?_)
        cases o with
        | comm => exact ins_pure trivial
        | change =>
          refine ins_onRef fun b hb => ?_
          refine ins_bind (ih b (ho.2.2.2 b hb)) (fun _ _ => ?_)
          refine ins_bind (ins_extract (ho.2.2.2 b hb)) (fun e he => ?_)
          exact ins_edit ha (in_withRight he)

theorem ins_simplify {cfg : Cfg} (hQ : ∀ x, P x → Q x) {a : Nat} (ha : P a) : Inside P Q (simplify cfg a) (fun _ => True) :=
  ins_levels fun m => ins_simplifyF hQ m a ha

theorem ins_adopt {a ct : Nat} (hQ : ∀ x, P x → Q x) (ha : P a) (hct : P ct) :
    Inside P Q (do setParent ct (some a); let s ← look a; setRoot ct s.root : M Unit) (fun _ => True) := by
  refine ins_bind (ins_setParent hct (by simpa using hQ a ha)) (fun _ _ => ?_)
  exact ins_bind (ins_look ha) (fun s hs => ins_setRoot hct (in_root hs) (hQ ct hct))

/-- Constructors take any arguments. -/
theorem ins_newComm {cfg : Cfg} {op : Op} {bts : Counter} {cts : List Nat} (hQ : ∀ x, P x → Q x) :
    Inside P Q (newComm cfg op bts cts) P := by
  refine ins_bind (ins_alloc ⟨by simp, by simp, by simp⟩) (fun a ha => ?_)
  refine ins_bind (ins_deepcopy hQ) (fun f hf => ?_)
  refine ins_bind (ins_edit ha (fun o' ho' => in_withCts o' ho' ?_)) (fun _ _ => ?_)
  · intro _ _ x hx
    obtain ⟨y, _, rfl⟩ := List.mem_map.1 hx
    exact hf y
  refine ins_bind (ins_simplify hQ ha) (fun _ _ => ?_)
  refine ins_bind (ins_look ha) (fun o ho => ?_)
  exact ins_bind (ins_each fun ct hct => ins_adopt hQ ha (in_cts ho ct hct)) (fun _ _ => ins_pure ha)

theorem ins_newList {cfg : Cfg} {op : Op} {names : List Base} {cts : List Nat} (hQ : ∀ x, P x → Q x) :
    Inside P Q (newList cfg op names cts) P := ins_newComm hQ

theorem ins_standardiseF {cfg : Cfg} (hQ : ∀ x, P x → Q x) (k : Nat) : ∀ a, P a → Inside P Q (standardiseF cfg k a) P := by
  induction k with
  | zero => intro a _; exact ins_raise
  | succ k ih =>
    intro a ha
    refine ins_bind (ins_simplify hQ ha) (fun _ _ => ?_)
    refine ins_bind (ins_extract ha) (fun e he => ?_)
    cases e with
    | str b =>
      refine ins_bind (ins_newList hQ) (fun t ht => ?_)
      exact ins_bind (ins_setRoot ht (by simp) (hQ t ht)) (fun _ _ => ins_pure ht)
    | obj c =>
      have hc : P c := he c (by simp [Ref.addr])
      refine ins_if (ins_pure ha) ?_
      refine ins_bind (ins_setParent hc (by simp)) (fun _ _ => ?_)
      exact ins_bind (ins_setRoot hc (by simp) (hQ c hc)) (fun _ _ => ih c hc)

theorem ins_rootOf {cfg : Cfg} {a : Nat} (hQ : ∀ x, P x → Q x) (hQ' : ∀ x, Q x → P x) (ha : P a) : Inside P Q (rootOf cfg a) P := by
  refine ins_bind (ins_look ha) (fun o ho => ?_)
  split
  · exact ins_raise
  · rename_i x hx
    exact ins_levels fun m => ins_standardiseF hQ m x (hQ' x (in_root ho x hx))


end Objects
end GPyABCD
