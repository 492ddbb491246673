import Verif.Spec.Objects
import Mathlib.Tactic.SplitIfs
import Mathlib.Data.Option.Basic

/-!
# Lemmas: programs write only to new objects
-/

namespace GPyABCD
namespace Objects

variable {α β γ : Type}

/-- Parts satisfy `P`, links satisfy `Q`. -/
def Obj.In (P Q : Nat → Prop) : Obj → Prop
  | .comm r p _ _ cts => (∀ x ∈ r, Q x) ∧ (∀ x ∈ p, Q x) ∧ ∀ x ∈ cts, P x
  | .change r p _ l r' => (∀ x ∈ r, Q x) ∧ (∀ x ∈ p, Q x) ∧ (∀ x ∈ l.addr, P x) ∧ ∀ x ∈ r'.addr, P x

/-- Objects from `n` on have their parts from `n` on, and links in `Q`. -/
def Closed (n : Nat) (Q : Nat → Prop) (h : Heap) : Prop := n ≤ h.length ∧ ∀ a, n ≤ a → ∀ o, h[a]? = some o → o.In (n ≤ ·) Q

/-- The program, started where objects from `n` on are closed, leaves objects before `n` alone, keeps that closedness, and returns values
with `R`. -/
def Keeps (n : Nat) (Q : Nat → Prop) (m : M α) (R : α → Prop) : Prop :=
  ∀ h, Closed n Q h → Closed n Q (m h).2 ∧ (∀ a, a < n → (m h).2[a]? = h[a]?) ∧ ∀ x, (m h).1 = .ok x → R x

variable {n : Nat} {Q : Nat → Prop}

theorem Keeps.mono {m : M α} {R R' : α → Prop} (h : Keeps n Q m R) (hr : ∀ x, R x → R' x) : Keeps n Q m R' := by
  intro s hs
  obtain ⟨h1, h2, h3⟩ := h s hs
  exact ⟨h1, h2, fun x hx => hr x (h3 x hx)⟩

theorem keeps_pure {R : α → Prop} {x : α} (hx : R x) : Keeps n Q (pure x : M α) R := by
  intro h hc
  refine ⟨hc, fun _ _ => rfl, ?_⟩
  intro y hy
  simp only [pure, Except.ok.injEq] at hy
  exact hy ▸ hx

theorem keeps_raise {R : α → Prop} {e : Err} : Keeps n Q (raise e : M α) R := by
  intro h hc
  exact ⟨hc, fun _ _ => rfl, by simp [raise]⟩

theorem keeps_bind {m : M α} {f : α → M β} {R : α → Prop} {R' : β → Prop} (hm : Keeps n Q m R) (hf : ∀ x, R x → Keeps n Q (f x) R') :
    Keeps n Q (m >>= f) R' := by
  intro h hc
  obtain ⟨h1, h2, h3⟩ := hm h hc
  simp only [bind]
  cases hmh : m h with
  | mk r h' =>
    rw [hmh] at h1 h2 h3
    cases r with
    | error e => exact ⟨h1, h2, by simp⟩
    | ok x =>
      obtain ⟨k1, k2, k3⟩ := hf x (h3 x rfl) h' h1
      exact ⟨k1, fun a ha => (k2 a ha).trans (h2 a ha), k3⟩

theorem keeps_ask {f : Heap → Option α} {R : α → Prop} (hr : ∀ h x, f h = some x → R x) : Keeps n Q (ask f) R := by
  intro h hc
  unfold ask
  cases hf : f h with
  | none => exact ⟨hc, fun _ _ => rfl, by simp⟩
  | some x => exact ⟨hc, fun _ _ => rfl, by simp only [Except.ok.injEq]; rintro _ rfl; exact hr h _ hf⟩

theorem keeps_look_any (a : Nat) : Keeps n Q (look a) (fun _ => True) := by
  intro h hc
  unfold look
  cases h[a]? <;> exact ⟨hc, fun _ _ => rfl, fun _ _ => trivial⟩

theorem keeps_look {a : Nat} (ha : n ≤ a) : Keeps n Q (look a) (Obj.In (n ≤ ·) Q) := by
  intro h hc
  unfold look
  cases ho : h[a]? with
  | none => exact ⟨hc, fun _ _ => rfl, by simp⟩
  | some o => exact ⟨hc, fun _ _ => rfl, by simp only [Except.ok.injEq]; rintro _ rfl; exact hc.2 a ha _ ho⟩

theorem keeps_edit {a : Nat} (ha : n ≤ a) {f : Obj → Obj} (hf : ∀ o, o.In (n ≤ ·) Q → (f o).In (n ≤ ·) Q) : Keeps n Q (edit a f) (fun _ => True) := by
  intro h hc
  unfold edit
  cases ho : h[a]? with
  | none => exact ⟨hc, fun _ _ => rfl, fun _ _ => trivial⟩
  | some o =>
    refine ⟨⟨by simpa using hc.1, ?_⟩, ?_, fun _ _ => trivial⟩
    · intro b hb o' ho'
      rw [List.getElem?_set] at ho'
      split_ifs at ho' with e1 e2
      · cases ho'; exact hf o (hc.2 a ha o ho)
      · exact hc.2 b hb o' ho'
    · intro b hb
      rw [List.getElem?_set_ne (by omega)]

theorem keeps_alloc {o : Obj} (ho : o.In (n ≤ ·) Q) : Keeps n Q (alloc o) (n ≤ ·) := by
  intro h hc
  unfold alloc
  refine ⟨⟨by have := hc.1; simp; omega, ?_⟩, ?_, ?_⟩
  · intro b hb o' ho'
    rw [List.getElem?_append] at ho'
    split_ifs at ho' with e1
    · exact hc.2 b hb o' ho'
    · have := List.mem_of_getElem? ho'
      simp only [List.mem_singleton] at this
      exact this ▸ ho
  · intro b hb
    exact List.getElem?_append_left (by have := hc.1; omega)
  · intro x hx
    simp only [Except.ok.injEq] at hx
    exact hx ▸ hc.1

theorem keeps_levels {f : Nat → M α} {R : α → Prop} (hf : ∀ m, Keeps n Q (f m) R) : Keeps n Q (levels f) R :=
  fun h hc => hf (h.length + 1) h hc

theorem Obj.in_copy {f : Nat → Nat} (o : Obj) (hf : ∀ x, n ≤ f x) (hQ : ∀ x, n ≤ x → Q x) : (o.copy f).In (n ≤ ·) Q := by
  cases o with
  | comm r p op bts cts =>
    refine ⟨?_, ?_, ?_⟩
    · intro x hx; simp only [Option.mem_def, Option.map_eq_some_iff] at hx; obtain ⟨y, _, rfl⟩ := hx; exact hQ _ (hf y)
    · intro x hx; simp only [Option.mem_def, Option.map_eq_some_iff] at hx; obtain ⟨y, _, rfl⟩ := hx; exact hQ _ (hf y)
    · intro x hx; simp only [List.mem_map] at hx; obtain ⟨y, _, rfl⟩ := hx; exact hf y
  | change r p c l r' =>
    refine ⟨?_, ?_, ?_, ?_⟩
    · intro x hx; simp only [Option.mem_def, Option.map_eq_some_iff] at hx; obtain ⟨y, _, rfl⟩ := hx; exact hQ _ (hf y)
    · intro x hx; simp only [Option.mem_def, Option.map_eq_some_iff] at hx; obtain ⟨y, _, rfl⟩ := hx; exact hQ _ (hf y)
    · cases l <;> simp [Ref.copy, Ref.addr, hf]
    · cases r' <;> simp [Ref.copy, Ref.addr, hf]

theorem keeps_deepcopy {roots : List Nat} (hQ : ∀ x, n ≤ x → Q x) : Keeps n Q (deepcopy roots) (fun f => ∀ x, n ≤ f x) := by
  intro h hc
  unfold deepcopy
  split
  · exact ⟨hc, fun _ _ => rfl, by simp⟩
  · rename_i l _
    have hf : ∀ x, n ≤ h.length + l.idxOf x := fun x => by have := hc.1; omega
    refine ⟨⟨by have := hc.1; simp; omega, ?_⟩, ?_, ?_⟩
    · intro b hb o' ho'
      rw [List.getElem?_append] at ho'
      split_ifs at ho' with e1
      · exact hc.2 b hb o' ho'
      · have := List.mem_of_getElem? ho'
        obtain ⟨a, _, ha⟩ := List.mem_filterMap.1 this
        simp only [Option.map_eq_some_iff] at ha
        obtain ⟨o, _, rfl⟩ := ha
        exact Obj.in_copy o hf hQ
    · intro b hb
      exact List.getElem?_append_left (by have := hc.1; omega)
    · intro x hx
      simp only [Except.ok.injEq] at hx
      exact hx ▸ hf

theorem keeps_each {f : β → M Unit} {xs : List β} (hf : ∀ x ∈ xs, Keeps n Q (f x) (fun _ => True)) : Keeps n Q (each f xs) (fun _ => True) := by
  induction xs with
  | nil => exact keeps_pure trivial
  | cons x xs ih =>
    exact keeps_bind (hf x (List.mem_cons_self ..)) (fun _ _ => ih (fun y hy => hf y (List.mem_cons_of_mem _ hy)))

theorem keeps_collect {f : β → M γ} {xs : List β} {R : γ → Prop} (hf : ∀ x ∈ xs, Keeps n Q (f x) R) : Keeps n Q (collect f xs) (fun l => ∀ y ∈ l, R y) := by
  induction xs with
  | nil => exact keeps_pure (by simp)
  | cons x xs ih =>
    refine keeps_bind (hf x (List.mem_cons_self ..)) (fun y hy => ?_)
    refine keeps_bind (ih (fun z hz => hf z (List.mem_cons_of_mem _ hz))) (fun ys hys => keeps_pure ?_)
    intro z hz
    rcases List.mem_cons.1 hz with rfl | hz
    · exact hy
    · exact hys z hz

theorem keeps_if {c : Prop} [Decidable c] {m m' : M α} {R : α → Prop} (h : Keeps n Q m R) (h' : Keeps n Q m' R) : Keeps n Q (if c then m else m') R := by
  split_ifs <;> assumption

/-! ## Methods -/

theorem in_withParent {p : Option Nat} {P : Nat → Prop} (hp : ∀ x ∈ p, Q x) (o : Obj) (h : o.In P Q) : (o.withParent p).In P Q := by
  cases o with
  | comm => exact ⟨h.1, hp, h.2.2⟩
  | change => exact ⟨h.1, hp, h.2.2⟩

theorem in_withRoot {p : Option Nat} {P : Nat → Prop} (hp : ∀ x ∈ p, Q x) (o : Obj) (h : o.In P Q) : (o.withRoot p).In P Q := by
  cases o with
  | comm => exact ⟨hp, h.2⟩
  | change => exact ⟨hp, h.2⟩

theorem in_withBts {f : Op → Counter → Nat → Counter} {P : Nat → Prop} (o : Obj) (h : o.In P Q) : (o.withBts f).In P Q := by
  cases o <;> exact h

theorem in_withCts {f : List Nat → List Nat} {P : Nat → Prop} (o : Obj) (h : o.In P Q) (hf : ∀ l, (∀ x ∈ l, P x) → ∀ x ∈ f l, P x) :
    (o.withCts f).In P Q := by
  cases o with
  | comm => exact ⟨h.1, h.2.1, hf _ h.2.2⟩
  | change => exact h

theorem in_withLeft {x : Ref} {P : Nat → Prop} (hx : ∀ a ∈ x.addr, P a) (o : Obj) (h : o.In P Q) : (o.withLeft x).In P Q := by
  cases o with
  | comm => exact h
  | change => exact ⟨h.1, h.2.1, hx, h.2.2.2⟩

theorem in_withRight {x : Ref} {P : Nat → Prop} (hx : ∀ a ∈ x.addr, P a) (o : Obj) (h : o.In P Q) : (o.withRight x).In P Q := by
  cases o with
  | comm => exact h
  | change => exact ⟨h.1, h.2.1, h.2.2.1, hx⟩

theorem in_cts {P : Nat → Prop} {o : Obj} (h : o.In P Q) : ∀ x ∈ o.cts, P x := by
  cases o with
  | comm => exact h.2.2
  | change => simp [Obj.cts]

theorem in_root {P : Nat → Prop} {o : Obj} (h : o.In P Q) : ∀ x ∈ o.root, Q x := by cases o <;> exact h.1

theorem in_parent {P : Nat → Prop} {o : Obj} (h : o.In P Q) : ∀ x ∈ o.parent, Q x := by cases o <;> exact h.2.1

theorem keeps_setParent {a : Nat} {p : Option Nat} (ha : n ≤ a) (hp : ∀ x ∈ p, Q x) : Keeps n Q (setParent a p) (fun _ => True) :=
  keeps_edit ha (in_withParent hp)

theorem keeps_onRef {f : Nat → M Unit} {x : Ref} (hf : ∀ a ∈ x.addr, Keeps n Q (f a) (fun _ => True)) : Keeps n Q (onRef f x) (fun _ => True) := by
  cases x with
  | str => exact keeps_pure trivial
  | obj a => exact hf a (by simp [Ref.addr])

theorem keeps_setRootTo {x : Nat} (hx : Q x) (m : Nat) : ∀ a, n ≤ a → Keeps n Q (setRootTo x m a) (fun _ => True) := by
  induction m with
  | zero => intro a _; exact keeps_raise
  | succ m ih =>
    intro a ha
    refine keeps_bind (keeps_edit ha (in_withRoot (by simpa using hx))) (fun _ _ => ?_)
    refine keeps_bind (keeps_look ha) (fun o ho => ?_)
    cases o with
    | comm => exact keeps_each (fun ct hct => ih ct (ho.2.2 ct hct))
    | change =>
      refine keeps_bind (keeps_onRef fun b hb => ih b (ho.2.2.1 b hb)) (fun _ _ => ?_)
      exact keeps_onRef fun b hb => ih b (ho.2.2.2 b hb)

theorem keeps_setRoot {a : Nat} {x : Option Nat} (ha : n ≤ a) (hx : ∀ y ∈ x, Q y) (hQ : Q a) : Keeps n Q (setRoot a x) (fun _ => True) := by
  refine keeps_levels fun m => keeps_setRootTo ?_ m a ha
  cases x with
  | none => exact hQ
  | some y => exact hx y rfl

theorem keeps_setAllParents (hQ : ∀ x, n ≤ x → Q x) (m : Nat) : ∀ a, n ≤ a → Keeps n Q (setAllParentsF m a) (fun _ => True) := by
  induction m with
  | zero => intro a _; exact keeps_raise
  | succ m ih =>
    intro a ha
    refine keeps_bind (keeps_look ha) (fun o ho => ?_)
    have child : ∀ ct, n ≤ ct → Keeps n Q (do setParent ct (some a); setAllParentsF m ct : M Unit) (fun _ => True) :=
      fun ct hct => keeps_bind (keeps_setParent hct (by simpa using hQ a ha)) (fun _ _ => ih ct hct)
    cases o with
    | comm => exact keeps_each (fun ct hct => child ct (ho.2.2 ct hct))
    | change =>
      refine keeps_bind (keeps_onRef fun b hb => child b (ho.2.2.1 b hb)) (fun _ _ => ?_)
      exact keeps_onRef fun b hb => child b (ho.2.2.2 b hb)

/-- Addresses of a reference. -/
abbrev RefIn (n : Nat) (x : Ref) : Prop := ∀ a ∈ x.addr, n ≤ a

theorem keeps_extract {a : Nat} (ha : n ≤ a) : Keeps n Q (extract a) (RefIn n) := by
  have self : RefIn n (.obj a) := by intro b hb; simp only [Ref.addr, List.mem_singleton] at hb; omega
  refine keeps_bind (keeps_look ha) (fun o ho => ?_)
  cases o with
  | change => exact keeps_pure self
  | comm r p op bts cts =>
    dsimp only
    split
    · exact keeps_if (keeps_pure (by simp [RefIn, Ref.addr])) (keeps_pure self)
    · rename_i ct
      refine keeps_if ?_ (keeps_pure self)
      have hct : n ≤ ct := ho.2.2 ct (by simp)
      refine keeps_bind (keeps_setParent hct ho.2.1) (fun _ _ => keeps_pure ?_)
      intro b hb; simp only [Ref.addr, List.mem_singleton] at hb; omega
    · exact keeps_pure self

theorem keeps_simplifyBaseTerms {cfg : Cfg} {a : Nat} (ha : n ≤ a) : Keeps n Q (simplifyBaseTerms cfg a) (fun _ => True) :=
  keeps_edit ha in_withBts

theorem dropFirst_sub {p : β → Option Bool} {xs ys : List β} (h : dropFirst p xs = some (some ys)) : ∀ y ∈ ys, y ∈ xs := by
  induction xs generalizing ys with
  | nil => simp [dropFirst] at h
  | cons x xs ih =>
    rw [dropFirst] at h
    split at h
    · cases h
    · cases h; exact fun y hy => List.mem_cons_of_mem _ hy
    · cases hd : dropFirst p xs with
      | none => rw [hd] at h; cases h
      | some r =>
        cases r with
        | none => rw [hd] at h; cases h
        | some zs =>
          rw [hd] at h
          cases h
          intro y hy
          rcases List.mem_cons.1 hy with rfl | hy
          · exact List.mem_cons_self ..
          · exact List.mem_cons_of_mem _ (ih hd y hy)

theorem keeps_absorbOne {cfg : Cfg} {a hc : Nat} (hQ : ∀ x, n ≤ x → Q x) (ha : n ≤ a) (hhc : n ≤ hc) : Keeps n Q (absorbOne cfg a hc) (fun _ => True) := by
  refine keeps_bind (keeps_look hhc) (fun o ho => ?_)
  cases o with
  | change => exact keeps_raise
  | comm =>
    refine keeps_bind (keeps_edit ha in_withBts) (fun _ _ => ?_)
    refine keeps_bind (keeps_simplifyBaseTerms ha) (fun _ _ => ?_)
    refine keeps_bind (keeps_look hhc) (fun o ho => ?_)
    refine keeps_bind (keeps_each fun ct hct => keeps_setParent (in_cts ho ct hct) (by simpa using hQ a ha)) (fun _ _ => ?_)
    refine keeps_bind (keeps_edit ha (fun o' ho' => in_withCts o' ho' ?_)) (fun _ _ => ?_)
    · intro l hl x hx
      rcases List.mem_append.1 hx with hx | hx
      · exact hl x hx
      · exact in_cts ho x hx
    refine keeps_bind (keeps_look ha) (fun s hs => ?_)
    refine keeps_bind (keeps_ask (R := fun r => ∀ cts, r = some cts → ∀ x ∈ cts, n ≤ x) ?_) (fun r hr => ?_)
    · intro h x hx cts e x' hx'
      subst e
      exact in_cts hs x' (dropFirst_sub hx x' hx')
    · cases r with
      | none => exact keeps_raise
      | some cts => exact keeps_edit ha (fun o' ho' => in_withCts o' ho' (fun _ _ => hr cts rfl))

theorem keeps_absorbHomogeneous {cfg : Cfg} {a : Nat} {op : Op} (hQ : ∀ x, n ≤ x → Q x) (ha : n ≤ a) :
    Keeps n Q (absorbHomogeneous cfg a op) (fun _ => True) := by
  refine keeps_bind (keeps_look ha) (fun s hs => ?_)
  refine keeps_bind (keeps_collect (R := fun q => n ≤ q.1) fun ct hct => ?_) (fun os hos => ?_)
  · exact keeps_bind (keeps_look_any ct) (fun _ _ => keeps_pure (in_cts hs ct hct))
  · refine keeps_each (fun hc hhc => keeps_absorbOne hQ ha ?_)
    obtain ⟨q, hq, rfl⟩ := List.mem_map.1 hhc
    exact hos q (List.mem_filter.1 hq).1

theorem keeps_absorbSingletons {cfg : Cfg} {a : Nat} (ha : n ≤ a) : Keeps n Q (absorbSingletons cfg a) (fun _ => True) := by
  refine keeps_bind (keeps_look ha) (fun s hs => ?_)
  refine keeps_bind (keeps_collect (R := RefIn n) fun ct hct => keeps_extract (in_cts hs ct hct)) (fun es hes => ?_)
  refine keeps_bind (keeps_edit ha (fun o' ho' => in_withCts o' ho' ?_)) (fun _ _ => ?_)
  · intro l _ x hx
    obtain ⟨e, he, h⟩ := List.mem_filterMap.1 hx
    cases e with
    | str => cases h
    | obj c => cases h; exact hes _ he x (by simp [Ref.addr])
  · exact keeps_bind (keeps_edit ha in_withBts) (fun _ _ => keeps_simplifyBaseTerms ha)

theorem keeps_simplifyF {cfg : Cfg} (hQ : ∀ x, n ≤ x → Q x) (m : Nat) : ∀ a, n ≤ a → Keeps n Q (simplifyF cfg m a) (fun _ => True) := by
  induction m with
  | zero => intro a _; exact keeps_raise
  | succ m ih =>
    intro a ha
    refine keeps_bind (keeps_look ha) (fun o ho => ?_)
    cases o with
    | comm r p op bts cts =>
      refine keeps_bind (keeps_each fun ct hct => ih ct (ho.2.2 ct hct)) (fun _ _ => ?_)
      refine keeps_bind (keeps_edit ha (fun o' ho' => in_withCts o' ho' (fun _ _ => ho.2.2))) (fun _ _ => ?_)
      refine keeps_bind (keeps_absorbHomogeneous hQ ha) (fun _ _ => ?_)
      exact keeps_bind (keeps_absorbSingletons ha) (fun _ _ => keeps_simplifyBaseTerms ha)
    | change r p c l r' =>
      refine keeps_bind (keeps_onRef fun b hb => ?_) (fun _ _ => ?_)
      · refine keeps_bind (ih b (ho.2.2.1 b hb)) (fun _ _ => ?_)
        refine keeps_bind (keeps_extract (ho.2.2.1 b hb)) (fun e he => ?_)
        exact keeps_edit ha (in_withLeft he)
      · refine keeps_bind (keeps_look ha) (fun o ho => ?_)
        cases o with
        | comm => exact keeps_pure trivial
        | change =>
          refine keeps_onRef fun b hb => ?_
          refine keeps_bind (ih b (ho.2.2.2 b hb)) (fun _ _ => ?_)
          refine keeps_bind (keeps_extract (ho.2.2.2 b hb)) (fun e he => ?_)
          exact keeps_edit ha (in_withRight he)

theorem keeps_simplify {cfg : Cfg} (hQ : ∀ x, n ≤ x → Q x) {a : Nat} (ha : n ≤ a) : Keeps n Q (simplify cfg a) (fun _ => True) :=
  keeps_levels fun m => keeps_simplifyF hQ m a ha

theorem keeps_initialise {cfg : Cfg} {a : Nat} (hQ : ∀ x, n ≤ x → Q x) (ha : n ≤ a) : Keeps n Q (initialise cfg a) (n ≤ ·) := by
  refine keeps_bind (keeps_setRoot ha (by simp) (hQ a ha)) (fun _ _ => ?_)
  refine keeps_bind (keeps_levels fun m => keeps_setAllParents hQ m a ha) (fun _ _ => ?_)
  exact keeps_bind (keeps_simplify hQ ha) (fun _ _ => keeps_pure ha)

theorem keeps_adopt {a ct : Nat} (hQ : ∀ x, n ≤ x → Q x) (ha : n ≤ a) (hct : n ≤ ct) :
    Keeps n Q (do setParent ct (some a); let s ← look a; setRoot ct s.root : M Unit) (fun _ => True) := by
  refine keeps_bind (keeps_setParent hct (by simpa using hQ a ha)) (fun _ _ => ?_)
  exact keeps_bind (keeps_look ha) (fun s hs => keeps_setRoot hct (in_root hs) (hQ ct hct))

/-- Constructors take any arguments. -/
theorem keeps_newComm {cfg : Cfg} {op : Op} {bts : Counter} {cts : List Nat} (hQ : ∀ x, n ≤ x → Q x) :
    Keeps n Q (newComm cfg op bts cts) (n ≤ ·) := by
  refine keeps_bind (keeps_alloc ⟨by simp, by simp, by simp⟩) (fun a ha => ?_)
  refine keeps_bind (keeps_deepcopy hQ) (fun f hf => ?_)
  refine keeps_bind (keeps_edit ha (fun o' ho' => in_withCts o' ho' ?_)) (fun _ _ => ?_)
  · intro _ _ x hx
    obtain ⟨y, _, rfl⟩ := List.mem_map.1 hx
    exact hf y
  refine keeps_bind (keeps_simplify hQ ha) (fun _ _ => ?_)
  refine keeps_bind (keeps_look ha) (fun o ho => ?_)
  exact keeps_bind (keeps_each fun ct hct => keeps_adopt hQ ha (in_cts ho ct hct)) (fun _ _ => keeps_pure ha)

theorem refIn_copy {f : Nat → Nat} (hf : ∀ x, n ≤ f x) (x : Ref) : RefIn n (x.copy f) := by
  cases x <;> simp [RefIn, Ref.copy, Ref.addr, hf]

theorem keeps_newChange {cfg : Cfg} {c : CC} {l r : Ref} (hQ : ∀ x, n ≤ x → Q x) : Keeps n Q (newChange cfg c l r) (n ≤ ·) := by
  refine keeps_bind (keeps_alloc ⟨by simp, by simp, by simp [Ref.addr], by simp [Ref.addr]⟩) (fun a ha => ?_)
  refine keeps_bind (keeps_deepcopy hQ) (fun f hf => ?_)
  refine keeps_bind (keeps_edit ha (in_withLeft (refIn_copy hf l))) (fun _ _ => ?_)
  refine keeps_bind (keeps_deepcopy hQ) (fun g hg => ?_)
  refine keeps_bind (keeps_edit ha (in_withRight (refIn_copy hg r))) (fun _ _ => ?_)
  refine keeps_bind (keeps_simplify hQ ha) (fun _ _ => ?_)
  refine keeps_bind (keeps_look ha) (fun o ho => ?_)
  cases o with
  | comm => exact keeps_pure ha
  | change =>
    refine keeps_bind (keeps_onRef fun b hb => keeps_adopt hQ ha (ho.2.2.1 b hb)) (fun _ _ => ?_)
    exact keeps_bind (keeps_onRef fun b hb => keeps_adopt hQ ha (ho.2.2.2 b hb)) (fun _ _ => keeps_pure ha)

/-! ## Trees -/

theorem keeps_reassignChild {a old new : Nat} (ha : n ≤ a) (hn : n ≤ new) : Keeps n Q (reassignChild a old new) (n ≤ ·) := by
  refine keeps_bind (keeps_look ha) (fun o ho => ?_)
  have hobj : RefIn n (.obj new) := by intro b hb; simp only [Ref.addr, List.mem_singleton] at hb; omega
  cases o with
  | comm r p op bts cts =>
    refine keeps_bind (keeps_ask (R := fun r => ∀ cts, r = some cts → ∀ x ∈ cts, n ≤ x) ?_) (fun r hr => ?_)
    · intro h x hx cts e x' hx'
      subst e
      exact ho.2.2 x' (dropFirst_sub hx x' hx')
    · cases r with
      | none => exact keeps_raise
      | some cts' =>
        refine keeps_bind (keeps_edit ha (fun o' ho' => in_withCts o' ho' ?_)) (fun _ _ => keeps_pure hn)
        intro _ _ x hx
        rcases List.mem_append.1 hx with hx | hx
        · exact hr cts' rfl x hx
        · simp only [List.mem_singleton] at hx; omega
  | change =>
    refine keeps_if ?_ ?_
    · exact keeps_bind (keeps_edit ha (in_withLeft hobj)) (fun _ _ => keeps_pure hn)
    · exact keeps_bind (keeps_edit ha (in_withRight hobj)) (fun _ _ => keeps_pure hn)

theorem keeps_isRoot {a : Nat} : Keeps n Q (isRoot a) (fun _ => True) := by
  refine keeps_bind (keeps_look_any a) (fun o _ => ?_)
  exact keeps_if (keeps_if (keeps_pure trivial) keeps_raise) (keeps_pure trivial)

/-- `new_tree_with_self_replaced` takes any arguments. -/
theorem keeps_newTree {a new : Nat} (hQ : ∀ x, n ≤ x → Q x) (hQ' : ∀ x, Q x → n ≤ x) : Keeps n Q (newTree a new) (n ≤ ·) := by
  refine keeps_bind (keeps_deepcopy hQ) (fun f hf => ?_)
  have hn : n ≤ f new := hf new
  refine keeps_bind keeps_isRoot (fun b _ => ?_)
  refine keeps_if ?_ ?_
  · refine keeps_bind (keeps_setParent hn (by simp)) (fun _ _ => ?_)
    exact keeps_bind (keeps_setRoot hn (by simp) (hQ _ hn)) (fun _ _ => keeps_pure hn)
  · refine keeps_bind (keeps_look (hf a)) (fun s hs => ?_)
    refine keeps_bind (keeps_setParent hn (in_parent hs)) (fun _ _ => ?_)
    refine keeps_bind (keeps_setRoot hn (in_root hs) (hQ _ hn)) (fun _ _ => ?_)
    refine keeps_bind (keeps_look hn) (fun o ho => ?_)
    split
    · exact keeps_raise
    · rename_i p hp
      exact keeps_reassignChild (hQ' _ (in_parent ho _ hp)) hn

theorem keeps_newList {cfg : Cfg} {op : Op} {names : List Base} {cts : List Nat} (hQ : ∀ x, n ≤ x → Q x) :
    Keeps n Q (newList cfg op names cts) (n ≤ ·) := keeps_newComm hQ

/-- `traverse` puts links to visited nodes into its temporary nodes. -/
theorem keeps_traverseF {cfg : Cfg} (m : Nat) : ∀ a, Keeps n (fun _ => True) (traverseF cfg m a) (fun _ => True) := by
  induction m with
  | zero => intro a; exact keeps_raise
  | succ m ih =>
    intro a
    have ref : ∀ rt x, Keeps n (fun _ => True) (traverseRef cfg a rt (traverseF cfg m) x) (fun _ => True) := by
      intro rt x
      cases x with
      | obj b => exact ih b
      | str b =>
        refine keeps_bind (keeps_newList (fun _ _ => trivial)) (fun t ht => ?_)
        refine keeps_bind (keeps_setRoot ht (by simp) trivial) (fun _ _ => ?_)
        exact keeps_bind (keeps_setParent ht (by simp)) (fun _ _ => keeps_pure trivial)
    refine keeps_bind (keeps_look_any a) (fun o _ => ?_)
    cases o with
    | comm => exact keeps_bind (keeps_collect (R := fun _ => True) fun ct _ => ih ct) (fun _ _ => keeps_pure trivial)
    | change =>
      refine keeps_bind (ref _ _) (fun _ _ => ?_)
      exact keeps_bind (ref _ _) (fun _ _ => keeps_pure trivial)

theorem keeps_traverse {cfg : Cfg} {a : Nat} : Keeps n (fun _ => True) (traverse cfg a) (fun _ => True) :=
  keeps_levels fun m => keeps_traverseF m a

/-! ## Operators -/

/-- All of a list. -/
abbrev AllIn (n : Nat) (l : List Nat) : Prop := ∀ a ∈ l, n ≤ a

theorem allIn_nil : AllIn n [] := by intro a ha; cases ha

theorem allIn_one {a : Nat} (h : n ≤ a) : AllIn n [a] := by intro b hb; simp only [List.mem_singleton] at hb; omega

theorem keeps_one {m : M Nat} (h : Keeps n Q m (n ≤ ·)) : Keeps n Q (do let r ← m; pure [r]) (AllIn n) :=
  keeps_bind h (fun _ hr => keeps_pure (allIn_one hr))

theorem keeps_readArg {x : Ref} : Keeps n Q (readArg x) (fun _ => True) := by
  cases x with
  | str => exact keeps_pure trivial
  | obj a =>
    refine keeps_bind (keeps_look_any a) (fun o _ => ?_)
    cases o <;> exact keeps_pure trivial

theorem keeps_nested {cfg : Cfg} {op op' : Op} {s : Base} {bts : Counter} {cts : List Nat} (hQ : ∀ x, n ≤ x → Q x) :
    Keeps n Q (nested cfg op op' s bts cts) (AllIn n) := by
  refine keeps_collect (fun bt _ => ?_)
  exact keeps_bind (keeps_newList hQ) (fun t _ => keeps_newComm hQ)

theorem keeps_strComm {cfg : Cfg} {op op' : Op} {s : Base} {a : Nat} {o : Op} {bts : Counter} {cts : List Nat} (hQ : ∀ x, n ≤ x → Q x) :
    Keeps n Q (combine.strComm cfg op op' s a o bts cts) (AllIn n) := by
  refine keeps_if (keeps_one (keeps_newComm hQ)) ?_
  refine keeps_bind (keeps_newList hQ) (fun r hr => ?_)
  refine keeps_bind (keeps_nested hQ) (fun rs hrs => keeps_pure ?_)
  intro b hb
  rcases List.mem_cons.1 hb with rfl | hb
  · exact hr
  · exact hrs b hb

theorem keeps_combine {cfg : Cfg} {op op' : Op} {k1 k2 : Ref} (hQ : ∀ x, n ≤ x → Q x) : Keeps n Q (combine cfg op op' k1 k2) (AllIn n) := by
  refine keeps_bind keeps_readArg (fun x _ => ?_)
  refine keeps_bind keeps_readArg (fun y _ => ?_)
  have h1 : ∀ bts cts, Keeps n Q (do let r ← newComm cfg op bts cts; pure [r]) (AllIn n) := fun _ _ => keeps_one (keeps_newComm hQ)
  have h2 : ∀ bts cts, Keeps n Q (do let r ← newList cfg op bts cts; pure [r]) (AllIn n) := fun _ _ => keeps_one (keeps_newList hQ)
  cases x with
  | str s =>
    cases y with
    | str => exact h2 _ _
    | comm => exact keeps_strComm hQ
    | change => exact h2 _ _
  | comm a o b c =>
    cases y with
    | str => exact keeps_strComm hQ
    | comm => exact keeps_if (keeps_if (h1 _ _) (h1 _ _)) (keeps_if (h1 _ _) (h2 _ _))
    | change => exact keeps_if (h1 _ _) (h2 _ _)
  | change =>
    cases y with
    | str => exact h2 _ _
    | comm => exact keeps_if (h1 _ _) (h2 _ _)
    | change => exact h2 _ _

theorem keeps_onlyIf {c : Bool} {m : M Nat} (h : Keeps n Q m (n ≤ ·)) : Keeps n Q (onlyIf c m) (AllIn n) :=
  keeps_if (keeps_one h) (keeps_pure allIn_nil)

theorem allIn_append {l l' : List Nat} (h : AllIn n l) (h' : AllIn n l') : AllIn n (l ++ l') := by
  intro a ha
  rcases List.mem_append.1 ha with ha | ha
  · exact h a ha
  · exact h' a ha

theorem allIn_flatten {l : List (List Nat)} (h : ∀ x ∈ l, AllIn n x) : AllIn n l.flatten := by
  intro a ha
  obtain ⟨x, hx, ha⟩ := List.mem_flatten.1 ha
  exact h x hx a ha

theorem keeps_swapBase {cfg : Cfg} {S : Nat} {B : Base} (hQ : ∀ x, n ≤ x → Q x) : Keeps n Q (swapBase cfg S B) (AllIn n) := by
  refine keeps_bind (keeps_look_any S) (fun o _ => ?_)
  cases o with
  | comm => exact keeps_collect (fun _ _ => keeps_newComm hQ)
  | change =>
    refine keeps_bind (keeps_onlyIf (keeps_newChange hQ)) (fun xs hx => ?_)
    exact keeps_bind (keeps_onlyIf (keeps_newChange hQ)) (fun ys hy => keeps_pure (allIn_append hx hy))

theorem keeps_changesOf {cfg : Cfg} {S : Ref} {x : CC} {S2 : Option Ref} (hQ : ∀ x, n ≤ x → Q x) : Keeps n Q (changesOf cfg S x S2) (AllIn n) := by
  refine keeps_bind (keeps_ask (R := fun _ => True) (fun _ _ _ => trivial)) (fun same _ => ?_)
  split
  · refine keeps_bind (keeps_newChange hQ) (fun u hu => ?_)
    exact keeps_bind (keeps_newChange hQ) (fun v hv => keeps_pure (allIn_append (allIn_one hu) (allIn_one hv)))
  · exact keeps_one (keeps_newChange hQ)

theorem keeps_bothChanges {cfg : Cfg} {S : Ref} {S2 : Option Ref} (hQ : ∀ x, n ≤ x → Q x) : Keeps n Q (bothChanges cfg S S2) (AllIn n) := by
  refine keeps_bind (keeps_changesOf hQ) (fun u hu => ?_)
  exact keeps_bind (keeps_changesOf hQ) (fun v hv => keeps_pure (allIn_append hu hv))

theorem keeps_asNode {cfg : Cfg} {x : Ref} (hQ : ∀ x, n ≤ x → Q x) : Keeps n Q (asNode cfg x) (fun _ => True) := by
  cases x with
  | str => exact (keeps_newList hQ).mono fun _ _ => trivial
  | obj => exact keeps_pure trivial

theorem keeps_replaceNode {cfg : Cfg} {x : Ref} (hQ : ∀ x, n ≤ x → Q x) : Keeps n Q (replaceNode cfg x) (fun _ => True) :=
  keeps_bind (keeps_asNode hQ) (fun _ _ => keeps_pure trivial)

theorem keeps_removeATerm {cfg : Cfg} {S : Nat} (hQ : ∀ x, n ≤ x → Q x) : Keeps n Q (removeATerm cfg S) (fun _ => True) := by
  refine keeps_bind (keeps_look_any S) (fun o _ => ?_)
  cases o with
  | comm =>
    refine keeps_if ?_ (keeps_pure trivial)
    refine keeps_bind (keeps_collect (R := fun _ => True) fun _ _ => (keeps_newComm hQ).mono fun _ _ => trivial) (fun _ _ => ?_)
    exact keeps_bind (keeps_collect (R := fun _ => True) fun _ _ => (keeps_newComm hQ).mono fun _ _ => trivial) (fun _ _ => keeps_pure trivial)
  | change =>
    refine keeps_bind (keeps_asNode hQ) (fun _ _ => ?_)
    exact keeps_bind (keeps_asNode hQ) (fun _ _ => keeps_pure trivial)

theorem keeps_delSE {c : Bool} {rs : List Nat} (h : AllIn n rs) : Keeps n Q (delSE c rs) (fun _ => True) :=
  keeps_if (keeps_each fun r hr => keeps_edit (h r hr) in_withBts) (keeps_pure trivial)

theorem keeps_higherCurves {cfg : Cfg} {S : Nat} (hQ : ∀ x, n ≤ x → Q x) : Keeps n Q (higherCurves cfg S) (AllIn n) := by
  refine keeps_bind (keeps_newList hQ) (fun k2 _ => ?_)
  refine keeps_bind (keeps_newList hQ) (fun k3 _ => ?_)
  refine keeps_bind (keeps_look_any S) (fun o _ => ?_)
  split
  · refine keeps_bind (keeps_collect fun _ _ => keeps_newComm hQ) (fun rs hrs => ?_)
    exact keeps_bind (keeps_delSE hrs) (fun _ _ => keeps_pure hrs)
  · refine keeps_bind (keeps_collect fun _ _ => keeps_newComm hQ) (fun rs hrs => ?_)
    exact keeps_bind (keeps_delSE hrs) (fun _ _ => keeps_pure hrs)
  · rename_i x l r
    have h1 : Keeps n Q (match l with
      | .str _ => collect (fun ct => newChange cfg x (.obj ct) r) [k2, k3]
      | .obj _ => pure []) (AllIn n) := by
      cases l
      · exact keeps_collect fun _ _ => keeps_newChange hQ
      · exact keeps_pure allIn_nil
    have h2 : Keeps n Q (match r with
      | .str _ => collect (fun ct => newChange cfg x l (.obj ct)) [k2, k3]
      | .obj _ => pure []) (AllIn n) := by
      cases r
      · exact keeps_collect fun _ _ => keeps_newChange hQ
      · exact keeps_pure allIn_nil
    exact keeps_bind h1 (fun xs hx => keeps_bind h2 (fun ys hy => keeps_pure (allIn_append hx hy)))

/-! ## Expansion -/

theorem keeps_standardiseF {cfg : Cfg} (hQ : ∀ x, n ≤ x → Q x) (k : Nat) : ∀ a, n ≤ a → Keeps n Q (standardiseF cfg k a) (n ≤ ·) := by
  induction k with
  | zero => intro a _; exact keeps_raise
  | succ k ih =>
    intro a ha
    refine keeps_bind (keeps_simplify hQ ha) (fun _ _ => ?_)
    refine keeps_bind (keeps_extract ha) (fun e he => ?_)
    cases e with
    | str b =>
      refine keeps_bind (keeps_newList hQ) (fun t ht => ?_)
      exact keeps_bind (keeps_setRoot ht (by simp) (hQ t ht)) (fun _ _ => keeps_pure ht)
    | obj c =>
      have hc : n ≤ c := he c (by simp [Ref.addr])
      refine keeps_if (keeps_pure ha) ?_
      refine keeps_bind (keeps_setParent hc (by simp)) (fun _ _ => ?_)
      exact keeps_bind (keeps_setRoot hc (by simp) (hQ c hc)) (fun _ _ => ih c hc)

theorem keeps_rootOf {cfg : Cfg} {a : Nat} (hQ : ∀ x, n ≤ x → Q x) (hQ' : ∀ x, Q x → n ≤ x) (ha : n ≤ a) : Keeps n Q (rootOf cfg a) (n ≤ ·) := by
  refine keeps_bind (keeps_look ha) (fun o ho => ?_)
  split
  · exact keeps_raise
  · rename_i x hx
    exact keeps_levels fun m => keeps_standardiseF hQ m x (hQ' x (in_root ho x hx))

theorem keeps_deepApply {S : Nat} {op : M (List Nat)} (hQ : ∀ x, n ≤ x → Q x) (hQ' : ∀ x, Q x → n ≤ x) (h : Keeps n Q op (fun _ => True)) :
    Keeps n Q (deepApply op S) (AllIn n) :=
  keeps_bind h (fun _ _ => keeps_collect fun _ _ => keeps_newTree hQ hQ')

theorem keeps_forBases {bs : List Base} {f : Base → M (List Nat)} (h : ∀ b, Keeps n Q (f b) (AllIn n)) : Keeps n Q (forBases bs f) (AllIn n) :=
  keeps_bind (keeps_collect fun b _ => h b) (fun _ hr => keeps_pure (allIn_flatten hr))

theorem keeps_ruleOf {cfg : Cfg} {o : KE.Orders} {S : Nat} (hQ : ∀ x, n ≤ x → Q x) (hQ' : ∀ x, Q x → n ≤ x) (r : KE.RuleName) :
    Keeps n Q (ruleOf cfg o S r) (AllIn n) := by
  have w : ∀ {op : M (List Nat)}, Keeps n Q op (AllIn n) → Keeps n Q (deepApply op S) (AllIn n) :=
    fun h => keeps_deepApply hQ hQ' (h.mono fun _ _ => trivial)
  cases r <;> rw [ruleOf]
  case plus_base => exact keeps_forBases fun b => w (keeps_combine hQ)
  case times_base => exact keeps_forBases fun b => w (keeps_combine hQ)
  case replace_base => exact keeps_forBases fun b => w (keeps_swapBase hQ)
  case change_new_base => exact keeps_forBases fun b => w (keeps_bothChanges hQ)
  case change_same => exact w (keeps_bothChanges hQ)
  case change_window_constant => exact w (keeps_changesOf hQ)
  case change_window_linear => exact w (keeps_changesOf hQ)
  case change_point_linear => exact w (keeps_changesOf hQ)
  case times_shifted_base => exact keeps_forBases fun b => keeps_bind (keeps_newList hQ) (fun _ _ => w (keeps_combine hQ))
  case replace_with_singleton =>
    exact keeps_forBases fun b => keeps_bind (keeps_newList hQ) (fun _ _ => keeps_deepApply hQ hQ' (keeps_replaceNode hQ))
  case remove_some_term => exact keeps_deepApply hQ hQ' (keeps_removeATerm hQ)
  case try_higher_curves => exact w (keeps_higherCurves hQ)

theorem uniqueF_sub {eq : β → β → Option Bool} {seen xs ys : List β} (h : uniqueF eq seen xs = some ys) : ∀ y ∈ ys, y ∈ xs := by
  induction xs generalizing seen ys with
  | nil => simp only [uniqueF, Option.some.injEq] at h; subst h; simp
  | cons x xs ih =>
    rw [uniqueF] at h
    split at h
    · cases h
    · exact fun y hy => List.mem_cons_of_mem _ (ih h y hy)
    · cases hd : uniqueF eq (seen ++ [x]) xs with
      | none => rw [hd] at h; cases h
      | some zs =>
        rw [hd] at h
        cases h
        intro y hy
        rcases List.mem_cons.1 hy with rfl | hy
        · exact List.mem_cons_self ..
        · exact List.mem_cons_of_mem _ (ih hd y hy)

theorem keeps_uniqueM {xs : List Nat} (h : AllIn n xs) : Keeps n Q (uniqueM xs) (AllIn n) :=
  keeps_ask (fun _ _ hx y hy => h y (uniqueF_sub hx y hy))

theorem keeps_expandNode {cfg : Cfg} {o : KE.Orders} {rules : List KE.RuleName} {S : Nat} (hQ : ∀ x, n ≤ x → Q x) (hQ' : ∀ x, Q x → n ≤ x) :
    Keeps n Q (expandNode cfg o rules S) (AllIn n) :=
  keeps_bind (keeps_collect fun r _ => keeps_ruleOf hQ hQ' r) (fun _ hr => keeps_uniqueM (allIn_flatten hr))

/-! ## From `Keeps` to the specification -/

theorem closed_end (Q : Nat → Prop) (h : Heap) : Closed h.length Q h := by
  refine ⟨Nat.le_refl _, fun a ha o ho => ?_⟩
  rw [List.getElem?_eq_none ha] at ho
  cases ho

theorem leavesAlone_of {m : M α} {Q : Nat → Nat → Prop} {R : Nat → α → Prop} (hk : ∀ n, Keeps n (Q n) m (R n)) : LeavesAlone m :=
  fun h a ha => (hk h.length h (closed_end _ h)).2.1 a ha

theorem reach_in {h : Heap} (hc : Closed n (n ≤ ·) h) {a b : Nat} (hr : Reach h a b) : n ≤ a → n ≤ b := by
  induction hr with
  | here => exact id
  | step ho hb _ ih =>
    rename_i o _
    intro ha
    refine ih ?_
    have := hc.2 _ ha _ ho
    cases o with
    | comm r p op bts cts =>
      simp only [Obj.points, List.mem_append, Option.mem_toList] at hb
      rcases hb with (hb | hb) | hb
      · exact this.1 _ hb
      · exact this.2.1 _ hb
      · exact this.2.2 _ hb
    | change r p c l r' =>
      simp only [Obj.points, List.mem_append, Option.mem_toList] at hb
      rcases hb with ((hb | hb) | hb) | hb
      · exact this.1 _ hb
      · exact this.2.1 _ hb
      · exact this.2.2.1 _ hb
      · exact this.2.2.2 _ hb

theorem givesNew_of {m : M α} {results : α → List Nat} (hk : ∀ n, Keeps n (n ≤ ·) m (fun x => AllIn n (results x))) : GivesNew m results := by
  intro h h' x hx r hr b hb
  obtain ⟨h1, _, h3⟩ := hk h.length h (closed_end _ h)
  rw [hx] at h1 h3
  exact reach_in h1 hb (h3 x rfl r hr)

/-- After the traversal, everything is done with copies. -/
theorem expand_keeps (cfg : Cfg) (o : KE.Orders) (rules : List KE.RuleName) (a : Nat) (h : Heap) :
    ∃ n, h.length ≤ n ∧ Closed n (n ≤ ·) (expand cfg o rules a h).2 ∧ (∀ b, b < h.length → (expand cfg o rules a h).2[b]? = h[b]?) ∧
      ∀ x, (expand cfg o rules a h).1 = .ok x → AllIn n x := by
  obtain ⟨t1, t2, -⟩ := keeps_traverse (cfg := cfg) (n := h.length) (a := a) h (closed_end _ h)
  cases ht : traverse cfg a h with
  | mk r h1 =>
    rw [ht] at t1 t2
    cases r with
    | error e =>
      refine ⟨h1.length, t1.1, ?_⟩
      simp only [expand, bind, ht]
      exact ⟨closed_end _ _, t2, by simp⟩
    | ok ts =>
      have := keeps_bind (n := h1.length) (Q := (h1.length ≤ ·)) (keeps_collect (xs := ts) fun S _ =>
          keeps_expandNode (cfg := cfg) (o := o) (rules := rules) (S := S) (fun _ h => h) (fun _ h => h))
        (fun rs hrs => keeps_bind (keeps_collect (xs := rs.flatten) fun x hx => keeps_rootOf (cfg := cfg) (fun _ h => h) (fun _ h => h) (allIn_flatten hrs x hx))
          (fun roots hroots => keeps_uniqueM hroots))
      obtain ⟨k1, k2, k3⟩ := this h1 (closed_end _ h1)
      have e : expand cfg o rules a h = (do
          let rs ← collect (expandNode cfg o rules) ts
          let roots ← collect (rootOf cfg) rs.flatten
          uniqueM roots : M (List Nat)) h1 := by
        simp only [expand, bind, ht]
      rw [e]
      exact ⟨h1.length, t1.1, k1, fun b hb => (k2 b (Nat.lt_of_lt_of_le hb t1.1)).trans (t2 b hb), k3⟩

end Objects
end GPyABCD
