import Verif.Model.Count
import Verif.Spec.Count
import Verif.Lemmas.Simplify
import Verif.Lemmas.ParamsMain
import Verif.Lemmas.Eq

/-!
# Lemmas: numbers of parameters
-/

namespace GPyABCD
open Params hiding flat
open Sops KE

theorem sizeKL_eq {α : Type} (l : List (GK α)) : sizeKL l = (l.map sizeK).sum := by
  induction l with
  | nil => rfl
  | cons k l ih => rw [sizeKL, ih]; simp

theorem size_parts {α : Type} (op : Op) (g : GK α) : ((partsOf op g).map sizeK).sum = sizeK g := by
  cases g with
  | comb o ps =>
    rw [partsOf]
    split
    · rw [sizeK, sizeKL_eq]
    · simp
  | _ => simp [partsOf]

theorem size_foldl {α : Type} (op : Op) (l : List (GK α)) (g : GK α) : sizeK (l.foldl (combine op) g) = sizeK g + (l.map sizeK).sum := by
  induction l generalizing g with
  | nil => simp
  | cons x l ih =>
    rw [List.foldl_cons, ih, combine, sizeK, sizeKL_eq, List.map_append, List.sum_append, size_parts, size_parts, List.map_cons, List.sum_cons]
    omega

theorem size_reduce {α : Type} {op : Op} {l : List (GK α)} {g : GK α} (h : reduceK op l = .ok g) : sizeK g = (l.map sizeK).sum := by
  cases l with
  | nil => simp [reduceK] at h
  | cons k l =>
    simp only [reduceK, Except.ok.injEq] at h
    rw [← h, size_foldl, List.map_cons, List.sum_cons]

theorem size_linked (cfg : Cfg) (b : Base) (hb : b.isSigmoid = false) : sizePD (linked (basePars cfg b)) = 1 + shapePars cfg b := by
  cases b <;> simp [Base.isSigmoid] at hb
  case LIN => cases h : cfg.linOffset <;> simp [basePars, h, linked, Par.put, sizePD, one?, shapePars]
  all_goals simp [basePars, linked, Par.put, sizePD, one?, shapePars]

theorem size_unlinked (cfg : Cfg) (b : Base) (hb : b.isSigmoid = false) : sizePD (linked (basePars cfg b)).noVar = shapePars cfg b := by
  cases b <;> simp [Base.isSigmoid] at hb
  case LIN => cases h : cfg.linOffset <;> simp [basePars, h, linked, Par.put, sizePD, PD.noVar, one?, shapePars]
  all_goals simp [basePars, linked, Par.put, sizePD, PD.noVar, one?, shapePars]

theorem size_own (cfg : Cfg) (c : CC) : sizePD (linked (changePars cfg c)) = ownPars cfg c := by
  cases c <;> cases h : cfg.fixSlope <;> simp [changePars, h, linked, Par.put, sizePD, one?, ownPars]

theorem size_baseParts (cfg : Cfg) (op : Op) {es : List Base} (h : ∀ b ∈ es, b.isSigmoid = false) : ((baseParts cfg op es).map sizeK).sum = basePars' cfg op es := by
  cases op with
  | sum =>
    rw [baseParts, basePars']
    simp only [List.map_map]
    exact congrArg List.sum (List.map_congr_left (fun b hb => by simp [sizeK, size_linked cfg b (h b hb)]))
  | prod =>
    cases es with
    | nil => rfl
    | cons b es =>
      have e : es.map (sizeK ∘ unlinkVar ∘ fun b => GK.base b (linked (basePars cfg b))) = es.map (shapePars cfg) :=
        List.map_congr_left (fun x hx => by simp [unlinkVar, sizeK, size_unlinked cfg x (h x (List.mem_cons_of_mem _ hx))])
      simp only [baseParts, List.map_cons, unlinkTail, List.map_map, List.sum_cons, basePars', e]
      simp [sizeK, size_linked cfg b (h b (List.mem_cons_self ..)), Nat.add_assoc]

theorem basePars_perm (cfg : Cfg) (op : Op) {a b : List Base} (h : a.Perm b) : basePars' cfg op a = basePars' cfg op b := by
  cases op with
  | sum => exact (h.map _).sum_eq
  | prod =>
    rw [basePars', basePars', (h.map _).sum_eq]
    have : a.isEmpty = b.isEmpty := by
      have := h.length_eq
      cases a <;> cases b <;> simp_all
    rw [this]

theorem nParsL_eq (cfg : Cfg) (l : List KE) : nParsL cfg l = (l.map (nPars cfg)).sum := by
  induction l with
  | nil => rfl
  | cons k l ih => rw [nParsL, ih]; simp

mutual
theorem size_toKernel (cfg : Cfg) (k : KE) (hs : ∀ x ∈ bases k, x.isSigmoid = false) (s : GK Unit) (h : toKernel cfg k = .ok s) :
    sizeK s = nPars cfg k := by
  cases k with
  | base b =>
    have hb := hs b (by simp [bases])
    have e : s = .base b (linked (basePars cfg b)) := by
      rw [toKernel] at h
      cases b <;> simp [baseKer, baseName] at h <;> exact h.symm
    subst e
    rw [sizeK, nPars, size_linked cfg b hb]
  | comm op b cs =>
    have hb : ∀ x ∈ b.elements, x.isSigmoid = false := fun x hx => hs x (by simp [bases, hx])
    cases h2 : toKernelL cfg cs with
    | error e =>
      cases h1 : baseKers cfg (orderBase b.elements) <;> cases op <;> simp [toKernel, h1, h2, bind, Except.bind] at h
    | ok ks =>
      rw [toKernel_comm hb h2] at h
      have hp : (orderBase b.elements).Perm b.elements := List.perm_insertionSort _ _
      rw [size_reduce h, List.map_append, List.sum_append, size_baseParts cfg op (fun x hx => hb x (hp.mem_iff.1 hx)), nPars, nParsL_eq,
        size_toKernelL cfg cs (fun x hx => hs x (by simp [bases, hx])) ks h2]
      rw [basePars_perm cfg op hp]
  | change c l r =>
    cases h1 : toKernel cfg l with
    | error e => simp [toKernel, h1, bind, Except.bind] at h
    | ok a =>
      cases h2 : toKernel cfg r with
      | error e => simp [toKernel, h1, h2, bind, Except.bind] at h
      | ok b =>
        simp only [toKernel, h1, h2, bind, Except.bind, pure, Except.pure, Except.ok.injEq] at h
        subst h
        rw [sizeK, nPars, kerPars_eq, size_own, size_toKernel cfg l (fun x hx => hs x (by simp [bases, hx])) a h1,
          size_toKernel cfg r (fun x hx => hs x (by simp [bases, hx])) b h2]
theorem size_toKernelL (cfg : Cfg) (cs : List KE) (hs : ∀ x ∈ basesL cs, x.isSigmoid = false) (ks : List (GK Unit)) (h : toKernelL cfg cs = .ok ks) :
    (ks.map sizeK).sum = (cs.map (nPars cfg)).sum := by
  cases cs with
  | nil => simp only [toKernelL, Except.ok.injEq] at h; subst h; rfl
  | cons k cs =>
    cases h1 : toKernel cfg k with
    | error e => simp [toKernelL, h1, bind, Except.bind] at h
    | ok a =>
      cases h2 : toKernelL cfg cs with
      | error e => simp [toKernelL, h1, h2, bind, Except.bind] at h
      | ok r =>
        simp only [toKernelL, h1, h2, bind, Except.bind, pure, Except.pure, Except.ok.injEq] at h
        subst h
        simp only [List.map_cons, List.sum_cons]
        rw [size_toKernel cfg k (fun x hx => hs x (by simp [basesL, hx])) _ h1, size_toKernelL cfg cs (fun x hx => hs x (by simp [basesL, hx])) r h2]
end

/-! ## Equality -/

theorem nPars_same (cfg : Cfg) (a : KE) : ∀ b, wf a = true → wf b = true → Same a b → nPars cfg a = nPars cfg b := by
  induction a using KE.ind with
  | base x => intro b _ _ h; cases h; rfl
  | change c l r hl hr =>
    intro b ha hb h
    cases h with
    | change h1 h2 =>
      have wa := wf_change.1 ha
      have wb := wf_change.1 hb
      rw [nPars, nPars, hl _ wa.1 wb.1 h1, hr _ wa.2 wb.2 h2]
  | comm o c cs ih =>
    intro b ha hb h
    cases h with
    | @comm _ _ c' _ ds cs' hc hf hp =>
      have wa := wf_comm.1 ha
      have wb := wf_comm.1 hb
      rw [nPars, nPars, nParsL_eq, nParsL_eq, basePars_perm cfg o (Counter.elements_perm wa.1 wb.1 hc)]
      have e : cs.map (nPars cfg) = ds.map (nPars cfg) := by
        have key : ∀ (l m : List KE), List.Forall₂ Same l m → (∀ x ∈ l, x ∈ cs) → (∀ y ∈ m, y ∈ cs') → l.map (nPars cfg) = m.map (nPars cfg) := by
          intro l m h
          induction h with
          | nil => intros; rfl
          | cons h1 _ ih' =>
            intro h2 h3
            rw [List.map_cons, List.map_cons, ih' (fun x hx => h2 x (by simp [hx])) (fun y hy => h3 y (by simp [hy]))]
            rw [ih _ (h2 _ (by simp)) _ (wa.2.2 _ (h2 _ (by simp))).2 (wb.2.2 _ (h3 _ (by simp))).2 h1]
        exact key cs ds hf (fun x hx => hx) (fun y hy => hp.subset hy)
      rw [e, (hp.map _).sum_eq]

/-! ## Simplification -/

theorem basePars_one (cfg : Cfg) (op : Op) (b : Base) : basePars' cfg op [b] = 1 + shapePars cfg b := by cases op <;> simp [basePars']

theorem basePars_append (cfg : Cfg) (op : Op) (a b : List Base) : basePars' cfg op (a ++ b) ≤ basePars' cfg op a + basePars' cfg op b := by
  cases op with
  | sum => simp [basePars']
  | prod =>
    simp only [basePars', List.map_append, List.sum_append]
    cases a <;> cases b <;> simp <;> omega

theorem basePars_sub (cfg : Cfg) (op : Op) {a b : List Base} (h : a.Subperm b) : basePars' cfg op a ≤ basePars' cfg op b := by
  obtain ⟨c, hc, hs⟩ := h
  rw [← basePars_perm cfg op hc]
  cases op with
  | sum => exact (hs.map _).sum_le_sum (fun _ _ => Nat.zero_le _)
  | prod =>
    have h1 : (c.map (shapePars cfg)).sum ≤ (b.map (shapePars cfg)).sum := (hs.map _).sum_le_sum (fun _ _ => Nat.zero_le _)
    rw [basePars', basePars']
    cases c with
    | nil => simp
    | cons x c =>
      cases b with
      | nil => cases hs
      | cons y b => simpa using h1

theorem basePars_names (cfg : Cfg) (op : Op) (l : List Base) : basePars' cfg op l ≤ (l.map (fun b => 1 + shapePars cfg b)).sum := by
  induction l with
  | nil => cases op <;> simp [basePars']
  | cons b l ih =>
    have := basePars_append cfg op [b] l
    rw [basePars_one] at this
    simp only [List.singleton_append] at this
    simp only [List.map_cons, List.sum_cons]
    omega

theorem nPars_extract (cfg : Cfg) {k : KE} (h : wf k = true) : nPars cfg (extract k) = nPars cfg k := by
  rcases extract_cases h with ⟨_, e⟩ | ⟨o, b, rfl, e⟩ | ⟨o, ct, rfl, e⟩
  · rw [e]
  · rw [e, nPars, nPars, nParsL]
    have : Counter.elements [(b, 1)] = [b] := by simp [Counter.elements]
    rw [this, basePars_one, Nat.add_zero]
  · rw [e]
    cases o <;> simp [nPars, nParsL, Counter.elements, basePars']

theorem nPars_names_rest (cfg : Cfg) {cs : List KE} (h : ∀ k ∈ cs, wf k = true) :
    ((namesOf cs).map (fun b => 1 + shapePars cfg b)).sum + ((restOf cs).map (nPars cfg)).sum = (cs.map (nPars cfg)).sum := by
  induction cs with
  | nil => rfl
  | cons k ks ih =>
    have ih := ih (fun x hx => h x (by simp [hx]))
    rw [List.map_cons, List.sum_cons, ← nPars_extract cfg (h k (by simp))]
    cases he : extract k with
    | base b =>
      have e1 : namesOf (k :: ks) = b :: namesOf ks := by simp [namesOf, he]
      have e2 : restOf (k :: ks) = restOf ks := by simp [restOf, he, isBase]
      rw [e1, e2, nPars, List.map_cons, List.sum_cons]; omega
    | comm o c xs =>
      have e1 : namesOf (k :: ks) = namesOf ks := by simp [namesOf, he]
      have e2 : restOf (k :: ks) = comm o c xs :: restOf ks := by simp [restOf, he, isBase]
      rw [e1, e2, List.map_cons, List.sum_cons]; omega
    | change c l r =>
      have e1 : namesOf (k :: ks) = namesOf ks := by simp [namesOf, he]
      have e2 : restOf (k :: ks) = change c l r :: restOf ks := by simp [restOf, he, isBase]
      rw [e1, e2, List.map_cons, List.sum_cons]; omega

theorem nPars_flat (cfg : Cfg) {op : Op} (cs : List KE) :
    (((cs.filter (isComm op)).map btsOf).map (fun c => basePars' cfg op c.elements)).sum + ((flat op cs).map (nPars cfg)).sum = (cs.map (nPars cfg)).sum := by
  induction cs with
  | nil => rfl
  | cons k ks ih =>
    rw [List.map_cons, List.sum_cons]
    by_cases hk : isComm op k = true
    · obtain ⟨c, xs, rfl⟩ := isComm_iff.1 hk
      have e1 : ((flat op (comm op c xs :: ks)).map (nPars cfg)).sum =
          ((ks.filter (fun k => !isComm op k)).map (nPars cfg)).sum + ((xs.map (nPars cfg)).sum +
            (((ks.filter (isComm op)).flatMap ctsOf).map (nPars cfg)).sum) := by
        simp [flat, hk, ctsOf]
      have e2 : ((flat op ks).map (nPars cfg)).sum = ((ks.filter (fun k => !isComm op k)).map (nPars cfg)).sum +
            (((ks.filter (isComm op)).flatMap ctsOf).map (nPars cfg)).sum := by
        simp [flat]
      rw [e1, List.filter_cons_of_pos hk, List.map_cons, List.map_cons, List.sum_cons, nPars, nParsL_eq]
      rw [e2] at ih
      simp only [btsOf]
      omega
    · have hk' : isComm op k = false := by simpa using hk
      have e1 : flat op (k :: ks) = k :: flat op ks := by simp [flat, hk']
      rw [e1, List.filter_cons_of_neg hk, List.map_cons, List.sum_cons]
      omega

theorem basePars_flatMap (cfg : Cfg) (op : Op) (l : List Counter) :
    basePars' cfg op (l.flatMap Counter.elements) ≤ (l.map (fun c => basePars' cfg op c.elements)).sum := by
  induction l with
  | nil => cases op <;> simp [basePars']
  | cons c l ih =>
    have := basePars_append cfg op c.elements (l.flatMap Counter.elements)
    rw [List.flatMap_cons, List.map_cons, List.sum_cons]
    omega

theorem nPars_absorb {cfg' cfg : Cfg} {op : Op} {b : Counter} {cts : List KE} (hb : b.WF) (pb : b.Pos)
    (h : ∀ k ∈ cts, k.isBase = false ∧ wf k = true) :
    nPars cfg' (absorb cfg op b cts) ≤ basePars' cfg' op b.elements + (cts.map (nPars cfg')).sum := by
  obtain ⟨ns, e1, e⟩ := absorb_eq cfg op b cts
  rw [e, nPars, nParsL_eq]
  have hn := ns_wf h e1
  have hwA := wf_absorbBts (cfg := cfg) (op := op) (ns := ns) hb
  have hpA := pos_absorbBts (cfg := cfg) (op := op) (ns := ns) pb
  have hwU := Counter.wf_updateList hwA (namesOf (flat op cts))
  have hpU := Counter.pos_updateList hpA (namesOf (flat op cts))
  have s1 := elements_simplifyBase (cfg := cfg) (op := op) (n := (restOf (flat op cts)).length)
    (wf_simplifyBase (cfg := cfg) (op := op) (n := (restOf (flat op cts)).length) hwU) pos_simplifyBase
  have s2 := elements_simplifyBase (cfg := cfg) (op := op) (n := (restOf (flat op cts)).length) hwU hpU
  have s3 := (Counter.elements_updateList hwA hpA (namesOf (flat op cts))).subperm
  have s4 := elements_absorbBts (cfg := cfg) (op := op) hb pb hn
  have t1 := basePars_sub cfg' op (s1.trans (s2.trans s3))
  have t2 := basePars_append cfg' op (absorbBts cfg op b ns).elements (namesOf (flat op cts))
  have t3 := basePars_sub cfg' op s4
  have t4 := basePars_append cfg' op b.elements ((ns.map Prod.fst).flatMap Counter.elements)
  have t5 := basePars_flatMap cfg' op (ns.map Prod.fst)
  have t6 := basePars_names cfg' op (namesOf (flat op cts))
  have t7 := nPars_names_rest cfg' (cs := flat op cts) (fun k hk => (wf_of_mem_flat h k hk).2)
  have t8 := nPars_flat cfg' (op := op) cts
  rw [← e1] at t8
  omega

theorem nPars_simplify (cfg' cfg : Cfg) (k : KE) (hw : wf k = true) : nPars cfg' (simplify cfg k) ≤ nPars cfg' k := by
  induction k using KE.ind with
  | base b => exact Nat.le_refl _
  | comm o c cs ih =>
    rw [wf_comm] at hw
    rw [simplify, simplifyL_eq]
    refine (nPars_absorb hw.1 hw.2.1 (wf_mem_map_simplify hw.2.2)).trans ?_
    rw [nPars, nParsL_eq, List.map_map]
    refine Nat.add_le_add_left (List.sum_le_sum ?_) _
    exact fun x hx => ih x hx (hw.2.2 x hx).2
  | change c l r hl hr =>
    rw [wf_change] at hw
    rw [simplify, nPars, nPars, nPars_extract cfg' (wf_simplify cfg l hw.1), nPars_extract cfg' (wf_simplify cfg r hw.2)]
    have := hl hw.1
    have := hr hw.2
    omega

end GPyABCD
