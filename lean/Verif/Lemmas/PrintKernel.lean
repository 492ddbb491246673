import Verif.Lemmas.PrintParse
import Verif.Lemmas.ParamsMain
import Verif.Lemmas.Ops

/-!
# Lemmas: kernels built from printed forms and from expressions
-/

namespace GPyABCD
namespace Print
open Params KE
open scoped Pointwise

variable {X Y : Type}

theorem kernelAlg_assoc (cfg : Cfg) : (kernelAlg cfg).Assoc :=
  ⟨fun a b c => by simp [kernelAlg, combine, partsOf], fun a b c => by simp [kernelAlg, combine, partsOf]⟩

theorem famAlg_assoc (I : Interp) : (famAlg I).Assoc := ⟨fun a b c => add_assoc a b c, fun a b c => mul_assoc a b c⟩

theorem foldl_opFold (o : Op) (I : Interp) (x : Fam) (xs : List Fam) : xs.foldl ((famAlg I).op o) x = opFold o (x :: xs) := by
  induction xs generalizing x with
  | nil => cases o <;> simp [opFold]
  | cons y xs ih =>
    rw [List.foldl_cons, ih]
    cases o <;> simp [opFold, Alg.op, famAlg, add_assoc, mul_assoc]

mutual
theorem meaning_fam (I : Interp) (k : KE) (he : noEmpty k = true) : meaning (famAlg I) k = some (den I k) := by
  cases k with
  | base b => rfl
  | comm op b cs =>
    simp only [noEmpty, allNodes, Bool.and_eq_true, Bool.not_eq_true'] at he
    have hm := meaning_fams I cs he.2
    rw [meaning, hm, den]
    simp only [Option.bind_some]
    have hp : ((orderBase b.elements).map I.F ++ denL I cs).Perm (b.elements.map I.F ++ denL I cs) :=
      ((List.perm_insertionSort _ _).map _).append_right _
    have hb : (famAlg I).base = I.F := rfl
    rw [← opFold_perm op hp, hb]
    cases hz : (orderBase b.elements).map I.F ++ denL I cs with
    | nil =>
      exfalso
      rw [List.append_eq_nil_iff, List.map_eq_nil_iff, denL_eq, List.map_eq_nil_iff] at hz
      have h1 : b.elements = [] := by
        have := length_orderBase b.elements
        rw [hz.1] at this
        exact List.length_eq_zero_iff.1 this.symm
      simp [isEmptyNode, h1, hz.2] at he
    | cons x xs => rw [fold1, foldl_opFold]
  | change c l r =>
    simp only [noEmpty, allNodes, Bool.and_eq_true, Bool.not_eq_true'] at he
    rw [meaning, meaning_fam I l he.1.2, meaning_fam I r he.2, den]
    rfl
theorem meaning_fams (I : Interp) (ks : List KE) (he : allNodesL (fun n => !n.isEmptyNode) ks = true) : meanings (famAlg I) ks = some (denL I ks) := by
  cases ks with
  | nil => rfl
  | cons k ks =>
    rw [allNodesL, Bool.and_eq_true] at he
    rw [meanings, meaning_fam I k he.1, meaning_fams I ks he.2]
    rfl
end

/-! ## Families of kernels -/

variable {V : Fam} {sh : Base → Fam} {chg : CC → Fam → Fam → Fam}

theorem kernelFams_eq (l : List (GK Unit)) : kernelFams V sh chg l = l.map (kernelFam V sh chg) := by
  induction l with
  | nil => rfl
  | cons k l ih => rw [kernelFams, ih]; rfl

theorem fam_parts (op : Op) (g : GK Unit) : opFold op ((partsOf op g).map (kernelFam V sh chg)) = kernelFam V sh chg g := by
  cases g with
  | base b p => cases op <;> simp [partsOf, opFold]
  | change c p l r => cases op <;> simp [partsOf, opFold]
  | comb o ps =>
    rw [partsOf]
    split
    · next h => subst h; rw [kernelFam, kernelFams_eq]
    · cases op <;> simp [opFold]

theorem fam_combine (op : Op) (a b : GK Unit) :
    kernelFam V sh chg (combine op a b) = opFold op [kernelFam V sh chg a, kernelFam V sh chg b] := by
  rw [combine, kernelFam, kernelFams_eq, List.map_append, opFold_append, fam_parts, fam_parts]

theorem fam_foldl (op : Op) (l : List (GK Unit)) (g : GK Unit) :
    kernelFam V sh chg (l.foldl (combine op) g) = opFold op (kernelFam V sh chg g :: l.map (kernelFam V sh chg)) := by
  induction l generalizing g with
  | nil => cases op <;> simp [opFold]
  | cons x l ih =>
    rw [List.foldl_cons, ih, fam_combine]
    cases op <;> simp [opFold, add_assoc, mul_assoc]

theorem fam_reduce {op : Op} {l : List (GK Unit)} {g : GK Unit} (h : reduceK op l = .ok g) :
    kernelFam V sh chg g = opFold op (l.map (kernelFam V sh chg)) := by
  cases l with
  | nil => simp [reduceK] at h
  | cons x l => simp only [reduceK, Except.ok.injEq] at h; rw [← h, fam_foldl]; rfl

theorem linked_var (cfg : Cfg) (b : Base) (hb : b.isSigmoid = false) : (linked (basePars cfg b)).variance.isSome = true := by
  cases b <;> simp [Base.isSigmoid] at hb <;> simp [basePars, linked, Par.put] <;> split <;> rfl

theorem fam_base (cfg : Cfg) {b : Base} (hb : b.isSigmoid = false) :
    kernelFam V sh chg (.base b (linked (basePars cfg b))) = V * sh b := by
  rw [kernelFam, if_pos (linked_var cfg b hb)]; rfl

/-- One variance is as good as several. -/
theorem prod_vars (hV : V * V = V) (b : Base) (l : List Base) :
    V * sh b * (l.map sh).prod = V * sh b * (l.map (fun x => V * sh x)).prod := by
  induction l generalizing b with
  | nil => rfl
  | cons x l ih =>
    simp only [List.map_cons, List.prod_cons]
    calc V * sh b * (sh x * (l.map sh).prod) = sh b * (V * sh x * (l.map sh).prod) := by ac_rfl
      _ = sh b * (V * sh x * (l.map (fun x => V * sh x)).prod) := by rw [ih]
      _ = sh b * ((V * V) * sh x * (l.map (fun x => V * sh x)).prod) := by rw [hV]
      _ = _ := by ac_rfl

theorem fam_baseParts (hV : V * V = V) (cfg : Cfg) (op : Op) {es : List Base} (h : ∀ b ∈ es, b.isSigmoid = false) (L : List Fam) :
    opFold op ((baseParts cfg op es).map (kernelFam V sh chg) ++ L) = opFold op (es.map (fun b => V * sh b) ++ L) := by
  cases op with
  | sum =>
    have : (baseParts cfg .sum es).map (kernelFam V sh chg) = es.map (fun b => V * sh b) := by
      rw [baseParts]
      simp only [List.map_map]
      exact List.map_congr_left (fun b hb => fam_base cfg (h b hb))
    rw [this]
  | prod =>
    cases es with
    | nil => rfl
    | cons b es =>
      have h1 : (baseParts cfg .prod (b :: es)).map (kernelFam V sh chg) = (V * sh b) :: es.map sh := by
        simp only [baseParts, List.map_cons, unlinkTail, List.map_map, fam_base cfg (h b (List.mem_cons_self ..))]
        congr 1
      rw [h1]
      simp only [opFold, List.map_cons, List.cons_append, List.prod_cons, List.prod_append, ← mul_assoc]
      rw [prod_vars hV]

mutual
theorem fam_toKernel (hV : V * V = V) (cfg : Cfg) (I : Interp) (hI : ∀ b, b.isSigmoid = false → I.F b = V * sh b) (hc : I.chg = chg) (k : KE)
    (hs : ∀ x ∈ bases k, x.isSigmoid = false) (he : noEmpty k = true) :
    ∃ g, toKernel cfg k = .ok g ∧ kernelFam V sh chg g = den I k := by
  cases k with
  | base b =>
    have hb := hs b (by simp [bases])
    refine ⟨.base b (linked (basePars cfg b)), ?_, ?_⟩
    · have h1 := baseKers_ok cfg (es := [b]) (by simpa using hb)
      rw [toKernel, baseKer]
      cases b <;> simp [Base.isSigmoid] at hb <;> rfl
    · rw [fam_base cfg hb, den, hI b hb]
  | comm op b cs =>
    simp only [noEmpty, allNodes, Bool.and_eq_true, Bool.not_eq_true'] at he
    have hb : ∀ x ∈ b.elements, x.isSigmoid = false := fun x hx => hs x (by simp [bases, hx])
    have hb' : ∀ x ∈ orderBase b.elements, x.isSigmoid = false := fun x hx => hb x (mem_orderBase.1 hx)
    obtain ⟨gs, h1, h2⟩ := fam_toKernelL hV cfg I hI hc cs (fun x hx => hs x (by simp [bases, hx])) he.2
    rw [toKernel_comm hb h1]
    cases hz : baseParts cfg op (orderBase b.elements) ++ gs with
    | nil =>
      exfalso
      rw [List.append_eq_nil_iff] at hz
      have hl : gs.length = cs.length := by
        have := congrArg List.length h2
        simpa [denL_eq] using this
      have hcs : cs = [] := List.length_eq_zero_iff.1 (by rw [← hl, hz.2]; rfl)
      have hel : b.elements = [] := by
        have h3 := length_orderBase b.elements
        have h4 : orderBase b.elements = [] := by
          cases hq : orderBase b.elements with
          | nil => rfl
          | cons x l => rw [hq] at hz; cases op <;> simp [baseParts, unlinkTail] at hz
        rw [h4] at h3
        exact List.length_eq_zero_iff.1 h3.symm
      simp [isEmptyNode, hcs, hel] at he
    | cons x xs =>
      refine ⟨xs.foldl (combine op) x, rfl, ?_⟩
      have hr : reduceK op (baseParts cfg op (orderBase b.elements) ++ gs) = .ok (xs.foldl (combine op) x) := by rw [hz]; rfl
      rw [fam_reduce hr, List.map_append, h2, fam_baseParts hV cfg op hb', den]
      have hm : (orderBase b.elements).map (fun x => V * sh x) = (orderBase b.elements).map I.F :=
        List.map_congr_left (fun x hx => (hI x (hb' x hx)).symm)
      rw [hm]
      exact opFold_perm op (((List.perm_insertionSort _ _).map _).append_right _)
  | change c l r =>
    simp only [noEmpty, allNodes, Bool.and_eq_true, Bool.not_eq_true'] at he
    obtain ⟨g1, h1, h2⟩ := fam_toKernel hV cfg I hI hc l (fun x hx => hs x (by simp [bases, hx])) he.1.2
    obtain ⟨g2, h3, h4⟩ := fam_toKernel hV cfg I hI hc r (fun x hx => hs x (by simp [bases, hx])) he.2
    refine ⟨.change c (linked (changePars cfg c)) g1 g2, by simp only [toKernel, h1, h3, bind, Except.bind]; rfl, ?_⟩
    rw [kernelFam, h2, h4, den, hc]
theorem fam_toKernelL (hV : V * V = V) (cfg : Cfg) (I : Interp) (hI : ∀ b, b.isSigmoid = false → I.F b = V * sh b) (hc : I.chg = chg) (ks : List KE)
    (hs : ∀ x ∈ basesL ks, x.isSigmoid = false) (he : allNodesL (fun n => !n.isEmptyNode) ks = true) :
    ∃ gs, toKernelL cfg ks = .ok gs ∧ gs.map (kernelFam V sh chg) = denL I ks := by
  cases ks with
  | nil => exact ⟨[], rfl, rfl⟩
  | cons k ks =>
    rw [allNodesL, Bool.and_eq_true] at he
    obtain ⟨g, h1, h2⟩ := fam_toKernel hV cfg I hI hc k (fun x hx => hs x (by simp [basesL, hx])) he.1
    obtain ⟨gs, h3, h4⟩ := fam_toKernelL hV cfg I hI hc ks (fun x hx => hs x (by simp [basesL, hx])) he.2
    refine ⟨g :: gs, by simp only [toKernelL, h1, h3, bind, Except.bind]; rfl, ?_⟩
    rw [List.map_cons, h2, h4, denL]
end

theorem fold_fam (op : Op) (I : Interp) (cfg : Cfg) (x : GK Unit) (xs : List (GK Unit)) :
    kernelFam V sh chg (xs.foldl ((kernelAlg cfg).op op) x) = (xs.map (kernelFam V sh chg)).foldl ((famAlg I).op op) (kernelFam V sh chg x) := by
  rw [foldl_opFold]
  have : (kernelAlg cfg).op op = combine op := by cases op <;> rfl
  rw [this, fam_foldl]

mutual
theorem fam_meaning (cfg : Cfg) (I : Interp) (hI : ∀ b, b.isSigmoid = false → I.F b = V * sh b) (hc : I.chg = chg) (k : KE)
    (hs : ∀ x ∈ bases k, x.isSigmoid = false) :
    (meaning (kernelAlg cfg) k).map (kernelFam V sh chg) = meaning (famAlg I) k := by
  cases k with
  | base b =>
    have hb := hs b (by simp [bases])
    have : kernelFam V sh chg ((kernelAlg cfg).base b) = (famAlg I).base b := (fam_base cfg hb).trans (hI b hb).symm
    simp [meaning, this]
  | comm op b cs =>
    have hb' : ∀ x ∈ orderBase b.elements, x.isSigmoid = false := fun x hx => hs x (by simp [bases, mem_orderBase.1 hx])
    have h1 := fam_meanings cfg I hI hc cs (fun x hx => hs x (by simp [bases, hx]))
    rw [meaning, meaning, ← h1]
    cases meanings (kernelAlg cfg) cs with
    | none => rfl
    | some gs =>
      simp only [Option.bind_some, Option.map_some]
      have hm : (orderBase b.elements).map (famAlg I).base = ((orderBase b.elements).map (kernelAlg cfg).base).map (kernelFam V sh chg) := by
        rw [List.map_map]
        exact List.map_congr_left (fun x hx => ((fam_base cfg (hb' x hx)).trans (hI x (hb' x hx)).symm).symm)
      rw [hm, ← List.map_append]
      cases (orderBase b.elements).map (kernelAlg cfg).base ++ gs with
      | nil => rfl
      | cons x xs => simp only [fold1, List.map_cons, Option.map_some, fold_fam op I]
  | change c l r =>
    rw [meaning, meaning, ← fam_meaning cfg I hI hc l (fun x hx => hs x (by simp [bases, hx])),
      ← fam_meaning cfg I hI hc r (fun x hx => hs x (by simp [bases, hx]))]
    cases meaning (kernelAlg cfg) l with
    | none => rfl
    | some a =>
      cases meaning (kernelAlg cfg) r with
      | none => rfl
      | some b => simp [kernelAlg, famAlg, kernelFam, hc]
theorem fam_meanings (cfg : Cfg) (I : Interp) (hI : ∀ b, b.isSigmoid = false → I.F b = V * sh b) (hc : I.chg = chg) (ks : List KE)
    (hs : ∀ x ∈ basesL ks, x.isSigmoid = false) :
    (meanings (kernelAlg cfg) ks).map (List.map (kernelFam V sh chg)) = meanings (famAlg I) ks := by
  cases ks with
  | nil => rfl
  | cons k ks =>
    rw [meanings, meanings, ← fam_meaning cfg I hI hc k (fun x hx => hs x (by simp [basesL, hx])),
      ← fam_meanings cfg I hI hc ks (fun x hx => hs x (by simp [basesL, hx]))]
    cases meaning (kernelAlg cfg) k <;> cases meanings (kernelAlg cfg) ks <;> rfl
end

theorem positives_mul : positives * positives = positives := by
  ext f
  constructor
  · rintro ⟨a, ⟨v, hv, rfl⟩, b, ⟨w, hw, rfl⟩, rfl⟩
    exact ⟨v * w, mul_pos hv hw, rfl⟩
  · rintro ⟨v, hv, rfl⟩
    exact ⟨fun _ _ => v, ⟨v, hv, rfl⟩, fun _ _ => 1, ⟨1, one_pos, rfl⟩, by ext; simp⟩

end Print
end GPyABCD
