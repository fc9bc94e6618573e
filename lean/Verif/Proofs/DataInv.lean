import Verif.Model.Data
import Verif.Spec.Data
import Verif.Proofs.FlLemmas
import Mathlib.Algebra.BigOperators.Ring.Finset
import Mathlib.Data.List.Nodup
import Mathlib.Data.List.FinRange

/-! Invariants of the data layer: every filled cache entry agrees with recomputation. -/

set_option linter.unusedSectionVars false

namespace Bart
open Spec
variable {K : Type} [Field K] [LinearOrder K] {n p : Nat}

/-! ### `is_not_constant` -/

theorem isNotConstantLoop_some_false {l : List (Fl K)} {f : Fl K} :
    isNotConstantLoop l (some f) = false ↔ ∀ x ∈ l, Fl.eq x f = true := by
  induction l with
  | nil => simp [isNotConstantLoop]
  | cons x xs ih =>
    simp only [isNotConstantLoop, Fl.ne, List.mem_cons, forall_eq_or_imp]
    by_cases h : Fl.eq x f = true
    · simp [h, ih]
    · simp [h]

/-- Exact behaviour of `is_not_constant` on every list, NaN included. -/
theorem isNotConstant_false_iff {l : List (Fl K)} :
    isNotConstant l = false ↔ ∀ f rest, l.tail = f :: rest → ∀ x ∈ rest, Fl.eq x f = true := by
  rcases l with _ | ⟨a, _ | ⟨b, l⟩⟩
  · simp [isNotConstant]
  · simp [isNotConstant]
  · simp [isNotConstant, isNotConstantLoop, isNotConstantLoop_some_false]

theorem isNotConstant_sublist {s l : List (Fl K)} (hs : List.Sublist s l) (h : isNotConstant l = false) :
    isNotConstant s = false := by
  rw [isNotConstant_false_iff] at h ⊢
  intro f rest hf x hx
  have ht : List.Sublist s.tail l.tail := hs.tail
  rw [hf] at ht
  cases hl : l.tail with
  | nil => rw [hl] at ht; simp at ht
  | cons g rest' =>
    rw [hl] at ht
    have hall := h g rest' hl
    -- `x` sits in `rest'`
    have hxr : x ∈ rest' := by
      have := ht.tail
      exact this.subset hx
    have hxg := Fl.eq_iff.1 (hall x hxr)
    have hfg : f = g := by
      have : f ∈ g :: rest' := ht.subset (by simp)
      rcases List.mem_cons.1 this with h1 | h1
      · exact h1
      · exact (Fl.eq_iff.1 (hall f h1)).2
    rw [hfg]; exact hall x hxr

theorem isNotConstant_noNan {l : List (Fl K)} (hn : ∀ x ∈ l, x ≠ .nan) :
    isNotConstant l = true ↔ HasTwoValues l.tail := by
  have key : isNotConstant l = false ↔ ¬ HasTwoValues l.tail := by
    rw [isNotConstant_false_iff]
    constructor
    · rintro h ⟨a, ha, b, hb, hab⟩
      cases hl : l.tail with
      | nil => rw [hl] at ha; simp at ha
      | cons f rest =>
        have h' := h f rest hl
        have e : ∀ x ∈ l.tail, x = f := by
          intro x hx
          rw [hl] at hx
          rcases List.mem_cons.1 hx with h1 | h1
          · exact h1
          · exact (Fl.eq_iff.1 (h' x h1)).2
        exact hab ((e a ha).trans (e b hb).symm)
    · intro h f rest hl x hx
      by_contra hc
      apply h
      have hxl : x ∈ l.tail := by rw [hl]; exact List.mem_cons_of_mem _ hx
      refine ⟨x, hxl, f, by rw [hl]; simp, ?_⟩
      intro hxf
      exact hc (Fl.eq_iff.2 ⟨hn x (List.mem_of_mem_tail hxl), hxf⟩)
  cases h : isNotConstant l with
  | false => simp [key.1 h]
  | true =>
    simp only [true_iff]
    by_contra hc
    rw [key.2 hc] at h; cases h

/-! ### columns, counts and sums -/

/-- The rows of a node as seen through its mask. -/
def inRows (mask : Fin n → Bool) : Fin n → Bool := fun r => !mask r

theorem column_length (X : Fin n → Fin p → Fl K) (rows : Fin n → Bool) (i : Fin p) :
    (column X rows i).length = count rows := by
  unfold column count
  rw [List.length_map]
  rw [← List.toFinset_card_of_nodup ((List.nodup_finRange n).filter _)]
  congr 1
  ext r; simp

theorem countUnmasked_eq (mask : Fin n → Bool) : Data.countUnmasked mask = (count (inRows mask) : Int) := by
  unfold Data.countUnmasked count inRows
  rw [Finset.card_filter, Nat.cast_sum]
  apply Finset.sum_congr rfl
  intro r _
  cases mask r <;> simp

theorem sumMasked_eq (y : Fin n → K) (mask : Fin n → Bool) :
    (∑ r, y r * (if mask r then 0 else 1)) = total y (inRows mask) := by
  unfold total inRows
  rw [Finset.sum_filter]
  apply Finset.sum_congr rfl
  intro r _
  cases mask r <;> simp

theorem mem_column {X : Fin n → Fin p → Fl K} {rows : Fin n → Bool} {i : Fin p} {v : Fl K} :
    v ∈ column X rows i ↔ ∃ r, rows r = true ∧ X r i = v := by
  simp [column]

theorem column_sublist (X : Fin n → Fin p → Fl K) {rows rows' : Fin n → Bool} (h : ∀ r, rows' r = true → rows r = true)
    (i : Fin p) : List.Sublist (column X rows' i) (column X rows i) := by
  unfold column
  apply List.Sublist.map
  exact List.monotone_filter_right _ h

theorem unique_iff_nodup (l : List (Fl K)) : npUniqueCount l = l.length ↔ l.Nodup := by
  unfold npUniqueCount
  constructor
  · intro h
    have := (List.dedup_sublist l).eq_of_length h
    exact List.dedup_eq_self.1 this
  · intro h; rw [List.dedup_eq_self.2 h]

/-! ### the invariant of a covariate matrix -/

/-- Column `i` of the node. -/
def CovariateMatrix.col (c : CovariateMatrix K n p) (i : Fin p) : List (Fl K) := column c.X (inRows c.mask) i

/-- Every filled cache entry is right. -/
structure CMInv (c : CovariateMatrix K n p) : Prop where
  nObsv : c.nObsv = (count (inRows c.mask) : Int)
  xCache : ∀ rows, c.xCache = some rows → rows = c.unmaskedRows
  split : ∀ i b, c.splittableVariables i = some b → b = isNotConstant (c.col i)
  uniq : ∀ i b, c.uniqueColumns i = some b → b = decide (c.col i).Nodup
  maxv : ∀ i m, c.maxValueCache i = some m → npMaxList (c.col i) = .ok m

/-- Same object up to caches. -/
structure SameCM (c c' : CovariateMatrix K n p) : Prop where
  X : c'.X = c.X
  mask : c'.mask = c.mask
  nObsv : c'.nObsv = c.nObsv

namespace SameCM
theorem refl (c : CovariateMatrix K n p) : SameCM c c := ⟨rfl, rfl, rfl⟩
theorem trans {a b c : CovariateMatrix K n p} (h : SameCM a b) (h' : SameCM b c) : SameCM a c :=
  ⟨h'.X.trans h.X, h'.mask.trans h.mask, h'.nObsv.trans h.nObsv⟩
theorem col {c c' : CovariateMatrix K n p} (h : SameCM c c') : c'.col = c.col := by
  funext i; simp [CovariateMatrix.col, h.X, h.mask]
end SameCM

namespace CovariateMatrix

theorem unmaskedRows_map (c : CovariateMatrix K n p) (i : Fin p) : c.unmaskedRows.map (· i) = c.col i := by
  simp only [unmaskedRows, col, column, List.map_map]
  rfl

theorem getColumn_spec {c : CovariateMatrix K n p} (h : CMInv c) (i : Fin p) :
    (c.getColumn i).1 = c.col i ∧ SameCM c (c.getColumn i).2 ∧ CMInv (c.getColumn i).2 ∧
      (c.getColumn i).2.splittableVariables = c.splittableVariables ∧
      (c.getColumn i).2.uniqueColumns = c.uniqueColumns ∧ (c.getColumn i).2.maxValueCache = c.maxValueCache := by
  unfold getColumn
  cases hx : c.xCache with
  | some rows =>
    refine ⟨?_, SameCM.refl c, h, rfl, rfl, rfl⟩
    simp only
    rw [h.xCache rows hx, unmaskedRows_map]
  | none =>
    refine ⟨unmaskedRows_map c i, ⟨rfl, rfl, rfl⟩, ?_, rfl, rfl, rfl⟩
    exact ⟨h.nObsv, fun rows hr => by simp at hr; rw [← hr]; rfl, h.split, h.uniq, h.maxv⟩

theorem fillSplittable_spec {c : CovariateMatrix K n p} (h : CMInv c) (i : Fin p) :
    SameCM c (c.fillSplittable i) ∧ CMInv (c.fillSplittable i) ∧
      (c.fillSplittable i).splittableVariables i = some (isNotConstant (c.col i)) ∧
      (∀ j b, c.splittableVariables j = some b → (c.fillSplittable i).splittableVariables j = some b) := by
  unfold fillSplittable
  cases hs : c.splittableVariables i with
  | some b =>
    refine ⟨SameCM.refl c, h, ?_, fun j b hb => hb⟩
    simp only [hs]; rw [h.split i b hs]
  | none =>
    obtain ⟨h1, h2, h3, h4, -, -⟩ := getColumn_spec h i
    refine ⟨⟨h2.X, h2.mask, h2.nObsv⟩, ⟨h3.nObsv, h3.xCache, ?_, h3.uniq, h3.maxv⟩, ?_, ?_⟩
    · intro j b hb
      have hcol : ({ (c.getColumn i).2 with
          splittableVariables := Function.update (c.getColumn i).2.splittableVariables i
            (some (isNotConstant (c.getColumn i).1)) } : CovariateMatrix K n p).col j = c.col j := by
        have := congrFun h2.col j
        exact this
      simp only at hb
      rw [hcol]
      by_cases hj : j = i
      · subst hj
        rw [Function.update_self, h1] at hb
        injection hb with hb; exact hb.symm
      · rw [Function.update_of_ne hj, h4] at hb
        exact h.split j b hb
    · simp [h1]
    · intro j b hb
      by_cases hj : j = i
      · subst hj; rw [hs] at hb; cases hb
      · simp only; rw [Function.update_of_ne hj, h4]; exact hb

theorem foldl_fill_spec (l : List (Fin p)) : ∀ {c : CovariateMatrix K n p}, CMInv c →
    SameCM c (l.foldl fillSplittable c) ∧ CMInv (l.foldl fillSplittable c) ∧
      (∀ i ∈ l, (l.foldl fillSplittable c).splittableVariables i = some (isNotConstant (c.col i))) ∧
      (∀ j b, c.splittableVariables j = some b → (l.foldl fillSplittable c).splittableVariables j = some b) := by
  induction l with
  | nil => intro c h; exact ⟨SameCM.refl c, h, by simp, fun j b hb => hb⟩
  | cons a l ih =>
    intro c h
    obtain ⟨s1, i1, v1, k1⟩ := fillSplittable_spec h a
    obtain ⟨s2, i2, v2, k2⟩ := ih i1
    refine ⟨s1.trans s2, i2, ?_, fun j b hb => k2 j b (k1 j b hb)⟩
    intro i hi
    rcases List.mem_cons.1 hi with rfl | hi
    · exact k2 _ _ v1
    · have := v2 i hi
      rw [s1.col] at this
      exact this

/-- The reference result of `splittable_variables`. -/
def refSplittable (c : CovariateMatrix K n p) : List (Fin p) := (List.finRange p).filter (fun i => isNotConstant (c.col i))

theorem splittable_spec {c : CovariateMatrix K n p} (h : CMInv c) :
    c.splittable.1 = c.refSplittable ∧ SameCM c c.splittable.2 ∧ CMInv c.splittable.2 := by
  obtain ⟨s, i, v, -⟩ := foldl_fill_spec (List.finRange p) h
  refine ⟨?_, s, i⟩
  unfold splittable refSplittable
  apply List.filter_congr
  intro j _
  rw [v j (List.mem_finRange j)]
  cases isNotConstant (c.col j) <;> rfl

theorem isAtLeastOneSplittable_spec {c : CovariateMatrix K n p} (h : CMInv c) :
    c.isAtLeastOneSplittable.1 = decide (c.refSplittable ≠ []) ∧ SameCM c c.isAtLeastOneSplittable.2 ∧
      CMInv c.isAtLeastOneSplittable.2 := by
  obtain ⟨h1, h2, h3⟩ := splittable_spec h
  unfold isAtLeastOneSplittable
  split
  · next hany =>
    refine ⟨?_, SameCM.refl c, h⟩
    simp only [List.any_eq_true, beq_iff_eq] at hany
    obtain ⟨i, -, hi⟩ := hany
    symm
    rw [decide_eq_true_iff]
    have : i ∈ c.refSplittable := by
      simp [refSplittable, ← h.split i true hi]
    intro hnil
    rw [hnil] at this; simp at this
  · refine ⟨?_, h2, h3⟩
    simp only [h1]
    rw [decide_eq_decide]
    exact List.length_pos_iff

theorem isColumnUnique_spec {c : CovariateMatrix K n p} (h : CMInv c) (i : Fin p) :
    (c.isColumnUnique i).1 = decide (c.col i).Nodup ∧ SameCM c (c.isColumnUnique i).2 ∧ CMInv (c.isColumnUnique i).2 := by
  unfold isColumnUnique
  cases hu : c.uniqueColumns i with
  | some b => exact ⟨h.uniq i b hu, SameCM.refl c, h⟩
  | none =>
    obtain ⟨h1, h2, h3, -, h5, -⟩ := getColumn_spec h i
    have hb : decide ((npUniqueCount (c.getColumn i).1 : Int) = (c.getColumn i).2.nObsv) = decide (c.col i).Nodup := by
      rw [decide_eq_decide, h1, h2.nObsv, h.nObsv, ← column_length c.X (inRows c.mask) i, Nat.cast_inj]
      exact unique_iff_nodup _
    refine ⟨hb, ⟨h2.X, h2.mask, h2.nObsv⟩, ⟨h3.nObsv, h3.xCache, h3.split, ?_, h3.maxv⟩⟩
    intro j b hj
    have hcol : ∀ j, ({ (c.getColumn i).2 with
        uniqueColumns := Function.update (c.getColumn i).2.uniqueColumns i
          (some (decide ((npUniqueCount (c.getColumn i).1 : Int) = (c.getColumn i).2.nObsv))) } : CovariateMatrix K n p).col j = c.col j :=
      fun j => congrFun h2.col j
    simp only at hj
    rw [hcol]
    by_cases hji : j = i
    · subst hji
      rw [Function.update_self] at hj
      injection hj with hj; rw [← hj, hb]
    · rw [Function.update_of_ne hji, h5] at hj
      exact h.uniq j b hj

theorem maxValueOfColumn_spec {c : CovariateMatrix K n p} (h : CMInv c) (i : Fin p) :
    match c.maxValueOfColumn i with
    | .error e => npMaxList (c.col i) = .error e
    | .ok (m, c') => npMaxList (c.col i) = .ok m ∧ SameCM c c' ∧ CMInv c' := by
  unfold maxValueOfColumn
  cases hm : c.maxValueCache i with
  | some m => exact ⟨h.maxv i m hm, SameCM.refl c, h⟩
  | none =>
    obtain ⟨h1, h2, h3, -, -, h6⟩ := getColumn_spec h i
    simp only [h1]
    cases hx : npMaxList (c.col i) with
    | error e => simp
    | ok m =>
      refine ⟨rfl, ⟨h2.X, h2.mask, h2.nObsv⟩, ⟨h3.nObsv, h3.xCache, h3.split, h3.uniq, ?_⟩⟩
      intro j m' hj
      have hcol : ∀ j, ({ (c.getColumn i).2 with
          maxValueCache := Function.update (c.getColumn i).2.maxValueCache i (some m) } : CovariateMatrix K n p).col j = c.col j :=
        fun j => congrFun h2.col j
      simp only at hj
      rw [hcol]
      by_cases hji : j = i
      · subst hji
        rw [Function.update_self] at hj
        injection hj with hj; rw [← hj, hx]
      · rw [Function.update_of_ne hji, h6] at hj
        exact h.maxv j m' hj

/-- The reference result of `proportion_of_value_in_variable`. -/
def refProportion (c : CovariateMatrix K n p) (i : Fin p) (v : Fl K) : Int × Int :=
  if (c.col i).Nodup then (1, (count (inRows c.mask) : Int))
  else (((c.col i).countP (fun x => Fl.eq x v) : Nat), (count (inRows c.mask) : Int))

theorem proportionOfValue_spec {c : CovariateMatrix K n p} (h : CMInv c) (i : Fin p) (v : Fl K) :
    (c.proportionOfValue i v).1 = c.refProportion i v ∧ SameCM c (c.proportionOfValue i v).2 ∧
      CMInv (c.proportionOfValue i v).2 := by
  obtain ⟨h1, h2, h3⟩ := isColumnUnique_spec h i
  unfold proportionOfValue refProportion
  simp only [h1]
  by_cases hn : (c.col i).Nodup
  · simp only [hn, decide_true, if_true]
    refine ⟨?_, h2, h3⟩
    rw [h3.nObsv, h2.mask]
  · simp only [hn, decide_false, if_false, Bool.false_eq_true]
    obtain ⟨g1, g2, g3, -⟩ := getColumn_spec h3 i
    refine ⟨?_, h2.trans g2, g3⟩
    rw [g1, h2.col, ← column_length c.X (inRows c.mask) i]; rfl

theorem updateMask_rows {c : CovariateMatrix K n p} {s : SplitCondition K p} {m : Fin n → Bool}
    (h : c.updateMask s = .ok m) (r : Fin n) (hr : inRows m r = true) : inRows c.mask r = true := by
  unfold updateMask at h
  cases ho : s.operator <;> rw [ho] at h <;> simp only [Except.ok.injEq, reduceCtorEq] at h <;>
    subst h <;> simp [inRows] at hr ⊢ <;> exact hr.1

/-- Derived matrices satisfy the invariant if the recorded number of rows is right. -/
theorem init_inv {c : CovariateMatrix K n p} (h : CMInv c) {m : Fin n → Bool} {k : Int}
    (hk : k = (count (inRows m) : Int)) (hm : ∀ r, inRows m r = true → inRows c.mask r = true) :
    CMInv (CovariateMatrix.init c.X m k (some c.uniqueColumns) (some c.splittableVariables)) := by
  refine ⟨hk, by simp [init], ?_, ?_, by simp [init]⟩
  · intro i b hb
    simp only [init] at hb
    split at hb
    · next hc =>
      injection hb with hb
      subst hb
      have := h.split i false hc
      symm
      exact isNotConstant_sublist (column_sublist c.X hm i) this.symm
    · cases hb
  · intro i b hb
    simp only [init] at hb
    split at hb
    · next hc =>
      injection hb with hb
      subst hb
      have := h.uniq i true hc
      symm
      rw [decide_eq_true_iff]
      exact (column_sublist c.X hm i).nodup (of_decide_eq_true this.symm)
    · cases hb

theorem init_fresh_inv (X : Fin n → Fin p → Fl K) (m : Fin n → Bool) {k : Int} (hk : k = (count (inRows m) : Int)) :
    CMInv (CovariateMatrix.init X m k none none) :=
  ⟨hk, by simp [init], by simp [init], by simp [init], by simp [init]⟩

end CovariateMatrix

/-! ### the invariant of a data object -/

/-- Every cached sum is right. -/
structure TInv (t : Target K n) : Prop where
  sum : t.sumCacheUpToDate = true → ∃ y, t.y = some y ∧ t.summedY = some (total y (inRows t.mask))

structure DataInv (d : Data K n p) : Prop where
  X : CMInv d.X
  y : TInv d.y
  maskX : d.X.mask = d.mask
  maskY : d.y.mask = d.mask
  nObsv : d.nObsv = (count (inRows d.mask) : Int)

/-- Same object up to caches. -/
structure SameData (d d' : Data K n p) : Prop where
  X : SameCM d.X d'.X
  mask : d'.mask = d.mask
  nObsv : d'.nObsv = d.nObsv
  y : d'.y.y = d.y.y
  range : d'.y.originalRange = d.y.originalRange

namespace SameData
theorem refl (d : Data K n p) : SameData d d := ⟨SameCM.refl _, rfl, rfl, rfl, rfl⟩
theorem trans {a b c : Data K n p} (h : SameData a b) (h' : SameData b c) : SameData a c :=
  ⟨h.X.trans h'.X, h'.mask.trans h.mask, h'.nObsv.trans h.nObsv, h'.y.trans h.y, h'.range.trans h.range⟩
end SameData

namespace Data

theorem withX_spec {d : Data K n p} (h : DataInv d) {c : CovariateMatrix K n p} (hs : SameCM d.X c) (hc : CMInv c) :
    SameData d { d with X := c } ∧ DataInv { d with X := c } :=
  ⟨⟨hs, rfl, rfl, rfl, rfl⟩, ⟨hc, h.y, hs.mask.trans h.maskX, h.maskY, h.nObsv⟩⟩

theorem sumY_spec {d : Data K n p} (h : DataInv d) :
    match d.sumY with
    | .error e => e = .typeError ∧ d.y.y = none
    | .ok (s, d') => ∃ y, d.y.y = some y ∧ s = total y (inRows d.mask) ∧ SameData d d' ∧ DataInv d' := by
  unfold sumY Target.sumY
  cases hc : d.y.sumCacheUpToDate with
  | true =>
    obtain ⟨y, hy, hs⟩ := h.y.sum hc
    simp only [if_true, hs]
    refine ⟨y, hy, ?_, SameData.refl d, h⟩
    rw [h.maskY]
  | false =>
    simp only [Bool.false_eq_true, if_false]
    cases hy : d.y.y with
    | none => simp
    | some y =>
      simp only
      refine ⟨y, rfl, ?_, ⟨SameCM.refl _, rfl, rfl, ?_, rfl⟩, ⟨h.X, ⟨?_⟩, h.maskX, h.maskY, h.nObsv⟩⟩
      · rw [sumMasked_eq, h.maskY]
      · exact hy.symm
      · intro _
        exact ⟨y, rfl, by rw [← sumMasked_eq]⟩

theorem updateY_inv {d : Data K n p} (h : DataInv d) (y : Option (Fin n → K)) : DataInv (d.updateY y) :=
  ⟨h.X, ⟨by simp [updateY, Target.updateY]⟩, h.maskX, h.maskY, h.nObsv⟩

/-- Adding a condition gives a correct data object provided the carried values, if any, are right. -/
theorem add_spec {d : Data K n p} (h : DataInv d) {s : SplitCondition K p} {m : Fin n → Bool}
    (hm : d.X.updateMask s = .ok m)
    (hk : ∀ k, s.carryNObsv = some k → k = (count (inRows m) : Int))
    (hy : ∀ v, s.carryYSum = some v → ∃ y, d.y.y = some y ∧ v = total y (inRows m)) :
    ∃ d', d.add s = .ok d' ∧ DataInv d' ∧ d'.X.X = d.X.X ∧ d'.mask = m ∧ d'.y.y = d.y.y ∧ d'.y.originalRange = none := by
  have hkk : s.carryNObsv.getD (countUnmasked m) = (count (inRows m) : Int) := by
    cases hc : s.carryNObsv with
    | none => simp [countUnmasked_eq]
    | some k => simp [hk k hc]
  have hadd : d.add s = .ok
      { mask := m, nObsv := s.carryNObsv.getD (countUnmasked m)
        X := CovariateMatrix.init d.X.X m (s.carryNObsv.getD (countUnmasked m)) (some d.X.uniqueColumns)
          (some d.X.splittableVariables)
        y := { y := d.y.y, mask := m, nObsv := s.carryNObsv.getD (countUnmasked m), originalRange := none,
               sumCacheUpToDate := s.carryYSum.isSome, summedY := s.carryYSum } } := by
    unfold add; rw [hm]
  refine ⟨_, hadd, ?_, rfl, rfl, rfl, rfl⟩
  refine ⟨?_, ⟨?_⟩, rfl, rfl, hkk⟩
  · exact CovariateMatrix.init_inv h.X hkk (fun r hr => CovariateMatrix.updateMask_rows hm r hr)
  · intro hs
    simp only at hs
    cases hc : s.carryYSum with
    | none => rw [hc] at hs; simp at hs
    | some v =>
      obtain ⟨y, hy1, hy2⟩ := hy v hc
      exact ⟨y, hy1, by rw [hy2]⟩

end Data
end Bart
