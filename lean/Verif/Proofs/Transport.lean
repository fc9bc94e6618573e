import Verif.Model.Sklearn
import Mathlib.Order.Monotone.Basic
import Mathlib.Data.List.Dedup

/-! A strictly increasing change of every feature column, together with a change of the remembered range of the target, applied to all the objects of the
model. Every operation of the sampler commutes with it. -/

set_option linter.unusedSectionVars false

namespace Bart

/-- A function applied to the finite values. -/
def Fl.map {K : Type} (f : K → K) : Fl K → Fl K
  | .nan => .nan
  | .ninf => .ninf
  | .fin a => .fin (f a)
  | .pinf => .pinf

namespace Fl
variable {K : Type} [LinearOrder K] {f : K → K}

theorem map_lt (hf : StrictMono f) (a b : Fl K) : lt (map f a) (map f b) = lt a b := by
  cases a <;> cases b <;> simp [lt, map, hf.lt_iff_lt]

theorem map_le (hf : StrictMono f) (a b : Fl K) : le (map f a) (map f b) = le a b := by
  cases a <;> cases b <;> simp [le, map, hf.le_iff_le]

theorem map_gt (hf : StrictMono f) (a b : Fl K) : gt (map f a) (map f b) = gt a b := map_lt hf b a

theorem map_injective (hf : StrictMono f) : Function.Injective (map f) := by
  intro a b h
  cases a <;> cases b <;> simp [map] at h ⊢
  exact hf.injective h

theorem map_eq (hf : StrictMono f) (a b : Fl K) : eq (map f a) (map f b) = eq a b := by
  cases a <;> cases b <;> simp [eq, map, hf.injective.eq_iff]

theorem map_ne (hf : StrictMono f) (a b : Fl K) : ne (map f a) (map f b) = ne a b := by simp [ne, map_eq hf]

theorem map_npMax (hf : StrictMono f) (a b : Fl K) : npMax (map f a) (map f b) = map f (npMax a b) := by
  cases a <;> cases b <;> try rfl
  rename_i x y
  by_cases h : x < y <;> simp [npMax, map, lt, hf.lt_iff_lt, h]

end Fl

/-- The change: of the values of each column, of the range of the target, of the scaling factor of sigma. -/
structure Trans (K : Type) (p : Nat) [LinearOrder K] where
  f : Fin p → K → K
  mono : ∀ j, StrictMono (f j)
  range : K × K → K × K
  scale : K → K

/-- An update of a function, seen through another function. -/
theorem comp_update {α β γ : Type} [DecidableEq α] (g : β → γ) (f : α → β) (a : α) (b : β) :
    (fun x => g (Function.update f a b x)) = Function.update (fun x => g (f x)) a (g b) := by
  funext x
  by_cases h : x = a
  · subst h; simp
  · simp [Function.update_of_ne h]

theorem comp_update_dep {α β γ : Type} [DecidableEq α] (g : α → β → γ) (f : α → β) (a : α) (b : β) :
    (fun x => g x (Function.update f a b x)) = Function.update (fun x => g x (f x)) a (g a b) := by
  funext x
  by_cases h : x = a
  · subst h; simp
  · simp [Function.update_of_ne h]

namespace Trans
section
variable {K : Type} [LinearOrder K] {n p : Nat} (T : Trans K p)

def fl (j : Fin p) (x : Fl K) : Fl K := x.map (T.f j)
def row (x : Fin p → Fl K) : Fin p → Fl K := fun j => T.fl j (x j)
def mat {q : Nat} (X : Fin q → Fin p → Fl K) : Fin q → Fin p → Fl K := fun r => T.row (X r)
def cond (c : SplitCondition K p) : SplitCondition K p := { c with splittingValue := T.fl c.splittingVariable c.splittingValue }
def cvc (v : Fin p) (c : CombinedVariableCondition K p) : CombinedVariableCondition K p := ⟨c.splittingVariable, T.fl v c.minValue, T.fl v c.maxValue⟩
def comb (c : CombinedCondition K p) : CombinedCondition K p := ⟨fun v => T.cvc v (c.variables v), c.conditions.map T.cond, c.splittingVariable⟩
def cov (c : CovariateMatrix K n p) : CovariateMatrix K n p :=
  { X := T.mat c.X, mask := c.mask, nObsv := c.nObsv, uniqueColumns := c.uniqueColumns, splittableVariables := c.splittableVariables
    maxValueCache := fun i => (c.maxValueCache i).map (T.fl i), xCache := c.xCache.map (List.map T.row) }
def tgt (t : Target K n) : Target K n := { t with originalRange := t.originalRange.map T.range }
def data (d : Data K n p) : Data K n p := { mask := d.mask, nObsv := d.nObsv, X := T.cov d.X, y := T.tgt d.y }
def split (s : Split K p) : Split K p := ⟨s.data, T.comb s.combined⟩
def node (x : Node K p) : Node K p := { x with split := T.split x.split }
def heap (h : Heap K n p) : Heap K n p := { node := fun i => T.node (h.node i), nextNode := h.nextNode, data := fun i => T.data (h.data i), nextData := h.nextData }
def tree (t : Tree K n p) : Tree K n p := { t with heap := T.heap t.heap }

/-! ### feature values -/

theorem fl_lt (j : Fin p) (a b : Fl K) : Fl.lt (T.fl j a) (T.fl j b) = Fl.lt a b := Fl.map_lt (T.mono j) a b
theorem fl_le (j : Fin p) (a b : Fl K) : Fl.le (T.fl j a) (T.fl j b) = Fl.le a b := Fl.map_le (T.mono j) a b
theorem fl_gt (j : Fin p) (a b : Fl K) : Fl.gt (T.fl j a) (T.fl j b) = Fl.gt a b := Fl.map_gt (T.mono j) a b
theorem fl_eq (j : Fin p) (a b : Fl K) : Fl.eq (T.fl j a) (T.fl j b) = Fl.eq a b := Fl.map_eq (T.mono j) a b
theorem fl_ne (j : Fin p) (a b : Fl K) : Fl.ne (T.fl j a) (T.fl j b) = Fl.ne a b := Fl.map_ne (T.mono j) a b
theorem fl_npMax (j : Fin p) (a b : Fl K) : Fl.npMax (T.fl j a) (T.fl j b) = T.fl j (Fl.npMax a b) := Fl.map_npMax (T.mono j) a b
theorem fl_injective (j : Fin p) : Function.Injective (T.fl j) := Fl.map_injective (T.mono j)
@[simp] theorem fl_ninf (j : Fin p) : T.fl j .ninf = .ninf := rfl
@[simp] theorem fl_pinf (j : Fin p) : T.fl j .pinf = .pinf := rfl

theorem isNotConstantLoop_map (j : Fin p) (l : List (Fl K)) (a : Option (Fl K)) :
    isNotConstantLoop (l.map (T.fl j)) (a.map (T.fl j)) = isNotConstantLoop l a := by
  induction l generalizing a with
  | nil => rfl
  | cons x xs ih =>
    cases a with
    | none => exact ih (some x)
    | some b => simp only [List.map_cons, Option.map_some, isNotConstantLoop, fl_ne]; rw [← ih (some b)]; rfl

theorem isNotConstant_map (j : Fin p) (l : List (Fl K)) : isNotConstant (l.map (T.fl j)) = isNotConstant l := by
  unfold isNotConstant
  rw [List.length_map, ← List.map_drop, ← isNotConstantLoop_map T j (l.drop 1) none]; rfl

theorem npMaxList_map (j : Fin p) (l : List (Fl K)) : npMaxList (l.map (T.fl j)) = (npMaxList l).map (T.fl j) := by
  cases l with
  | nil => rfl
  | cons x xs =>
    simp only [npMaxList, List.map_cons, Except.map]
    congr 1
    induction xs generalizing x with
    | nil => rfl
    | cons y ys ih => simp only [List.map_cons, List.foldl_cons, fl_npMax]; exact ih _

theorem npUniqueCount_map (j : Fin p) (l : List (Fl K)) : npUniqueCount (l.map (T.fl j)) = npUniqueCount l := by
  unfold npUniqueCount
  rw [List.dedup_map_of_injective (T.fl_injective j), List.length_map]

/-! ### conditions -/

theorem cvc_addCondition (c : CombinedVariableCondition K p) (s : SplitCondition K p) :
    (T.cvc s.splittingVariable c).addCondition (T.cond s) = T.cvc s.splittingVariable (c.addCondition s) := by
  unfold CombinedVariableCondition.addCondition
  by_cases h : c.splittingVariable = s.splittingVariable
  · simp only [cvc, cond, h, fl_gt, fl_lt, ne_eq, not_true_eq_false, if_false]
    split
    · rfl
    · split
      · rfl
      · simp [h]
  · simp [cvc, cond, h]

theorem addTo_map (vars : Fin p → CombinedVariableCondition K p) (c : SplitCondition K p) :
    CombinedCondition.addTo (fun v => T.cvc v (vars v)) (T.cond c) = fun v => T.cvc v (CombinedCondition.addTo vars c v) := by
  funext v
  unfold CombinedCondition.addTo
  by_cases h : v = c.splittingVariable
  · simp only [cond, h, if_true]; exact cvc_addCondition T _ c
  · simp [cond, h]

theorem comb_init (l : List (SplitCondition K p)) : CombinedCondition.init (l.map T.cond) = T.comb (CombinedCondition.init l) := by
  have h : ∀ (l : List (SplitCondition K p)) (vars : Fin p → CombinedVariableCondition K p),
      (l.map T.cond).foldl CombinedCondition.addTo (fun v => T.cvc v (vars v)) = fun v => T.cvc v (l.foldl CombinedCondition.addTo vars v) := by
    intro l
    induction l with
    | nil => intro vars; rfl
    | cons c l ih => intro vars; simp only [List.map_cons, List.foldl_cons, addTo_map]; exact ih _
  have hl : (l.map T.cond).getLast?.map (·.splittingVariable) = l.getLast?.map (·.splittingVariable) := by
    rw [List.getLast?_map, Option.map_map]; rfl
  have h0 := h l (fun v => ⟨v, .ninf, .pinf⟩)
  unfold CombinedCondition.init comb
  rw [hl]
  congr 1

theorem comb_add (c : CombinedCondition K p) (o : SplitCondition K p) : (T.comb c).add (T.cond o) = T.comb (c.add o) := by
  unfold CombinedCondition.add
  rw [← comb_init]
  simp [comb]

theorem comb_condition (c : CombinedCondition K p) (x : Fin p → Fl K) : (T.comb c).condition (T.row x) = c.condition x := by
  unfold CombinedCondition.condition
  congr 1
  funext acc v
  simp only [comb, cvc, row, fl_gt, fl_le]

theorem comb_mostRecent (c : CombinedCondition K p) : (T.comb c).mostRecentSplitCondition = c.mostRecentSplitCondition.map T.cond := by
  unfold CombinedCondition.mostRecentSplitCondition
  simp only [comb, List.length_map]
  split
  · rfl
  · simp

/-! ### covariates -/

theorem cov_unmaskedRows (c : CovariateMatrix K n p) : (T.cov c).unmaskedRows = c.unmaskedRows.map T.row := by
  simp [CovariateMatrix.unmaskedRows, cov, mat, Function.comp_def]

theorem map_row_col (l : List (Fin p → Fl K)) (i : Fin p) : (l.map T.row).map (· i) = (l.map (· i)).map (T.fl i) := by
  simp [row, Function.comp_def]

theorem cov_getColumn (c : CovariateMatrix K n p) (i : Fin p) :
    (T.cov c).getColumn i = ((c.getColumn i).1.map (T.fl i), T.cov (c.getColumn i).2) := by
  unfold CovariateMatrix.getColumn
  have hx : (T.cov c).xCache = c.xCache.map (List.map T.row) := rfl
  rw [hx]
  cases h : c.xCache with
  | some rows => simp [row]
  | none => simp only [Option.map_none, cov_unmaskedRows, map_row_col]; rfl

theorem cov_init (X : Fin n → Fin p → Fl K) (mask : Fin n → Bool) (k : Int) (u s : Option (Fin p → Option Bool)) :
    CovariateMatrix.init (T.mat X) mask k u s = T.cov (CovariateMatrix.init X mask k u s) := rfl

theorem cov_fillSplittable (c : CovariateMatrix K n p) (i : Fin p) : (T.cov c).fillSplittable i = T.cov (c.fillSplittable i) := by
  unfold CovariateMatrix.fillSplittable
  have hx : (T.cov c).splittableVariables = c.splittableVariables := rfl
  rw [hx]
  cases h : c.splittableVariables i with
  | some b => rfl
  | none => simp only [cov_getColumn, isNotConstant_map]; rfl

theorem cov_foldl_fill (l : List (Fin p)) (c : CovariateMatrix K n p) :
    l.foldl CovariateMatrix.fillSplittable (T.cov c) = T.cov (l.foldl CovariateMatrix.fillSplittable c) := by
  induction l generalizing c with
  | nil => rfl
  | cons i l ih => simp only [List.foldl_cons, cov_fillSplittable]; exact ih _

theorem cov_splittable (c : CovariateMatrix K n p) : (T.cov c).splittable = (c.splittable.1, T.cov c.splittable.2) := by
  unfold CovariateMatrix.splittable
  simp only [cov_foldl_fill]; rfl

theorem cov_nSplittable (c : CovariateMatrix K n p) : (T.cov c).nSplittable = (c.nSplittable.1, T.cov c.nSplittable.2) := by
  unfold CovariateMatrix.nSplittable
  simp only [cov_splittable]

theorem cov_isAtLeastOneSplittable (c : CovariateMatrix K n p) :
    (T.cov c).isAtLeastOneSplittable = (c.isAtLeastOneSplittable.1, T.cov c.isAtLeastOneSplittable.2) := by
  unfold CovariateMatrix.isAtLeastOneSplittable
  simp only [cov_splittable]
  have hx : (T.cov c).splittableVariables = c.splittableVariables := rfl
  rw [hx]
  split <;> rfl

theorem cov_isColumnUnique (c : CovariateMatrix K n p) (i : Fin p) :
    (T.cov c).isColumnUnique i = ((c.isColumnUnique i).1, T.cov (c.isColumnUnique i).2) := by
  unfold CovariateMatrix.isColumnUnique
  have hx : (T.cov c).uniqueColumns = c.uniqueColumns := rfl
  rw [hx]
  cases h : c.uniqueColumns i with
  | some b => rfl
  | none => simp only [cov_getColumn, npUniqueCount_map]; rfl

theorem cov_maxValueOfColumn (c : CovariateMatrix K n p) (i : Fin p) :
    (T.cov c).maxValueOfColumn i = (c.maxValueOfColumn i).map (fun x => (T.fl i x.1, T.cov x.2)) := by
  unfold CovariateMatrix.maxValueOfColumn
  have hx : (T.cov c).maxValueCache i = (c.maxValueCache i).map (T.fl i) := rfl
  rw [hx]
  cases h : c.maxValueCache i with
  | some b => rfl
  | none =>
    simp only [cov_getColumn, npMaxList_map, Option.map_none]
    cases h2 : npMaxList (c.getColumn i).1 with
    | error e => rfl
    | ok m =>
      simp only [Except.map]
      congr 2
      simp only [cov, comp_update_dep (fun i x => Option.map (T.fl i) x), Option.map_some]

theorem choice_map {α β : Type} (g : α → β) (l : List α) (u : Nat) : choice (l.map g) u = (choice l u).map g := by
  unfold choice
  rw [List.length_map, List.getElem?_map]
  cases l[u % l.length]? <;> rfl

theorem drawNonMax_map (i : Fin p) (col : List (Fl K)) (m : Fl K) (us : List Nat) :
    CovariateMatrix.drawNonMax (col.map (T.fl i)) (T.fl i m) us = (CovariateMatrix.drawNonMax col m us).map (fun x => (T.fl i x.1, x.2)) := by
  induction us with
  | nil => rfl
  | cons u us ih =>
    simp only [CovariateMatrix.drawNonMax, choice_map]
    cases h : choice col u with
    | error e => rfl
    | ok x =>
      simp only [Except.map, fl_eq]
      split
      · exact ih
      · rfl

theorem cov_randomSplittableValue (c : CovariateMatrix K n p) (i : Fin p) (us : List Nat) :
    (T.cov c).randomSplittableValue i us = (c.randomSplittableValue i us).map (fun x => (T.fl i x.1, x.2.1, T.cov x.2.2)) := by
  unfold CovariateMatrix.randomSplittableValue
  simp only [cov_splittable, cov_maxValueOfColumn]
  split
  · cases h : c.splittable.2.maxValueOfColumn i with
    | error e => rfl
    | ok x =>
      obtain ⟨m, c1⟩ := x
      simp only [Except.map, cov_getColumn, drawNonMax_map]
      cases h2 : CovariateMatrix.drawNonMax (c1.getColumn i).1 m us with
      | error e => rfl
      | ok y => rfl
  · rfl

theorem cov_randomSplittableVariable (c : CovariateMatrix K n p) (u : Nat) :
    (T.cov c).randomSplittableVariable u = (c.randomSplittableVariable u).map (fun x => (x.1, T.cov x.2)) := by
  unfold CovariateMatrix.randomSplittableVariable
  simp only [cov_isAtLeastOneSplittable, cov_splittable]
  split
  · cases choice c.isAtLeastOneSplittable.2.splittable.1 u <;> rfl
  · rfl

theorem cov_proportionOfValue (c : CovariateMatrix K n p) (i : Fin p) (v : Fl K) :
    (T.cov c).proportionOfValue i (T.fl i v) = ((c.proportionOfValue i v).1, T.cov (c.proportionOfValue i v).2) := by
  unfold CovariateMatrix.proportionOfValue
  simp only [cov_isColumnUnique, cov_getColumn]
  split
  · rfl
  · simp only [List.length_map, List.countP_map, Function.comp_def, fl_eq]

theorem cov_updateMask (c : CovariateMatrix K n p) (o : SplitCondition K p) : (T.cov c).updateMask (T.cond o) = c.updateMask o := by
  unfold CovariateMatrix.updateMask
  simp only [cond, cov, mat, row, fl_le, fl_gt]

end

/-! ### data -/

section
variable {K : Type} [Field K] [LinearOrder K] {n p : Nat} (T : Trans K p)

theorem tgt_sumY (t : Target K n) : (T.tgt t).sumY = t.sumY.map (fun x => (x.1, T.tgt x.2)) := by
  unfold Target.sumY
  have h1 : (T.tgt t).sumCacheUpToDate = t.sumCacheUpToDate := rfl
  have h2 : (T.tgt t).summedY = t.summedY := rfl
  have h3 : (T.tgt t).y = t.y := rfl
  have h4 : (T.tgt t).mask = t.mask := rfl
  rw [h1, h2, h3, h4]
  split
  · cases t.summedY <;> rfl
  · cases t.y <;> rfl

theorem data_sumY (d : Data K n p) : (T.data d).sumY = d.sumY.map (fun x => (x.1, T.data x.2)) := by
  unfold Data.sumY
  have h1 : (T.data d).y = T.tgt d.y := rfl
  rw [h1, tgt_sumY]
  cases d.y.sumY <;> rfl

theorem data_updateY (d : Data K n p) (y : Option (Fin n → K)) : (T.data d).updateY y = T.data (d.updateY y) := rfl

theorem data_add (d : Data K n p) (o : SplitCondition K p) : (T.data d).add (T.cond o) = (d.add o).map T.data := by
  unfold Data.add
  have h1 : (T.data d).X = T.cov d.X := rfl
  rw [h1, cov_updateMask]
  cases d.X.updateMask o <;> rfl

theorem data_init (X : Fin n → Fin p → Fl K) (y : Fin n → K) (m : Option (Fin n → Bool)) (u s : Option (Fin p → Option Bool)) (ys : Option K)
    (k : Option Int) (y' : Fin n → K) (h : ∀ m k ys, Target.init y' m k true ys = (Target.init y m k true ys).map T.tgt) :
    Data.init (T.mat X) y' m true u s ys k = (Data.init X y m true u s ys k).map T.data := by
  unfold Data.init
  simp only [h]
  cases Target.init y (m.getD fun _ => false) (k.getD (Data.countUnmasked (m.getD fun _ => false))) true ys <;> rfl

/-! ### heap -/

theorem heap_allocNode (h : Heap K n p) (x : Node K p) : (T.heap h).allocNode (T.node x) = ((h.allocNode x).1, T.heap (h.allocNode x).2) := by
  simp only [Heap.allocNode, heap, comp_update]

theorem heap_allocData (h : Heap K n p) (x : Data K n p) : (T.heap h).allocData (T.data x) = ((h.allocData x).1, T.heap (h.allocData x).2) := by
  simp only [Heap.allocData, heap, comp_update]

theorem heap_setNode (h : Heap K n p) (i : Nat) (x : Node K p) : (T.heap h).setNode i (T.node x) = T.heap (h.setNode i x) := by
  simp only [Heap.setNode, heap, comp_update]

theorem heap_setData (h : Heap K n p) (i : Nat) (x : Data K n p) : (T.heap h).setData i (T.data x) = T.heap (h.setData i x) := by
  simp only [Heap.setData, heap, comp_update]

theorem heap_dataOf (h : Heap K n p) (i : Nat) : (T.heap h).dataOf i = T.data (h.dataOf i) := rfl

theorem heap_setDataOf (h : Heap K n p) (i : Nat) (x : Data K n p) : (T.heap h).setDataOf i (T.data x) = T.heap (h.setDataOf i x) :=
  heap_setData T h _ x

theorem heap_splitAdd (h : Heap K n p) (s : Split K p) (o : SplitCondition K p) :
    (T.heap h).splitAdd (T.split s) (T.cond o) = (h.splitAdd s o).map (fun x => (T.split x.1, T.heap x.2)) := by
  unfold Heap.splitAdd
  have h1 : (T.heap h).data (T.split s).data = T.data (h.data s.data) := rfl
  rw [h1, data_add]
  cases (h.data s.data).add o with
  | error e => rfl
  | ok d =>
    simp only [Except.map, heap_allocData]
    have h2 : (T.split s).combined = T.comb s.combined := rfl
    rw [h2, comb_add]; rfl

theorem heap_inSample (h : Heap K n p) (s : Split K p) (r : Fin n) : (T.heap h).inSample (T.split s) r = h.inSample s r := rfl

theorem outOfSample (s : Split K p) (x : Fin p → Fl K) : Heap.outOfSample (T.split s) (T.row x) = Heap.outOfSample s x := comb_condition T _ x

theorem heap_sumYOf (h : Heap K n p) (i : Nat) : (T.heap h).sumYOf i = (h.sumYOf i).map (fun x => (x.1, T.heap x.2)) := by
  unfold Heap.sumYOf
  have h1 : (T.heap h).data i = T.data (h.data i) := rfl
  rw [h1, data_sumY]
  cases (h.data i).sumY with
  | error e => rfl
  | ok x => simp only [Except.map, heap_setData]

theorem heap_nodeUpdateY (y : Option (Fin n → K)) (fuel : Nat) (i : Nat) (h : Heap K n p) :
    (T.heap h).nodeUpdateY y fuel i = (h.nodeUpdateY y fuel i).map T.heap := by
  induction fuel generalizing i h with
  | zero => rfl
  | succ fuel ih =>
    simp only [Heap.nodeUpdateY, heap_dataOf, data_updateY, heap_setDataOf]
    have h1 : ∀ h : Heap K n p, ((T.heap h).node i).left = (h.node i).left := fun _ => rfl
    have h2 : ∀ h : Heap K n p, ((T.heap h).node i).right = (h.node i).right := fun _ => rfl
    rw [h1]
    cases ((h.setDataOf i ((h.dataOf i).updateY y)).node i).left with
    | none => rfl
    | some l =>
      simp only [ih]
      cases (h.setDataOf i ((h.dataOf i).updateY y)).nodeUpdateY y fuel l with
      | error e => rfl
      | ok h2' =>
        simp only [Except.map, h2]
        cases (h2'.node i).right with
        | none => rfl
        | some r => exact ih r h2'

theorem heap_newLeaf (h : Heap K n p) (s : Split K p) (d : Nat) (v : K) :
    (T.heap h).newLeaf (T.split s) d v = ((h.newLeaf s d v).1, T.heap (h.newLeaf s d v).2) :=
  heap_allocNode T h { kind := .leaf, depth := d, split := s, left := none, right := none, value := v }

theorem heap_newDecision (h : Heap K n p) (s : Split K p) (l r d : Nat) :
    (T.heap h).newDecision (T.split s) l r d = ((h.newDecision s l r d).1, T.heap (h.newDecision s l r d).2) :=
  heap_allocNode T h { kind := .decision, depth := d, split := s, left := some l, right := some r, value := 0 }

theorem heap_setValue (h : Heap K n p) (i : Nat) (v : K) : (T.heap h).setValue i v = T.heap (h.setValue i v) :=
  heap_setNode T h i { h.node i with value := v }

theorem heap_isSplittable (h : Heap K n p) (i : Nat) : (T.heap h).isSplittable i = ((h.isSplittable i).1, T.heap (h.isSplittable i).2) := by
  unfold Heap.isSplittable
  simp only [heap_dataOf]
  have h1 : (T.data (h.dataOf i)).X = T.cov (h.dataOf i).X := rfl
  simp only [h1, cov_isAtLeastOneSplittable]
  exact congrArg _ (heap_setDataOf T h i { h.dataOf i with X := (h.dataOf i).X.isAtLeastOneSplittable.2 })

theorem heap_isPrunable (h : Heap K n p) (i : Nat) : (T.heap h).isPrunable i = h.isPrunable i := rfl

theorem heap_mostRecent (h : Heap K n p) (i : Nat) :
    (T.heap h).mostRecentSplitCondition i = (h.mostRecentSplitCondition i).map (Option.map T.cond) := by
  unfold Heap.mostRecentSplitCondition
  have h1 : ((T.heap h).node i).left = (h.node i).left := rfl
  rw [h1]
  cases (h.node i).left with
  | none => rfl
  | some l => exact congrArg Except.ok (comb_mostRecent T _)

theorem heap_splitNode (h : Heap K n p) (i : Nat) (c0 c1 : SplitCondition K p) :
    (T.heap h).splitNode i (T.cond c0) (T.cond c1) = (h.splitNode i c0 c1).map (fun x => (x.1, T.heap x.2)) := by
  unfold Heap.splitNode
  have h1 : ((T.heap h).node i).split = T.split (h.node i).split := rfl
  simp only [h1, heap_splitAdd]
  cases h.splitAdd (h.node i).split c0 with
  | error e => rfl
  | ok x =>
    obtain ⟨ls, h1'⟩ := x
    simp only [Except.map]
    have e1 : (T.split (h.node i).split).data = (h.node i).split.data := rfl
    have e2 : (T.split ls).data = ls.data := rfl
    rw [e1, e2, heap_sumYOf]
    cases h1'.sumYOf (h.node i).split.data with
    | error e => rfl
    | ok x2 =>
      obtain ⟨sn, h2⟩ := x2
      simp only [Except.map, heap_sumYOf]
      cases h2.sumYOf ls.data with
      | error e => rfl
      | ok x3 =>
        obtain ⟨sl, h3⟩ := x3
        simp only [Except.map]
        have e3 : ∀ a b, ({ T.cond c1 with carryNObsv := a, carryYSum := b } : SplitCondition K p) = T.cond { c1 with carryNObsv := a, carryYSum := b } := fun _ _ => rfl
        have e4 : ∀ j, ((T.heap h1').data j).X.nObsv = (h1'.data j).X.nObsv := fun _ => rfl
        simp only [e3, e4, heap_splitAdd]
        cases h3.splitAdd (h.node i).split { c1 with carryNObsv := some ((h1'.data (h.node i).split.data).X.nObsv - (h1'.data ls.data).X.nObsv), carryYSum := some (sn - sl) } with
        | error e => rfl
        | ok x4 =>
          obtain ⟨rs, h4⟩ := x4
          have e5 : ((T.heap h).node i).depth = (h.node i).depth := rfl
          simp only [Except.map, e5, heap_newLeaf, heap_newDecision]

end
end Trans
end Bart
