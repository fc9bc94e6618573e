import Verif.Proofs.Condition
import Verif.Model.Sklearn
import Mathlib.Data.List.Sort
import Mathlib.Data.List.FinRange
import Mathlib.Data.List.Forall2
import Mathlib.Data.Option.Basic

/-! Two runs of the sampler side by side: the second one may have further columns, which are constant, and further node objects, which nothing live refers to.
Here: data and heaps. -/

set_option linter.unusedSectionVars false

namespace Bart

/-- Results that are both errors, the same one, or related. -/
inductive ERel {α β : Type} (R : α → β → Prop) : Except PyErr α → Except PyErr β → Prop
  | error (e : PyErr) : ERel R (.error e) (.error e)
  | ok {a : α} {b : β} : R a b → ERel R (.ok a) (.ok b)

/-- The columns of the first run among the columns of the second. -/
structure Cols (p p' : Nat) where
  at' : Fin p → Fin p'
  mono : StrictMono at'

namespace Cols
variable {p p' : Nat} (γ : Cols p p')

/-- A column that only the second run has. -/
def Extra (j : Fin p') : Prop := ∀ v, γ.at' v ≠ j

theorem inj {a b : Fin p} (h : γ.at' a = γ.at' b) : a = b := γ.mono.injective h

theorem extra_or (j : Fin p') : γ.Extra j ∨ ∃ v, γ.at' v = j := by
  by_cases h : ∃ v, γ.at' v = j
  · exact .inr h
  · exact .inl (fun v e => h ⟨v, e⟩)

open Classical in
theorem finRange_filter : (List.finRange p').filter (fun j => decide (∃ v, γ.at' v = j)) = (List.finRange p).map γ.at' := by
  have h1 : ((List.finRange p').filter (fun j => decide (∃ v, γ.at' v = j))).Pairwise (· < ·) := (List.pairwise_lt_finRange p').filter _
  have h2 : ((List.finRange p).map γ.at').Pairwise (· < ·) := by
    rw [List.pairwise_map]
    exact (List.pairwise_lt_finRange p).imp (fun h => γ.mono h)
  refine List.Perm.eq_of_pairwise (le := (· < ·)) (fun a b _ _ h h' => absurd (lt_trans h h') (lt_irrefl _)) h1 h2 ?_
  rw [List.perm_ext_iff_of_nodup (h1.imp ne_of_lt) (h2.imp ne_of_lt)]
  intro j
  simp

/-- The same columns. -/
def refl (p : Nat) : Cols p p := ⟨id, strictMono_id⟩

end Cols

namespace Sim
section
variable {K : Type} [LinearOrder K] {n p p' : Nat} (γ : Cols p p')

/-! ### conditions -/

def cond (c : SplitCondition K p) : SplitCondition K p' := ⟨γ.at' c.splittingVariable, c.splittingValue, c.operator, c.carryYSum, c.carryNObsv⟩

def CombRel (c : CombinedCondition K p) (c' : CombinedCondition K p') : Prop :=
  ∃ l : List (SplitCondition K p), c = CombinedCondition.init l ∧ c' = CombinedCondition.init (l.map (cond γ))

theorem combRel_add {c : CombinedCondition K p} {c' : CombinedCondition K p'} (h : CombRel γ c c') (o : SplitCondition K p) : CombRel γ (c.add o) (c'.add (cond γ o)) := by
  obtain ⟨l, rfl, rfl⟩ := h
  exact ⟨l ++ [o], rfl, by simp [CombinedCondition.add, CombinedCondition.init]⟩

theorem combRel_mostRecent {c : CombinedCondition K p} {c' : CombinedCondition K p'} (h : CombRel γ c c') :
    c'.mostRecentSplitCondition = c.mostRecentSplitCondition.map (cond γ) := by
  obtain ⟨l, rfl, rfl⟩ := h
  simp only [CombinedCondition.mostRecentSplitCondition, CombinedCondition.init, List.length_map, List.getLast?_map]
  by_cases e : l.length = 0
  · simp only [e, if_true]; rfl
  · simp only [e, if_false]

theorem combRel_var {c : CombinedCondition K p} {c' : CombinedCondition K p'} (h : CombRel γ c c') :
    c'.splittingVariable = c.splittingVariable.map γ.at' := by
  obtain ⟨l, rfl, rfl⟩ := h
  simp only [CombinedCondition.init, List.getLast?_map, Option.map_map]
  rfl

/-- Bounds of the variables. -/
structure VarsRel (a : Fin p → CombinedVariableCondition K p) (b : Fin p' → CombinedVariableCondition K p') : Prop where
  var : ∀ v, (b (γ.at' v)).splittingVariable = γ.at' (a v).splittingVariable
  min : ∀ v, (b (γ.at' v)).minValue = (a v).minValue
  max : ∀ v, (b (γ.at' v)).maxValue = (a v).maxValue
  extra : ∀ j, γ.Extra j → (b j).minValue = .ninf ∧ (b j).maxValue = .pinf

theorem varsRel_add {a : Fin p → CombinedVariableCondition K p} {b : Fin p' → CombinedVariableCondition K p'} (h : VarsRel γ a b) (c : SplitCondition K p) :
    VarsRel γ (CombinedCondition.addTo a c) (CombinedCondition.addTo b (cond γ c)) := by
  have key : ∀ v, let x := CombinedCondition.addTo a c v; let y := CombinedCondition.addTo b (cond γ c) (γ.at' v)
      y.splittingVariable = γ.at' x.splittingVariable ∧ y.minValue = x.minValue ∧ y.maxValue = x.maxValue := by
    intro v
    by_cases e : v = c.splittingVariable
    · subst e
      have e1 := h.var c.splittingVariable
      have e2 := h.min c.splittingVariable
      have e3 := h.max c.splittingVariable
      simp only [CombinedCondition.addTo, cond, if_true]
      unfold CombinedVariableCondition.addCondition
      simp only [e1, e2, e3]
      by_cases e4 : (a c.splittingVariable).splittingVariable = c.splittingVariable
      · simp only [e4, ne_eq, not_true_eq_false, if_false]
        by_cases g1 : c.operator = Op.gt ∧ c.splittingValue.gt (a c.splittingVariable).minValue = true
        · simp only [if_pos g1]; exact ⟨trivial, trivial, trivial⟩
        · by_cases g2 : c.operator = Op.le ∧ c.splittingValue.lt (a c.splittingVariable).maxValue = true
          · simp only [if_neg g1, if_pos g2]; exact ⟨trivial, trivial, trivial⟩
          · simp only [if_neg g1, if_neg g2]; exact ⟨e1, e2, e3⟩
      · have e5 : γ.at' (a c.splittingVariable).splittingVariable ≠ γ.at' c.splittingVariable := fun e => e4 (γ.inj e)
        simp only [ne_eq, e4, e5, not_false_eq_true, if_true]
        exact ⟨e1, e2, e3⟩
    · have e' : γ.at' v ≠ (cond γ c).splittingVariable := fun e' => e (γ.inj e')
      simp only [CombinedCondition.addTo, if_neg e, if_neg e']
      exact ⟨h.var v, h.min v, h.max v⟩
  refine ⟨fun v => (key v).1, fun v => (key v).2.1, fun v => (key v).2.2, fun j hj => ?_⟩
  have e' : j ≠ (cond γ c).splittingVariable := fun e => hj _ e.symm
  simp only [CombinedCondition.addTo, if_neg e']
  exact h.extra j hj

/-- Rows that agree in the common columns, the others being neither NaN nor -inf. -/
def RowRel (x : Fin p → Fl K) (x' : Fin p' → Fl K) : Prop := (∀ v, x' (γ.at' v) = x v) ∧ ∀ j, γ.Extra j → x' j ≠ .nan ∧ x' j ≠ .ninf

theorem combRel_condition {c : CombinedCondition K p} {c' : CombinedCondition K p'} (h : CombRel γ c c') {x : Fin p → Fl K} {x' : Fin p' → Fl K}
    (hx : RowRel γ x x') : c'.condition x' = c.condition x := by
  obtain ⟨l, rfl, rfl⟩ := h
  have hv : VarsRel γ (CombinedCondition.init l).variables (CombinedCondition.init (l.map (cond γ))).variables := by
    have : ∀ (l : List (SplitCondition K p)) (a : Fin p → CombinedVariableCondition K p) (b : Fin p' → CombinedVariableCondition K p'), VarsRel γ a b →
        VarsRel γ (l.foldl CombinedCondition.addTo a) ((l.map (cond γ)).foldl CombinedCondition.addTo b) := by
      intro l
      induction l with
      | nil => intro a b h; exact h
      | cons c l ih => intro a b h; exact ih _ _ (varsRel_add γ h c)
    exact this l _ _ ⟨fun v => rfl, fun v => rfl, fun v => rfl, fun j _ => ⟨rfl, rfl⟩⟩
  rw [Bool.eq_iff_iff, condition_eq_all, condition_eq_all]
  have hold : ∀ (a : CombinedVariableCondition K p) (b : CombinedVariableCondition K p') (z : Fl K), b.minValue = a.minValue → b.maxValue = a.maxValue → b.holds z = a.holds z := by
    intro a b z e1 e2; simp only [CombinedVariableCondition.holds, e1, e2]
  constructor
  · intro h v
    have := h (γ.at' v)
    rwa [hx.1, hold _ _ _ (hv.min v) (hv.max v)] at this
  · intro h j
    rcases γ.extra_or j with e | ⟨v, rfl⟩
    · obtain ⟨h1, h2⟩ := hv.extra j e
      obtain ⟨h3, h4⟩ := hx.2 j e
      simp only [CombinedVariableCondition.holds, h1, h2]
      cases hz : x' j <;> simp_all [Fl.gt, Fl.lt, Fl.le]
    · rw [hx.1, hold _ _ _ (hv.min v) (hv.max v)]; exact h v

/-! ### covariates -/

structure CovRel (c : CovariateMatrix K n p) (c' : CovariateMatrix K n p') : Prop where
  X : ∀ r v, c'.X r (γ.at' v) = c.X r v
  const : ∀ j, γ.Extra j → ∃ a : Fl K, a ≠ .nan ∧ ∀ r, c'.X r j = a
  mask : c'.mask = c.mask
  nObsv : c'.nObsv = c.nObsv
  uniq : ∀ v, c'.uniqueColumns (γ.at' v) = c.uniqueColumns v
  spl : ∀ v, c'.splittableVariables (γ.at' v) = c.splittableVariables v
  splx : ∀ j, γ.Extra j → c'.splittableVariables j ≠ some true
  max : ∀ v, c'.maxValueCache (γ.at' v) = c.maxValueCache v
  cache : c.xCache = none ∨ c.xCache = some c.unmaskedRows
  cache' : c'.xCache = none ∨ c'.xCache = some c'.unmaskedRows

variable {γ} {c : CovariateMatrix K n p} {c' : CovariateMatrix K n p'}

theorem getColumn_fst (hc : c.xCache = none ∨ c.xCache = some c.unmaskedRows) (v : Fin p) : (c.getColumn v).1 = c.unmaskedRows.map (· v) := by
  unfold CovariateMatrix.getColumn
  rcases hc with e | e <;> rw [e]

theorem getColumn_snd (hc : c.xCache = none ∨ c.xCache = some c.unmaskedRows) (v : Fin p) :
    (c.getColumn v).2 = c ∨ (c.getColumn v).2 = { c with xCache := some c.unmaskedRows } := by
  unfold CovariateMatrix.getColumn
  rcases hc with e | e <;> rw [e]
  · exact .inr rfl
  · exact .inl rfl

theorem CovRel.left (h : CovRel γ c c') (v : Fin p) : CovRel γ (c.getColumn v).2 c' := by
  rcases getColumn_snd h.cache v with e | e <;> rw [e]
  · exact h
  · exact { h with cache := .inr rfl }

theorem CovRel.right (h : CovRel γ c c') (v : Fin p') : CovRel γ c (c'.getColumn v).2 := by
  rcases getColumn_snd h.cache' v with e | e <;> rw [e]
  · exact h
  · exact { h with cache' := .inr rfl }

theorem CovRel.rows (h : CovRel γ c c') (v : Fin p) : c'.unmaskedRows.map (· (γ.at' v)) = c.unmaskedRows.map (· v) := by
  simp only [CovariateMatrix.unmaskedRows, h.mask, List.map_map]
  apply List.map_congr_left
  intro r _
  exact h.X r v

theorem CovRel.col (h : CovRel γ c c') (v : Fin p) : (c'.getColumn (γ.at' v)).1 = (c.getColumn v).1 := by
  rw [getColumn_fst h.cache, getColumn_fst h.cache', h.rows]

theorem CovRel.colRel (h : CovRel γ c c') (v : Fin p) : CovRel γ (c.getColumn v).2 (c'.getColumn (γ.at' v)).2 := (h.left v).right _

theorem isNotConstant_const {a : Fl K} (ha : a ≠ .nan) {l : List (Fl K)} (hl : ∀ x ∈ l, x = a) : isNotConstant l = false := by
  have key : ∀ (l : List (Fl K)) (b : Option (Fl K)), (∀ x ∈ l, x = a) → (b = none ∨ b = some a) → isNotConstantLoop l b = false := by
    intro l
    induction l with
    | nil => intro b _ _; rfl
    | cons x l ih =>
      intro b hl hb
      obtain rfl := hl x (by simp)
      have e : Fl.ne x x = false := by cases x <;> simp_all [Fl.ne, Fl.eq]
      rcases hb with rfl | rfl
      · exact ih _ (fun z hz => hl z (by simp [hz])) (.inr rfl)
      · simp only [isNotConstantLoop, e]
        exact ih _ (fun z hz => hl z (by simp [hz])) (.inr rfl)
  unfold isNotConstant
  split
  · rfl
  · exact key _ _ (fun x hx => hl x (List.mem_of_mem_drop hx)) (.inl rfl)

theorem CovRel.fill (h : CovRel γ c c') (v : Fin p) : CovRel γ (c.fillSplittable v) (c'.fillSplittable (γ.at' v)) := by
  unfold CovariateMatrix.fillSplittable
  rw [h.spl v]
  cases e : c.splittableVariables v with
  | some b => exact h
  | none =>
    have h1 := h.colRel v
    simp only [h.col v]
    refine { h1 with spl := fun w => ?_, splx := fun j hj => ?_ }
    · by_cases e : w = v
      · subst e; simp
      · simp only [Function.update_of_ne e, Function.update_of_ne (fun h => e (γ.inj h))]; exact h1.spl w
    · simp only [Function.update_of_ne (fun h => hj v h.symm)]; exact h1.splx j hj

theorem CovRel.fill_extra (h : CovRel γ c c') {j : Fin p'} (hj : γ.Extra j) : CovRel γ c (c'.fillSplittable j) := by
  unfold CovariateMatrix.fillSplittable
  cases e : c'.splittableVariables j with
  | some b => exact h
  | none =>
    have h1 := h.right j
    refine { h1 with spl := fun w => ?_, splx := fun i hi => ?_ }
    · simp only [Function.update_of_ne (hj w)]; exact h1.spl w
    · by_cases e : i = j
      · subst e
        obtain ⟨a, ha, hX⟩ := h.const i hi
        simp only [Function.update_self]
        rw [getColumn_fst h.cache', isNotConstant_const ha]
        · simp
        · simp [CovariateMatrix.unmaskedRows, hX]
      · simp only [Function.update_of_ne e]; exact h1.splx i hi

open Classical in
theorem CovRel.fold (l' : List (Fin p')) : ∀ {l : List (Fin p)} {c : CovariateMatrix K n p} {c' : CovariateMatrix K n p'},
    l'.filter (fun j => decide (∃ v, γ.at' v = j)) = l.map γ.at' → CovRel γ c c' →
    CovRel γ (l.foldl CovariateMatrix.fillSplittable c) (l'.foldl CovariateMatrix.fillSplittable c') := by
  induction l' with
  | nil =>
    intro l c c' hl h
    cases l with
    | nil => exact h
    | cons a l => simp at hl
  | cons j l' ih =>
    intro l c c' hl h
    by_cases e : ∃ v, γ.at' v = j
    · rw [List.filter_cons_of_pos (by simpa using e)] at hl
      cases l with
      | nil => simp at hl
      | cons a l =>
        rw [List.map_cons] at hl
        injection hl with h1 h2
        subst h1
        exact ih (l := l) h2 (h.fill a)
    · rw [List.filter_cons_of_neg (by simpa using e)] at hl
      exact ih hl (h.fill_extra (fun v hv => e ⟨v, hv⟩))

theorem filter_finRange (γ : Cols p p') {P : Fin p → Bool} {P' : Fin p' → Bool} (h1 : ∀ v, P' (γ.at' v) = P v) (h2 : ∀ j, γ.Extra j → P' j = false) :
    (List.finRange p').filter P' = ((List.finRange p).filter P).map γ.at' := by
  classical
  have e1 : (List.finRange p').filter P' = ((List.finRange p').filter (fun j => decide (∃ v, γ.at' v = j))).filter P' := by
    rw [List.filter_filter]
    apply List.filter_congr
    intro j _
    rcases γ.extra_or j with e | e
    · simp [h2 j e]
    · simp [e]
  rw [e1, γ.finRange_filter, List.filter_map]
  congr 1
  apply List.filter_congr
  intro v _
  exact h1 v

theorem CovRel.splittable (h : CovRel γ c c') : c'.splittable.1 = c.splittable.1.map γ.at' ∧ CovRel γ c.splittable.2 c'.splittable.2 := by
  have h1 : CovRel γ c.splittable.2 c'.splittable.2 := CovRel.fold _ γ.finRange_filter h
  refine ⟨filter_finRange γ (fun v => ?_) (fun j hj => ?_), h1⟩
  · show (c'.splittable.2.splittableVariables (γ.at' v) == some true) = (c.splittable.2.splittableVariables v == some true)
    rw [h1.spl v]
  · have := h1.splx j hj
    show (c'.splittable.2.splittableVariables j == some true) = false
    simpa using this

theorem CovRel.nSplittable (h : CovRel γ c c') : c'.nSplittable.1 = c.nSplittable.1 ∧ CovRel γ c.nSplittable.2 c'.nSplittable.2 := by
  refine ⟨?_, h.splittable.2⟩
  simp only [CovariateMatrix.nSplittable, h.splittable.1, List.length_map]

theorem CovRel.atLeastOne (h : CovRel γ c c') : c'.isAtLeastOneSplittable.1 = c.isAtLeastOneSplittable.1 ∧ CovRel γ c.isAtLeastOneSplittable.2 c'.isAtLeastOneSplittable.2 := by
  have e : (List.finRange p').any (fun i => c'.splittableVariables i == some true) = (List.finRange p).any (fun i => c.splittableVariables i == some true) := by
    rw [Bool.eq_iff_iff]
    simp only [List.any_eq_true, List.mem_finRange, true_and, beq_iff_eq]
    constructor
    · rintro ⟨j, hj⟩
      rcases γ.extra_or j with e | ⟨v, rfl⟩
      · exact absurd hj (h.splx j e)
      · exact ⟨v, by rw [← h.spl v]; exact hj⟩
    · rintro ⟨v, hv⟩; exact ⟨γ.at' v, by rw [h.spl v]; exact hv⟩
  unfold CovariateMatrix.isAtLeastOneSplittable
  rw [e]
  split
  · exact ⟨rfl, h⟩
  · refine ⟨?_, h.splittable.2⟩
    simp only [h.splittable.1, List.length_map]

theorem CovRel.isColumnUnique (h : CovRel γ c c') (v : Fin p) :
    (c'.isColumnUnique (γ.at' v)).1 = (c.isColumnUnique v).1 ∧ CovRel γ (c.isColumnUnique v).2 (c'.isColumnUnique (γ.at' v)).2 := by
  unfold CovariateMatrix.isColumnUnique
  rw [h.uniq v]
  cases e : c.uniqueColumns v with
  | some b => exact ⟨rfl, h⟩
  | none =>
    have h1 := h.colRel v
    simp only [h.col v, h1.nObsv]
    refine ⟨trivial, { h1 with uniq := fun w => ?_, nObsv := rfl }⟩
    by_cases e : w = v
    · subst e; simp
    · simp only [Function.update_of_ne e, Function.update_of_ne (fun h => e (γ.inj h))]; exact h1.uniq w

theorem CovRel.maxValue (h : CovRel γ c c') (v : Fin p) :
    ERel (fun a b => b.1 = a.1 ∧ CovRel γ a.2 b.2) (c.maxValueOfColumn v) (c'.maxValueOfColumn (γ.at' v)) := by
  unfold CovariateMatrix.maxValueOfColumn
  rw [h.max v]
  cases e : c.maxValueCache v with
  | some b => exact .ok ⟨rfl, h⟩
  | none =>
    have h1 := h.colRel v
    simp only [h.col v]
    cases npMaxList (c.getColumn v).1 with
    | error e => exact .error e
    | ok m =>
      refine .ok ⟨rfl, { h1 with max := fun w => ?_ }⟩
      by_cases e : w = v
      · subst e; simp
      · simp only [Function.update_of_ne e, Function.update_of_ne (fun h => e (γ.inj h))]; exact h1.max w

theorem CovRel.randomValue (h : CovRel γ c c') (v : Fin p) (us : List Nat) :
    ERel (fun a b => b.1 = a.1 ∧ b.2.1 = a.2.1 ∧ CovRel γ a.2.2 b.2.2) (c.randomSplittableValue v us) (c'.randomSplittableValue (γ.at' v) us) := by
  unfold CovariateMatrix.randomSplittableValue
  have e : γ.at' v ∈ c'.splittable.1 ↔ v ∈ c.splittable.1 := by
    rw [h.splittable.1, List.mem_map]
    exact ⟨fun ⟨w, h1, h2⟩ => γ.inj h2 ▸ h1, fun h => ⟨v, h, rfl⟩⟩
  simp only [e]
  split
  · rcases hm : c.splittable.2.maxValueOfColumn v with e | ⟨m, c1⟩ <;> rcases hm' : c'.splittable.2.maxValueOfColumn (γ.at' v) with e' | ⟨m', c1'⟩ <;>
      have h1 := h.splittable.2.maxValue v <;> rw [hm, hm'] at h1 <;> cases h1
    · exact .error _
    · next h1 =>
      obtain ⟨h2, h3⟩ := h1
      obtain rfl : m' = m := h2
      have h3 : CovRel γ c1 c1' := h3
      simp only [h3.col v]
      rcases CovariateMatrix.drawNonMax (c1.getColumn v).1 m' us with e | ⟨z, rest⟩
      · exact .error _
      · exact .ok ⟨rfl, rfl, h3.colRel v⟩
  · exact .error _

theorem CovRel.proportion (h : CovRel γ c c') (v : Fin p) (z : Fl K) :
    (c'.proportionOfValue (γ.at' v) z).1 = (c.proportionOfValue v z).1 ∧ CovRel γ (c.proportionOfValue v z).2 (c'.proportionOfValue (γ.at' v) z).2 := by
  unfold CovariateMatrix.proportionOfValue
  obtain ⟨h1, h2⟩ := h.isColumnUnique v
  simp only [h1]
  split
  · exact ⟨by rw [h2.nObsv], h2⟩
  · exact ⟨by rw [h2.col v], h2.colRel v⟩

theorem CovRel.updateMask (h : CovRel γ c c') (o : SplitCondition K p) : c'.updateMask (cond γ o) = c.updateMask o := by
  unfold CovariateMatrix.updateMask
  simp only [cond, h.X, h.mask]

theorem covRel_init {X : Fin n → Fin p → Fl K} {X' : Fin n → Fin p' → Fl K} (hX : ∀ r v, X' r (γ.at' v) = X r v)
    (hc : ∀ j, γ.Extra j → ∃ a : Fl K, a ≠ .nan ∧ ∀ r, X' r j = a) (mask : Fin n → Bool) (k : Int) {u s : Option (Fin p → Option Bool)} {u' s' : Option (Fin p' → Option Bool)}
    (hu : (u = none ∧ u' = none) ∨ ∃ a a', u = some a ∧ u' = some a' ∧ ∀ v, a' (γ.at' v) = a v)
    (hs : (s = none ∧ s' = none) ∨ ∃ a a', s = some a ∧ s' = some a' ∧ (∀ v, a' (γ.at' v) = a v) ∧ ∀ j, γ.Extra j → a' j ≠ some true) :
    CovRel γ (CovariateMatrix.init X mask k u s) (CovariateMatrix.init X' mask k u' s') where
  X := hX
  const := hc
  mask := rfl
  nObsv := rfl
  uniq := by
    intro v
    rcases hu with ⟨rfl, rfl⟩ | ⟨a, a', rfl, rfl, h⟩
    · rfl
    · simp only [CovariateMatrix.init, h]
  spl := by
    intro v
    rcases hs with ⟨rfl, rfl⟩ | ⟨a, a', rfl, rfl, h, -⟩
    · rfl
    · simp only [CovariateMatrix.init, h]
  splx := by
    intro j hj
    rcases hs with ⟨rfl, rfl⟩ | ⟨a, a', rfl, rfl, -, h⟩
    · simp [CovariateMatrix.init]
    · simp only [CovariateMatrix.init]
      split <;> simp
  max := fun v => rfl
  cache := .inl rfl
  cache' := .inl rfl

end

/-! ### data -/

section
variable {K : Type} [Field K] [LinearOrder K] {n p p' : Nat} (γ : Cols p p')

structure DataRel (d : Data K n p) (d' : Data K n p') : Prop where
  mask : d'.mask = d.mask
  nObsv : d'.nObsv = d.nObsv
  X : CovRel γ d.X d'.X
  y : d'.y = d.y

variable {γ} {d : Data K n p} {d' : Data K n p'}

theorem DataRel.withX (h : DataRel γ d d') {c : CovariateMatrix K n p} {c' : CovariateMatrix K n p'} (hc : CovRel γ c c') : DataRel γ { d with X := c } { d' with X := c' } :=
  ⟨h.mask, h.nObsv, hc, h.y⟩

theorem DataRel.updateY (h : DataRel γ d d') (y : Option (Fin n → K)) : DataRel γ (d.updateY y) (d'.updateY y) :=
  ⟨h.mask, h.nObsv, h.X, by simp only [Data.updateY, h.y]⟩

theorem DataRel.sumY (h : DataRel γ d d') : ERel (fun a b => b.1 = a.1 ∧ DataRel γ a.2 b.2) d.sumY d'.sumY := by
  unfold Data.sumY
  rw [h.y]
  cases d.y.sumY with
  | error e => exact .error e
  | ok x => exact .ok ⟨rfl, h.mask, h.nObsv, h.X, rfl⟩

theorem DataRel.add (h : DataRel γ d d') (o : SplitCondition K p) : ERel (DataRel γ) (d.add o) (d'.add (cond γ o)) := by
  unfold Data.add
  rw [h.X.updateMask]
  cases d.X.updateMask o with
  | error e => exact .error e
  | ok m =>
    refine .ok ⟨rfl, rfl, ?_, by rw [h.y]; rfl⟩
    exact covRel_init h.X.X h.X.const m _ (.inr ⟨_, _, rfl, rfl, h.X.uniq⟩) (.inr ⟨_, _, rfl, rfl, h.X.spl, h.X.splx⟩)

theorem dataRel_init {X : Fin n → Fin p → Fl K} {X' : Fin n → Fin p' → Fl K} (hX : ∀ r v, X' r (γ.at' v) = X r v)
    (hc : ∀ j, γ.Extra j → ∃ a : Fl K, a ≠ .nan ∧ ∀ r, X' r j = a) (y : Fin n → K) (m : Option (Fin n → Bool)) (b : Bool) (ys : Option K) (k : Option Int) :
    ERel (DataRel γ) (Data.init X y m b none none ys k) (Data.init X' y m b none none ys k) := by
  unfold Data.init
  simp only []
  cases Target.init y (m.getD fun _ => false) (k.getD (Data.countUnmasked (m.getD fun _ => false))) b ys with
  | error e => exact .error e
  | ok t => exact .ok ⟨rfl, rfl, covRel_init hX hc _ _ (.inl ⟨rfl, rfl⟩) (.inl ⟨rfl, rfl⟩), rfl⟩

/-! ### heaps -/

variable (γ)

def SplitRel (s : Split K p) (s' : Split K p') : Prop := s'.data = s.data ∧ CombRel γ s.combined s'.combined

structure NodeRel (R : Nat → Nat → Prop) (x : Node K p) (x' : Node K p') : Prop where
  kind : x'.kind = x.kind
  depth : x'.depth = x.depth
  value : x'.value = x.value
  split : SplitRel γ x.split x'.split
  left : Option.Rel R x.left x'.left
  right : Option.Rel R x.right x'.right

theorem optMono {R R' : Nat → Nat → Prop} (hR : ∀ i j, R i j → R' i j) {a b : Option Nat} (h : Option.Rel R a b) : Option.Rel R' a b := by
  cases h with
  | none => exact .none
  | some h => exact .some (hR _ _ h)

theorem NodeRel.mono {R R' : Nat → Nat → Prop} (hR : ∀ i j, R i j → R' i j) {x : Node K p} {x' : Node K p'} (h : NodeRel γ R x x') : NodeRel γ R' x x' := by
  refine { h with left := ?_, right := ?_ }
  · exact optMono hR h.left
  · exact optMono hR h.right

structure HeapRel (R : Nat → Nat → Prop) (h : Heap K n p) (h' : Heap K n p') : Prop where
  nextData : h'.nextData = h.nextData
  data : ∀ i, DataRel γ (h.data i) (h'.data i)
  le : h.nextNode ≤ h'.nextNode
  right : ∀ {a b c}, R a b → R a c → b = c
  left : ∀ {a b c}, R a c → R b c → a = b
  lt : ∀ {i j}, R i j → i < h.nextNode
  lt' : ∀ {i j}, R i j → j < h'.nextNode
  node : ∀ {i j}, R i j → NodeRel γ R (h.node i) (h'.node j)

variable {γ} {R : Nat → Nat → Prop} {h : Heap K n p} {h' : Heap K n p'}

namespace HeapRel

theorem iff (H : HeapRel γ R h h') {a a' b b' : Nat} (h1 : R a a') (h2 : R b b') : a' = b' ↔ a = b :=
  ⟨fun e => H.left h1 (e ▸ h2), fun e => H.right h1 (e ▸ h2)⟩

theorem optIff (H : HeapRel γ R h h') {a a' : Option Nat} (h1 : Option.Rel R a a') {b b' : Nat} (h2 : R b b') : a' = some b' ↔ a = some b := by
  cases h1 with
  | none => simp
  | some h1 => simpa using H.iff h1 h2

theorem splitData (H : HeapRel γ R h h') {i j : Nat} (hi : R i j) : (h'.node j).split.data = (h.node i).split.data := (H.node hi).split.1

theorem dataOf (H : HeapRel γ R h h') {i j : Nat} (hi : R i j) : DataRel γ (h.dataOf i) (h'.dataOf j) := by
  unfold Heap.dataOf
  rw [H.splitData hi]
  exact H.data _

theorem setData (H : HeapRel γ R h h') (k : Nat) {d : Data K n p} {d' : Data K n p'} (hd : DataRel γ d d') : HeapRel γ R (h.setData k d) (h'.setData k d') :=
  { nextData := H.nextData
    data := by
      intro i
      unfold Heap.setData
      by_cases e : i = k
      · subst e; simp only [Function.update_self]; exact hd
      · simp only [Function.update_of_ne e]; exact H.data i
    le := H.le, right := H.right, left := H.left, lt := H.lt, lt' := H.lt', node := H.node }

theorem setDataOf (H : HeapRel γ R h h') {i j : Nat} (hi : R i j) {d : Data K n p} {d' : Data K n p'} (hd : DataRel γ d d') :
    HeapRel γ R (h.setDataOf i d) (h'.setDataOf j d') := by
  unfold Heap.setDataOf
  rw [H.splitData hi]
  exact H.setData _ hd

theorem allocData (H : HeapRel γ R h h') {d : Data K n p} {d' : Data K n p'} (hd : DataRel γ d d') :
    (h'.allocData d').1 = (h.allocData d).1 ∧ HeapRel γ R (h.allocData d).2 (h'.allocData d').2 := by
  refine ⟨H.nextData, ?_⟩
  have H1 := H.setData h.nextData hd
  refine { H1 with nextData := ?_, data := ?_ }
  · simp only [Heap.allocData, H.nextData]
  · intro i
    have := H1.data i
    simpa only [Heap.setData, Heap.allocData, H.nextData] using this

/-- New nodes on both sides. -/
def ext (R : Nat → Nat → Prop) (a b : Nat) : Nat → Nat → Prop := fun i j => R i j ∨ (i = a ∧ j = b)

theorem allocNode (H : HeapRel γ R h h') {x : Node K p} {x' : Node K p'} (hx : NodeRel γ R x x') :
    HeapRel γ (ext R h.nextNode h'.nextNode) (h.allocNode x).2 (h'.allocNode x').2 ∧ ext R h.nextNode h'.nextNode (h.allocNode x).1 (h'.allocNode x').1 := by
  refine ⟨?_, .inr ⟨rfl, rfl⟩⟩
  have hm : ∀ i j, R i j → ext R h.nextNode h'.nextNode i j := fun i j h => .inl h
  refine ⟨H.nextData, H.data, Nat.succ_le_succ H.le, ?_, ?_, ?_, ?_, ?_⟩
  · rintro a b c (h1 | ⟨rfl, rfl⟩) (h2 | ⟨e2, e3⟩)
    · exact H.right h1 h2
    · have := H.lt h1; omega
    · have := H.lt h2; omega
    · exact e3.symm
  · rintro a b c (h1 | ⟨rfl, rfl⟩) (h2 | ⟨e2, e3⟩)
    · exact H.left h1 h2
    · have := H.lt' h1; omega
    · have := H.lt' h2; omega
    · exact e2.symm
  · rintro i j (h1 | ⟨rfl, rfl⟩)
    · exact Nat.lt_succ_of_lt (H.lt h1)
    · exact Nat.lt_succ_self _
  · rintro i j (h1 | ⟨rfl, rfl⟩)
    · exact Nat.lt_succ_of_lt (H.lt' h1)
    · exact Nat.lt_succ_self _
  · rintro i j (h1 | ⟨rfl, rfl⟩)
    · have e1 := Nat.ne_of_lt (H.lt h1)
      have e2 := Nat.ne_of_lt (H.lt' h1)
      simp only [Heap.allocNode, Function.update_of_ne e1, Function.update_of_ne e2]
      exact (H.node h1).mono γ hm
    · simp only [Heap.allocNode, Function.update_self]
      exact hx.mono γ hm

theorem setNode (H : HeapRel γ R h h') {i j : Nat} (hi : R i j) {x : Node K p} {x' : Node K p'} (hx : NodeRel γ R x x') :
    HeapRel γ R (h.setNode i x) (h'.setNode j x') := by
  refine { H with node := ?_ }
  intro a b hab
  by_cases e : a = i
  · subst e
    obtain rfl := H.right hab hi
    simp only [Heap.setNode, Function.update_self]; exact hx
  · have e' : b ≠ j := fun e' => e (H.left hab (e' ▸ hi))
    simp only [Heap.setNode, Function.update_of_ne e, Function.update_of_ne e']; exact H.node hab

theorem splitAdd (H : HeapRel γ R h h') {s : Split K p} {s' : Split K p'} (hs : SplitRel γ s s') (o : SplitCondition K p) :
    ERel (fun a b => SplitRel γ a.1 b.1 ∧ HeapRel γ R a.2 b.2 ∧ a.2.node = h.node ∧ b.2.node = h'.node) (h.splitAdd s o) (h'.splitAdd s' (cond γ o)) := by
  unfold Heap.splitAdd
  rw [hs.1]
  have h1 := (H.data s.data).add o
  rcases hd : (h.data s.data).add o with e | d <;> rcases hd' : (h'.data s.data).add (cond γ o) with e' | d' <;> rw [hd, hd'] at h1 <;> cases h1
  · exact .error _
  · next h1 =>
    have h2 := H.allocData h1
    exact .ok ⟨⟨h2.1, combRel_add γ hs.2 o⟩, h2.2, rfl, rfl⟩

theorem inSample (H : HeapRel γ R h h') {s : Split K p} {s' : Split K p'} (hs : SplitRel γ s s') : h'.inSample s' = h.inSample s := by
  funext r
  unfold Heap.inSample
  rw [hs.1, (H.data s.data).mask]

theorem sumYOf (H : HeapRel γ R h h') (k : Nat) :
    ERel (fun a b => b.1 = a.1 ∧ HeapRel γ R a.2 b.2 ∧ a.2.node = h.node ∧ b.2.node = h'.node) (h.sumYOf k) (h'.sumYOf k) := by
  unfold Heap.sumYOf
  have h1 := (H.data k).sumY
  rcases hd : (h.data k).sumY with e | d <;> rcases hd' : (h'.data k).sumY with e' | d' <;> rw [hd, hd'] at h1 <;> cases h1
  · exact .error _
  · next h1 => exact .ok ⟨h1.1, H.setData k h1.2, rfl, rfl⟩

theorem nodeUpdateY (y : Option (Fin n → K)) (fuel : Nat) : ∀ {fuel' i j : Nat} {h : Heap K n p} {h' : Heap K n p'}, fuel ≤ fuel' → HeapRel γ R h h' → R i j →
    h.nodeUpdateY y fuel i = .error .recursionError ∨ ERel (HeapRel γ R) (h.nodeUpdateY y fuel i) (h'.nodeUpdateY y fuel' j) := by
  induction fuel with
  | zero => intro fuel' i j h h' _ _ _; exact .inl rfl
  | succ fuel ih =>
    intro fuel' i j h h' hf H hi
    obtain ⟨fuel', rfl⟩ : ∃ k, fuel' = k + 1 := ⟨fuel' - 1, by omega⟩
    have hf : fuel ≤ fuel' := by omega
    have H1 := H.setDataOf hi ((H.dataOf hi).updateY y)
    simp only [Heap.nodeUpdateY]
    have e1 := (H1.node hi).left
    cases e : ((h.setDataOf i ((h.dataOf i).updateY y)).node i).left <;> cases e' : ((h'.setDataOf j ((h'.dataOf j).updateY y)).node j).left <;> rw [e, e'] at e1 <;> cases e1
    · exact .inr (.ok H1)
    · next l l' hl =>
      simp only []
      rcases ih hf H1 hl with e2 | e2
      · left; rw [e2]
      · rcases e3 : (h.setDataOf i ((h.dataOf i).updateY y)).nodeUpdateY y fuel l with e4 | h2 <;>
          rcases e3' : (h'.setDataOf j ((h'.dataOf j).updateY y)).nodeUpdateY y fuel' l' with e4' | h2' <;> rw [e3, e3'] at e2 <;> cases e2
        · right; exact .error _
        · next H2 =>
          have e5 := (H2.node hi).right
          simp only []
          cases e : (h2.node i).right <;> cases e' : (h2'.node j).right <;> rw [e, e'] at e5 <;> cases e5
          · right; exact .error _
          · next r r' hr => exact ih hf H2 hr

theorem newLeaf (H : HeapRel γ R h h') {s : Split K p} {s' : Split K p'} (hs : SplitRel γ s s') (d : Nat) (v : K) :
    HeapRel γ (ext R h.nextNode h'.nextNode) (h.newLeaf s d v).2 (h'.newLeaf s' d v).2 ∧ ext R h.nextNode h'.nextNode (h.newLeaf s d v).1 (h'.newLeaf s' d v).1 :=
  H.allocNode ⟨rfl, rfl, rfl, hs, .none, .none⟩

theorem newDecision (H : HeapRel γ R h h') {s : Split K p} {s' : Split K p'} (hs : SplitRel γ s s') {l l' r r' : Nat} (hl : R l l') (hr : R r r') (d : Nat) :
    HeapRel γ (ext R h.nextNode h'.nextNode) (h.newDecision s l r d).2 (h'.newDecision s' l' r' d).2 ∧
      ext R h.nextNode h'.nextNode (h.newDecision s l r d).1 (h'.newDecision s' l' r' d).1 :=
  H.allocNode ⟨rfl, rfl, rfl, hs, .some hl, .some hr⟩

theorem setValue (H : HeapRel γ R h h') {i j : Nat} (hi : R i j) (v : K) : HeapRel γ R (h.setValue i v) (h'.setValue j v) :=
  H.setNode hi { H.node hi with value := rfl }

theorem isSplittable (H : HeapRel γ R h h') {i j : Nat} (hi : R i j) : (h'.isSplittable j).1 = (h.isSplittable i).1 ∧ HeapRel γ R (h.isSplittable i).2 (h'.isSplittable j).2 := by
  have h1 := H.dataOf hi
  exact ⟨h1.X.atLeastOne.1, H.setDataOf hi (h1.withX h1.X.atLeastOne.2)⟩

theorem isLeafPtr (H : HeapRel γ R h h') {a a' : Option Nat} (ha : Option.Rel R a a') : h'.isLeafPtr a' = h.isLeafPtr a := by
  cases ha with
  | none => rfl
  | some ha => simp only [Heap.isLeafPtr, (H.node ha).kind]

theorem isPrunable (H : HeapRel γ R h h') {i j : Nat} (hi : R i j) : h'.isPrunable j = h.isPrunable i := by
  unfold Heap.isPrunable
  rw [H.isLeafPtr (H.node hi).left, H.isLeafPtr (H.node hi).right]

theorem mostRecent (H : HeapRel γ R h h') {i j : Nat} (hi : R i j) :
    h'.mostRecentSplitCondition j = (h.mostRecentSplitCondition i).map (Option.map (cond γ)) := by
  unfold Heap.mostRecentSplitCondition
  have e1 := (H.node hi).left
  cases e : (h.node i).left <;> cases e' : (h'.node j).left <;> rw [e, e'] at e1 <;> cases e1
  · rfl
  · next hl => simp only [Except.map]; rw [combRel_mostRecent γ (H.node hl).split.2]

theorem splitNode (H : HeapRel γ R h h') {i j : Nat} (hi : R i j) (c0 c1 : SplitCondition K p) :
    ERel (fun a b => ∃ R', (∀ i j, R i j → R' i j) ∧ HeapRel γ R' a.2 b.2 ∧ R' a.1 b.1) (h.splitNode i c0 c1) (h'.splitNode j (cond γ c0) (cond γ c1)) := by
  unfold Heap.splitNode
  have hs := (H.node hi).split
  simp only []
  have h1 := H.splitAdd hs c0
  rcases e1 : h.splitAdd (h.node i).split c0 with e | ⟨ls, ha⟩ <;> rcases e1' : h'.splitAdd (h'.node j).split (cond γ c0) with e' | ⟨ls', ha'⟩ <;> rw [e1, e1'] at h1 <;> cases h1
  · exact .error _
  next h1 =>
  obtain ⟨hls, H1, n1, n1'⟩ := h1
  simp only at hls H1 n1 n1' ⊢
  rw [hs.1, hls.1]
  have h2 := H1.sumYOf (h.node i).split.data
  rcases e2 : ha.sumYOf (h.node i).split.data with e | ⟨sn, hb⟩ <;> rcases e2' : ha'.sumYOf (h.node i).split.data with e' | ⟨sn', hb'⟩ <;> rw [e2, e2'] at h2 <;> cases h2
  · exact .error _
  next h2 =>
  obtain ⟨es, H2, n2, n2'⟩ := h2
  simp only at es H2 n2 n2' ⊢
  subst es
  have h3 := H2.sumYOf ls.data
  rcases e3 : hb.sumYOf ls.data with e | ⟨sl, hc⟩ <;> rcases e3' : hb'.sumYOf ls.data with e' | ⟨sl', hc'⟩ <;> rw [e3, e3'] at h3 <;> cases h3
  · exact .error _
  next h3 =>
  obtain ⟨es, H3, n3, n3'⟩ := h3
  simp only at es H3 n3 n3' ⊢
  subst es
  rw [(H1.data _).X.nObsv, (H1.data _).X.nObsv]
  generalize hcn : (ha.data (h.node i).split.data).X.nObsv - (ha.data ls.data).X.nObsv = cn
  have e4 : ({ cond γ c1 with carryNObsv := some cn, carryYSum := some (sn' - sl') } : SplitCondition K p') =
    cond γ { c1 with carryNObsv := some cn, carryYSum := some (sn' - sl') } := rfl
  rw [e4]
  have h4 := H3.splitAdd hs { c1 with carryNObsv := some cn, carryYSum := some (sn' - sl') }
  rcases e5 : hc.splitAdd (h.node i).split { c1 with carryNObsv := some cn, carryYSum := some (sn' - sl') } with e | ⟨rs, hd⟩ <;>
    rcases e5' : hc'.splitAdd (h'.node j).split (cond γ { c1 with carryNObsv := some cn, carryYSum := some (sn' - sl') }) with e' | ⟨rs', hd'⟩ <;> rw [e5, e5'] at h4 <;> cases h4
  · exact .error _
  next h4 =>
  obtain ⟨hrs, H4, n4, n4'⟩ := h4
  simp only at hrs H4 n4 n4' ⊢
  rw [(H.node hi).depth]
  obtain ⟨H5, hl⟩ := H4.newLeaf hls ((h.node i).depth + 1) 0
  obtain ⟨H6, hr⟩ := H5.newLeaf hrs ((h.node i).depth + 1) 0
  obtain ⟨H7, hd⟩ := H6.newDecision hs (.inl hl) hr (h.node i).depth
  exact .ok ⟨_, fun i j h => .inl (.inl (.inl h)), H7, hd⟩

end HeapRel
end
end Sim
end Bart
