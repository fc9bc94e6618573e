import Verif.Spec.Condition
import Verif.Proofs.FlLemmas
import Mathlib.Data.List.FinRange

set_option linter.unusedSectionVars false

namespace Bart
open Spec
variable {K : Type} [LinearOrder K] {p : Nat}

/-- A row value lies in the interval of a variable. -/
def CombinedVariableCondition.holds (b : CombinedVariableCondition K p) (x : Fl K) : Bool :=
  Fl.gt x b.minValue && Fl.le x b.maxValue

theorem addCondition_holds {b : CombinedVariableCondition K p} {c : SplitCondition K p} {x : Fl K}
    (hb1 : b.minValue ≠ .nan) (hb2 : b.maxValue ≠ .nan) (hv : c.splittingValue ≠ .nan) (hx : x ≠ .nan)
    (heq : b.splittingVariable = c.splittingVariable) :
    (b.addCondition c).splittingVariable = b.splittingVariable ∧
    (b.addCondition c).minValue ≠ .nan ∧ (b.addCondition c).maxValue ≠ .nan ∧
    (b.addCondition c).holds x = (b.holds x && holdsOp c.operator x c.splittingValue) := by
  unfold CombinedVariableCondition.addCondition CombinedVariableCondition.holds
  simp only [heq, ne_eq, not_true_eq_false, if_false]
  cases ho : c.operator with
  | other => simp [heq, hb1, hb2, holdsOp]
  | gt =>
    simp only [holdsOp]
    cases hg : Fl.gt c.splittingValue b.minValue with
    | true =>
      simp only [and_self, if_true]
      refine ⟨trivial, hv, hb2, ?_⟩
      cases h1 : Fl.gt x c.splittingValue with
      | true =>
        have : Fl.gt x b.minValue = true := Fl.lt_trans hg h1
        simp [this]
      | false => simp
    | false =>
      simp only [true_and, Bool.false_eq_true, if_false, reduceCtorEq, false_and]
      refine ⟨heq, hb1, hb2, ?_⟩
      cases h1 : Fl.gt x b.minValue with
      | true =>
        have hle : Fl.le c.splittingValue b.minValue = true := Fl.le_of_not_lt hb1 hv hg
        have : Fl.gt x c.splittingValue = true := Fl.lt_of_le_of_lt hle h1
        simp [this]
      | false => simp
  | le =>
    simp only [reduceCtorEq, false_and, if_false, true_and, holdsOp]
    cases hg : Fl.lt c.splittingValue b.maxValue with
    | true =>
      simp only [if_true]
      refine ⟨trivial, hb1, hv, ?_⟩
      cases h1 : Fl.le x c.splittingValue with
      | true =>
        have : Fl.le x b.maxValue = true := Fl.le_trans h1 (Fl.le_of_lt hg)
        simp [this]
      | false => simp
    | false =>
      simp only [Bool.false_eq_true, if_false]
      refine ⟨heq, hb1, hb2, ?_⟩
      cases h1 : Fl.le x b.maxValue with
      | true =>
        have hle : Fl.le b.maxValue c.splittingValue = true := Fl.le_of_not_lt hv hb2 hg
        have : Fl.le x c.splittingValue = true := Fl.le_trans h1 hle
        simp [this]
      | false => simp

/-- Well-formed bounds. -/
structure VarsOk (vars : Fin p → CombinedVariableCondition K p) : Prop where
  var : ∀ v, (vars v).splittingVariable = v
  min : ∀ v, (vars v).minValue ≠ .nan
  max : ∀ v, (vars v).maxValue ≠ .nan

theorem addTo_holds {vars : Fin p → CombinedVariableCondition K p} (h : VarsOk vars) {c : SplitCondition K p}
    (hv : c.splittingValue ≠ .nan) {x : Fin p → Fl K} (hx : ∀ v, x v ≠ .nan) :
    VarsOk (CombinedCondition.addTo vars c) ∧
      ((∀ v, (CombinedCondition.addTo vars c v).holds (x v) = true) ↔ (∀ v, (vars v).holds (x v) = true) ∧ sat c x = true) := by
  have key := addCondition_holds (h.min c.splittingVariable) (h.max c.splittingVariable) hv (hx c.splittingVariable) (h.var _)
  obtain ⟨k1, k2, k3, k4⟩ := key
  refine ⟨⟨?_, ?_, ?_⟩, ?_⟩
  · intro v; unfold CombinedCondition.addTo; split
    · next e => rw [k1, h.var, e]
    · exact h.var v
  · intro v; unfold CombinedCondition.addTo; split
    · exact k2
    · exact h.min v
  · intro v; unfold CombinedCondition.addTo; split
    · exact k3
    · exact h.max v
  · have hs : sat c x = holdsOp c.operator (x c.splittingVariable) c.splittingValue := rfl
    constructor
    · intro hall
      have h1 := hall c.splittingVariable
      simp only [CombinedCondition.addTo, if_true] at h1
      rw [k4, Bool.and_eq_true, ← hs] at h1
      refine ⟨?_, h1.2⟩
      intro v
      by_cases e : v = c.splittingVariable
      · rw [e]; exact h1.1
      · have := hall v; simpa [CombinedCondition.addTo, e] using this
    · rintro ⟨h1, h2⟩ v
      unfold CombinedCondition.addTo
      split
      · next e => rw [e, k4, ← hs, h1, h2]; rfl
      · exact h1 v

theorem foldl_addTo_holds (l : List (SplitCondition K p)) : ∀ {vars : Fin p → CombinedVariableCondition K p}, VarsOk vars →
    (∀ c ∈ l, c.splittingValue ≠ .nan) → ∀ {x : Fin p → Fl K}, (∀ v, x v ≠ .nan) →
    ((∀ v, (l.foldl CombinedCondition.addTo vars v).holds (x v) = true) ↔
      (∀ v, (vars v).holds (x v) = true) ∧ ∀ c ∈ l, sat c x = true) := by
  induction l with
  | nil => intro vars _ _ x _; simp
  | cons c l ih =>
    intro vars h hl x hx
    obtain ⟨h1, h2⟩ := addTo_holds h (hl c (by simp)) hx
    rw [List.foldl_cons, ih h1 (fun c hc => hl c (by simp [hc])) hx, h2]
    simp [and_assoc]

theorem condition_eq_all (c : CombinedCondition K p) (x : Fin p → Fl K) :
    c.condition x = true ↔ ∀ v, (c.variables v).holds (x v) = true := by
  unfold CombinedCondition.condition
  have : ∀ (l : List (Fin p)) (b : Bool), (l.foldl (fun acc v => acc && (Fl.gt (x v) (c.variables v).minValue) &&
      (Fl.le (x v) (c.variables v).maxValue)) b) = true ↔ b = true ∧ ∀ v ∈ l, (c.variables v).holds (x v) = true := by
    intro l
    induction l with
    | nil => simp
    | cons a l ih =>
      intro b
      rw [List.foldl_cons, ih]
      simp [CombinedVariableCondition.holds, and_assoc]
  rw [this]
  simp

theorem init_condition {l : List (SplitCondition K p)} (hl : ∀ c ∈ l, c.splittingValue ≠ .nan) {x : Fin p → Fl K}
    (hx : GoodRow x) : (CombinedCondition.init l).condition x = true ↔ ∀ c ∈ l, sat c x = true := by
  rw [condition_eq_all]
  simp only [CombinedCondition.init]
  rw [foldl_addTo_holds l ⟨by simp, by simp, by simp⟩ hl (fun v => (hx v).1)]
  constructor
  · exact fun h => h.2
  · intro h
    refine ⟨?_, h⟩
    intro v
    obtain ⟨h1, h2⟩ := hx v
    cases hxv : x v <;> simp_all [CombinedVariableCondition.holds, Fl.gt, Fl.lt, Fl.le]

theorem init_add (l : List (SplitCondition K p)) (c : SplitCondition K p) :
    (CombinedCondition.init l).add c = CombinedCondition.init (l ++ [c]) := rfl

end Bart
