import Verif.Model.Base

/-! Model of bartpy/splitcondition.py -/

namespace Bart

/-- The `operator` attribute of a SplitCondition: `operator.le`, `operator.gt`, or any other callable
(bartpy/splitcondition.py:21, bartpy/data.py:193-199). -/
inductive Op where
  | le
  | gt
  | other
  deriving DecidableEq, Repr

/-- bartpy/splitcondition.py:7-31 `SplitCondition`. `p` is the number of columns. The attribute `_condition` is never read
and is left out. -/
structure SplitCondition (K : Type) (p : Nat) where
  splittingVariable : Fin p
  splittingValue : Fl K
  operator : Op
  carryYSum : Option K := none
  carryNObsv : Option Int := none
  deriving DecidableEq

/-- bartpy/splitcondition.py:36-37 `SplitCondition.__eq__`. -/
def SplitCondition.pyEq {K : Type} [LinearOrder K] {p : Nat} (a b : SplitCondition K p) : Bool :=
  decide (a.splittingVariable = b.splittingVariable) && Fl.eq a.splittingValue b.splittingValue
    && decide (a.operator = b.operator)

/-- bartpy/splitcondition.py:40-44 `CombinedVariableCondition`. -/
structure CombinedVariableCondition (K : Type) (p : Nat) where
  splittingVariable : Fin p
  minValue : Fl K
  maxValue : Fl K
  deriving DecidableEq

/-- bartpy/splitcondition.py:46-54 `CombinedVariableCondition.add_condition`. -/
def CombinedVariableCondition.addCondition {K : Type} [LinearOrder K] {p : Nat}
    (c : CombinedVariableCondition K p) (s : SplitCondition K p) : CombinedVariableCondition K p :=
  if c.splittingVariable ≠ s.splittingVariable then c
  else if s.operator = .gt ∧ Fl.gt s.splittingValue c.minValue = true then
    ⟨c.splittingVariable, s.splittingValue, c.maxValue⟩
  else if s.operator = .le ∧ Fl.lt s.splittingValue c.maxValue = true then
    ⟨c.splittingVariable, c.minValue, s.splittingValue⟩
  else c

/-- bartpy/splitcondition.py:57-67 `CombinedCondition` (attributes). Simplification: the dict `variables` always has the keys
`0..p-1` here (that is how bartpy/split.py:23 and :76 build it), so it is a function on `Fin p` and the KeyError for an
unknown variable cannot occur. -/
structure CombinedCondition (K : Type) (p : Nat) where
  variables : Fin p → CombinedVariableCondition K p
  conditions : List (SplitCondition K p)
  splittingVariable : Option (Fin p)

namespace CombinedCondition
variable {K : Type} [LinearOrder K] {p : Nat}

/-- One iteration of the loop bartpy/splitcondition.py:62-63. -/
def addTo (vars : Fin p → CombinedVariableCondition K p) (c : SplitCondition K p) :
    Fin p → CombinedVariableCondition K p :=
  fun v => if v = c.splittingVariable then (vars c.splittingVariable).addCondition c else vars v

/-- bartpy/splitcondition.py:59-67 `CombinedCondition.__init__`. -/
def init (conditions : List (SplitCondition K p)) : CombinedCondition K p where
  variables := conditions.foldl addTo (fun v => ⟨v, .ninf, .pinf⟩)
  conditions := conditions
  splittingVariable := conditions.getLast?.map (·.splittingVariable)

/-- bartpy/splitcondition.py:69-73 `CombinedCondition.condition`, for one row of X (the numpy expression is row-wise). -/
def condition (c : CombinedCondition K p) (x : Fin p → Fl K) : Bool :=
  (List.finRange p).foldl
    (fun acc v => acc && (Fl.gt (x v) (c.variables v).minValue) && (Fl.le (x v) (c.variables v).maxValue)) true

/-- bartpy/splitcondition.py:75-76 `CombinedCondition.__add__`. -/
def add (c : CombinedCondition K p) (other : SplitCondition K p) : CombinedCondition K p :=
  init (c.conditions ++ [other])

/-- bartpy/splitcondition.py:78-82 `CombinedCondition.most_recent_split_condition`. -/
def mostRecentSplitCondition (c : CombinedCondition K p) : Option (SplitCondition K p) :=
  if c.conditions.length = 0 then none else c.conditions.getLast?

end CombinedCondition
end Bart
