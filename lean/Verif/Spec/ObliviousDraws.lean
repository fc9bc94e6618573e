import Verif.Spec.Draws
import Verif.Spec.Layers
import Verif.Spec.ObliviousRecur

/-! The proposals of the oblivious sampler: the leaves of the proposed tree, their probabilities, and the transition ratio (specification). -/

namespace Bart.Spec
open Reference Layers
variable {n p : Nat}

/-- The draws are used up exactly by a proposal of the oblivious sampler after which the tree has the leaves `q` (from left to right, each with the comparisons on the way to it). -/
def ProposesLeaves (t : Tree ℝ n p) (q : List (List (Cond ℝ p))) (us : List Nat) (ms : List Method) : Prop :=
  ∃ mus t1 t', Oblivious.propose t us ms = .ok (mus, t1, [], []) ∧ Oblivious.mutateAll mus t1 = .ok t' ∧ leafPaths t' = q

/-- The draws are used up exactly by some proposal of the oblivious sampler. -/
def ObliviousProposes (t : Tree ℝ n p) (us : List Nat) (ms : List Method) : Prop := ∃ mus t1, Oblivious.propose t us ms = .ok (mus, t1, [], [])

/-- The leaves after a growth: each leaf is split (`some (column, cut)`) or doubled (`none`). -/
def grown (q : List (List (Cond ℝ p))) (rules : List (Rule ℝ p)) : List (List (Cond ℝ p)) := (List.zipWith expand q rules).flatten

/-- What can become of a leaf in a growth: it is doubled if no column has different values in its rows (the first of them does not count,
as `columns` does not look at it), otherwise it is split at a value of such a column, but not at the largest one. -/
def CanBecome (X : Fin n → Fin p → Fl ℝ) (path : List (Cond ℝ p)) : Rule ℝ p → Prop
  | none => columns X (rowsOn X path) = []
  | some (j, v) => j ∈ columns X (rowsOn X path) ∧ ∃ r r', rowsOn X path r = true ∧ rowsOn X path r' = true ∧ X r j = v ∧ Fl.lt v (X r' j) = true

/-- The probability of what becomes of a leaf: all columns that it can be split by are equally likely, the cut is the value of a random row, drawn again if it is the largest one. -/
noncomputable def leafProb (X : Fin n → Fin p → Fl ℝ) (path : List (Cond ℝ p)) : Rule ℝ p → ℝ
  | none => 1
  | some (j, v) => 1 / (columns X (rowsOn X path)).length * (shareOf X (rowsOn X path) j v / (1 - shareOfLargest X (rowsOn X path) j))

/-- Picks from `0, ..., N - 1` make all choices of rows and columns uniform. -/
def DividesAll (n p N : Nat) : Prop := 0 < N ∧ ∀ L, 1 ≤ L → L ≤ n ∨ L ≤ p → L ∣ N

/-- The transition ratio of a proposal of the oblivious sampler: the sum of the transition ratios of its mutations. -/
noncomputable def transitionSum [MathFns ℝ] (pGrow pPrune : ℝ) : List TreeMutation → Heap ℝ n p → Except PyErr (Fl ℝ × Heap ℝ n p)
  | [], h => .ok (.fin 0, h)
  | mu :: mus, h =>
    match Oblivious.logTransitionRatio pGrow pPrune h mu with
    | .error e => .error e
    | .ok (a, h1) =>
      match transitionSum pGrow pPrune mus h1 with
      | .error e => .error e
      | .ok (b, h2) => .ok (Fl.add a b, h2)

end Bart.Spec
