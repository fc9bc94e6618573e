import Mathlib.Topology.Algebra.InfiniteSum.ENNReal
import Verif.Model.Proposer
import Verif.Spec.TreeHistory
import Verif.Spec.Data

/-! Probabilities of what independent random draws lead to (specification). -/

namespace Bart.Spec
open scoped ENNReal

/-- The probability that independent draws, each giving `a` with probability `w a`, begin with a sequence in `E`, for a set `E` in which no sequence is the beginning of another one: the sum of the
probabilities of the sequences. Used for sets of sequences that are used up exactly by what is looked at, which then cannot go on with further draws. -/
noncomputable def prob {α : Type} (w : α → ℝ≥0∞) (E : List α → Prop) : ℝ≥0∞ := by
  classical exact ∑' l : List α, if E l then (l.map w).prod else 0

/-- Draws of a number `0, ..., N - 1`, all equally likely. -/
noncomputable def uniform (N : Nat) : Fin N → ℝ≥0∞ := fun _ => (N : ℝ≥0∞)⁻¹

/-- Draws of the kind of move. -/
def methodProb (pGrow pPrune : ℝ≥0∞) : Method → ℝ≥0∞
  | .grow => pGrow
  | .prune => pPrune

/-- The probability of `E` (a set of pairs of a sequence of kinds of move and a sequence of picks, used up exactly), for kinds of moves drawn with probabilities `pGrow` and `pPrune` and picks
uniformly from `0, ..., N - 1`, all independent: the sum of the probabilities of the pairs. -/
noncomputable def drawsProb (N : Nat) (pGrow pPrune : ℝ≥0∞) (E : List Nat → List Method → Prop) : ℝ≥0∞ :=
  ∑' ms : List Method, (ms.map (methodProb pGrow pPrune)).prod * prob (uniform N) (fun us => E (us.map Fin.val) ms)

variable {K : Type} [Field K] [LinearOrder K] {n p : Nat}

/-- The draws are used up exactly by a proposal to split the leaf `i` of the tree at the value `v` of column `j`. -/
def ProposesGrow (t : Tree K n p) (i : NodeId) (j : Fin p) (v : Fl K) (us : List Nat) (ms : List Method) : Prop :=
  ∃ mu t1, t.propose us ms = .ok (mu, t1, [], []) ∧ mu.kind = .grow ∧ mu.existing = i ∧ rule t1.heap mu.updated = some (j, v)

/-- The draws are used up exactly by a proposal to remove the split `i` of the tree. -/
def ProposesPrune (t : Tree K n p) (i : NodeId) (us : List Nat) (ms : List Method) : Prop :=
  ∃ mu t1, t.propose us ms = .ok (mu, t1, [], []) ∧ mu.kind = .prune ∧ mu.existing = i

/-- The draws are used up exactly by some proposal. -/
def Proposes (t : Tree K n p) (us : List Nat) (ms : List Method) : Prop := ∃ mu t1, t.propose us ms = .ok (mu, t1, [], [])

/-- The same for real probabilities `pGrow` and `pPrune`, as a real number. -/
noncomputable def proposalProb (N : Nat) (pGrow pPrune : ℝ) (E : List Nat → List Method → Prop) : ℝ := (drawsProb N (ENNReal.ofReal pGrow) (ENNReal.ofReal pPrune) E).toReal

/-- The share of the rows with value `v` in column `j`. -/
noncomputable def shareOf (X : Fin n → Fin p → Fl K) (rows : Fin n → Bool) (j : Fin p) (v : Fl K) : ℝ := (count (fun r => rows r && decide (X r j = v)) : ℝ) / count rows

/-- The share of the rows with the largest value of column `j`. -/
noncomputable def shareOfLargest (X : Fin n → Fin p → Fl K) (rows : Fin n → Bool) (j : Fin p) : ℝ :=
  (count (fun r => rows r && decide (∀ r', rows r' = true → Fl.lt (X r j) (X r' j) = false)) : ℝ) / count rows

/-- Picks from `0, ..., N - 1` make all choices uniform: `N` is a multiple of the lengths of all lists that are chosen from for a proposal (rows, columns, nodes). -/
def Divides (N : Nat) (t : Tree K n p) : Prop := 0 < N ∧ ∀ L, 1 ≤ L → L ≤ n ∨ L ≤ p ∨ L ≤ t.nodes.length → L ∣ N

end Bart.Spec
