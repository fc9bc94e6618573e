import Verif.Model.Schedule

/-! The documented order of a Gibbs sweep (specification of C40). -/

namespace Bart.Spec
variable {K : Type} [Field K] [LinearOrder K] {n p : Nat}

/-- For the trees `ts`, numbered from `i`, with the results `mus` of their tree steps: the tree step of a tree, then a step for each of its leaves, then the next
tree; at the end the sigma step. -/
def sweepOrder : Nat → List (Tree K n p) → List (Option TreeMutation) → List Event
  | i, t :: ts, mu :: mus => .tree i mu :: (t.leafNodes.map (fun l => .leaf i l) ++ sweepOrder (i + 1) ts mus)
  | _, _, _ => [.sigma]

end Bart.Spec
