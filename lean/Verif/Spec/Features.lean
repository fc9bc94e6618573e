import Verif.Model.Features
import Verif.Spec.Stored
import Verif.Spec.TreeHistory

/-! What feature proportions mean (specification). -/

namespace Bart.Spec
variable {K : Type} [Field K] [LinearOrder K] {n p : Nat}

/-- The number of decision nodes of the tree whose rule is about column `j`. -/
def decisionsOn (t : Tree K n p) (j : Fin p) : Nat := (t.decisionNodes.filter (fun i => decide ((rule t.heap i).map Prod.fst = some j))).length

/-- The trees of several models. -/
def treesOf (Ms : List (BModel K n p)) : List (Tree K n p) := Ms.flatMap (fun M => M.trees)

/-- The number of decision nodes about column `j` in several trees. -/
def totalDecisionsOn (ts : List (Tree K n p)) (j : Fin p) : Nat := (ts.map (fun t => decisionsOn t j)).sum

/-- The number of nodes of several trees. -/
def totalNodes (ts : List (Tree K n p)) : Nat := (ts.map (fun t => t.nodes.length)).sum

/-- The stored samples `xs` show the models `Ms`. -/
def Show (xs : List (Sample K p)) (Ms : List (BModel K n p)) : Prop := List.Forall₂ (fun x M => storedContent x.live x.stored = liveContent M) xs Ms

/-- The number of values of `l` that are at most `t`. -/
def atMost (l : List K) (t : K) : Nat := (l.filter (fun x => decide (x ≤ t))).length

/-- The number of values of `l` that are less than `t`. -/
def below (l : List K) (t : K) : Nat := (l.filter (fun x => decide (x < t))).length

/-- A map with each key once. -/
def IsDict {κ α : Type} (d : List (κ × α)) : Prop := (d.map Prod.fst).Nodup

end Bart.Spec
