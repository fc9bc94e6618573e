import Verif.Spec.Layers

/-! All nodes of a tree of the reference implementation with the oblivious tree sampler, and the splits and doublings in it (specification). -/

namespace Bart.Layers
open Spec Reference
variable {K : Type} {p : Nat}

/-- All nodes, level by level: the depth and the comparisons on the way to the node. -/
def nodes : List (List (Rule K p)) → List (Nat × List (Cond K p))
  | [] => [(0, [])]
  | rules :: rest => nodes rest ++ (paths (rules :: rest)).map (fun path => (rest.length + 1, path))

/-- The number of leaves that were split by column `j`. -/
def splitsOn (layers : List (List (Rule K p))) (j : Fin p) : Nat := layers.flatten.countP (fun rule => rule.any (fun q => decide (q.1 = j)))

/-- The number of leaves below a comparison with column `j` that were doubled. -/
def doublingsOn : List (List (Rule K p)) → Fin p → Nat
  | [], _ => 0
  | rules :: rest, j => doublingsOn rest j + ((paths rest).zip rules).countP (fun q => q.2.isNone && q.1.getLast?.any (fun c => decide (c.column = j)))

/-- The depths of the nodes of a tree with `2 ^ e` nodes at each depth `e` up to `d`. -/
def fullDepths (d : Nat) : List Nat := (List.range (d + 1)).flatMap (fun e => List.replicate (2 ^ e) e)

end Bart.Layers
