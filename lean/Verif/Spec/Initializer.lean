import Verif.Model.Initializer
import Verif.Spec.TreeHistory

/-! Decision trees and their encoding in sklearn's arrays (specification). -/

namespace Bart.Spec
variable {K : Type} [LinearOrder K] {p : Nat}

/-- A regression tree. -/
inductive DTree (K : Type) (p : Nat) where
  | leaf (v : K)
  | node (j : Fin p) (cut : Fl K) (l r : DTree K p)

/-- The prediction of a regression tree: left if `x_j <= cut`. -/
def DTree.predict (x : Fin p → Fl K) : DTree K p → K
  | .leaf v => v
  | .node j cut l r => if Fl.le (x j) cut then l.predict x else r.predict x

/-- `Encodes a k T ks`: position `k` of the arrays `a` is the root of the tree `T`, whose nodes are at the positions `ks`. Leaves have `children_left = -1`; cuts
are not NaN. -/
inductive Encodes (a : List (SkNode K p)) : Nat → DTree K p → List Nat → Prop where
  | leaf {k nd} : a[k]? = some nd → nd.left = -1 → Encodes a k (.leaf nd.value) [k]
  | node {k nd j L R il ir} {kl kr : Nat} : a[k]? = some nd → nd.left = (kl : Int) → nd.right = (kr : Int) → nd.feature = some j → nd.threshold ≠ .nan →
      Encodes a kl L il → Encodes a kr R ir → Encodes a k (.node j nd.threshold L R) (k :: (il ++ ir))

/-- The arrays describe the tree `T`: its nodes are at different positions, the root at position 0. -/
def IsSkTree (a : List (SkNode K p)) (T : DTree K p) : Prop := ∃ ks, Encodes a 0 T ks ∧ ks.Nodup

end Bart.Spec
