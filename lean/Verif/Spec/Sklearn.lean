import Verif.Model.Sklearn
import Verif.Spec.Stored

/-! What the user of `SklearnModel` sees (specification). -/

namespace Bart.Spec
variable {K : Type} [Field K] [LinearOrder K] {n p : Nat}

/-- The arithmetic mean. -/
def mean (l : List K) : K := l.sum / (l.length : K)

/-- The value that is stored as `v` on the scale from -1/2 (for `lo`) to 1/2 (for `hi`). -/
def originalScale (lo hi v : K) : K := (1/2 - v) * lo + (1/2 + v) * hi

variable [MathFns K] [FloorRing K]

/-- `o` is what a run of one chain of `s` on the data `X`, `y` with the draws `r` returns. -/
def IsChainOf (s : SkModel K p) (X : Fin n → Fin p → Fl K) (y : Fin n → K) (r : Rand K) (o : ChainOut K p) : Prop := s.runChain X y r = .ok o

end Bart.Spec
