import Verif.Model.Sklearn

/-! What two runs of a chain have in common (specification). -/

namespace Bart.Spec
variable {K : Type} {p p' : Nat}

/-- Two computations raise the same exception, or return results that are related by `R`. -/
def SameUpTo {α β : Type} (R : α → β → Prop) : Except PyErr α → Except PyErr β → Prop
  | .error e, .error e' => e = e'
  | .ok x, .ok y => R x y
  | _, _ => False

/-- The two estimators agree in everything that is not about how long to sample and what to keep. -/
structure SameSampling (s : SkModel K p) (s' : SkModel K p') : Prop where
  nTrees : s'.nTrees = s.nTrees
  nChains : s'.nChains = s.nChains
  sigmaA : s'.sigmaA = s.sigmaA
  sigmaB : s'.sigmaB = s.sigmaB
  alpha : s'.alpha = s.alpha
  beta : s'.beta = s.beta
  pGrow : s'.pGrow = s.pGrow
  pPrune : s'.pPrune = s.pPrune

/-- The two estimators agree in how long to sample and at which times to store (not in what is stored besides the models). -/
structure SameLength (s : SkModel K p) (s' : SkModel K p') : Prop where
  nSamples : s'.nSamples = s.nSamples
  nBurn : s'.nBurn = s.nBurn
  thin : s'.thin = s.thin

/-- The table `X'` consists of the columns of `X`, in the same order (column `v` of `X` has become column `g v`), and further columns. -/
structure WithColumns {q : Nat} (g : Fin p → Fin p') (X : Fin q → Fin p → Fl K) (X' : Fin q → Fin p' → Fl K) : Prop where
  mono : StrictMono g
  common : ∀ r v, X' r (g v) = X r v

end Bart.Spec
