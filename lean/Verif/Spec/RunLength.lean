import Verif.Spec.Stored

/-! What burn-in and thinning leave of a run (specification). -/

namespace Bart.Spec
variable {K : Type} [Field K] [LinearOrder K]

/-- Leave out the first `nBurn` entries; of the next `nSamples` keep those whose number is a multiple of `1 / thin`. -/
noncomputable def selected {α : Type} (nBurn nSamples : Nat) (thin : K) (l : List α) : List α := (storedTimes nSamples thin).filterMap (fun t => l[nBurn + t]?)

end Bart.Spec
