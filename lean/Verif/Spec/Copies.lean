import Verif.Spec.Order

/-! Data in which every column is present several times (specification). -/

namespace Bart.Spec
variable {K : Type} {n p p' : Nat}

/-- The table whose column `j` is column `c j` of the given one. -/
def copied (c : Fin p' → Fin p) (X : Fin n → Fin p → Fl K) : Fin n → Fin p' → Fl K := fun i j => X i (c j)

/-- Every column is present `k` times. -/
def EqualCopies (c : Fin p' → Fin p) (k : Nat) : Prop := ∀ j, Fintype.card {j' // c j' = j} = k

variable [Field K] [LinearOrder K] [MathFns K]

/-- The logarithm of a positive whole number is a number. -/
def FiniteLogs (K : Type) [Field K] [LinearOrder K] [MathFns K] : Prop := ∀ m : Nat, 0 < m → ∃ a : K, MathFns.log (m : K) = .fin a

/-- The fit `f'` to the data with copies of the columns and the fit `f` to the data agree: predictions for new data (with copies of its columns for `f'`) by the estimator and by each of the
samples, predictions for the training data, sigma and acceptance trace. -/
structure SameCopies (c : Fin p' → Fin p) (storePredictions storeAcceptance : Bool) (f' : SkModel K p') (f : SkModel K p) : Prop where
  newData : ∀ {q : Nat} (Z : Fin q → Fin p → Fl K), (∀ r, GoodRow (Z r)) → f'.predict (some ⟨q, copied c Z⟩) = f.predict (some ⟨q, Z⟩)
  training : storePredictions = true → f'.predict none = f.predict none
  samples : ∀ {q : Nat} (Z : Fin q → Fin p → Fl K), (∀ r, GoodRow (Z r)) →
    f'.samples.map (fun m => m.models.map (fun x => List.ofFn (x.predictX (copied c Z)))) = f.samples.map (fun m => m.models.map (fun x => List.ofFn (x.predictX Z)))
  stored : storePredictions = true → f'.samples.map Combined.predictions = f.samples.map Combined.predictions
  sigma : f'.samples.map (fun m => m.models.map (fun x => (x.live.storedSigma x.stored).current)) = f.samples.map (fun m => m.models.map (fun x => (x.live.storedSigma x.stored).current))
  acceptance : storeAcceptance = true → f'.samples.map Combined.acceptance = f.samples.map Combined.acceptance

end Bart.Spec
