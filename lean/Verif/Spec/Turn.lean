import Verif.Spec.Order
import Verif.Spec.Data

/-! Data with features in the opposite direction, and the corresponding draws (specification). -/

namespace Bart.Spec
variable {K : Type} {n p : Nat}

/-- The table with the other sign of the entries of the columns in `neg`. -/
def turned [Field K] (neg : Fin p → Bool) (X : Fin n → Fin p → Fl K) : Fin n → Fin p → Fl K := fun i j => if neg j then Fl.neg (X i j) else X i j

/-- A change of the draws that exchanges the results of `np.random.choice` (the picks) against others and rearranges the normal numbers: all other draws and the number of picks remain, and so does
the range of the picks if the size of the range is a multiple of the length of every list to choose from (such that all entries of these lists are equally likely). -/
structure PicksAndOrder (B : Nat) (T : Rand K → Rand K) : Prop where
  methods : ∀ r, (T r).methods = r.methods
  uniforms : ∀ r, (T r).uniforms = r.uniforms
  gammas : ∀ r, (T r).gammas = r.gammas
  normals : ∀ r, (T r).normals.Perm r.normals
  number : ∀ r, (T r).picks.length = r.picks.length
  range : ∀ N, (∀ L, 1 ≤ L → L ≤ B → L ∣ N) → ∀ r, (∀ u ∈ (T r).picks, u < N) ↔ ∀ u ∈ r.picks, u < N

/-- Both computations raise an exception, or both return results that are related by `R`. -/
def BothUpTo {α β : Type} (R : α → β → Prop) : Except PyErr α → Except PyErr β → Prop
  | .error _, .error _ => True
  | .ok x, .ok y => R x y
  | _, _ => False

variable [Field K] [LinearOrder K] [MathFns K]

/-- Two fits agree on the training data: predictions for it by the estimator (from the stored predictions and from the trees) and by each of the samples, sigma and acceptance trace. -/
structure SameTraining (X X' : Fin n → Fin p → Fl K) (storePredictions storeAcceptance : Bool) (f f' : SkModel K p) : Prop where
  again : (∀ i, GoodRow (X i)) → (∀ i, GoodRow (X' i)) → f'.predict (some ⟨n, X'⟩) = f.predict (some ⟨n, X⟩)
  training : storePredictions = true → f'.predict none = f.predict none
  samples : (∀ i, GoodRow (X i)) → (∀ i, GoodRow (X' i)) → f'.samples.map (fun c => c.models.map (fun x => List.ofFn (x.predictX X'))) = f.samples.map (fun c => c.models.map (fun x => List.ofFn (x.predictX X)))
  stored : storePredictions = true → f'.samples.map Combined.predictions = f.samples.map Combined.predictions
  sigma : f'.samples.map (fun c => c.models.map (fun x => (x.live.storedSigma x.stored).current)) = f.samples.map (fun c => c.models.map (fun x => (x.live.storedSigma x.stored).current))
  acceptance : storeAcceptance = true → f'.samples.map Combined.acceptance = f.samples.map Combined.acceptance

/-- The draws of `m` chains with the given picks and normal numbers. -/
def withPicksAndNormals {S : Type} {m k l N : Nat} (val : S → K) (other : Nat → Rand K) (us : Fin m → (Fin k → Fin N) × (Fin l → S)) : Nat → Rand K := fun i =>
  if h : i < m then { other i with picks := List.ofFn fun a => ((us ⟨i, h⟩).1 a : Nat), normals := List.ofFn fun a => val ((us ⟨i, h⟩).2 a) } else other i

/-- The predictions of a fit for the training data. -/
def trainingOf (f : Except PyErr (SkModel K p)) : Option (Except PyErr (List K)) :=
  match f with
  | .error _ => none
  | .ok f => some (f.predict none)

end Bart.Spec
