import Verif.Spec.Storing
import Verif.Spec.Condition
import Mathlib.Logic.Equiv.Basic

/-! Data with rearranged rows and columns, and the corresponding draws (specification). -/

namespace Bart.Spec
variable {K : Type} {n p : Nat}

/-- The table whose row `i` is row `ρ i` of the given one, and whose column `j` is column `σ j` of the given one. -/
def reorder (ρ : Equiv.Perm (Fin n)) (σ : Equiv.Perm (Fin p)) (X : Fin n → Fin p → Fl K) : Fin n → Fin p → Fl K := fun i j => X (ρ i) (σ j)

/-- The list of `n` numbers in the order given by `ρ`. -/
def reorderList [Zero K] (ρ : Equiv.Perm (Fin n)) (l : List K) : List K := List.ofFn fun i : Fin n => l.getD (ρ i) 0

/-- A change of the draws that only exchanges the results of `np.random.choice` (the picks) against others: all other draws and the number of picks remain, and so does the range of the picks
if the size of the range is a multiple of the length of every list to choose from (such that all entries of these lists are equally likely). -/
structure OnlyPicks (B : Nat) (T : Rand K → Rand K) : Prop where
  methods : ∀ r, (T r).methods = r.methods
  uniforms : ∀ r, (T r).uniforms = r.uniforms
  normals : ∀ r, (T r).normals = r.normals
  gammas : ∀ r, (T r).gammas = r.gammas
  number : ∀ r, (T r).picks.length = r.picks.length
  range : ∀ N, (∀ L, 1 ≤ L → L ≤ B → L ∣ N) → ∀ r, (∀ u ∈ (T r).picks, u < N) ↔ ∀ u ∈ r.picks, u < N

variable [Field K] [LinearOrder K] [MathFns K]

/-- The fits `f` and `f'` to the data and to the reordered data agree: predictions for new data (with its columns reordered) by the estimator and by each of the samples, predictions for
the training data (with its rows reordered), sigma and acceptance trace. -/
structure SameFit (ρ : Equiv.Perm (Fin n)) (σ : Equiv.Perm (Fin p)) (storePredictions storeAcceptance : Bool) (f f' : SkModel K p) : Prop where
  newData : ∀ {q : Nat} (Z : Fin q → Fin p → Fl K), (∀ r, GoodRow (Z r)) → f'.predict (some ⟨q, reorder (Equiv.refl _) σ Z⟩) = f.predict (some ⟨q, Z⟩)
  training : storePredictions = true → f'.predict none = (f.predict none).map (reorderList ρ)
  samples : ∀ {q : Nat} (Z : Fin q → Fin p → Fl K), (∀ r, GoodRow (Z r)) →
    f'.samples.map (fun c => c.models.map (fun x => List.ofFn (x.predictX (reorder (Equiv.refl _) σ Z)))) = f.samples.map (fun c => c.models.map (fun x => List.ofFn (x.predictX Z)))
  stored : storePredictions = true → f'.samples.map Combined.predictions = f.samples.map (fun c => c.predictions.map (reorderList ρ))
  sigma : f'.samples.map (fun c => c.models.map (fun x => (x.live.storedSigma x.stored).current)) = f.samples.map (fun c => c.models.map (fun x => (x.live.storedSigma x.stored).current))
  acceptance : storeAcceptance = true → f'.samples.map Combined.acceptance = f.samples.map Combined.acceptance

/-- The draws of `m` chains with the given picks. -/
def withPicks {m k N : Nat} (other : Nat → Rand K) (us : Fin m → Fin k → Fin N) : Nat → Rand K := fun i =>
  if h : i < m then { other i with picks := List.ofFn fun a => (us ⟨i, h⟩ a : Nat) } else other i

/-- The predictions of a fit. -/
def predictionsOf {q : Nat} (f : Except PyErr (SkModel K p)) (Z : Fin q → Fin p → Fl K) : Except PyErr (List K) :=
  match f with
  | .error e => .error e
  | .ok f => f.predict (some ⟨q, Z⟩)

end Bart.Spec
