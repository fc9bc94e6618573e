import Verif.Spec.Order

/-! The target turned upside down, and the corresponding draws (specification). -/

namespace Bart.Spec
variable {K : Type} {n p : Nat}

/-- The draws with the other sign of all normal numbers. -/
def mirrored [Neg K] (r : Rand K) : Rand K := { r with normals := r.normals.map (- ·) }

/-- The draws of `m` chains with the given normal numbers. -/
def withNormals {m k : Nat} (other : Nat → Rand K) (zs : Fin m → Fin k → K) : Nat → Rand K := fun i =>
  if h : i < m then { other i with normals := List.ofFn (zs ⟨i, h⟩) } else other i

variable [Field K] [LinearOrder K] [MathFns K]

/-- The fits `f` to `y` and `f'` to `a * y + b` agree: each prediction of `f'` is `a` times that of `f` plus `b`, for new data and for the training data; the predictions of the single samples, which
are on the inner scale, have the other sign; the sigmas and the acceptance trace are equal. -/
structure MirrorFit (a b : K) (storePredictions storeAcceptance : Bool) (f f' : SkModel K p) : Prop where
  newData : ∀ {q : Nat} (Z : Fin q → Fin p → Fl K), (∀ r, GoodRow (Z r)) → f'.predict (some ⟨q, Z⟩) = (f.predict (some ⟨q, Z⟩)).map (List.map (fun v => a * v + b))
  training : storePredictions = true → f'.predict none = (f.predict none).map (List.map (fun v => a * v + b))
  samples : ∀ {q : Nat} (Z : Fin q → Fin p → Fl K), (∀ r, GoodRow (Z r)) →
    f'.samples.map (fun c => c.models.map (fun x => List.ofFn (x.predictX Z))) = f.samples.map (fun c => c.models.map (fun x => List.ofFn (fun r => -x.predictX Z r)))
  stored : storePredictions = true → f'.samples.map Combined.predictions = f.samples.map (fun c => c.predictions.map (List.map (- ·)))
  sigma : f'.samples.map (fun c => c.models.map (fun x => (x.live.storedSigma x.stored).current)) = f.samples.map (fun c => c.models.map (fun x => (x.live.storedSigma x.stored).current))
  acceptance : storeAcceptance = true → f'.samples.map Combined.acceptance = f.samples.map Combined.acceptance

end Bart.Spec
