import Verif.Model.Double

/-! The running prediction with rounding (bartpy/model.py:71-78). `fl` is what a float operation makes of its exact result. What the samplers do with a tree is arbitrary; all that matters is the prediction of the tree
after its turn. -/

namespace Bart.Rounding
variable {K : Type} [Add K] [Sub K] [Zero K] {n : Nat}

/-- bartpy/model.py:59 `np.sum([...], axis=0)`: the predictions of the trees are added one after the other. -/
def total (fl : K → K) : List (Fin n → K) → Fin n → K
  | [] => fun _ => 0
  | v :: vs => vs.foldl (fun s w i => fl (s i + w i)) v

/-- bartpy/model.py:74-78: one sweep. The running prediction, the predictions of the trees before their turn and after it; the targets given to the trees, and the running prediction afterwards. -/
def sweep (fl : K → K) (y : Fin n → K) : (Fin n → K) → List (Fin n → K) → List (Fin n → K) → List (Fin n → K) × (Fin n → K)
  | pred, v :: vs, w :: ws =>
    let without := fun i => fl (pred i - v i)
    let r := sweep fl y (fun i => fl (without i + w i)) vs ws
    ((fun i => fl (y i - without i)) :: r.1, r.2)
  | pred, _, _ => ([], pred)

/-- Sweeps one after the other (bartpy/samplers/modelsampler.py:42-52). -/
def sweeps (fl : K → K) (y : Fin n → K) : (Fin n → K) → List (Fin n → K) → List (List (Fin n → K)) → List (List (Fin n → K)) × (Fin n → K)
  | pred, _, [] => ([], pred)
  | pred, vs, ws :: wss =>
    let r := sweep fl y pred vs ws
    let q := sweeps fl y r.2 ws wss
    (r.1 :: q.1, q.2)

/-- A chain: trees with the prediction 0 (bartpy/model.py:44-48, bartpy/node.py:51), the running prediction of line 72-73, then the sweeps. -/
def chain (fl : K → K) (y : Fin n → K) (nTrees : Nat) (wss : List (List (Fin n → K))) : List (List (Fin n → K)) × (Fin n → K) :=
  sweeps fl y (total fl (List.replicate nTrees fun _ => 0)) (List.replicate nTrees fun _ => 0) wss

end Bart.Rounding
