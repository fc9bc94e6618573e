import Verif.Model.Scalar
import Mathlib.Logic.Function.Basic

/-! Model of where the random draws come from: numpy's global generator, and the sampler objects of bartpy/samplers/scalar.py, which hold batches of draws made earlier.

The sampler objects that `SklearnModel` uses are default values of arguments, so one object of each kind is shared by all models of a process: the uniform draws of
`UnconstrainedTreeMutationSampler` (bartpy/samplers/unconstrainedtree/treemutation.py:33), the normal draws of `LeafNodeSampler` (bartpy/samplers/leafnode.py:18) and the moves drawn
by `UniformMutationProposer` inside the default tree sampler (bartpy/sklearnmodel.py:99, bartpy/samplers/unconstrainedtree/proposer.py:39-41). All other draws come from the generator
directly (`np.random.choice`, `np.random.gamma`). -/

namespace Bart

/-- The three sampler objects. -/
inductive Kind where
  | uniform
  | normal
  | method
  deriving DecidableEq

/-- numpy: `batch k size` draws `size` numbers of the kind `k`, `single` is a direct draw, `seeded` is the state after `np.random.seed`. `α` are the drawn values. -/
structure NumPy (σ α : Type) where
  batch : Kind → Nat → σ → List α × σ
  single : σ → α × σ
  seeded : Nat → σ

/-- What the code asks for. -/
inductive Request where
  | cached (k : Kind)
  | direct
  deriving DecidableEq

/-- The state of a process: the generator and the sampler objects. -/
structure Proc (σ α : Type) where
  gen : σ
  sampler : Kind → ScalarSampler α

namespace Proc
variable {σ α : Type} (np : NumPy σ α)

/-- bartpy/samplers/leafnode.py:18, bartpy/samplers/unconstrainedtree/treemutation.py:33, bartpy/samplers/unconstrainedtree/proposer.py:39-41: a process in which bartpy has just been
imported. -/
def new (g : σ) : Proc σ α := ⟨g, fun k => .new (match k with | .uniform => 1000 | .normal => 60000 | .method => 1000)⟩

/-- `np.random.seed(s)`. -/
def seed (P : Proc σ α) (s : Nat) : Proc σ α := { P with gen := np.seeded s }

/-- One draw. `sample()` of the sampler object (bartpy/samplers/scalar.py:13-19, 29-35, 51-57), with the batch that numpy would generate now. -/
def serve (P : Proc σ α) : Request → Except PyErr (α × Proc σ α)
  | .direct => let d := np.single P.gen; .ok (d.1, { P with gen := d.2 })
  | .cached k =>
    let b := np.batch k (P.sampler k).cacheSize P.gen
    match (P.sampler k).sample [b.1] with
    | .error e => .error e
    | .ok (a, s, rest) => .ok (a, { gen := if rest.isEmpty then b.2 else P.gen, sampler := Function.update P.sampler k s })

/-- Several draws. -/
def serveAll (P : Proc σ α) : List Request → Except PyErr (List α × Proc σ α)
  | [] => .ok ([], P)
  | r :: rs =>
    match P.serve np r with
    | .error e => .error e
    | .ok (a, P1) =>
      match P1.serveAll rs with
      | .error e => .error e
      | .ok (as, P2) => .ok (a :: as, P2)

/-- What joblib sends to a worker process with each chain (bartpy/sklearnmodel.py:141, 193): a pickled copy of the model, with the sampler objects and their caches. The worker has its own
generator. -/
def worker (P : Proc σ α) (g : σ) : Proc σ α := { P with gen := g }

end Proc
end Bart
