import Verif.Spec.Reference

/-! Model of the sampler with Python's limit on recursion.

`propose` (bartpy/samplers/unconstrainedtree/proposer.py:43-50) calls itself when the drawn kind of move is impossible for the tree. Python raises RecursionError when the calls are nested too deeply. Here
`R` is the number of nested calls of `propose` that are possible (the limit of the interpreter, 1000 by default, minus the depth at which the first call is made). Everything else is as in the reference
sampler (Verif/Spec/Reference.lean, equal to the model of the library by C103). -/

namespace Bart.Recursion
open Spec Reference
variable {K : Type} [Field K] [LinearOrder K] {n p : Nat}

/-- bartpy/samplers/unconstrainedtree/proposer.py:43-50 `UniformMutationProposer.propose` with at most `R` nested calls. -/
def propose (X : Fin n → Fin p → Fl K) (t : RTree K p) (us : List Nat) : Nat → List Method → Except PyErr (Move K p × List Nat × List Method)
  | 0, _ => .error .recursionError
  | _ + 1, [] => .error .outOfDraws
  | R + 1, .grow :: ms =>
    if t.splittable X = [] then propose X t us R ms
    else
      match proposeGrow X t us with
      | .error e => .error e
      | .ok (mv, us') => .ok (mv, us', ms)
  | R + 1, .prune :: ms =>
    if t.prunable = [] then propose X t us R ms
    else
      match proposePrune t us with
      | .error e => .error e
      | .ok (mv, us') => .ok (mv, us', ms)

variable [MathFns K]

/-- bartpy/samplers/unconstrainedtree/treemutation.py:38-50 `sample` and `step`. -/
def treeStep (R : Nat) (P : Params K) (pGrow pPrune : K) (X : Fin n → Fin p → Fl K) (y : Fin n → K) (t : RTree K p) (r : Rand K) : Except PyErr (Bool × RTree K p × Rand K) :=
  match propose X t r.picks R r.methods with
  | .error e => .error e
  | .ok (mv, us, ms) =>
    match r.uniforms with
    | [] => .error .outOfDraws
    | u :: uniforms =>
      let accept := Fl.lt (.fin u) (ratio P pGrow pPrune X y t mv)
      .ok (accept, if accept then t.apply mv else t, { r with methods := ms, picks := us, uniforms := uniforms })

/-- bartpy/samplers/schedule.py:50-54: one tree of a sweep, the structure and then the leaf values. -/
def treeBody (R : Nat) (P : Params K) (pGrow pPrune : K) (X : Fin n → Fin p → Fl K) (y : Fin n → K) (t : RTree K p) (r : Rand K) : Except PyErr (Bool × RTree K p × Rand K) :=
  match treeStep R P pGrow pPrune X y t r with
  | .error e => .error e
  | .ok (b, t1, r1) =>
    match leafValues P X y t1 r1.normals with
    | .error e => .error e
    | .ok (t2, zs) => .ok (b, t2, { r1 with normals := zs })

/-- bartpy/model.py:71-78 and bartpy/samplers/schedule.py:50-54: the trees of a sweep. -/
def sweepTrees (R : Nat) (P : Params K) (pGrow pPrune : K) (X : Fin n → Fin p → Fl K) (y : Fin n → K) :
    List (RTree K p) → List (RTree K p) → Rand K → Except PyErr (List Bool × List (RTree K p) × Rand K)
  | done, [], r => .ok ([], done, r)
  | done, t :: ts, r =>
    match treeBody R P pGrow pPrune X (fun i => y i - forest (done ++ ts) (X i)) t r with
    | .error e => .error e
    | .ok (b, t1, r1) =>
      match sweepTrees R P pGrow pPrune X y (done ++ [t1]) ts r1 with
      | .error e => .error e
      | .ok (bs, all, r2) => .ok (b :: bs, all, r2)

/-- bartpy/samplers/modelsampler.py:23-30 `step`: one sweep. -/
def sweep (R : Nat) (c : Settings K) (X : Fin n → Fin p → Fl K) (y : Fin n → K) (s : State K p) (r : Rand K) : Except PyErr (List Bool × State K p × Rand K) :=
  match sweepTrees R (c.params s.sigma) c.pGrow c.pPrune X y [] s.trees r with
  | .error e => .error e
  | .ok (bs, ts, r1) =>
    match sigmaStep c X y ts r1.gammas with
    | .error e => .error e
    | .ok (v, gs) => .ok (bs, ⟨ts, v⟩, { r1 with gammas := gs })

/-- bartpy/samplers/modelsampler.py:44-62: the sweeps of a chain. -/
def sweeps (R : Nat) (c : Settings K) (X : Fin n → Fin p → Fl K) (y : Fin n → K) : Nat → State K p → Rand K → Except PyErr (List (List Bool × State K p) × State K p × Rand K)
  | 0, s, r => .ok ([], s, r)
  | k + 1, s, r =>
    match sweep R c X y s r with
    | .error e => .error e
    | .ok (bs, s1, r1) =>
      match sweeps R c X y k s1 r1 with
      | .error e => .error e
      | .ok (l, s2, r2) => .ok ((bs, s1) :: l, s2, r2)

/-- bartpy/sklearnmodel.py:22-33 `run_chain`: the samples of a chain. -/
noncomputable def chain (R : Nat) (c : Config K) (X : Fin n → Fin p → Fl K) (y : Fin n → K) (r : Rand K) : Except PyErr (List (List Bool × State K p)) :=
  match sweeps R c.toSettings X y (c.nBurn + c.nSamples) (start c.toSettings) r with
  | .error e => .error e
  | .ok (l, _, _) => .ok ((storedTimes c.nSamples c.thin).filterMap (fun t => l[c.nBurn + t]?))

/-- bartpy/sklearnmodel.py:141: the samples of chains that use the given draws. -/
noncomputable def chains (R : Nat) (c : Config K) (X : Fin n → Fin p → Fl K) (y : Fin n → K) : List (Rand K) → Except PyErr (List (List Bool × State K p))
  | [] => .ok []
  | r :: rs =>
    match chain R c X y r with
    | .error e => .error e
    | .ok l =>
      match chains R c X y rs with
      | .error e => .error e
      | .ok ls => .ok (l ++ ls)

/-- bartpy/sklearnmodel.py:124-145 `fit`: the samples it keeps. -/
noncomputable def fit (R : Nat) (c : Config K) (X : Fin n → Fin p → Fl K) (lo hi : K) (y : Fin n → K) (rs : Nat → Rand K) : Except PyErr (List (List Bool × State K p)) :=
  chains R c X (scaled lo hi y) ((List.range c.nChains).map rs)

end Bart.Recursion
