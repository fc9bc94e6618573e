import Verif.Model.Likelihood

/-! Model of bartpy/samplers/unconstrainedtree/treemutation.py, bartpy/samplers/leafnode.py, bartpy/samplers/sigma.py (the parts that
act on one tree). -/

namespace Bart

/-- The random draws still to come, per source: methods of the proposer, `np.random.choice` indices, uniforms of the acceptance test,
normals of the leaf sampler, gamma draws of the sigma sampler. Each source is a stream (bartpy/samplers/scalar.py hands out each draw of
its batches once, see C37). -/
structure Rand (K : Type) where
  methods : List Method
  picks : List Nat
  uniforms : List K
  normals : List K
  gammas : List K

namespace Sampler
variable {K : Type} [Field K] [LinearOrder K] [MathFns K] {n p : Nat}

/-- bartpy/samplers/unconstrainedtree/treemutation.py:38-44 `sample`: proposal, log ratio, `uniform < log ratio`. -/
def treeSample (m : Params K) (pGrow pPrune : K) (t : Tree K n p) (r : Rand K) :
    Except PyErr (Option TreeMutation × Tree K n p × Rand K) :=
  match t.propose r.picks r.methods with
  | .error e => .error e
  | .ok (mu, t1, us, ms) =>
    match Lik.logProbabilityRatio m pGrow pPrune t1 mu with
    | .error e => .error e
    | .ok (ratio, t2) =>
      match r.uniforms with
      | [] => .error .outOfDraws
      | u :: uniforms =>
        .ok (if Fl.lt (.fin u) ratio then some mu else none, t2, { r with methods := ms, picks := us, uniforms := uniforms })

/-- bartpy/samplers/unconstrainedtree/treemutation.py:46-50 `step`. -/
def treeStep (m : Params K) (pGrow pPrune : K) (t : Tree K n p) (r : Rand K) :
    Except PyErr (Option TreeMutation × Tree K n p × Rand K) :=
  match treeSample m pGrow pPrune t r with
  | .error e => .error e
  | .ok (none, t1, r1) => .ok (none, t1, r1)
  | .ok (some mu, t1, r1) =>
    match t1.mutate mu with
    | .error e => .error e
    | .ok t2 => .ok (some mu, t2, r1)

/-- The arithmetic of bartpy/samplers/leafnode.py:27-32: `n` rows, target sum `s`, normal draw `z`. -/
def leafPosteriorMean (m : Params K) (n s : Fl K) : Fl K :=
  let priorVar := Fl.mul (Lik.sigmaM m) (Lik.sigmaM m)
  let likVar := Fl.div (Fl.mul (.fin m.sigma) (.fin m.sigma)) n
  let likMean := Fl.div s n
  Fl.mul likMean (Fl.div priorVar (Fl.add likVar priorVar))

/-- bartpy/samplers/leafnode.py:31 `posterior_variance`. -/
def leafPosteriorVariance (m : Params K) (n : Fl K) : Fl K :=
  let priorVar := Fl.mul (Lik.sigmaM m) (Lik.sigmaM m)
  let likVar := Fl.div (Fl.mul (.fin m.sigma) (.fin m.sigma)) n
  Fl.div (.fin 1) (Fl.add (Fl.div (.fin 1) priorVar) (Fl.div (.fin 1) likVar))

/-- `np.power(x, 0.5)` on a float. -/
def powHalf : Fl K → Fl K
  | .fin a => MathFns.pow a (1/2)
  | .pinf => .pinf
  | .ninf => .nan
  | .nan => .nan

/-- bartpy/samplers/leafnode.py:33: the value returned by `sample`. -/
def leafValue (m : Params K) (n s z : Fl K) : Fl K :=
  Fl.add (leafPosteriorMean m n s) (Fl.mul z (powHalf (Fl.div (leafPosteriorVariance m n) (.fin (m.nTrees : K)))))

/-- bartpy/samplers/leafnode.py:21-33 `step` and `sample`. -/
def leafStep (m : Params K) (t : Tree K n p) (i : NodeId) (r : Rand K) : Except PyErr (Tree K n p × Rand K) :=
  let nn := (t.heap.dataOf i).X.nObsv
  match t.heap.sumYOf (t.heap.node i).split.data with
  | .error e => .error e
  | .ok (s, h) =>
    match r.normals with
    | [] => .error .outOfDraws
    | z :: zs =>
      match (leafValue m (Fl.ofInt nn) (.fin s) (.fin z)).toFinite with
      | .error e => .error e
      | .ok v => .ok ({ t with heap := h.setValue i v }, { r with normals := zs })

/-- The loop bartpy/samplers/schedule.py:53-54 over the leaves of the tree (listed once, before the first leaf is sampled). -/
def leafSteps (m : Params K) : List NodeId → Tree K n p → Rand K → Except PyErr (Tree K n p × Rand K)
  | [], t, r => .ok (t, r)
  | i :: is, t, r =>
    match leafStep m t i r with
    | .error e => .error e
    | .ok (t1, r1) => leafSteps m is t1 r1

end Sampler
end Bart
