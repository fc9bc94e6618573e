import Verif.Spec.Reference

/-! `fit` and `predict` for targets that may contain NaN and infinities, or may be constant.

The rest of the model has finite targets only. Here the same code is modelled with floats (`Fl K`) as targets, residuals, leaf values, predictions and sigma. Only what depends on these is
written anew. Simplification: the nodes of a tree and the way in which the code finds rows, columns and proposals are those of the reference sampler (`Verif/Spec/Reference.lean`), without the
objects, masks and caches of the code; C103 shows that the two agree. `X` has no NaN, `thin` is not 0, and there is a tree. -/

namespace Bart.AnyTarget
open Reference Spec
variable {K : Type} [Field K] [LinearOrder K] {n p : Nat}

/-- bartpy/node.py:43-66 `LeafNode` with its value, bartpy/node.py:69-79 `DecisionNode` with its split. -/
inductive AContent (K : Type) (p : Nat) where
  | leaf (value : Fl K)
  | split (column : Fin p) (cut : Fl K)
  deriving DecidableEq

/-- A node (bartpy/node.py:7-40): the comparisons from the root to it, and what it contains. -/
structure ANode (K : Type) (p : Nat) where
  path : List (Cond K p)
  content : AContent K p
  deriving DecidableEq

/-- bartpy/tree.py:9-33: the nodes of a tree, in the order of the list. -/
abbrev ATree (K : Type) (p : Nat) := List (ANode K p)

/-- The node without its value. -/
def ANode.shape : ANode K p → RNode K p
  | ⟨path, .leaf _⟩ => ⟨path, .leaf 0⟩
  | ⟨path, .split j v⟩ => ⟨path, .split j v⟩

/-- The tree without the values. -/
def ATree.shape (t : ATree K p) : RTree K p := t.map ANode.shape

/-- bartpy/model.py:45: a single leaf; bartpy/node.py:51: its value is 0. -/
def ATree.root : ATree K p := [⟨[], .leaf (.fin 0)⟩]

/-- bartpy/tree.py:76-91, 93-110 `predict`: 0, overwritten with the value of the leaf that the row is in. -/
def ATree.value (t : ATree K p) (x : Fin p → Fl K) : Fl K :=
  match t.find? (fun nd => nd.shape.isLeaf && nd.shape.reaches x) with
  | some ⟨_, .leaf v⟩ => v
  | _ => .fin 0

/-- `np.sum` of floats. -/
def flSum (l : List (Fl K)) : Fl K := l.foldr Fl.add (.fin 0)

/-- bartpy/model.py:56-65 `predict`: the sum of the trees. -/
def predictTrees (ts : List (ATree K p)) (x : Fin p → Fl K) : Fl K := flSum (ts.map (fun t => t.value x))

/-- bartpy/tree.py:127-150 `mutate`. -/
def ATree.apply (t : ATree K p) : Move K p → ATree K p
  | .grow path j v => t.filter (fun nd => decide (nd.path ≠ path)) ++ [⟨path ++ [⟨j, v, true⟩], .leaf (.fin 0)⟩, ⟨path ++ [⟨j, v, false⟩], .leaf (.fin 0)⟩, ⟨path, .split j v⟩]
  | .prune path j v => t.filter (fun nd => decide (nd.path ≠ path) && decide (nd.path ≠ path ++ [⟨j, v, true⟩]) && decide (nd.path ≠ path ++ [⟨j, v, false⟩])) ++ [⟨path, .leaf (.fin 0)⟩]

/-- The smaller of two floats as `np.min` takes it: NaN if one of them is NaN. -/
def flMin (a b : Fl K) : Fl K := if a.isNan || b.isNan then .nan else if Fl.lt b a then b else a

/-- The larger of two floats as `np.max` takes it: NaN if one of them is NaN. -/
def flMax (a b : Fl K) : Fl K := if a.isNan || b.isNan then .nan else if Fl.lt a b then b else a

/-- `y.min()` (bartpy/data.py:217, 252): ValueError on an empty array. -/
def yMin (y : Fin n → Fl K) : Except PyErr (Fl K) :=
  match (List.finRange n).map y with
  | [] => .error .valueError
  | x :: xs => .ok (xs.foldl flMin x)

/-- `y.max()` (bartpy/data.py:217, 252): ValueError on an empty array. -/
def yMax (y : Fin n → Fl K) : Except PyErr (Fl K) :=
  match (List.finRange n).map y with
  | [] => .error .valueError
  | x :: xs => .ok (xs.foldl flMax x)

/-- bartpy/data.py:253: an entry of `normalize_y`. -/
def normalized (lo hi v : Fl K) : Fl K := Fl.add (.fin (-(1/2))) (Fl.div (Fl.sub v lo) (Fl.sub hi lo))

/-- bartpy/data.py:255-258: an entry of `unnormalize_y`. -/
def unnormalized (lo hi v : Fl K) : Fl K := Fl.add lo (Fl.mul (Fl.sub v (.fin (-(1/2)))) (Fl.sub hi lo))

/-- bartpy/data.py:268-274 `summed_y`: the targets times 0 or 1, added (NaN or an infinity times 0 is NaN). For the right node of a
new split the code takes the sum of the node minus that of the left node (bartpy/node.py:92); `summedY_right` shows that this is the same for finite targets and for targets with a NaN. -/
def summedY (y : Fin n → Fl K) (rows : Fin n → Bool) : Fl K := flSum ((List.finRange n).map (fun r => Fl.mul (y r) (Fl.ofInt (if rows r then 1 else 0))))

variable [MathFns K]

/-- bartpy/samplers/unconstrainedtree/likihoodratio.py:13-33, 72-78: `log_grow_ratio` for the rows of a node and its split. -/
def likelihood (P : Params K) (sigma : Fl K) (X : Fin n → Fin p → Fl K) (y : Fin n → Fl K) (rows : Fin n → Bool) (j : Fin p) (v : Fl K) : Fl K :=
  let L := fun r => rows r && Fl.le (X r j) v
  let R := fun r => rows r && !Fl.le (X r j) v
  Lik.growRatioValue sigma (Lik.sigmaM P) (Fl.ofInt (count rows)) (Fl.ofInt (count L)) (Fl.ofInt (count R)) (summedY y rows) (summedY y L) (summedY y R)

/-- bartpy/samplers/treemutation.py:57-77 `log_probability_ratio` with bartpy/samplers/unconstrainedtree/likihoodratio.py:80-126: transition ratio, likelihood ratio and tree ratio of a proposal. -/
def ratio (P : Params K) (sigma : Fl K) (pGrow pPrune : K) (X : Fin n → Fin p → Fl K) (y : Fin n → Fl K) (t : RTree K p) : Move K p → Fl K
  | .grow path j v =>
    let rows := RNode.rows X ⟨path, .leaf 0⟩
    let cut := Fl.add (negLog (t.splittable X).length) (cutProbability X rows j v)
    let transition := Fl.add (Fl.log (.fin (pPrune / pGrow))) (Fl.sub (negLog ((t.prunable.length : Int) + 1)) cut)
    let prior := Fl.sub (Fl.add (splitPrior P path.length) cut) (Lik.logNodeNotSplit P path.length)
    Fl.add (Fl.add transition (likelihood P sigma X y rows j v)) prior
  | .prune path j v =>
    let rows := RNode.rows X ⟨path, .leaf 0⟩
    let cut := cutProbability X rows j v
    let grow : Fl K := if (t.splittable X).length = 1 then .ninf else negLog (((t.splittable X).length : Int) - 1)
    let transition := Fl.add (Fl.log (.fin (pGrow / pPrune))) (Fl.sub (Fl.add grow cut) (negLog t.prunable.length))
    let prior := Fl.sub (Lik.logNodeNotSplit P path.length) (Fl.add (splitPrior P path.length) cut)
    Fl.add (Fl.add transition (Fl.neg (likelihood P sigma X y rows j v))) prior

/-- bartpy/samplers/unconstrainedtree/treemutation.py:38-50 `sample` and `step`. -/
def treeStep (P : Params K) (sigma : Fl K) (pGrow pPrune : K) (X : Fin n → Fin p → Fl K) (y : Fin n → Fl K) (t : ATree K p) (r : Rand K) : Except PyErr (Bool × ATree K p × Rand K) :=
  match propose X t.shape r.picks r.methods with
  | .error e => .error e
  | .ok (mv, us, ms) =>
    match r.uniforms with
    | [] => .error .outOfDraws
    | u :: uniforms =>
      let accept := Fl.lt (.fin u) (ratio P sigma pGrow pPrune X y t.shape mv)
      .ok (accept, if accept then t.apply mv else t, { r with methods := ms, picks := us, uniforms := uniforms })

/-- bartpy/samplers/leafnode.py:26-33 `sample`: `n` rows, target sum `s`, normal draw `z`. -/
def leafValue (P : Params K) (sigma n s z : Fl K) : Fl K :=
  let priorVar := Fl.mul (Lik.sigmaM P) (Lik.sigmaM P)
  let likVar := Fl.div (Fl.mul sigma sigma) n
  let likMean := Fl.div s n
  let variance := Fl.div (.fin 1) (Fl.add (Fl.div (.fin 1) priorVar) (Fl.div (.fin 1) likVar))
  let mean := Fl.mul likMean (Fl.div priorVar (Fl.add likVar priorVar))
  Fl.add mean (Fl.mul z (Sampler.powHalf (Fl.div variance (.fin (P.nTrees : K)))))

/-- bartpy/samplers/schedule.py:53-54 with bartpy/samplers/leafnode.py:21-24 `step`: new values for the leaves, in the order of the list. -/
def leafValues (P : Params K) (sigma : Fl K) (X : Fin n → Fin p → Fl K) (y : Fin n → Fl K) : ATree K p → List K → Except PyErr (ATree K p × List K)
  | [], zs => .ok ([], zs)
  | ⟨path, .split j v⟩ :: t, zs =>
    match leafValues P sigma X y t zs with
    | .error e => .error e
    | .ok (t', zs') => .ok (⟨path, .split j v⟩ :: t', zs')
  | ⟨_, .leaf _⟩ :: _, [] => .error .outOfDraws
  | ⟨path, .leaf _⟩ :: t, z :: zs =>
    let rows := RNode.rows X ⟨path, .leaf 0⟩
    match leafValues P sigma X y t zs with
    | .error e => .error e
    | .ok (t', zs') => .ok (⟨path, .leaf (leafValue P sigma (Fl.ofInt (count rows)) (summedY y rows) (.fin z))⟩ :: t', zs')

/-- bartpy/samplers/schedule.py:50-54: the tree, then its leaves. -/
def treeBody (P : Params K) (sigma : Fl K) (pGrow pPrune : K) (X : Fin n → Fin p → Fl K) (y : Fin n → Fl K) (t : ATree K p) (r : Rand K) : Except PyErr (Bool × ATree K p × Rand K) :=
  match treeStep P sigma pGrow pPrune X y t r with
  | .error e => .error e
  | .ok (b, t1, r1) =>
    match leafValues P sigma X y t1 r1.normals with
    | .error e => .error e
    | .ok (t2, zs) => .ok (b, t2, { r1 with normals := zs })

/-- bartpy/model.py:71-78 `refreshed_trees` and bartpy/samplers/schedule.py:50-54: the trees, each on the target minus the running prediction, from which its own prediction has been subtracted. -/
def sweepTrees (P : Params K) (sigma : Fl K) (pGrow pPrune : K) (X : Fin n → Fin p → Fl K) (y : Fin n → Fl K) :
    (Fin n → Fl K) → List (ATree K p) → Rand K → Except PyErr (List Bool × List (ATree K p) × (Fin n → Fl K) × Rand K)
  | pred, [], r => .ok ([], [], pred, r)
  | pred, t :: ts, r =>
    let without := fun i => Fl.sub (pred i) (t.value (X i))
    match treeBody P sigma pGrow pPrune X (fun i => Fl.sub (y i) (without i)) t r with
    | .error e => .error e
    | .ok (b, t1, r1) =>
      match sweepTrees P sigma pGrow pPrune X y (fun i => Fl.add (without i) (t1.value (X i))) ts r1 with
      | .error e => .error e
      | .ok (bs, ts1, pred1, r2) => .ok (b :: bs, t1 :: ts1, pred1, r2)

/-- The state of a chain: the trees, sigma, and the running prediction of the model (bartpy/model.py:32, 72-73). -/
structure AState (K : Type) (n p : Nat) where
  trees : List (ATree K p)
  sigma : Fl K
  prediction : Fin n → Fl K

/-- bartpy/samplers/sigma.py:15-20 `sample`: `b` is `posterior_beta`. `np.random.gamma` raises ValueError for a negative shape or scale; for a scale that is NaN it returns NaN, for the scale 0
it returns 0; otherwise the result is the next draw. -/
def sigmaValue (a : K) (b : Fl K) (gammas : List K) : Except PyErr (Fl K × List K) :=
  if a < 0 ∨ Fl.lt b (.fin 0) then .error .valueError
  else
    match gammas with
    | [] => .error .outOfDraws
    | g :: gs =>
      match b with
      | .nan => .ok (.nan, gs)
      | .fin _ => .ok (MathFns.pow g (-(1/2)), gs)
      | _ => .ok (MathFns.pow 0 (-(1/2)), gs)

/-- bartpy/samplers/sigma.py:17-18 with bartpy/model.py:50-51 `residuals`: `posterior_beta`. -/
def posteriorBeta (b : K) (X : Fin n → Fin p → Fl K) (y : Fin n → Fl K) (ts : List (ATree K p)) : Fl K :=
  let residual := fun i => Fl.sub (y i) (predictTrees ts (X i))
  Fl.add (.fin b) (Fl.mul (.fin (1/2)) (flSum ((List.finRange n).map (fun i => Fl.mul (residual i) (residual i)))))

/-- bartpy/samplers/modelsampler.py:23-30 `step` with bartpy/samplers/schedule.py:50-55: a sweep. -/
def sweep (c : Settings K) (X : Fin n → Fin p → Fl K) (y : Fin n → Fl K) (s : AState K n p) (r : Rand K) : Except PyErr (List Bool × AState K n p × Rand K) :=
  match sweepTrees (c.params 1) s.sigma c.pGrow c.pPrune X y s.prediction s.trees r with
  | .error e => .error e
  | .ok (bs, ts, pred, r1) =>
    match sigmaValue (c.sigmaA + (n : K) / 2) (posteriorBeta c.sigmaB X y ts) r1.gammas with
    | .error e => .error e
    | .ok (v, gs) => .ok (bs, ⟨ts, v, pred⟩, { r1 with gammas := gs })

/-- bartpy/samplers/modelsampler.py:42-43, 51-52: `k` sweeps, with what was accepted and the state after each of them. -/
def sweeps (c : Settings K) (X : Fin n → Fin p → Fl K) (y : Fin n → Fl K) : Nat → AState K n p → Rand K → Except PyErr (List (List Bool × AState K n p))
  | 0, _, _ => .ok []
  | k + 1, s, r =>
    match sweep c X y s r with
    | .error e => .error e
    | .ok (bs, s1, r1) =>
      match sweeps c X y k s1 r1 with
      | .error e => .error e
      | .ok l => .ok ((bs, s1) :: l)

/-- bartpy/model.py:44-48, 72-73 and bartpy/sigma.py:24: single leaves with value 0, sigma 1, the prediction of these trees. -/
def start (c : Settings K) (X : Fin n → Fin p → Fl K) : AState K n p :=
  ⟨List.replicate c.nTrees ATree.root, .fin 1, fun i => predictTrees (List.replicate c.nTrees ATree.root) (X i)⟩

/-- bartpy/samplers/modelsampler.py:32-67 `samples`: the sweeps after the burn-in whose number is a multiple of `1 / thin`. -/
noncomputable def chain (c : Config K) (X : Fin n → Fin p → Fl K) (y : Fin n → Fl K) (r : Rand K) : Except PyErr (List (List Bool × AState K n p)) :=
  match sweeps c.toSettings X y (c.nBurn + c.nSamples) (start c.toSettings X) r with
  | .error e => .error e
  | .ok l => .ok ((storedTimes c.nSamples c.thin).filterMap (fun t => l[c.nBurn + t]?))

/-- bartpy/sklearnmodel.py:147-153 `_combine_chains`: the samples of the chains, one chain after the other. -/
noncomputable def chains (c : Config K) (X : Fin n → Fin p → Fl K) (y : Fin n → Fl K) : List (Rand K) → Except PyErr (List (List Bool × AState K n p))
  | [] => .ok []
  | r :: rs =>
    match chain c X y r with
    | .error e => .error e
    | .ok l =>
      match chains c X y rs with
      | .error e => .error e
      | .ok ls => .ok (l ++ ls)

/-- A fitted estimator: the range of the target, and the samples. -/
structure AFit (K : Type) (n p : Nat) where
  lo : Fl K
  hi : Fl K
  samples : List (List Bool × AState K n p)

/-- bartpy/sklearnmodel.py:124-145 `fit` with :163-166 (an empty table is a ValueError), :149 (IndexError without chains) and bartpy/data.py:214-218 (the target is scaled). -/
noncomputable def fit (c : Config K) (X : Fin n → Fin p → Fl K) (y : Fin n → Fl K) (rs : Nat → Rand K) : Except PyErr (AFit K n p) :=
  if n = 0 ∨ p = 0 then .error .valueError
  else
    match yMin y, yMax y with
    | .error e, _ => .error e
    | _, .error e => .error e
    | .ok lo, .ok hi =>
      if c.nChains = 0 then .error .indexError
      else
        match chains c X (fun i => normalized lo hi (y i)) ((List.range c.nChains).map rs) with
        | .error e => .error e
        | .ok samples => .ok ⟨lo, hi, samples⟩

/-- bartpy/sklearnmodel.py:226-227, 290-291: the prediction for a row (for the rows of the training data the stored predictions are the same numbers). `np.mean` is the sum divided by the number. -/
def AFit.predict (f : AFit K n p) (x : Fin p → Fl K) : Fl K :=
  unnormalized f.lo f.hi (Fl.div (flSum (f.samples.map (fun s => predictTrees s.2.trees x))) (Fl.ofInt (f.samples.length : Int)))

end Bart.AnyTarget
