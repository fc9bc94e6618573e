import Verif.Model.Sklearn
import Verif.Spec.Data
import Verif.Spec.Sklearn
import Verif.Spec.Stored

/-! A reference implementation of the sampler without any cache, mask, link or object (specification).

A tree is the list of its nodes; a node is known by the comparisons on the way to it from the root. Everything else (the rows of a node, their number, their target sum, the columns
that can be split, the nodes that can be pruned, predictions, residuals) is computed from scratch from the training data whenever it is needed.
The closed arithmetic expressions (`growRatioValue`, `sigmaM`, `logNodeSplit`, `logNodeNotSplit`, `leafValue`), `choice` for numpy's random choice and the streams of draws `Rand` are those of the model
of the library. -/

namespace Bart.Reference
open Spec
variable {K : Type} [Field K] [LinearOrder K] {n p : Nat}

/-- The comparison of a column with a value: `low` is `x_column <= value`, otherwise `x_column > value`. -/
structure Cond (K : Type) (p : Nat) where
  column : Fin p
  value : Fl K
  low : Bool
  deriving DecidableEq

/-- Does the row satisfy the comparison? -/
def Cond.holds (c : Cond K p) (x : Fin p → Fl K) : Bool := if c.low then Fl.le (x c.column) c.value else !Fl.le (x c.column) c.value

/-- A leaf with its value, or a split of the rows of the node by `x_column <= cut`. -/
inductive Content (K : Type) (p : Nat) where
  | leaf (value : K)
  | split (column : Fin p) (cut : Fl K)
  deriving DecidableEq

/-- A node: the comparisons from the root to it, and what it contains. -/
structure RNode (K : Type) (p : Nat) where
  path : List (Cond K p)
  content : Content K p
  deriving DecidableEq

/-- A tree: its nodes in the order in which they were made. -/
abbrev RTree (K : Type) (p : Nat) := List (RNode K p)

/-- Is the node a leaf? -/
def RNode.isLeaf (nd : RNode K p) : Bool :=
  match nd.content with
  | .leaf _ => true
  | .split _ _ => false

/-- The tree that is a single leaf with value 0. -/
def RTree.root : RTree K p := [⟨[], .leaf 0⟩]

/-- Does a row get to the node? -/
def RNode.reaches (nd : RNode K p) (x : Fin p → Fl K) : Bool := nd.path.all (fun c => c.holds x)

/-- The value of the tree for a row. -/
def RTree.value (t : RTree K p) (x : Fin p → Fl K) : K :=
  match t.find? (fun nd => nd.isLeaf && nd.reaches x) with
  | some ⟨_, .leaf v⟩ => v
  | _ => 0

/-- The value of a sum of trees for a row. -/
def forest (ts : List (RTree K p)) (x : Fin p → Fl K) : K := (ts.map (fun t => RTree.value t x)).sum

/-- The rows of the training data in a node. -/
def RNode.rows (X : Fin n → Fin p → Fl K) (nd : RNode K p) : Fin n → Bool := fun r => nd.reaches (X r)

/-- The columns that have two different values among the given rows, the first of the rows not counted. -/
def columns (X : Fin n → Fin p → Fl K) (rows : Fin n → Bool) : List (Fin p) :=
  (List.finRange p).filter (fun j => (column X rows j).tail.any (fun a => (column X rows j).tail.any (fun b => decide (a ≠ b))))

/-- The leaves that can be split. -/
def RTree.splittable (X : Fin n → Fin p → Fl K) (t : RTree K p) : RTree K p := t.filter (fun nd => nd.isLeaf && !(columns X (nd.rows X)).isEmpty)

/-- Is there a leaf of the tree with this path? -/
def RTree.hasLeaf (t : RTree K p) (path : List (Cond K p)) : Bool := t.any (fun nd => nd.isLeaf && decide (nd.path = path))

/-- The splits that have two leaves below them. -/
def RTree.prunable (t : RTree K p) : RTree K p := t.filter (fun nd =>
  match nd.content with
  | .leaf _ => false
  | .split j v => t.hasLeaf (nd.path ++ [⟨j, v, true⟩]) && t.hasLeaf (nd.path ++ [⟨j, v, false⟩]))

/-- A proposed change: a split of a leaf, or the removal of a split. -/
inductive Move (K : Type) (p : Nat) where
  | grow (path : List (Cond K p)) (j : Fin p) (v : Fl K)
  | prune (path : List (Cond K p)) (j : Fin p) (v : Fl K)

/-- The tree after the change. -/
def RTree.apply (t : RTree K p) : Move K p → RTree K p
  | .grow path j v => t.filter (fun nd => decide (nd.path ≠ path)) ++ [⟨path ++ [⟨j, v, true⟩], .leaf 0⟩, ⟨path ++ [⟨j, v, false⟩], .leaf 0⟩, ⟨path, .split j v⟩]
  | .prune path j v => t.filter (fun nd => decide (nd.path ≠ path) && decide (nd.path ≠ path ++ [⟨j, v, true⟩]) && decide (nd.path ≠ path ++ [⟨j, v, false⟩])) ++ [⟨path, .leaf 0⟩]

/-- Draw entries of a column until one comes that is not the largest. -/
def drawCut (col : List (Fl K)) : List Nat → Except PyErr (Fl K × List Nat)
  | [] => .error .outOfDraws
  | u :: us =>
    match choice col u with
    | .error e => .error e
    | .ok v => if col.any (fun m => Fl.lt v m) then .ok (v, us) else drawCut col us

/-- A random leaf that can be split, a random column, a random cut (at least one leaf can be split). -/
def proposeGrow (X : Fin n → Fin p → Fl K) (t : RTree K p) (us : List Nat) : Except PyErr (Move K p × List Nat) :=
  match us with
  | u1 :: u2 :: us =>
    match choice (t.splittable X) u1 with
    | .error e => .error e
    | .ok nd =>
      match choice (columns X (nd.rows X)) u2 with
      | .error e => .error e
      | .ok j =>
        match drawCut (column X (nd.rows X) j) us with
        | .error e => .error e
        | .ok (v, us') => .ok (.grow nd.path j v, us')
  | _ => .error .outOfDraws

/-- A random split that can be removed (there is one). -/
def proposePrune (t : RTree K p) (us : List Nat) : Except PyErr (Move K p × List Nat) :=
  match us with
  | [] => .error .outOfDraws
  | u :: us =>
    match choice t.prunable u with
    | .ok ⟨path, .split j v⟩ => .ok (.prune path j v, us)
    | .ok _ => .error .typeError
    | .error e => .error e

/-- The proposal: draw kinds of move until one is possible. -/
def propose (X : Fin n → Fin p → Fl K) (t : RTree K p) (us : List Nat) : List Method → Except PyErr (Move K p × List Nat × List Method)
  | [] => .error .outOfDraws
  | .grow :: ms =>
    if t.splittable X = [] then propose X t us ms
    else
      match proposeGrow X t us with
      | .error e => .error e
      | .ok (mv, us') => .ok (mv, us', ms)
  | .prune :: ms =>
    if t.prunable = [] then propose X t us ms
    else
      match proposePrune t us with
      | .error e => .error e
      | .ok (mv, us') => .ok (mv, us', ms)

/-- The relative frequency of `v` among the entries of a column, as the code counts it: `1 / n` if all entries are different. -/
def frequency (X : Fin n → Fin p → Fl K) (rows : Fin n → Bool) (j : Fin p) (v : Fl K) : Fl K :=
  let c : Nat := if (column X rows j).Nodup then 1 else (column X rows j).countP (fun x => Fl.eq x v)
  Fl.div (Fl.ofInt (c : Int)) (Fl.ofInt (count rows : Int))

variable [MathFns K]

/-- Minus log. -/
def negLog (k : Int) : Fl K := Fl.neg (Fl.log (Fl.ofInt k))

/-- Log probability that the column `j` and the cut `v` are drawn for a leaf with these rows. -/
def cutProbability (X : Fin n → Fin p → Fl K) (rows : Fin n → Bool) (j : Fin p) (v : Fl K) : Fl K :=
  Fl.add (negLog (columns X rows).length) (Fl.log (frequency X rows j v))

/-- Log ratio of the marginal likelihoods with and without a split of the rows. -/
def likelihood (P : Params K) (X : Fin n → Fin p → Fl K) (y : Fin n → K) (rows : Fin n → Bool) (j : Fin p) (v : Fl K) : Fl K :=
  let L := fun r => rows r && Fl.le (X r j) v
  let R := fun r => rows r && !Fl.le (X r j) v
  Lik.growRatioValue (.fin P.sigma) (Lik.sigmaM P) (Fl.ofInt (count rows)) (Fl.ofInt (count L)) (Fl.ofInt (count R)) (.fin (total y rows)) (.fin (total y L)) (.fin (total y R))

/-- Log prior of a split at depth `d` with two leaves below it, without the choice of the cut. -/
def splitPrior (P : Params K) (d : Nat) : Fl K := Fl.add (Fl.add (Lik.logNodeNotSplit P (d + 1)) (Lik.logNodeNotSplit P (d + 1))) (Lik.logNodeSplit P d)

/-- The log acceptance ratio of a proposal. -/
def ratio (P : Params K) (pGrow pPrune : K) (X : Fin n → Fin p → Fl K) (y : Fin n → K) (t : RTree K p) : Move K p → Fl K
  | .grow path j v =>
    let rows := RNode.rows X ⟨path, .leaf 0⟩
    let cut := Fl.add (negLog (t.splittable X).length) (cutProbability X rows j v)
    let transition := Fl.add (Fl.log (.fin (pPrune / pGrow))) (Fl.sub (negLog ((t.prunable.length : Int) + 1)) cut)
    let prior := Fl.sub (Fl.add (splitPrior P path.length) cut) (Lik.logNodeNotSplit P path.length)
    Fl.add (Fl.add transition (likelihood P X y rows j v)) prior
  | .prune path j v =>
    let rows := RNode.rows X ⟨path, .leaf 0⟩
    let cut := cutProbability X rows j v
    let grow : Fl K := if (t.splittable X).length = 1 then .ninf else negLog (((t.splittable X).length : Int) - 1)
    let transition := Fl.add (Fl.log (.fin (pGrow / pPrune))) (Fl.sub (Fl.add grow cut) (negLog t.prunable.length))
    let prior := Fl.sub (Lik.logNodeNotSplit P path.length) (Fl.add (splitPrior P path.length) cut)
    Fl.add (Fl.add transition (Fl.neg (likelihood P X y rows j v))) prior

/-- The Metropolis-Hastings step: propose, accept if the next uniform number is less than the log ratio. -/
def treeStep (P : Params K) (pGrow pPrune : K) (X : Fin n → Fin p → Fl K) (y : Fin n → K) (t : RTree K p) (r : Rand K) : Except PyErr (Bool × RTree K p × Rand K) :=
  match propose X t r.picks r.methods with
  | .error e => .error e
  | .ok (mv, us, ms) =>
    match r.uniforms with
    | [] => .error .outOfDraws
    | u :: uniforms =>
      let accept := Fl.lt (.fin u) (ratio P pGrow pPrune X y t mv)
      .ok (accept, if accept then t.apply mv else t, { r with methods := ms, picks := us, uniforms := uniforms })

/-- New values for the leaves, in the order of the list; each takes the next normal number. -/
def leafValues (P : Params K) (X : Fin n → Fin p → Fl K) (y : Fin n → K) : RTree K p → List K → Except PyErr (RTree K p × List K)
  | [], zs => .ok ([], zs)
  | ⟨path, .split j v⟩ :: t, zs =>
    match leafValues P X y t zs with
    | .error e => .error e
    | .ok (t', zs') => .ok (⟨path, .split j v⟩ :: t', zs')
  | ⟨_, .leaf _⟩ :: _, [] => .error .outOfDraws
  | ⟨path, .leaf v0⟩ :: t, z :: zs =>
    let rows := RNode.rows X ⟨path, .leaf v0⟩
    match (Sampler.leafValue P (Fl.ofInt (count rows)) (.fin (total y rows)) (.fin z)).toFinite with
    | .error e => .error e
    | .ok v =>
      match leafValues P X y t zs with
      | .error e => .error e
      | .ok (t', zs') => .ok (⟨path, .leaf v⟩ :: t', zs')

/-- One tree in a sweep: the structure, then the leaf values. -/
def treeBody (P : Params K) (pGrow pPrune : K) (X : Fin n → Fin p → Fl K) (y : Fin n → K) (t : RTree K p) (r : Rand K) : Except PyErr (Bool × RTree K p × Rand K) :=
  match treeStep P pGrow pPrune X y t r with
  | .error e => .error e
  | .ok (b, t1, r1) =>
    match leafValues P X y t1 r1.normals with
    | .error e => .error e
    | .ok (t2, zs) => .ok (b, t2, { r1 with normals := zs })

/-- All trees of a sweep, one after the other, each on what the other trees (as they are now) leave unexplained. -/
def sweepTrees (P : Params K) (pGrow pPrune : K) (X : Fin n → Fin p → Fl K) (y : Fin n → K) :
    List (RTree K p) → List (RTree K p) → Rand K → Except PyErr (List Bool × List (RTree K p) × Rand K)
  | done, [], r => .ok ([], done, r)
  | done, t :: ts, r =>
    match treeBody P pGrow pPrune X (fun i => y i - forest (done ++ ts) (X i)) t r with
    | .error e => .error e
    | .ok (b, t1, r1) =>
      match sweepTrees P pGrow pPrune X y (done ++ [t1]) ts r1 with
      | .error e => .error e
      | .ok (bs, all, r2) => .ok (b :: bs, all, r2)

/-- The settings that the sweeps depend on. -/
structure Settings (K : Type) where
  nTrees : Nat
  alpha : K
  beta : K
  k : K
  sigmaA : K
  sigmaB : K
  pGrow : K
  pPrune : K

/-- The state of the chain: the trees and sigma. -/
structure State (K : Type) (p : Nat) where
  trees : List (RTree K p)
  sigma : K

/-- The parameters of the formulas. -/
def Settings.params (c : Settings K) (sigma : K) : Params K := ⟨c.alpha, c.beta, c.k, c.nTrees, sigma⟩

/-- The new sigma, from the residuals of all trees. -/
def sigmaStep (c : Settings K) (X : Fin n → Fin p → Fl K) (y : Fin n → K) (ts : List (RTree K p)) (gammas : List K) : Except PyErr (K × List K) :=
  if c.sigmaA + (n : K) / 2 < 0 ∨ c.sigmaB + (1/2) * ∑ i, (y i - forest ts (X i)) * (y i - forest ts (X i)) < 0 then .error .valueError
  else
    match gammas with
    | [] => .error .outOfDraws
    | g :: gs =>
      match (MathFns.pow g (-(1/2))).toFinite with
      | .error e => .error e
      | .ok v => .ok (v, gs)

/-- One Gibbs sweep. -/
def sweep (c : Settings K) (X : Fin n → Fin p → Fl K) (y : Fin n → K) (s : State K p) (r : Rand K) : Except PyErr (List Bool × State K p × Rand K) :=
  match sweepTrees (c.params s.sigma) c.pGrow c.pPrune X y [] s.trees r with
  | .error e => .error e
  | .ok (bs, ts, r1) =>
    match sigmaStep c X y ts r1.gammas with
    | .error e => .error e
    | .ok (v, gs) => .ok (bs, ⟨ts, v⟩, { r1 with gammas := gs })

/-- `k` sweeps: what was accepted and the state after each of them. -/
def sweeps (c : Settings K) (X : Fin n → Fin p → Fl K) (y : Fin n → K) : Nat → State K p → Rand K → Except PyErr (List (List Bool × State K p) × State K p × Rand K)
  | 0, s, r => .ok ([], s, r)
  | k + 1, s, r =>
    match sweep c X y s r with
    | .error e => .error e
    | .ok (bs, s1, r1) =>
      match sweeps c X y k s1 r1 with
      | .error e => .error e
      | .ok (l, s2, r2) => .ok ((bs, s1) :: l, s2, r2)

/-- The state at the beginning: every tree is a single leaf with value 0, and sigma is 1. -/
def start (c : Settings K) : State K p := ⟨List.replicate c.nTrees RTree.root, 1⟩

/-- The settings of the estimator that `fit` depends on. -/
structure Config (K : Type) extends Settings K where
  nChains : Nat
  nSamples : Nat
  nBurn : Nat
  thin : K

/-- The samples of a chain: what was accepted in a sweep and the state after it, for the sweeps after the burn-in whose number is a multiple of `1 / thin`. -/
noncomputable def chain (c : Config K) (X : Fin n → Fin p → Fl K) (y : Fin n → K) (r : Rand K) : Except PyErr (List (List Bool × State K p)) :=
  match sweeps c.toSettings X y (c.nBurn + c.nSamples) (start c.toSettings) r with
  | .error e => .error e
  | .ok (l, _, _) => .ok ((storedTimes c.nSamples c.thin).filterMap (fun t => l[c.nBurn + t]?))

/-- The samples of chains that use the given draws, one chain after the other. -/
noncomputable def chains (c : Config K) (X : Fin n → Fin p → Fl K) (y : Fin n → K) : List (Rand K) → Except PyErr (List (List Bool × State K p))
  | [] => .ok []
  | r :: rs =>
    match chain c X y r with
    | .error e => .error e
    | .ok l =>
      match chains c X y rs with
      | .error e => .error e
      | .ok ls => .ok (l ++ ls)

/-- The target scaled such that its least value `lo` becomes -1/2 and its largest value `hi` becomes 1/2. -/
def scaled (lo hi : K) (y : Fin n → K) : Fin n → K := fun i => (y i - lo) / (hi - lo) - 1 / 2

/-- The samples that a fit keeps; chain number `i` uses the draws `rs i`. -/
noncomputable def fit (c : Config K) (X : Fin n → Fin p → Fl K) (lo hi : K) (y : Fin n → K) (rs : Nat → Rand K) : Except PyErr (List (List Bool × State K p)) :=
  chains c X (scaled lo hi y) ((List.range c.nChains).map rs)

/-- The prediction for a row: the mean over the samples, on the scale of the target. -/
def prediction (lo hi : K) (samples : List (List Bool × State K p)) (x : Fin p → Fl K) : K :=
  ((samples.map (fun s => forest s.2.trees x)).sum / (samples.length : K) + 1 / 2) * (hi - lo) + lo

/-- The share of the trees whose change was accepted in a sweep (none if there are no trees). -/
def acceptedShare (s : List Bool × State K p) : Option K := if s.1 = [] then none else some (((s.1.count true : Nat) : K) / (s.1.length : K))

end Bart.Reference
