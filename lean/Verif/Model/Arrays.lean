import Verif.Spec.Reference
import Mathlib.Logic.Function.Basic

/-! Which arrays are shared: the in-sample predictions of trees and models with the identity of numpy arrays.

An array is a location in a memory; `a -= b`, `a += b` and `a[mask] = v` change the array at its location, all other operations make a new one.
Trees are lists of nodes, and proposals, ratios, leaf values and draws are those of the reference sampler (C103 relates it to the model of the code).
Only arrays that are ever changed in place, or handed out, have a location: the caches of the trees, the running sum of a model, and the results of `predict`. Other arrays (targets, masks, columns) are values. -/

namespace Bart.Arrays
open Reference Spec
variable {K : Type} [Field K] [LinearOrder K] {n p : Nat}

/-- The arrays of length `n`; locations from `next` on are free. -/
structure Mem (K : Type) (n : Nat) where
  next : Nat
  get : Nat → Fin n → K

/-- A new array. -/
def Mem.new (m : Mem K n) (a : Fin n → K) : Nat × Mem K n := (m.next, ⟨m.next + 1, Function.update m.get m.next a⟩)

/-- Change of an array in place. -/
def Mem.write (m : Mem K n) (l : Nat) (a : Fin n → K) : Mem K n := ⟨m.next, Function.update m.get l a⟩

/-- bartpy/tree.py:24-27 `Tree.__init__`: the nodes, `cache_up_to_date` and `_prediction`. -/
structure MTree (K : Type) (p : Nat) where
  nodes : RTree K p
  upToDate : Bool
  prediction : Option Nat

/-- bartpy/tree.py:87-89, the body of the loop for one leaf: the array is made for the first leaf of a new tree (line 88 gives it as many entries as the first node has rows; a sweep calls `predict` before it
changes a tree for the first time, so this node is the root, with all rows); then the rows of the leaf are written in place. -/
def writeLeaf (X : Fin n → Fin p → Fl K) (s : Option Nat × Mem K n) (nd : RNode K p) : Option Nat × Mem K n :=
  match nd.content with
  | .split _ _ => s
  | .leaf v =>
    let (l, m) := match s.1 with
      | none => s.2.new (fun _ => 0)
      | some l => (l, s.2)
    (some l, m.write l (fun i => if nd.reaches (X i) then v else m.get l i))

/-- bartpy/tree.py:76-91 `Tree.predict()`: the location of the cache. -/
def MTree.predict (X : Fin n → Fin p → Fl K) (t : MTree K p) (m : Mem K n) : Option Nat × MTree K p × Mem K n :=
  if t.upToDate then (t.prediction, t, m)
  else
    let (l, m') := t.nodes.foldl (writeLeaf X) (t.prediction, m)
    (l, { t with upToDate := true, prediction := l }, m')

/-- bartpy/model.py:59: the predictions of the trees, one after the other. -/
def predictTrees (X : Fin n → Fin p → Fl K) : List (MTree K p) → Mem K n → Except PyErr (List Nat × List (MTree K p) × Mem K n)
  | [], m => .ok ([], [], m)
  | t :: ts, m =>
    match t.predict X m with
    | (none, _, _) => .error .typeError
    | (some l, t', m') =>
      match predictTrees X ts m' with
      | .error e => .error e
      | .ok (ls, ts', m'') => .ok (l :: ls, t' :: ts', m'')

/-- bartpy/model.py:17-42 `Model`: the trees, `_prediction`, sigma, and the memory. -/
structure MModel (K : Type) (n p : Nat) where
  trees : List (MTree K p)
  prediction : Option Nat
  sigma : K
  mem : Mem K n

/-- bartpy/model.py:56-59 `Model.predict()`: the sum is a new array (at least one tree; for no trees numpy's sum is the number 0). -/
def MModel.predict (X : Fin n → Fin p → Fl K) (s : MModel K n p) : Except PyErr (Nat × MModel K n p) :=
  match predictTrees X s.trees s.mem with
  | .error e => .error e
  | .ok (ls, ts, m) =>
    let (l, m') := m.new (fun i => (ls.map (fun a => m.get a i)).sum)
    .ok (l, { s with trees := ts, mem := m' })

variable [MathFns K]

/-- bartpy/model.py:74-78 with bartpy/samplers/schedule.py:50-54: the rest of a sweep over the trees; `pred` is `Model._prediction`. Line 75 is `-=`, line 76 `update_y`, which makes the cache of the tree
out of date (bartpy/tree.py:72), line 78 `+=`. -/
def loop (P : Params K) (pGrow pPrune : K) (X : Fin n → Fin p → Fl K) (y : Fin n → K) (pred : Nat) :
    List (MTree K p) → List (MTree K p) → Mem K n → Rand K → Except PyErr (List Bool × List (MTree K p) × Mem K n × Rand K)
  | done, [], m, r => .ok ([], done, m, r)
  | done, t :: ts, m, r =>
    match t.predict X m with
    | (none, _, _) => .error .typeError
    | (some l, t1, m1) =>
      let m2 := m1.write pred (fun i => m1.get pred i - m1.get l i)
      match treeBody P pGrow pPrune X (fun i => y i - m2.get pred i) t1.nodes r with
      | .error e => .error e
      | .ok (b, nodes, r1) =>
        match MTree.predict X { t1 with nodes := nodes, upToDate := false } m2 with
        | (none, _, _) => .error .typeError
        | (some l', t3, m3) =>
          match loop P pGrow pPrune X y pred (done ++ [t3]) ts (m3.write pred (fun i => m3.get pred i + m3.get l' i)) r1 with
          | .error e => .error e
          | .ok (bs, all, m4, r2) => .ok (b :: bs, all, m4, r2)

/-- bartpy/samplers/sigma.py:16-20: the new sigma from the residuals. -/
def sigmaDraw (c : Settings K) (residual : Fin n → K) (gammas : List K) : Except PyErr (K × List K) :=
  if c.sigmaA + (n : K) / 2 < 0 ∨ c.sigmaB + (1/2) * ∑ i, residual i * residual i < 0 then .error .valueError
  else
    match gammas with
    | [] => .error .outOfDraws
    | g :: gs =>
      match (MathFns.pow g (-(1/2))).toFinite with
      | .error e => .error e
      | .ok v => .ok (v, gs)

/-- bartpy/model.py:71-73: the running sum that `refreshed_trees` changes; the first time it is the result of `predict()`. -/
def MModel.running (X : Fin n → Fin p → Fl K) (s : MModel K n p) : Except PyErr (Nat × MModel K n p) :=
  match s.prediction with
  | some l => .ok (l, s)
  | none => s.predict X

/-- bartpy/samplers/modelsampler.py:23-30 `step` with bartpy/samplers/schedule.py:50-55, bartpy/model.py:71-78 `refreshed_trees` and bartpy/model.py:50-51 `residuals`. -/
def MModel.sweep (c : Settings K) (X : Fin n → Fin p → Fl K) (y : Fin n → K) (s : MModel K n p) (r : Rand K) : Except PyErr (List Bool × MModel K n p × Rand K) :=
  match s.running X with
  | .error e => .error e
  | .ok (pred, s1) =>
    match loop (c.params s1.sigma) c.pGrow c.pPrune X y pred [] s1.trees s1.mem r with
    | .error e => .error e
    | .ok (bs, ts, m, r1) =>
      match MModel.predict X ⟨ts, some pred, s1.sigma, m⟩ with
      | .error e => .error e
      | .ok (l, s2) =>
        match sigmaDraw c (fun i => y i - s2.mem.get l i) r1.gammas with
        | .error e => .error e
        | .ok (v, gs) => .ok (bs, { s2 with sigma := v }, { r1 with gammas := gs })

/-- bartpy/samplers/modelsampler.py:42-43: the burn-in. -/
def burn (c : Settings K) (X : Fin n → Fin p → Fl K) (y : Fin n → K) : Nat → MModel K n p → Rand K → Except PyErr (MModel K n p × Rand K)
  | 0, s, r => .ok (s, r)
  | k + 1, s, r =>
    match s.sweep c X y r with
    | .error e => .error e
    | .ok (_, s1, r1) => burn c X y k s1 r1

/-- bartpy/samplers/modelsampler.py:51-62: the sampling; after the sweeps `ss` with `kept ss` the result of `predict()` is kept, as an array (`trace.append`). -/
def sampling (c : Settings K) (X : Fin n → Fin p → Fl K) (y : Fin n → K) (kept : Nat → Bool) (ss : Nat) : Nat → MModel K n p → Rand K → Except PyErr (List Nat × MModel K n p × Rand K)
  | 0, s, r => .ok ([], s, r)
  | k + 1, s, r =>
    match s.sweep c X y r with
    | .error e => .error e
    | .ok (_, s1, r1) =>
      if kept ss then
        match s1.predict X with
        | .error e => .error e
        | .ok (l, s2) =>
          match sampling c X y kept (ss + 1) k s2 r1 with
          | .error e => .error e
          | .ok (ls, s3, r2) => .ok (l :: ls, s3, r2)
      else sampling c X y kept (ss + 1) k s1 r1

/-- bartpy/model.py:17-48 without initializer: new trees without cache; no array exists. -/
def start (c : Settings K) : MModel K n p := ⟨List.replicate c.nTrees ⟨RTree.root, false, none⟩, none, 1, ⟨0, fun _ _ => 0⟩⟩

/-- bartpy/samplers/modelsampler.py:32-67 `samples`: the kept arrays, read when the chain is finished. -/
def chain (c : Config K) (X : Fin n → Fin p → Fl K) (y : Fin n → K) (kept : Nat → Bool) (r : Rand K) : Except PyErr (List (Fin n → K)) :=
  match burn c.toSettings X y c.nBurn (start c.toSettings) r with
  | .error e => .error e
  | .ok (s, r1) =>
    match sampling c.toSettings X y kept 0 c.nSamples s r1 with
    | .error e => .error e
    | .ok (ls, s2, _) => .ok (ls.map s2.mem.get)

/-- What can be done with a model: a sweep, `predict()`, and `predict()` of one of its trees. -/
inductive Op (K : Type) where
  | sweep (r : Rand K)
  | predict
  | treePredict (i : Nat)

/-- One operation; the array that is returned (none by a sweep). bartpy/model.py:56-59, bartpy/tree.py:76-91, bartpy/samplers/modelsampler.py:23-30. -/
def MModel.run (c : Settings K) (X : Fin n → Fin p → Fl K) (y : Fin n → K) (s : MModel K n p) : Op K → Except PyErr (Option Nat × MModel K n p)
  | .sweep r =>
    match s.sweep c X y r with
    | .error e => .error e
    | .ok (_, s1, _) => .ok (none, s1)
  | .predict =>
    match s.predict X with
    | .error e => .error e
    | .ok (l, s1) => .ok (some l, s1)
  | .treePredict i =>
    match s.trees[i]? with
    | none => .error .indexError
    | some t =>
      match t.predict X s.mem with
      | (l, t', m) => .ok (l, { s with trees := s.trees.set i t', mem := m })

/-- Operations one after the other. -/
def MModel.runAll (c : Settings K) (X : Fin n → Fin p → Fl K) (y : Fin n → K) : List (Op K) → MModel K n p → Except PyErr (MModel K n p)
  | [], s => .ok s
  | o :: os, s =>
    match s.run c X y o with
    | .error e => .error e
    | .ok (_, s1) => MModel.runAll c X y os s1

end Bart.Arrays
