import Verif.Spec.Reference

/-! A reference implementation of the sampler with the oblivious tree sampler, without any cache, mask, link, node or object (specification).

A tree is the list of its growths, one entry for each leaf at the time of the growth, and the values of the leaves. An accepted grow move adds an entry to the list, an accepted prune move
removes the last entry. The leaves are found from the list: from left to right, each with the comparisons on the way to it. Everything else is computed from the training data. -/

namespace Bart.Layers
open Spec Reference
variable {K : Type} [Field K] [LinearOrder K] {n p : Nat}

/-- What became of a leaf in a growth: it was split by `x_column <= cut`, or (if it could not be split) doubled. -/
abbrev Rule (K : Type) (p : Nat) := Option (Fin p × Fl K)

/-- A tree: what became of the leaves (from left to right) in each growth, the last growth first, and the values of the leaves. -/
structure LTree (K : Type) (p : Nat) where
  layers : List (List (Rule K p))
  values : List K

/-- The two leaves that a leaf becomes. -/
def expand (path : List (Cond K p)) : Rule K p → List (List (Cond K p))
  | none => [path, path]
  | some (j, v) => [path ++ [⟨j, v, true⟩], path ++ [⟨j, v, false⟩]]

/-- The leaves from left to right, each with the comparisons from the root to it. -/
def paths : List (List (Rule K p)) → List (List (Cond K p))
  | [] => [[]]
  | rules :: rest => (List.zipWith expand (paths rest) rules).flatten

/-- Does a row satisfy all comparisons? -/
def meets (path : List (Cond K p)) (x : Fin p → Fl K) : Bool := path.all (fun c => c.holds x)

/-- The rows of the training data that satisfy all comparisons. -/
def rowsOn (X : Fin n → Fin p → Fl K) (path : List (Cond K p)) : Fin n → Bool := fun r => meets path (X r)

/-- The tree that is a single leaf with value 0. -/
def LTree.root : LTree K p := ⟨[], [0]⟩

/-- The value of the tree for a row: that of the rightmost leaf whose comparisons it satisfies. -/
def LTree.value (t : LTree K p) (x : Fin p → Fl K) : K :=
  match (((paths t.layers).zip t.values).filter (fun q => meets q.1 x)).getLast? with
  | some q => q.2
  | none => 0

/-- The value of a sum of trees for a row. -/
def forest (ts : List (LTree K p)) (x : Fin p → Fl K) : K := (ts.map (fun t => t.value x)).sum

/-- What becomes of a leaf: if it can be split, it draws a column and a cut; otherwise it is doubled. -/
def growRule (X : Fin n → Fin p → Fl K) (path : List (Cond K p)) (us : List Nat) : Except PyErr (Rule K p × List Nat) :=
  if columns X (rowsOn X path) = [] then .ok (none, us)
  else
    match us with
    | [] => .error .outOfDraws
    | u :: us =>
      match choice (columns X (rowsOn X path)) u with
      | .error e => .error e
      | .ok j =>
        match drawCut (column X (rowsOn X path) j) us with
        | .error e => .error e
        | .ok (v, us1) => .ok (some (j, v), us1)

/-- A growth: the leaves from left to right. -/
def growRules (X : Fin n → Fin p → Fl K) : List (List (Cond K p)) → List Nat → Except PyErr (List (Rule K p) × List Nat)
  | [], us => .ok ([], us)
  | path :: ps, us =>
    match growRule X path us with
    | .error e => .error e
    | .ok (rule, us1) =>
      match growRules X ps us1 with
      | .error e => .error e
      | .ok (l, us2) => .ok (rule :: l, us2)

/-- The column and the value whose frequency counts: those of the split; for a doubled leaf those of the last comparison on the way to it. -/
def counted (path : List (Cond K p)) : Rule K p → Option (Fin p × Fl K)
  | some q => some q
  | none => path.getLast?.map (fun c => (c.column, c.value))

variable [MathFns K]

/-- Log ratio of the marginal likelihoods with and without the growth of a leaf; a doubled leaf is compared with two leaves that have all its rows. -/
def likelihoodOf (P : Params K) (X : Fin n → Fin p → Fl K) (y : Fin n → K) (path : List (Cond K p)) : Rule K p → Fl K
  | some (j, v) => likelihood P X y (rowsOn X path) j v
  | none =>
    let N : Fl K := Fl.ofInt (count (rowsOn X path))
    let S : Fl K := .fin (total y (rowsOn X path))
    Lik.growRatioValue (.fin P.sigma) (Lik.sigmaM P) N N N S S S

/-- The contribution of a leaf at depth `d` to the log ratio of a growth. -/
def growTerm (P : Params K) (pGrow pPrune : K) (X : Fin n → Fin p → Fl K) (y : Fin n → K) (d : Nat) (path : List (Cond K p)) (rule : Rule K p) : Except PyErr (Fl K) :=
  match counted path rule with
  | none => .error .attributeError
  | some (j, v) =>
    let cut := Fl.log (frequency X (rowsOn X path) j v)
    let transition := Fl.add (Fl.log (.fin (pPrune / pGrow))) (Fl.sub (Fl.neg (Fl.log (.fin 1))) cut)
    let prior := Fl.sub (Fl.add (splitPrior P d) cut) (Lik.logNodeNotSplit P d)
    .ok (Fl.add (Fl.add transition (likelihoodOf P X y path rule)) prior)

/-- The contribution of a leaf at depth `d` to the log ratio of taking a growth back. -/
def pruneTerm (P : Params K) (pGrow pPrune : K) (X : Fin n → Fin p → Fl K) (y : Fin n → K) (d : Nat) (path : List (Cond K p)) (rule : Rule K p) : Except PyErr (Fl K) :=
  match counted path rule with
  | none => .error .attributeError
  | some (j, v) =>
    let cut := Fl.log (frequency X (rowsOn X path) j v)
    let transition := Fl.add (Fl.log (.fin (pGrow / pPrune))) cut
    let prior := Fl.sub (Lik.logNodeNotSplit P d) (Fl.add (splitPrior P d) cut)
    .ok (Fl.add (Fl.add transition (Fl.neg (likelihoodOf P X y path rule))) prior)

/-- The sum of the contributions. -/
def sumTerms : List (Except PyErr (Fl K)) → Except PyErr (Fl K)
  | [] => .ok (.fin 0)
  | .error e :: _ => .error e
  | .ok a :: l =>
    match sumTerms l with
    | .error e => .error e
    | .ok b => .ok (Fl.add a b)

/-- A proposal: the growths of the proposed tree, the log ratio, the draws that are left. -/
def propose (P : Params K) (pGrow pPrune : K) (X : Fin n → Fin p → Fl K) (y : Fin n → K) (layers : List (List (Rule K p))) (me : Method) (us : List Nat) :
    Except PyErr (List (List (Rule K p)) × Fl K × List Nat) :=
  match me with
  | .grow =>
    match growRules X (paths layers) us with
    | .error e => .error e
    | .ok (rules, us1) =>
      match sumTerms (List.zipWith (growTerm P pGrow pPrune X y layers.length) (paths layers) rules) with
      | .error e => .error e
      | .ok ratio => .ok (rules :: layers, ratio, us1)
  | .prune =>
    match layers with
    | [] => .ok ([], .fin 0, us)
    | rules :: rest =>
      match sumTerms (List.zipWith (pruneTerm P pGrow pPrune X y rest.length) (paths rest) rules) with
      | .error e => .error e
      | .ok ratio => .ok (rest, ratio, us)

/-- The step: propose the kind of move that is drawn, accept if the next uniform number is less than the log ratio. -/
def treeStep (P : Params K) (pGrow pPrune : K) (X : Fin n → Fin p → Fl K) (y : Fin n → K) (layers : List (List (Rule K p))) (r : Rand K) :
    Except PyErr (Bool × List (List (Rule K p)) × Rand K) :=
  match r.methods with
  | [] => .error .outOfDraws
  | me :: ms =>
    match propose P pGrow pPrune X y layers me r.picks with
    | .error e => .error e
    | .ok (proposed, ratio, us) =>
      match r.uniforms with
      | [] => .error .outOfDraws
      | u :: uniforms =>
        let accept := Fl.lt (.fin u) ratio
        .ok (accept, if accept then proposed else layers, { r with methods := ms, picks := us, uniforms := uniforms })

/-- New values for the leaves from left to right; each takes the next normal number. -/
def leafValues (P : Params K) (X : Fin n → Fin p → Fl K) (y : Fin n → K) : List (List (Cond K p)) → List K → Except PyErr (List K × List K)
  | [], zs => .ok ([], zs)
  | _ :: _, [] => .error .outOfDraws
  | path :: ps, z :: zs =>
    match (Sampler.leafValue P (Fl.ofInt (count (rowsOn X path))) (.fin (total y (rowsOn X path))) (.fin z)).toFinite with
    | .error e => .error e
    | .ok v =>
      match leafValues P X y ps zs with
      | .error e => .error e
      | .ok (l, zs') => .ok (v :: l, zs')

/-- One tree in a sweep: the growths, then the leaf values. -/
def treeBody (P : Params K) (pGrow pPrune : K) (X : Fin n → Fin p → Fl K) (y : Fin n → K) (t : LTree K p) (r : Rand K) : Except PyErr (Bool × LTree K p × Rand K) :=
  match treeStep P pGrow pPrune X y t.layers r with
  | .error e => .error e
  | .ok (b, layers, r1) =>
    match leafValues P X y (paths layers) r1.normals with
    | .error e => .error e
    | .ok (values, zs) => .ok (b, ⟨layers, values⟩, { r1 with normals := zs })

/-- All trees of a sweep, one after the other, each on what the other trees (as they are now) leave unexplained. -/
def sweepTrees (P : Params K) (pGrow pPrune : K) (X : Fin n → Fin p → Fl K) (y : Fin n → K) :
    List (LTree K p) → List (LTree K p) → Rand K → Except PyErr (List Bool × List (LTree K p) × Rand K)
  | done, [], r => .ok ([], done, r)
  | done, t :: ts, r =>
    match treeBody P pGrow pPrune X (fun i => y i - forest (done ++ ts) (X i)) t r with
    | .error e => .error e
    | .ok (b, t1, r1) =>
      match sweepTrees P pGrow pPrune X y (done ++ [t1]) ts r1 with
      | .error e => .error e
      | .ok (bs, all, r2) => .ok (b :: bs, all, r2)

/-- The state of the chain: the trees and sigma. -/
structure State (K : Type) (p : Nat) where
  trees : List (LTree K p)
  sigma : K

/-- The new sigma, from the residuals of all trees. -/
def sigmaStep (c : Settings K) (X : Fin n → Fin p → Fl K) (y : Fin n → K) (ts : List (LTree K p)) (gammas : List K) : Except PyErr (K × List K) :=
  if c.sigmaA + (n : K) / 2 < 0 ∨ c.sigmaB + (1/2) * ∑ i, (y i - forest ts (X i)) * (y i - forest ts (X i)) < 0 then .error .valueError
  else
    match gammas with
    | [] => .error .outOfDraws
    | g :: gs =>
      match (MathFns.pow g (-(1/2))).toFinite with
      | .error e => .error e
      | .ok v => .ok (v, gs)

/-- One Gibbs sweep. -/
def sweep (c : Settings K) (X : Fin n → Fin p → Fl K) (y : Fin n → K) (s : State K p) (r : Rand K) : Except PyErr (List Bool × State K p × Rand K) :=
  match sweepTrees (c.params s.sigma) c.pGrow c.pPrune X y [] s.trees r with
  | .error e => .error e
  | .ok (bs, ts, r1) =>
    match sigmaStep c X y ts r1.gammas with
    | .error e => .error e
    | .ok (v, gs) => .ok (bs, ⟨ts, v⟩, { r1 with gammas := gs })

/-- `k` sweeps: what was accepted and the state after each of them. -/
def sweeps (c : Settings K) (X : Fin n → Fin p → Fl K) (y : Fin n → K) : Nat → State K p → Rand K → Except PyErr (List (List Bool × State K p) × State K p × Rand K)
  | 0, s, r => .ok ([], s, r)
  | k + 1, s, r =>
    match sweep c X y s r with
    | .error e => .error e
    | .ok (bs, s1, r1) =>
      match sweeps c X y k s1 r1 with
      | .error e => .error e
      | .ok (l, s2, r2) => .ok ((bs, s1) :: l, s2, r2)

/-- The state at the beginning: every tree is a single leaf with value 0, and sigma is 1. -/
def start (c : Settings K) : State K p := ⟨List.replicate c.nTrees LTree.root, 1⟩

/-- The samples of a chain: what was accepted in a sweep and the state after it, for the sweeps after the burn-in whose number is a multiple of `1 / thin`. -/
noncomputable def chain (c : Config K) (X : Fin n → Fin p → Fl K) (y : Fin n → K) (r : Rand K) : Except PyErr (List (List Bool × State K p)) :=
  match sweeps c.toSettings X y (c.nBurn + c.nSamples) (start c.toSettings) r with
  | .error e => .error e
  | .ok (l, _, _) => .ok ((storedTimes c.nSamples c.thin).filterMap (fun t => l[c.nBurn + t]?))

/-- The samples of chains that use the given draws, one chain after the other. -/
noncomputable def chains (c : Config K) (X : Fin n → Fin p → Fl K) (y : Fin n → K) : List (Rand K) → Except PyErr (List (List Bool × State K p))
  | [] => .ok []
  | r :: rs =>
    match chain c X y r with
    | .error e => .error e
    | .ok l =>
      match chains c X y rs with
      | .error e => .error e
      | .ok ls => .ok (l ++ ls)

/-- The samples that a fit keeps; chain number `i` uses the draws `rs i`. -/
noncomputable def fit (c : Config K) (X : Fin n → Fin p → Fl K) (lo hi : K) (y : Fin n → K) (rs : Nat → Rand K) : Except PyErr (List (List Bool × State K p)) :=
  chains c X (scaled lo hi y) ((List.range c.nChains).map rs)

/-- The prediction for a row: the mean over the samples, on the scale of the target. -/
def prediction (lo hi : K) (samples : List (List Bool × State K p)) (x : Fin p → Fl K) : K :=
  ((samples.map (fun s => forest s.2.trees x)).sum / (samples.length : K) + 1 / 2) * (hi - lo) + lo

/-- The share of the trees whose change was accepted in a sweep (none if there are no trees). -/
def acceptedShare (s : List Bool × State K p) : Option K := if s.1 = [] then none else some (((s.1.count true : Nat) : K) / (s.1.length : K))

end Bart.Layers
