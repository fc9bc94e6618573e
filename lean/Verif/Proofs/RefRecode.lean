import Verif.Proofs.LayerRecode
import Verif.Proofs.RefMirror

/-! The reference sampler on a table whose columns have been recoded by increasing functions and which has further, constant columns. -/

set_option linter.unusedSectionVars false

namespace Bart.Oblivious.Recode
open Bart Spec Reference
variable {K : Type} [Field K] [LinearOrder K] {n p p' : Nat} (g : Recode K p p')

/-- The content of a node with recoded columns. -/
def content : Content K p → Content K p'
  | .leaf v => .leaf v
  | .split j v => .split (g.at' j) (g.f j v)

def rnode (nd : RNode K p) : RNode K p' := ⟨g.path nd.path, g.content nd.content⟩
def rtree (t : RTree K p) : RTree K p' := t.map g.rnode
def rstate (s : Reference.State K p) : Reference.State K p' := ⟨s.trees.map g.rtree, s.sigma⟩
def rsample (s : List Bool × Reference.State K p) : List Bool × Reference.State K p' := (s.1, g.rstate s.2)
def move : Move K p → Move K p'
  | .grow q j v => .grow (g.path q) (g.at' j) (g.f j v)
  | .prune q j v => .prune (g.path q) (g.at' j) (g.f j v)

theorem cond_inj : Function.Injective g.cond := by
  rintro ⟨j, v, b⟩ ⟨j', v', b'⟩ h
  simp only [cond, Cond.mk.injEq] at h
  obtain ⟨h1, h2, h3⟩ := h
  obtain rfl := g.mono.injective h1
  obtain rfl := g.inj _ h2
  rw [h3]

theorem path_inj : Function.Injective g.path := List.map_injective_iff.2 g.cond_inj

theorem path_snoc (q : List (Cond K p)) (j : Fin p) (v : Fl K) (b : Bool) : g.path q ++ [⟨g.at' j, g.f j v, b⟩] = g.path (q ++ [⟨j, v, b⟩]) := by
  simp [path, cond]

theorem rnode_isLeaf (nd : RNode K p) : (g.rnode nd).isLeaf = nd.isLeaf := by rcases nd with ⟨_, _ | _⟩ <;> rfl

theorem rnode_reaches (nd : RNode K p) {x : Fin p → Fl K} {x' : Fin p' → Fl K} (h : g.Row x x') : (g.rnode nd).reaches x' = nd.reaches x := g.meets nd.path h

theorem rtree_root : g.rtree (RTree.root : RTree K p) = RTree.root := by simp [RTree.root, rtree, rnode, content, path]

theorem rtree_value (t : RTree K p) {x : Fin p → Fl K} {x' : Fin p' → Fl K} (hx : g.Row x x') : (g.rtree t).value x' = t.value x := by
  unfold RTree.value rtree
  rw [List.find?_map]
  have h : (fun nd : RNode K p' => nd.isLeaf && nd.reaches x') ∘ g.rnode = fun nd => nd.isLeaf && nd.reaches x := by
    funext nd; simp [rnode_isLeaf, g.rnode_reaches nd hx]
  rw [h]
  generalize List.find? (fun nd : RNode K p => nd.isLeaf && nd.reaches x) t = o
  rcases o with _ | ⟨_, _ | _⟩ <;> rfl

theorem rforest (ts : List (RTree K p)) {x : Fin p → Fl K} {x' : Fin p' → Fl K} (hx : g.Row x x') : Reference.forest (ts.map g.rtree) x' = Reference.forest ts x := by
  unfold Reference.forest
  rw [List.map_map]
  congr 2
  funext t
  exact g.rtree_value t hx

theorem rtree_hasLeaf (t : RTree K p) (q : List (Cond K p)) : (g.rtree t).hasLeaf (g.path q) = t.hasLeaf q := by
  unfold RTree.hasLeaf rtree
  rw [List.any_map]
  congr 1
  funext nd
  simp only [Function.comp_apply, rnode_isLeaf]
  congr 2
  exact propext g.path_inj.eq_iff

theorem rtree_prunable (t : RTree K p) : (g.rtree t).prunable = g.rtree t.prunable := by
  unfold RTree.prunable
  rw [show g.rtree t = t.map g.rnode from rfl, List.filter_map]
  unfold rtree
  congr 2
  funext nd
  rcases nd with ⟨q, v | ⟨j, v⟩⟩
  · rfl
  · simp only [Function.comp_apply, rnode, content, path_snoc]
    rw [← g.rtree_hasLeaf t, ← g.rtree_hasLeaf t]
    rfl

theorem rtree_apply (t : RTree K p) (mv : Move K p) : (g.rtree t).apply (g.move mv) = g.rtree (t.apply mv) := by
  cases mv with
  | grow q j v =>
    simp only [RTree.apply, move, rtree, List.map_append, List.filter_map, path_snoc]
    congr 1
    congr 2
    funext nd
    simp only [Function.comp_apply, rnode, ne_eq, g.path_inj.eq_iff]
  | prune q j v =>
    simp only [RTree.apply, move, rtree, List.map_append, List.filter_map, path_snoc]
    congr 1
    congr 2
    funext nd
    simp only [Function.comp_apply, rnode, ne_eq, g.path_inj.eq_iff]

theorem rtree_proposePrune (t : RTree K p) (us : List Nat) : proposePrune (g.rtree t) us = (proposePrune t us).map fun a => (g.move a.1, a.2) := by
  unfold proposePrune
  cases us with
  | nil => rfl
  | cons u us =>
    simp only [rtree_prunable]
    unfold rtree
    rw [choice_map]
    rcases choice t.prunable u with e | ⟨q, v | ⟨j, v⟩⟩ <;> rfl

variable {g} {X : Fin n → Fin p → Fl K} {X' : Fin n → Fin p' → Fl K} (hT : g.Table X X')
include hT

namespace Table

theorem rows (nd : RNode K p) : (g.rnode nd).rows X' = nd.rows X := by
  funext r
  exact g.rnode_reaches nd (hT.common r)

theorem rows_leaf (q : List (Cond K p)) (w : K) : RNode.rows X' ⟨g.path q, .leaf w⟩ = RNode.rows X ⟨q, .leaf w⟩ := hT.rows ⟨q, .leaf w⟩

theorem splittable (t : RTree K p) : (g.rtree t).splittable X' = g.rtree (t.splittable X) := by
  unfold RTree.splittable rtree
  rw [List.filter_map]
  congr 2
  funext nd
  simp [rnode_isLeaf, hT.rows, hT.columns]

theorem proposeGrow (t : RTree K p) (us : List Nat) : Reference.proposeGrow X' (g.rtree t) us = (Reference.proposeGrow X t us).map fun a => (g.move a.1, a.2) := by
  unfold Reference.proposeGrow
  rcases us with _ | ⟨u1, _ | ⟨u2, us⟩⟩
  · rfl
  · rfl
  · simp only [hT.splittable]
    rw [show g.rtree (t.splittable X) = (t.splittable X).map g.rnode from rfl, choice_map]
    cases choice (t.splittable X) u1 with
    | error e => rfl
    | ok nd =>
      simp only [Except.map, hT.rows, hT.columns, choice_map]
      cases choice (Reference.columns X (nd.rows X)) u2 with
      | error e => rfl
      | ok j =>
        simp only [Except.map, hT.column, drawCut]
        rcases Reference.drawCut (Spec.column X (nd.rows X) j) us with e | ⟨v, us'⟩ <;> rfl

theorem proposeMove (t : RTree K p) (us : List Nat) (ms : List Method) : Reference.propose X' (g.rtree t) us ms = (Reference.propose X t us ms).map fun a => (g.move a.1, a.2) := by
  induction ms with
  | nil => rfl
  | cons m ms ih =>
    cases m
    · simp only [Reference.propose, hT.splittable, hT.proposeGrow, ih]
      by_cases h : t.splittable X = []
      · rw [if_pos h, if_pos (by rw [h]; rfl)]
      · rw [if_neg h, if_neg (by simpa [rtree] using h)]
        rcases Reference.proposeGrow X t us with e | ⟨mv, us'⟩ <;> rfl
    · simp only [Reference.propose, rtree_prunable, rtree_proposePrune, ih]
      by_cases h : t.prunable = []
      · rw [if_pos h, if_pos (by rw [h]; rfl)]
      · rw [if_neg h, if_neg (by simpa [rtree] using h)]
        rcases Reference.proposePrune t us with e | ⟨mv, us'⟩ <;> rfl

variable [MathFns K]

theorem cutProbability (rows : Fin n → Bool) (j : Fin p) (v : Fl K) : Reference.cutProbability X' rows (g.at' j) (g.f j v) = Reference.cutProbability X rows j v := by
  unfold Reference.cutProbability
  rw [hT.columns, hT.frequency, List.length_map]

theorem likelihood (P : Params K) (y : Fin n → K) (rows : Fin n → Bool) (j : Fin p) (v : Fl K) : Reference.likelihood P X' y rows (g.at' j) (g.f j v) = Reference.likelihood P X y rows j v := by
  unfold Reference.likelihood
  have h : ∀ r, Fl.le (X' r (g.at' j)) (g.f j v) = Fl.le (X r j) v := fun r => by rw [hT.common r j, g.le]
  simp only [h]

theorem ratio (P : Params K) (pG pP : K) (y : Fin n → K) (t : RTree K p) (mv : Move K p) : Reference.ratio P pG pP X' y (g.rtree t) (g.move mv) = Reference.ratio P pG pP X y t mv := by
  cases mv <;>
  simp only [Reference.ratio, move, hT.splittable, rtree_prunable, hT.rows_leaf, hT.cutProbability, hT.likelihood, show ∀ u : RTree K p, (g.rtree u).length = u.length from fun u => List.length_map _,
    show ∀ q : List (Cond K p), (g.path q).length = q.length from fun q => List.length_map _]

theorem rtreeStep (P : Params K) (pG pP : K) (y : Fin n → K) (t : RTree K p) (r : Rand K) :
    Reference.treeStep P pG pP X' y (g.rtree t) r = (Reference.treeStep P pG pP X y t r).map fun a => (a.1, g.rtree a.2.1, a.2.2) := by
  unfold Reference.treeStep
  rw [hT.proposeMove]
  rcases Reference.propose X t r.picks r.methods with e | ⟨mv, us, ms⟩
  · rfl
  · simp only [Except.map]
    rcases r.uniforms with _ | ⟨u, uniforms⟩
    · rfl
    · simp only [hT.ratio, rtree_apply]
      by_cases h : Fl.lt (.fin u) (Reference.ratio P pG pP X y t mv) = true
      · rw [if_pos h, if_pos h]
      · rw [if_neg h, if_neg h]

theorem rleafValues (P : Params K) (y : Fin n → K) (t : RTree K p) (zs : List K) :
    Reference.leafValues P X' y (g.rtree t) zs = (Reference.leafValues P X y t zs).map fun a => (g.rtree a.1, a.2) := by
  induction t generalizing zs with
  | nil => rfl
  | cons nd t ih =>
    rw [show g.rtree (nd :: t) = g.rnode nd :: g.rtree t from rfl]
    rcases nd with ⟨q, v | ⟨j, v⟩⟩
    · cases zs with
      | nil => rfl
      | cons z zs =>
        simp only [rnode, content, Reference.leafValues, hT.rows_leaf]
        cases (Sampler.leafValue P (Fl.ofInt (count (RNode.rows X ⟨q, .leaf v⟩))) (.fin (total y (RNode.rows X ⟨q, .leaf v⟩))) (.fin z)).toFinite with
        | error e => rfl
        | ok w =>
          simp only
          rw [ih]
          rcases Reference.leafValues P X y t zs with e | ⟨t', zs'⟩ <;> rfl
    · simp only [rnode, content, Reference.leafValues]
      rw [ih]
      rcases Reference.leafValues P X y t zs with e | ⟨t', zs'⟩ <;> rfl

theorem rtreeBody (P : Params K) (pG pP : K) (y : Fin n → K) (t : RTree K p) (r : Rand K) :
    Reference.treeBody P pG pP X' y (g.rtree t) r = (Reference.treeBody P pG pP X y t r).map fun a => (a.1, g.rtree a.2.1, a.2.2) := by
  unfold Reference.treeBody
  rw [hT.rtreeStep]
  rcases Reference.treeStep P pG pP X y t r with e | ⟨b, t1, r1⟩
  · rfl
  · simp only [Except.map]
    rw [hT.rleafValues]
    rcases Reference.leafValues P X y t1 r1.normals with e | ⟨t2, zs⟩ <;> rfl

theorem rsweepTrees (P : Params K) (pG pP : K) (y : Fin n → K) (ts done : List (RTree K p)) (r : Rand K) :
    Reference.sweepTrees P pG pP X' y (done.map g.rtree) (ts.map g.rtree) r = (Reference.sweepTrees P pG pP X y done ts r).map fun a => (a.1, a.2.1.map g.rtree, a.2.2) := by
  induction ts generalizing done r with
  | nil => rfl
  | cons t ts ih =>
    simp only [List.map_cons, Reference.sweepTrees]
    rw [← List.map_append, show (fun i => y i - Reference.forest ((done ++ ts).map g.rtree) (X' i)) = fun i => y i - Reference.forest (done ++ ts) (X i) from
      funext fun i => by rw [g.rforest _ (hT.common i)], hT.rtreeBody]
    rcases Reference.treeBody P pG pP X (fun i => y i - Reference.forest (done ++ ts) (X i)) t r with e | ⟨b, t1, r1⟩
    · rfl
    · simp only [Except.map]
      rw [show done.map g.rtree ++ [g.rtree t1] = (done ++ [t1]).map g.rtree by simp, ih]
      rcases Reference.sweepTrees P pG pP X y (done ++ [t1]) ts r1 with e | ⟨bs, all, r2⟩ <;> rfl

theorem rsigmaStep (c : Settings K) (y : Fin n → K) (ts : List (RTree K p)) (gs : List K) : Reference.sigmaStep c X' y (ts.map g.rtree) gs = Reference.sigmaStep c X y ts gs := by
  unfold Reference.sigmaStep
  have h : ∀ i, Reference.forest (ts.map g.rtree) (X' i) = Reference.forest ts (X i) := fun i => g.rforest _ (hT.common i)
  simp only [h]

theorem rsweep (c : Settings K) (y : Fin n → K) (s : Reference.State K p) (r : Rand K) :
    Reference.sweep c X' y (g.rstate s) r = (Reference.sweep c X y s r).map fun a => (a.1, g.rstate a.2.1, a.2.2) := by
  unfold Reference.sweep
  have h := hT.rsweepTrees (c.params s.sigma) c.pGrow c.pPrune y s.trees [] r
  rw [List.map_nil] at h
  rw [show (g.rstate s).sigma = s.sigma from rfl, show (g.rstate s).trees = s.trees.map g.rtree from rfl, h]
  rcases Reference.sweepTrees (c.params s.sigma) c.pGrow c.pPrune X y [] s.trees r with e | ⟨bs, ts, r1⟩
  · rfl
  · simp only [Except.map, hT.rsigmaStep]
    rcases Reference.sigmaStep c X y ts r1.gammas with e | ⟨v, gs⟩ <;> rfl

theorem rsweeps (c : Settings K) (y : Fin n → K) (k : Nat) (s : Reference.State K p) (r : Rand K) :
    Reference.sweeps c X' y k (g.rstate s) r = (Reference.sweeps c X y k s r).map fun a => (a.1.map g.rsample, g.rstate a.2.1, a.2.2) := by
  induction k generalizing s r with
  | zero => rfl
  | succ k ih =>
    simp only [Reference.sweeps, hT.rsweep]
    rcases Reference.sweep c X y s r with e | ⟨bs, s1, r1⟩
    · rfl
    · simp only [Except.map, ih]
      rcases Reference.sweeps c X y k s1 r1 with e | ⟨l, s2, r2⟩ <;> rfl

variable [FloorRing K] [IsStrictOrderedRing K]

theorem rchain (c : Config K) (y : Fin n → K) (r : Rand K) : Reference.chain c X' y r = (Reference.chain c X y r).map (List.map g.rsample) := by
  unfold Reference.chain
  have h := hT.rsweeps c.toSettings y (c.nBurn + c.nSamples) (Reference.start c.toSettings) r
  rw [show g.rstate (Reference.start c.toSettings) = Reference.start c.toSettings by simp [Reference.start, rstate, rtree_root]] at h
  rw [h]
  rcases Reference.sweeps c.toSettings X y (c.nBurn + c.nSamples) (Reference.start c.toSettings) r with e | ⟨l, s2, r2⟩
  · rfl
  · simp only [Except.map, List.getElem?_map, List.map_filterMap]

theorem rchains (c : Config K) (y : Fin n → K) (rs : List (Rand K)) : Reference.chains c X' y rs = (Reference.chains c X y rs).map (List.map g.rsample) := by
  induction rs with
  | nil => rfl
  | cons r rs ih =>
    simp only [Reference.chains, hT.rchain, ih]
    cases Reference.chain c X y r with
    | error e => rfl
    | ok l =>
      cases Reference.chains c X y rs with
      | error e => rfl
      | ok ls => simp [Except.map]

theorem rfit (c : Config K) (lo hi : K) (y : Fin n → K) (rs : Nat → Rand K) : Reference.fit c X' lo hi y rs = (Reference.fit c X lo hi y rs).map (List.map g.rsample) := hT.rchains c _ _

end Table
end Bart.Oblivious.Recode
