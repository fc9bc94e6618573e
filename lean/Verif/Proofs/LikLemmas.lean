import Verif.Model.Likelihood
import Verif.Proofs.ProposerLemmas

/-! Closed forms of the ratios of bartpy/samplers/unconstrainedtree/likihoodratio.py for proposals. -/

set_option linter.unusedSectionVars false

namespace Bart
open Spec
variable {K : Type} [Field K] [LinearOrder K] {n p : Nat}

/-- Number of splittable columns in the given rows. -/
def colsOf (X : Fin n → Fin p → Fl K) (rows : Fin n → Bool) : Nat :=
  ((List.finRange p).filter (fun j => isNotConstant (column X rows j))).length

/-- Relative frequency of `v` in column `j` (numerator, denominator). -/
def freqOf (X : Fin n → Fin p → Fl K) (rows : Fin n → Bool) (j : Fin p) (v : Fl K) : Int × Int :=
  if (column X rows j).Nodup then (1, (count rows : Int)) else (((column X rows j).countP (fun x => Fl.eq x v) : Nat), (count rows : Int))

/-- The leaves with a splittable column. -/
def splitLeavesOf (X : Fin n → Fin p → Fl K) (t : Tree K n p) : List NodeId :=
  t.leafNodes.filter (fun i => decide (∃ j, isNotConstant (column X (rowsOf (t.heap.dataOf i)) j) = true))

theorem splitLeavesOf_ext {X : Fin n → Fin p → Fl K} {y : Option (Fin n → K)} {t t' : Tree K n p} {s : Shape} (hI : TreeInv X y t s)
    (he : TreeExt t t') : splitLeavesOf X t' = splitLeavesOf X t := by
  unfold splitLeavesOf
  rw [he.leafNodes hI]
  apply List.filter_congr
  intro i hi
  rw [he.rows hI (List.mem_filter.1 hi).1]

theorem mem_splitLeavesOf {X : Fin n → Fin p → Fl K} {t : Tree K n p} {i : NodeId} : i ∈ splitLeavesOf X t ↔ SplittableLeaf X t i := by
  simp [splitLeavesOf, SplittableLeaf]

namespace Lik

theorem nObsv_spec {X : Fin n → Fin p → Fl K} {y : Option (Fin n → K)} {h : Heap K n p} {i : NodeId}
    {path : List (SplitCondition K p)} (hk : NodeOk X y h i path) : (h.dataOf i).X.nObsv = (count (rowsOf (h.dataOf i)) : Int) := by
  rw [hk.inv.X.nObsv, hk.inv.maskX]; rfl

variable [MathFns K]

theorem nSplittableLeaves_spec {X : Fin n → Fin p → Fl K} {y : Option (Fin n → K)} {t : Tree K n p} {s : Shape} (hI : TreeInv X y t s) :
    (nSplittableLeaves t).1 = (splitLeavesOf X t).length ∧ TreeExt t (nSplittableLeaves t).2 := by
  refine ⟨?_, splittableLeaves_ext hI⟩
  unfold nSplittableLeaves splitLeavesOf
  rw [(splittableLeaves_spec hI).2]

/-- The prior of the split of the rows at `(j, v)` as `log_probability_split_within_node` computes it. -/
def withinNode (X : Fin n → Fin p → Fl K) (rows : Fin n → Bool) (j : Fin p) (v : Fl K) : Fl K :=
  Fl.add (Fl.neg (Fl.log (Fl.ofInt (colsOf X rows : Int))))
    (Fl.log (Fl.div (Fl.ofInt (freqOf X rows j v).1) (Fl.ofInt (freqOf X rows j v).2)))

theorem logSplitWithinNode_spec {X : Fin n → Fin p → Fl K} {y : Option (Fin n → K)} {h : Heap K n p} {e u l : NodeId} {c : SplitCondition K p}
    {path : List (SplitCondition K p)} (hk : NodeOk X y h e path) (hl : (h.node u).left = some l)
    (hc : (h.node l).split.combined.mostRecentSplitCondition = some c) :
    ∃ h', logSplitWithinNode h e u = .ok (withinNode X (rowsOf (h.dataOf e)) c.splittingVariable c.splittingValue, h') ∧ HeapExt h h' := by
  obtain ⟨h1, h2, h3⟩ := CovariateMatrix.splittable_spec hk.inv.X
  have hext := HeapExt.setX hk.inv h2 h3
  have hdof := setDataOf_self h e { h.dataOf e with X := (h.dataOf e).X.splittable.2 }
  have hcol : ∀ j, (h.dataOf e).X.splittable.2.col j = column X (rowsOf (h.dataOf e)) j := by
    intro j; rw [h2.col]; exact hk.col j
  have hinv : DataInv ((h.setDataOf e { h.dataOf e with X := (h.dataOf e).X.splittable.2 }).dataOf e) := by
    rw [hdof]; exact (Data.withX_spec hk.inv h2 h3).2
  obtain ⟨p1, p2, p3⟩ := CovariateMatrix.proportionOfValue_spec h3 c.splittingVariable c.splittingValue
  have hext2 := HeapExt.setX (c := ((h.dataOf e).X.splittable.2.proportionOfValue c.splittingVariable c.splittingValue).2) hinv
    (by rw [hdof]; exact p2) p3
  rw [hdof] at hext2
  have hmr : (h.setDataOf e { h.dataOf e with X := (h.dataOf e).X.splittable.2 }).mostRecentSplitCondition u = .ok (some c) := by
    unfold Heap.mostRecentSplitCondition
    rw [show (h.setDataOf e { h.dataOf e with X := (h.dataOf e).X.splittable.2 }).node = h.node from rfl, hl]
    simp only [hc]
  refine ⟨_, ?_, hext.trans hext2⟩
  unfold logSplitWithinNode
  simp only [CovariateMatrix.nSplittable, hmr, hdof, p1]
  congr 2
  have hc1 : (h.dataOf e).X.splittable.1.length = colsOf X (rowsOf (h.dataOf e)) := by
    rw [h1]; unfold CovariateMatrix.refSplittable colsOf
    congr 1
    apply List.filter_congr
    intro j _
    rw [hk.col j]
  have hc2 : (h.dataOf e).X.splittable.2.refProportion c.splittingVariable c.splittingValue =
      freqOf X (rowsOf (h.dataOf e)) c.splittingVariable c.splittingValue := by
    unfold CovariateMatrix.refProportion freqOf
    rw [hcol, h2.mask, hk.inv.maskX]
    rfl
  unfold withinNode
  rw [hc1, hc2]

theorem sumYOf_spec {X : Fin n → Fin p → Fl K} {y : Fin n → K} {h : Heap K n p} {i : NodeId}
    {path : List (SplitCondition K p)} (hk : NodeOk X (some y) h i path) :
    ∃ h', h.sumYOf (h.node i).split.data = .ok (total y (rowsOf (h.dataOf i)), h') ∧ HeapExt h h' := by
  have hs := Data.sumY_spec hk.inv
  unfold Heap.sumYOf
  rw [show h.data (h.node i).split.data = h.dataOf i from rfl]
  cases e : (h.dataOf i).sumY with
  | error er => rw [e] at hs; rw [hk.y] at hs; cases hs.2
  | ok q =>
    obtain ⟨a, b⟩ := q
    rw [e] at hs
    obtain ⟨y1, hy1, hv, sd, di⟩ := hs
    rw [hk.y] at hy1; injection hy1 with hy1; subst hy1
    exact ⟨_, by rw [hv]; rfl, HeapExt.setData sd (fun _ => di)⟩

/-- `log_grow_ratio` on three nodes that are in order. -/
theorem logGrowRatio_spec {X : Fin n → Fin p → Fl K} {y : Fin n → K} {h : Heap K n p} {c l r : NodeId} (hc : ∃ q, NodeOk X (some y) h c q)
    (hl : ∃ q, NodeOk X (some y) h l q) (hr : ∃ q, NodeOk X (some y) h r q) (ltc : c < h.nextNode) (ltl : l < h.nextNode) (ltr : r < h.nextNode)
    (sigma : K) (smu : Fl K) :
    ∃ h', logGrowRatio h c l r sigma smu = .ok (growRatioValue (.fin sigma) smu
        (Fl.ofInt (count (rowsOf (h.dataOf c)))) (Fl.ofInt (count (rowsOf (h.dataOf l)))) (Fl.ofInt (count (rowsOf (h.dataOf r))))
        (.fin (total y (rowsOf (h.dataOf c)))) (.fin (total y (rowsOf (h.dataOf l)))) (.fin (total y (rowsOf (h.dataOf r)))), h') ∧ HeapExt h h' := by
  obtain ⟨qc, kc⟩ := hc
  obtain ⟨ql, kl⟩ := hl
  obtain ⟨qr, kr⟩ := hr
  obtain ⟨h1, e1, x1⟩ := sumYOf_spec kc
  obtain ⟨h2, e2, x2⟩ := sumYOf_spec (x1.nodeOk ltl kl)
  obtain ⟨h3, e3, x3⟩ := sumYOf_spec (x2.nodeOk (ltr.trans_le x1.nextNode) (x1.nodeOk ltr kr))
  refine ⟨h3, ?_, (x1.trans x2).trans x3⟩
  unfold logGrowRatio
  simp only [e1, e2, e3, nObsv_spec kc, nObsv_spec kl, nObsv_spec kr]
  rw [x1.rowsOf ltl kl, (x1.trans x2).rowsOf ltr kr]

section ratios
variable {X : Fin n → Fin p → Fl K} {y : Fin n → K} {t t1 : Tree K n p} {s : Shape}

/-- The value of the likelihood ratio of the cut of `rows` into `rows ∧ x_j <= v` and the rest. -/
def likValue (m : Params K) (X : Fin n → Fin p → Fl K) (y : Fin n → K) (rows : Fin n → Bool) (j : Fin p) (v : Fl K) : Fl K :=
  let L := fun r => rows r && Fl.le (X r j) v
  let R := fun r => rows r && !Fl.le (X r j) v
  growRatioValue (.fin m.sigma) (sigmaM m) (Fl.ofInt (count rows)) (Fl.ofInt (count L)) (Fl.ofInt (count R))
    (.fin (total y rows)) (.fin (total y L)) (.fin (total y R))

theorem likRatio_grow (m : Params K) {h : Heap K n p} {i D L R : NodeId} {j : Fin p} {v : Fl K} (hg : GrowProp X (some y) t h i D L R j v) :
    ∃ h', logLikihoodRatio m h { kind := .grow, existing := i, updated := D } =
      .ok (likValue m X y (rowsOf (h.dataOf i)) j v, h') ∧ HeapExt h h' := by
  obtain ⟨oki, okD, okL, okR⟩ := hg.nodeOk
  obtain ⟨cl, cr, -⟩ := hg.children
  obtain ⟨h', e, x⟩ := logGrowRatio_spec oki okL okR hg.old (hg.lt L (by simp)) (hg.lt R (by simp)) m.sigma (sigmaM m)
  refine ⟨h', ?_, x⟩
  unfold logLikihoodRatio children
  simp only [cl, cr, e]
  unfold likValue
  rw [show rowsOf (h.dataOf L) = _ from funext hg.rowsL, show rowsOf (h.dataOf R) = _ from funext hg.rowsR]

/-- The rule of a pruned node and the rows of its children. -/
theorem PruneProp.cut {y : Option (Fin n → K)} (hX : NoNan X) {h : Heap K n p} {i l r U : NodeId} (hg : PruneProp X y t s h i l r U) :
    ∃ j v, (∃ c, (h.node l).split.combined.mostRecentSplitCondition = some c ∧ c.splittingVariable = j ∧ c.splittingValue = v) ∧
      rule h i = some (j, v) ∧ v ≠ .nan ∧
      (∀ k, rowsOf (h.dataOf l) k = (rowsOf (h.dataOf U) k && Fl.le (X k j) v)) ∧
      (∀ k, rowsOf (h.dataOf r) k = (rowsOf (h.dataOf U) k && !Fl.le (X k j) v)) ∧
      rowsOf (h.dataOf U) = rowsOf (h.dataOf i) := by
  obtain ⟨q, d, h2, h1⟩ := hg.ready
  obtain ⟨a1, a2, a3, a4, a5⟩ := h1
  obtain ⟨b1, b2, b3, b4, b5, cl, cr, hp, hl, hr⟩ := h2
  refine ⟨cl.splittingVariable, cl.splittingValue, ⟨cl, ?_, rfl, rfl⟩, ?_, hp.notNan, ?_, ?_, ?_⟩
  · rw [hl.2.2.2.2.combined]; simp [CombinedCondition.mostRecentSplitCondition, CombinedCondition.init]
  · unfold Spec.rule
    rw [b2]
    simp only [Shape.root]
    rw [hl.2.2.2.2.combined]
    simp [CombinedCondition.init]
  · intro k
    rw [hl.2.2.2.2.rows, a5.rows, List.all_append]
    simp [sat_le hp.opl]
  · intro k
    rw [hr.2.2.2.2.rows, a5.rows, List.all_append]
    simp [hp.sat_compl (x := X k) (hX k _), sat_le hp.opl]
  · funext k
    rw [a5.rows, b5.rows]

theorem likRatio_prune (hX : NoNan X) (m : Params K) {h : Heap K n p} {i l r U : NodeId} (hg : PruneProp X (some y) t s h i l r U) {j : Fin p} {v : Fl K}
    (hrule : rule h i = some (j, v)) :
    ∃ h', logLikihoodRatio m h { kind := .prune, existing := i, updated := U } =
      .ok (Fl.neg (likValue m X y (rowsOf (h.dataOf i)) j v), h') ∧ HeapExt h h' := by
  obtain ⟨oki, okU, okl, okr⟩ := hg.nodeOk
  obtain ⟨cl, cr, -⟩ := hg.children
  obtain ⟨j', v', -, hr2, -, hrl, hrr, hrU⟩ := PruneProp.cut hX hg
  rw [hrule] at hr2
  simp only [Option.some.injEq, Prod.mk.injEq] at hr2
  obtain ⟨rfl, rfl⟩ := hr2
  obtain ⟨h', e, x⟩ := logGrowRatio_spec okU okl okr hg.lt (hg.old l (by simp)) (hg.old r (by simp)) m.sigma (sigmaM m)
  refine ⟨h', ?_, x⟩
  unfold logLikihoodRatio children
  simp only [cl, cr, e]
  unfold likValue
  rw [← hrU, show rowsOf (h.dataOf l) = _ from funext hrl, show rowsOf (h.dataOf r) = _ from funext hrr]

/-- `log_probability_split_within_tree`. -/
def withinTree (nsl : Nat) (w : Fl K) : Fl K := Fl.add (Fl.neg (Fl.log (Fl.ofInt (nsl : Int)))) w

theorem GrowProp.recent {y : Option (Fin n → K)} {h : Heap K n p} {i D L R : NodeId} {j : Fin p} {v : Fl K} (hg : GrowProp X y t h i D L R j v) :
    ∃ c, (h.node L).split.combined.mostRecentSplitCondition = some c ∧ c.splittingVariable = j ∧ c.splittingValue = v := by
  have h1 := hg.rule
  unfold Spec.rule at h1
  rw [hg.children.1] at h1
  simp only [Option.map_eq_some_iff, Prod.mk.injEq] at h1
  obtain ⟨c, h2, h3, h4⟩ := h1
  refine ⟨c, ?_, h3, h4⟩
  unfold CombinedCondition.mostRecentSplitCondition
  rw [if_neg, h2]
  intro h0
  rw [List.length_eq_zero_iff.1 h0] at h2
  simp at h2

theorem withinTree_grow (hI : TreeInv X (some y) t s) (he : TreeExt t t1) {i D L R : NodeId} {j : Fin p} {v : Fl K}
    (hg : GrowProp X (some y) t t1.heap i D L R j v) :
    ∃ t2, logSplitWithinTree t1 { kind := .grow, existing := i, updated := D } =
      .ok (withinTree (splitLeavesOf X t).length (withinNode X (rowsOf (t1.heap.dataOf i)) j v), t2) ∧ TreeExt t1 t2 := by
  obtain ⟨e1, x1⟩ := nSplittableLeaves_spec (hI.ext he)
  have hg1 := hg.ext x1.heap
  obtain ⟨c, hc, rfl, rfl⟩ := GrowProp.recent hg1
  obtain ⟨⟨q, oki⟩, -⟩ := hg1.nodeOk
  obtain ⟨h', e2, x2⟩ := logSplitWithinNode_spec oki hg1.children.1 hc
  refine ⟨{ (nSplittableLeaves t1).2 with heap := h' }, ?_, x1.trans (TreeExt.withHeap x2)⟩
  unfold logSplitWithinTree
  simp only [e2, e1]
  obtain ⟨⟨q, oki0⟩, -⟩ := hg.nodeOk
  rw [splitLeavesOf_ext hI he, x1.heap.rowsOf hg.old oki0]
  rfl

/-- The value of `log_transition_ratio` for a grow. -/
def transGrowValue (q : K) (nPrun nsl : Nat) (w : Fl K) : Fl K :=
  Fl.add (Fl.log (.fin q)) (Fl.sub (Fl.neg (Fl.log (Fl.ofInt ((nPrun : Int) + 1)))) (withinTree nsl w))

theorem transition_grow (hI : TreeInv X (some y) t s) (he : TreeExt t t1) {i D L R : NodeId} {j : Fin p} {v : Fl K}
    (hg : GrowProp X (some y) t t1.heap i D L R j v) {pGrow pPrune : K} (hp : pGrow ≠ 0) :
    ∃ t2, logTransitionRatio pGrow pPrune t1 { kind := .grow, existing := i, updated := D } =
      .ok (transGrowValue (pPrune / pGrow) t.prunableDecisionNodes.length (splitLeavesOf X t).length (withinNode X (rowsOf (t1.heap.dataOf i)) j v), t2) ∧
      TreeExt t1 t2 := by
  obtain ⟨t2, e, x⟩ := withinTree_grow hI he hg
  refine ⟨t2, ?_, x⟩
  unfold logTransitionRatio logGrowTransition nPrunable
  simp only [e, pyDiv, if_neg hp]
  rw [prunable_congr hI he]
  rfl

/-- The value of `log_transition_ratio` for a prune. -/
def transPruneValue (q : K) (nPrun nsl : Nat) (w : Fl K) : Fl K :=
  Fl.add (Fl.log (.fin q)) (Fl.sub (Fl.add (if nsl = 1 then .ninf else Fl.neg (Fl.log (Fl.ofInt ((nsl : Int) - 1)))) w)
    (Fl.neg (Fl.log (Fl.ofInt (nPrun : Int)))))

theorem within_prune (hX : NoNan X) {h : Heap K n p} {i l r U : NodeId} (hg : PruneProp X (some y) t s h i l r U) {j : Fin p} {v : Fl K}
    (hrule : rule h i = some (j, v)) :
    ∃ h', logSplitWithinNode h U i = .ok (withinNode X (rowsOf (h.dataOf i)) j v, h') ∧ HeapExt h h' := by
  obtain ⟨-, ⟨q, okU⟩, -⟩ := hg.nodeOk
  obtain ⟨j', v', ⟨c, hc, e1, e2⟩, hr2, -, -, -, hrU⟩ := PruneProp.cut hX hg
  rw [hrule] at hr2
  simp only [Option.some.injEq, Prod.mk.injEq] at hr2
  obtain ⟨rfl, rfl⟩ := hr2
  subst e1 e2
  obtain ⟨h', e, x⟩ := logSplitWithinNode_spec okU hg.children.1 hc
  exact ⟨h', by rw [e, hrU], x⟩

theorem PruneProp.rule_ext {y : Option (Fin n → K)} {h h' : Heap K n p} {i l r U : NodeId} (hg : PruneProp X y t s h i l r U) (he : HeapExt h h') :
    rule h' i = rule h i := by
  unfold Spec.rule
  rw [he.node i (hg.old i (by simp)), hg.children.1]
  simp only
  rw [he.node l (hg.old l (by simp))]

theorem transition_prune (hX : NoNan X) (hI : TreeInv X (some y) t s) (he : TreeExt t t1) {i l r U : NodeId} (hg : PruneProp X (some y) t s t1.heap i l r U)
    {j : Fin p} {v : Fl K} (hrule : rule t1.heap i = some (j, v)) {pGrow pPrune : K} (hp : pPrune ≠ 0) :
    ∃ t2, logTransitionRatio pGrow pPrune t1 { kind := .prune, existing := i, updated := U } =
      .ok (transPruneValue (pGrow / pPrune) t.prunableDecisionNodes.length (splitLeavesOf X t).length (withinNode X (rowsOf (t1.heap.dataOf i)) j v), t2) ∧
      TreeExt t1 t2 := by
  obtain ⟨e1, x1⟩ := nSplittableLeaves_spec (hI.ext he)
  have hg1 := hg.ext x1.heap
  obtain ⟨⟨q0, oki0⟩, -⟩ := hg.nodeOk
  obtain ⟨h', e2, x2⟩ := within_prune hX hg1 (by rw [PruneProp.rule_ext hg x1.heap]; exact hrule)
  have x12 : TreeExt t1 { (nSplittableLeaves t1).2 with heap := h' } := x1.trans (TreeExt.withHeap x2)
  refine ⟨{ (nSplittableLeaves t1).2 with heap := h' }, ?_, x12⟩
  unfold logTransitionRatio logPruneTransition
  simp only [Tree.growMutation, hg1.children.2.2.1, ne_eq, not_true_eq_false, if_false, e2, pyDiv, if_neg hp, e1, nPrunable]
  rw [prunable_congr hI (he.trans x12), splitLeavesOf_ext hI he, x1.heap.rowsOf (hg.old i (by simp)) oki0]
  rfl

/-- The value of `log_tree_ratio` for a grow of a leaf at depth `d`. -/
def treeGrowValue (m : Params K) (d nsl : Nat) (w : Fl K) : Fl K :=
  Fl.sub (Fl.add (Fl.add (Fl.add (logNodeNotSplit m (d + 1)) (logNodeNotSplit m (d + 1))) (logNodeSplit m d)) (withinTree nsl w)) (logNodeNotSplit m d)

/-- The value of `log_tree_ratio` for a prune of a node at depth `d`. -/
def treePruneValue (m : Params K) (d : Nat) (w : Fl K) : Fl K :=
  Fl.sub (logNodeNotSplit m d) (Fl.add (Fl.add (Fl.add (logNodeNotSplit m (d + 1)) (logNodeNotSplit m (d + 1))) (logNodeSplit m d)) w)

theorem treeRatio_grow (m : Params K) (hI : TreeInv X (some y) t s) (he : TreeExt t t1) {i D L R : NodeId} {j : Fin p} {v : Fl K}
    (hg : GrowProp X (some y) t t1.heap i D L R j v) :
    ∃ t2, logTreeRatio m t1 { kind := .grow, existing := i, updated := D } =
      .ok (treeGrowValue m (t1.heap.node i).depth (splitLeavesOf X t).length (withinNode X (rowsOf (t1.heap.dataOf i)) j v), t2) ∧ TreeExt t1 t2 := by
  obtain ⟨t2, e, x⟩ := withinTree_grow hI he hg
  obtain ⟨c1, c2, c3, c4, c5, c6, -⟩ := hg.children
  refine ⟨t2, ?_, x⟩
  unfold logTreeRatio logTreeRatioGrow children
  simp only [c1, c2, e, c4, c5, c6]
  rfl

theorem treeRatio_prune (hX : NoNan X) (m : Params K) {i l r U : NodeId} (hg : PruneProp X (some y) t s t1.heap i l r U)
    {j : Fin p} {v : Fl K} (hrule : rule t1.heap i = some (j, v)) :
    ∃ t2, logTreeRatio m t1 { kind := .prune, existing := i, updated := U } =
      .ok (treePruneValue m (t1.heap.node i).depth (withinNode X (rowsOf (t1.heap.dataOf i)) j v), t2) ∧ TreeExt t1 t2 := by
  obtain ⟨h', e2, x2⟩ := within_prune hX hg hrule
  obtain ⟨c1, c2, c3, c4, c5, c6, -⟩ := hg.children
  refine ⟨{ t1 with heap := h' }, ?_, TreeExt.withHeap x2⟩
  unfold logTreeRatio logTreeRatioPrune
  simp only [c1, Tree.growMutation, c3, ne_eq, not_true_eq_false, if_false, e2, c4, c5]
  rfl

/-- The log ratio of a grow. -/
theorem ratio_grow (m : Params K) (hI : TreeInv X (some y) t s) (he : TreeExt t t1) {i D L R : NodeId} {j : Fin p} {v : Fl K}
    (hg : GrowProp X (some y) t t1.heap i D L R j v) {pGrow pPrune : K} (hp : pGrow ≠ 0) :
    ∃ t2, logProbabilityRatio m pGrow pPrune t1 { kind := .grow, existing := i, updated := D } =
      .ok (Fl.add (Fl.add
        (transGrowValue (pPrune / pGrow) t.prunableDecisionNodes.length (splitLeavesOf X t).length (withinNode X (rowsOf (t1.heap.dataOf i)) j v))
        (likValue m X y (rowsOf (t1.heap.dataOf i)) j v))
        (treeGrowValue m (t1.heap.node i).depth (splitLeavesOf X t).length (withinNode X (rowsOf (t1.heap.dataOf i)) j v)), t2) ∧ TreeExt t1 t2 := by
  obtain ⟨⟨q0, oki0⟩, -⟩ := hg.nodeOk
  obtain ⟨t2, e2, x2⟩ := transition_grow hI he hg (pPrune := pPrune) hp
  have hg2 := hg.ext x2.heap
  obtain ⟨h3, e3, x3⟩ := likRatio_grow m hg2
  have x3' : TreeExt t2 { t2 with heap := h3 } := TreeExt.withHeap x3
  obtain ⟨t4, e4, x4⟩ := treeRatio_grow m hI ((he.trans x2).trans x3') (hg2.ext x3)
  refine ⟨t4, ?_, (x2.trans x3').trans x4⟩
  unfold logProbabilityRatio
  rw [e2]
  simp only [e3]
  rw [e4]
  have r2 := x2.heap.rowsOf hg.old oki0
  have r3 := (x2.trans x3').heap.rowsOf hg.old oki0
  have n3 := (x2.trans x3').heap.node i hg.old
  simp only at r3 n3
  rw [r2, r3, n3]

/-- The log ratio of a prune. -/
theorem ratio_prune (hX : NoNan X) (m : Params K) (hI : TreeInv X (some y) t s) (he : TreeExt t t1) {i l r U : NodeId}
    (hg : PruneProp X (some y) t s t1.heap i l r U) {j : Fin p} {v : Fl K} (hrule : rule t1.heap i = some (j, v)) {pGrow pPrune : K} (hp : pPrune ≠ 0) :
    ∃ t2, logProbabilityRatio m pGrow pPrune t1 { kind := .prune, existing := i, updated := U } =
      .ok (Fl.add (Fl.add
        (transPruneValue (pGrow / pPrune) t.prunableDecisionNodes.length (splitLeavesOf X t).length (withinNode X (rowsOf (t1.heap.dataOf i)) j v))
        (Fl.neg (likValue m X y (rowsOf (t1.heap.dataOf i)) j v)))
        (treePruneValue m (t1.heap.node i).depth (withinNode X (rowsOf (t1.heap.dataOf i)) j v)), t2) ∧ TreeExt t1 t2 := by
  obtain ⟨⟨q0, oki0⟩, -⟩ := hg.nodeOk
  obtain ⟨t2, e2, x2⟩ := transition_prune hX hI he hg hrule (pGrow := pGrow) hp
  have hg2 := hg.ext x2.heap
  have hrule2 : rule t2.heap i = some (j, v) := by rw [PruneProp.rule_ext hg x2.heap]; exact hrule
  obtain ⟨h3, e3, x3⟩ := likRatio_prune hX m hg2 hrule2
  have x3' : TreeExt t2 { t2 with heap := h3 } := TreeExt.withHeap x3
  have hrule3 : rule ({ t2 with heap := h3 } : Tree K n p).heap i = some (j, v) := by rw [PruneProp.rule_ext hg2 x3]; exact hrule2
  obtain ⟨t4, e4, x4⟩ := treeRatio_prune (t1 := { t2 with heap := h3 }) hX m (hg2.ext x3) hrule3
  refine ⟨t4, ?_, (x2.trans x3').trans x4⟩
  unfold logProbabilityRatio
  rw [e2]
  simp only [e3]
  rw [e4]
  have r2 := x2.heap.rowsOf (hg.old i (by simp)) oki0
  have r3 := (x2.trans x3').heap.rowsOf (hg.old i (by simp)) oki0
  have n3 := (x2.trans x3').heap.node i (hg.old i (by simp))
  simp only at r3 n3
  rw [r2, r3, n3]

/-- The ratio of a proposal can be computed and only fills caches. -/
theorem ratio_ok (hX : NoNan X) (m : Params K) (hI : TreeInv X (some y) t s) (he : TreeExt t t1) {mu : TreeMutation} (hm : IsProposal X (some y) t s t1.heap mu)
    {pGrow pPrune : K} (hp1 : pGrow ≠ 0) (hp2 : pPrune ≠ 0) :
    ∃ v t2, logProbabilityRatio m pGrow pPrune t1 mu = .ok (v, t2) ∧ TreeExt t1 t2 := by
  rcases hm with ⟨i, D, L, R, j, v, rfl, hg⟩ | ⟨i, l, r, U, rfl, hg⟩
  · obtain ⟨t2, e, x⟩ := ratio_grow m hI he hg (pPrune := pPrune) hp1
    exact ⟨_, t2, e, x⟩
  · obtain ⟨j, v, -, hr, -⟩ := PruneProp.cut hX hg
    obtain ⟨t2, e, x⟩ := ratio_prune hX m hI he hg hr (pGrow := pGrow) hp2
    exact ⟨_, t2, e, x⟩

end ratios
end Lik
end Bart
