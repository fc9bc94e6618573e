import Verif.Proofs.Transport

/-! The change of `Verif/Proofs/Transport.lean` commutes with the operations on trees, the proposer, the likelihood ratios and the samplers. -/

set_option linter.unusedSectionVars false

namespace Bart.Trans
variable {K : Type} [Field K] [LinearOrder K] {n p : Nat} (T : Trans K p)

/-! ### trees -/

theorem tree_ofData (d : Data K n p) : Tree.ofData (T.data d) = T.tree (Tree.ofData d) := by
  have h : (CombinedCondition.init [] : CombinedCondition K p) = T.comb (CombinedCondition.init []) := comb_init T []
  simp only [Tree.ofData, tree, heap, node, split]
  rw [← h]

theorem tree_leafNodes (t : Tree K n p) : (T.tree t).leafNodes = t.leafNodes := rfl
theorem tree_prunable (t : Tree K n p) : (T.tree t).prunableDecisionNodes = t.prunableDecisionNodes := rfl

theorem heap_filterSplittable (l : List Nat) (h : Heap K n p) :
    Tree.filterSplittable l (T.heap h) = ((Tree.filterSplittable l h).1, T.heap (Tree.filterSplittable l h).2) := by
  induction l generalizing h with
  | nil => rfl
  | cons i l ih => simp only [Tree.filterSplittable, heap_isSplittable, ih]

theorem tree_splittableLeafNodes (t : Tree K n p) : (T.tree t).splittableLeafNodes = (t.splittableLeafNodes.1, T.tree t.splittableLeafNodes.2) := by
  have h : (T.tree t).heap = T.heap t.heap := rfl
  simp only [Tree.splittableLeafNodes, tree_leafNodes, h, heap_filterSplittable]; rfl

theorem heap_updateNodes (y : Option (Fin n → K)) (fuel : Nat) (l : List Nat) (h : Heap K n p) :
    Tree.updateNodes y fuel l (T.heap h) = (Tree.updateNodes y fuel l h).map T.heap := by
  induction l generalizing h with
  | nil => rfl
  | cons i l ih =>
    simp only [Tree.updateNodes, heap_nodeUpdateY]
    cases h.nodeUpdateY y fuel i with
    | error e => rfl
    | ok h1 => exact ih h1

theorem tree_updateY (t : Tree K n p) (y : Option (Fin n → K)) : (T.tree t).updateY y = (t.updateY y).map T.tree := by
  unfold Tree.updateY
  have h : (T.tree t).heap = T.heap t.heap := rfl
  have h2 : (T.heap t.heap).nextNode = t.heap.nextNode := rfl
  have h3 : (T.tree t).nodes = t.nodes := rfl
  rw [h, h2, h3, heap_updateNodes]
  cases Tree.updateNodes y (t.heap.nextNode + 1) t.nodes t.heap <;> rfl

theorem tree_predictLoop (t : Tree K n p) (l : List Nat) (b : PredBuf K n) : (T.tree t).predictLoop l b = t.predictLoop l b := by
  induction l generalizing b with
  | nil => rfl
  | cons i l ih =>
    simp only [Tree.predictLoop, ih]
    rfl

theorem tree_predict (t : Tree K n p) : (T.tree t).predict = t.predict.map (fun x => (x.1, T.tree x.2)) := by
  unfold Tree.predict
  have h1 : (T.tree t).cacheUpToDate = t.cacheUpToDate := rfl
  have h2 : (T.tree t).prediction = t.prediction := rfl
  rw [h1, h2, tree_leafNodes, tree_predictLoop]
  split
  · rfl
  · cases t.predictLoop t.leafNodes t.prediction <;> rfl

theorem tree_predictX {q : Nat} (t : Tree K n p) (X : Fin q → Fin p → Fl K) : (T.tree t).predictX (T.mat X) = t.predictX X := by
  unfold Tree.predictX
  rw [tree_leafNodes]
  congr 1
  funext pred i r
  have h : Heap.outOfSample ((T.tree t).heap.node i).split (T.mat X r) = Heap.outOfSample (t.heap.node i).split (X r) := outOfSample T _ _
  rw [h]; rfl

theorem heap_relinkNode (h : Heap K n p) (m : TreeMutation) (i : Nat) : Tree.relinkNode (T.heap h) m i = T.heap (Tree.relinkNode h m i) := by
  have e1 : ∀ (h : Heap K n p), (if ((T.heap h).node i).right = some m.existing then (T.heap h).setNode i { (T.heap h).node i with right := some m.updated } else T.heap h) =
      T.heap (if (h.node i).right = some m.existing then h.setNode i { h.node i with right := some m.updated } else h) := by
    intro h
    have e : ((T.heap h).node i).right = (h.node i).right := rfl
    rw [e]
    split
    · exact heap_setNode T h i { h.node i with right := some m.updated }
    · rfl
  have e2 : ∀ (h : Heap K n p), (if ((T.heap h).node i).left = some m.existing then (T.heap h).setNode i { (T.heap h).node i with left := some m.updated } else T.heap h) =
      T.heap (if (h.node i).left = some m.existing then h.setNode i { h.node i with left := some m.updated } else h) := by
    intro h
    have e : ((T.heap h).node i).left = (h.node i).left := rfl
    rw [e]
    split
    · exact heap_setNode T h i { h.node i with left := some m.updated }
    · rfl
  simp only [Tree.relinkNode, e1, e2]

theorem heap_foldl_relink (l : List Nat) (m : TreeMutation) (h : Heap K n p) :
    l.foldl (fun h i => Tree.relinkNode h m i) (T.heap h) = T.heap (l.foldl (fun h i => Tree.relinkNode h m i) h) := by
  induction l generalizing h with
  | nil => rfl
  | cons i l ih => simp only [List.foldl_cons, heap_relinkNode, ih]

theorem tree_mutate (t : Tree K n p) (m : TreeMutation) : (T.tree t).mutate m = (t.mutate m).map T.tree := by
  unfold Tree.mutate
  have h : Tree.mutateNodes (T.tree t).heap (T.tree t).nodes m = Tree.mutateNodes t.heap t.nodes m := rfl
  have h2 : (T.tree t).heap = T.heap t.heap := rfl
  rw [h]
  cases Tree.mutateNodes t.heap t.nodes m with
  | error e => rfl
  | ok ns => simp only [h2, heap_foldl_relink]; rfl

theorem heap_growMutation (h : Heap K n p) (i j : Nat) : Tree.growMutation (T.heap h) i j = Tree.growMutation h i j := rfl
theorem heap_pruneMutation (h : Heap K n p) (i j : Nat) : Tree.pruneMutation (T.heap h) i j = Tree.pruneMutation h i j := rfl

/-! ### proposer -/

theorem heap_setX (h : Heap K n p) (i : Nat) (c : CovariateMatrix K n p) :
    (T.heap h).setDataOf i { T.data (h.dataOf i) with X := T.cov c } = T.heap (h.setDataOf i { h.dataOf i with X := c }) :=
  heap_setDataOf T h i { h.dataOf i with X := c }

theorem data_X (d : Data K n p) : (T.data d).X = T.cov d.X := rfl

theorem heap_sampleSplitCondition (h : Heap K n p) (i : Nat) (us : List Nat) :
    Tree.sampleSplitCondition (T.heap h) i us = (T.heap (Tree.sampleSplitCondition h i us).1, (Tree.sampleSplitCondition h i us).2.1,
      (Tree.sampleSplitCondition h i us).2.2.map (fun c => (T.cond c.1, T.cond c.2))) := by
  unfold Tree.sampleSplitCondition
  simp only [heap_dataOf, data_X, cov_splittable, heap_setX]
  cases us with
  | nil => rfl
  | cons u us =>
    simp only []
    cases choice (h.dataOf i).X.splittable.1 u with
    | error e => rfl
    | ok v =>
      simp only [cov_randomSplittableValue]
      generalize (h.setDataOf i { h.dataOf i with X := (h.dataOf i).X.splittable.2 }) = h1
      cases (h1.dataOf i).X.randomSplittableValue v us with
      | error e => rfl
      | ok x => simp only [Except.map, heap_setX]; rfl

theorem heap_sampleSplitNode (h : Heap K n p) (i : Nat) (us : List Nat) :
    Tree.sampleSplitNode (T.heap h) i us = (T.heap (Tree.sampleSplitNode h i us).1, (Tree.sampleSplitNode h i us).2.1, (Tree.sampleSplitNode h i us).2.2) := by
  unfold Tree.sampleSplitNode
  rw [heap_sampleSplitCondition]
  rcases Tree.sampleSplitCondition h i us with ⟨h1, us1, e | ⟨c0, c1⟩⟩
  · rfl
  · simp only [Except.map, heap_splitNode]
    cases h1.splitNode i c0 c1 <;> rfl

theorem tree_sampleGrow (t : Tree K n p) (us : List Nat) :
    (T.tree t).sampleGrow us = (T.tree (t.sampleGrow us).1, (t.sampleGrow us).2.1, (t.sampleGrow us).2.2) := by
  unfold Tree.sampleGrow
  simp only [tree_splittableLeafNodes]
  split
  · rfl
  · cases us with
    | nil => rfl
    | cons u us =>
      simp only []
      cases choice t.splittableLeafNodes.1 u with
      | error e => rfl
      | ok i =>
        have h2 : (T.tree t.splittableLeafNodes.2).heap = T.heap t.splittableLeafNodes.2.heap := rfl
        simp only [h2, heap_sampleSplitNode]
        rcases Tree.sampleSplitNode t.splittableLeafNodes.2.heap i us with ⟨h1, us1, e | d⟩ <;> rfl

theorem tree_samplePrune (t : Tree K n p) (us : List Nat) :
    (T.tree t).samplePrune us = (T.tree (t.samplePrune us).1, (t.samplePrune us).2.1, (t.samplePrune us).2.2) := by
  unfold Tree.samplePrune
  simp only [tree_prunable]
  by_cases h : t.prunableDecisionNodes.length = 0
  · simp only [h, if_true]
  · simp only [h, if_false]
    cases us with
    | nil => rfl
    | cons u us =>
      simp only []
      cases choice t.prunableDecisionNodes u with
      | error e => rfl
      | ok i =>
        have h2 : (T.tree t).heap = T.heap t.heap := rfl
        have h3 : ((T.heap t.heap).node i).split = T.split (t.heap.node i).split := rfl
        have h4 : ((T.heap t.heap).node i).depth = (t.heap.node i).depth := rfl
        simp only [h2, h3, h4, heap_newLeaf]; rfl

theorem tree_sampleMethod (t : Tree K n p) (m : Method) (us : List Nat) :
    (T.tree t).sampleMethod m us = (T.tree (t.sampleMethod m us).1, (t.sampleMethod m us).2.1, (t.sampleMethod m us).2.2) := by
  cases m
  · exact tree_sampleGrow T t us
  · exact tree_samplePrune T t us

theorem tree_propose (t : Tree K n p) (us : List Nat) (ms : List Method) :
    (T.tree t).propose us ms = (t.propose us ms).map (fun x => (x.1, T.tree x.2.1, x.2.2)) := by
  induction ms generalizing t us with
  | nil => rfl
  | cons m ms ih =>
    simp only [Tree.propose, tree_sampleMethod]
    rcases t.sampleMethod m us with ⟨t1, us1, e | mu⟩
    · cases e <;> first | exact ih t1 us1 | rfl
    · rfl

/-! ### likelihood ratios -/

variable [MathFns K]

theorem heap_logGrowRatio (h : Heap K n p) (c l r : Nat) (s : K) (sm : Fl K) :
    Lik.logGrowRatio (T.heap h) c l r s sm = (Lik.logGrowRatio h c l r s sm).map (fun x => (x.1, T.heap x.2)) := by
  unfold Lik.logGrowRatio
  have e1 : ∀ (h : Heap K n p) i, ((T.heap h).node i).split.data = (h.node i).split.data := fun _ _ => rfl
  have e2 : ∀ (h : Heap K n p) i, ((T.heap h).dataOf i).X.nObsv = (h.dataOf i).X.nObsv := fun _ _ => rfl
  simp only [e1, e2, heap_sumYOf]
  cases h.sumYOf (h.node c).split.data with
  | error e => rfl
  | ok x =>
    simp only [Except.map, e1, heap_sumYOf]
    cases x.2.sumYOf (x.2.node l).split.data with
    | error e => rfl
    | ok x2 =>
      simp only [Except.map, e1, heap_sumYOf]
      cases x2.2.sumYOf (x2.2.node r).split.data <;> rfl

theorem heap_children (h : Heap K n p) (i : Nat) : Lik.children (T.heap h) i = Lik.children h i := rfl

theorem heap_logLikihoodRatio (m : Params K) (h : Heap K n p) (mu : TreeMutation) :
    Lik.logLikihoodRatio m (T.heap h) mu = (Lik.logLikihoodRatio m h mu).map (fun x => (x.1, T.heap x.2)) := by
  unfold Lik.logLikihoodRatio
  simp only [heap_children, heap_logGrowRatio]
  cases mu.kind with
  | grow => simp only []; cases Lik.children h mu.updated <;> rfl
  | prune =>
    simp only []
    cases Lik.children h mu.existing with
    | error e => rfl
    | ok x =>
      simp only []
      cases Lik.logGrowRatio h mu.updated x.1 x.2 m.sigma (Lik.sigmaM m) <;> rfl
  | other => rfl

theorem tree_nSplittableLeaves (t : Tree K n p) : Lik.nSplittableLeaves (T.tree t) = ((Lik.nSplittableLeaves t).1, T.tree (Lik.nSplittableLeaves t).2) := by
  simp only [Lik.nSplittableLeaves, tree_splittableLeafNodes]

theorem heap_logSplitWithinNode (h : Heap K n p) (i j : Nat) :
    Lik.logSplitWithinNode (T.heap h) i j = (Lik.logSplitWithinNode h i j).map (fun x => (x.1, T.heap x.2)) := by
  unfold Lik.logSplitWithinNode
  simp only [heap_dataOf, data_X, cov_nSplittable, heap_setX, heap_mostRecent]
  generalize (h.setDataOf i { h.dataOf i with X := (h.dataOf i).X.nSplittable.2 }) = h1
  rcases h1.mostRecentSplitCondition j with e | _ | c
  · rfl
  · rfl
  · simp only [Except.map, Option.map_some]
    have e1 : (T.cond c).splittingVariable = c.splittingVariable := rfl
    have e2 : (T.cond c).splittingValue = T.fl c.splittingVariable c.splittingValue := rfl
    simp only [e1, e2, heap_dataOf, data_X, cov_proportionOfValue, heap_setX]

theorem tree_logSplitWithinTree (t : Tree K n p) (mu : TreeMutation) :
    Lik.logSplitWithinTree (T.tree t) mu = (Lik.logSplitWithinTree t mu).map (fun x => (x.1, T.tree x.2)) := by
  unfold Lik.logSplitWithinTree
  have h2 : (T.tree (Lik.nSplittableLeaves t).2).heap = T.heap (Lik.nSplittableLeaves t).2.heap := rfl
  simp only [tree_nSplittableLeaves, h2, heap_logSplitWithinNode]
  cases Lik.logSplitWithinNode (Lik.nSplittableLeaves t).2.heap mu.existing mu.updated <;> rfl

theorem tree_nPrunable (t : Tree K n p) : Lik.nPrunable (T.tree t) = Lik.nPrunable t := rfl

theorem tree_logTransitionRatio (pg pp : K) (t : Tree K n p) (mu : TreeMutation) :
    Lik.logTransitionRatio pg pp (T.tree t) mu = (Lik.logTransitionRatio pg pp t mu).map (fun x => (x.1, T.tree x.2)) := by
  unfold Lik.logTransitionRatio
  cases mu.kind with
  | grow =>
    simp only [Lik.logGrowTransition, tree_logSplitWithinTree, tree_nPrunable]
    cases Lik.logSplitWithinTree t mu with
    | error e => rfl
    | ok x => simp only [Except.map]; cases Lik.pyDiv pp pg <;> rfl
  | prune =>
    have h2 : (T.tree (Lik.nSplittableLeaves t).2).heap = T.heap (Lik.nSplittableLeaves t).2.heap := rfl
    simp only [Lik.logPruneTransition, tree_nSplittableLeaves, h2, heap_growMutation]
    cases Tree.growMutation (Lik.nSplittableLeaves t).2.heap mu.updated mu.existing with
    | error e => rfl
    | ok g =>
      simp only [heap_logSplitWithinNode]
      cases Lik.logSplitWithinNode (Lik.nSplittableLeaves t).2.heap g.existing g.updated with
      | error e => rfl
      | ok x => simp only [Except.map]; cases Lik.pyDiv pg pp <;> rfl
  | other => rfl

theorem tree_logTreeRatio (m : Params K) (t : Tree K n p) (mu : TreeMutation) :
    Lik.logTreeRatio m (T.tree t) mu = (Lik.logTreeRatio m t mu).map (fun x => (x.1, T.tree x.2)) := by
  have h2 : (T.tree t).heap = T.heap t.heap := rfl
  have e1 : ∀ i, ((T.heap t.heap).node i).depth = (t.heap.node i).depth := fun _ => rfl
  unfold Lik.logTreeRatio
  cases mu.kind with
  | grow =>
    simp only [Lik.logTreeRatioGrow, h2, heap_children, e1, tree_logSplitWithinTree]
    cases Lik.children t.heap mu.updated with
    | error e => rfl
    | ok x => simp only []; cases Lik.logSplitWithinTree t mu <;> rfl
  | prune =>
    have e2 : ((T.heap t.heap).node mu.existing).left = (t.heap.node mu.existing).left := rfl
    simp only [Lik.logTreeRatioPrune, h2, e1, e2, heap_growMutation, heap_logSplitWithinNode]
    cases (t.heap.node mu.existing).left with
    | none => rfl
    | some l =>
      simp only []
      cases Tree.growMutation t.heap mu.updated mu.existing with
      | error e => rfl
      | ok g => simp only []; cases Lik.logSplitWithinNode t.heap g.existing g.updated <;> rfl
  | other => rfl

theorem tree_logProbabilityRatio (m : Params K) (pg pp : K) (t : Tree K n p) (mu : TreeMutation) :
    Lik.logProbabilityRatio m pg pp (T.tree t) mu = (Lik.logProbabilityRatio m pg pp t mu).map (fun x => (x.1, T.tree x.2)) := by
  unfold Lik.logProbabilityRatio
  rw [tree_logTransitionRatio]
  cases Lik.logTransitionRatio pg pp t mu with
  | error e => rfl
  | ok x =>
    obtain ⟨a, t1⟩ := x
    have h2 : (T.tree t1).heap = T.heap t1.heap := rfl
    simp only [Except.map, h2, heap_logLikihoodRatio]
    cases Lik.logLikihoodRatio m t1.heap mu with
    | error e => rfl
    | ok y =>
      obtain ⟨b, h3⟩ := y
      have h4 : ({ T.tree t1 with heap := T.heap h3 } : Tree K n p) = T.tree { t1 with heap := h3 } := rfl
      simp only [Except.map, h4, tree_logTreeRatio]
      cases Lik.logTreeRatio m { t1 with heap := h3 } mu <;> rfl

/-! ### samplers -/

theorem tree_treeStep (m : Params K) (pg pp : K) (t : Tree K n p) (r : Rand K) :
    Sampler.treeStep m pg pp (T.tree t) r = (Sampler.treeStep m pg pp t r).map (fun x => (x.1, T.tree x.2.1, x.2.2)) := by
  unfold Sampler.treeStep Sampler.treeSample
  rw [tree_propose]
  cases t.propose r.picks r.methods with
  | error e => rfl
  | ok x =>
    obtain ⟨mu, t1, us, ms⟩ := x
    simp only [Except.map, tree_logProbabilityRatio]
    cases Lik.logProbabilityRatio m pg pp t1 mu with
    | error e => rfl
    | ok y =>
      obtain ⟨ratio, t2⟩ := y
      simp only [Except.map]
      cases r.uniforms with
      | nil => rfl
      | cons u us' =>
        by_cases hu : Fl.lt (.fin u) ratio = true
        · simp only [hu, if_true, tree_mutate]
          cases t2.mutate mu <;> rfl
        · simp only [hu]; rfl

theorem tree_leafStep (m : Params K) (t : Tree K n p) (i : Nat) (r : Rand K) :
    Sampler.leafStep m (T.tree t) i r = (Sampler.leafStep m t i r).map (fun x => (T.tree x.1, x.2)) := by
  unfold Sampler.leafStep
  have h2 : (T.tree t).heap = T.heap t.heap := rfl
  have e1 : ((T.heap t.heap).node i).split.data = (t.heap.node i).split.data := rfl
  have e2 : ((T.heap t.heap).dataOf i).X.nObsv = (t.heap.dataOf i).X.nObsv := rfl
  simp only [h2, e1, e2, heap_sumYOf]
  cases t.heap.sumYOf (t.heap.node i).split.data with
  | error e => rfl
  | ok x =>
    obtain ⟨s, h⟩ := x
    simp only [Except.map]
    cases r.normals with
    | nil => rfl
    | cons z zs =>
      simp only []
      cases (Sampler.leafValue m (Fl.ofInt (t.heap.dataOf i).X.nObsv) (.fin s) (.fin z)).toFinite with
      | error e => rfl
      | ok v => simp only [heap_setValue]; rfl

theorem tree_leafSteps (m : Params K) (l : List Nat) (t : Tree K n p) (r : Rand K) :
    Sampler.leafSteps m l (T.tree t) r = (Sampler.leafSteps m l t r).map (fun x => (T.tree x.1, x.2)) := by
  induction l generalizing t r with
  | nil => rfl
  | cons i l ih =>
    simp only [Sampler.leafSteps, tree_leafStep]
    cases Sampler.leafStep m t i r with
    | error e => rfl
    | ok x => exact ih x.1 x.2

end Bart.Trans
