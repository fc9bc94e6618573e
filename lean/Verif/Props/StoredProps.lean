import Verif.Spec.Stored
import Verif.Proofs.RunRel
import Verif.Props.ModelProps

/-! Stored samples: C46, C47, C69. -/

set_option linter.unusedSectionVars false

namespace Bart
open Spec
variable {K : Type} [Field K] [LinearOrder K] {n p : Nat} {X : Fin n → Fin p → Fl K}

theorem deepCopyNode_view (h : Heap K n p) (i : NodeId) : nodeView (h.deepCopyNode i).2 (h.deepCopyNode i).1 = nodeView h i ∧
    (h.deepCopyNode i).1 = h.nextNode ∧ (h.deepCopyNode i).2.nextNode = h.nextNode + 1 := by
  unfold Heap.deepCopyNode
  simp only
  split
  · next e => refine ⟨?_, rfl, rfl⟩; simp [nodeView, Heap.allocNode, e]
  · next e => refine ⟨?_, rfl, rfl⟩; simp [nodeView, Heap.allocNode, e]

theorem nodeView_ext {h h' : Heap K n p} (x : HeapExt h h') {i : NodeId} (hi : i < h.nextNode) : nodeView h' i = nodeView h i := by
  unfold nodeView; rw [x.node i hi]

/-- The new objects look like the old ones. -/
theorem copyNodes_spec : ∀ (is : List NodeId) (h : Heap K n p), (∀ i ∈ is, i < h.nextNode) →
    List.Forall₂ (fun i c => h.nextNode ≤ c ∧ c < (Tree.copyNodes is h).2.nextNode ∧ nodeView (Tree.copyNodes is h).2 c = nodeView h i) is (Tree.copyNodes is h).1 := by
  intro is
  induction is with
  | nil => intro h _; exact .nil
  | cons i is ih =>
    intro h hi
    have x1 := deepCopyNode_ext h i
    obtain ⟨v1, v2, v3⟩ := deepCopyNode_view h i
    have x2 := copyNodes_ext is (h.deepCopyNode i).2
    show List.Forall₂ _ (i :: is) ((h.deepCopyNode i).1 :: (Tree.copyNodes is (h.deepCopyNode i).2).1)
    have hlt : (h.deepCopyNode i).1 < (h.deepCopyNode i).2.nextNode := by rw [v2, v3]; omega
    refine .cons ⟨by rw [v2], hlt.trans_le x2.nextNode, ?_⟩ ?_
    · exact (nodeView_ext x2 hlt).trans v1
    · have := ih (h.deepCopyNode i).2 (fun j hj => (hi j (by simp [hj])).trans_le x1.nextNode)
      have hmem : ∀ j ∈ is, j < h.nextNode := fun j hj => hi j (by simp [hj])
      clear ih hi x2
      show List.Forall₂ (fun j c => h.nextNode ≤ c ∧ c < (Tree.copyNodes is (h.deepCopyNode i).2).2.nextNode ∧
        nodeView (Tree.copyNodes is (h.deepCopyNode i).2).2 c = nodeView h j) is _
      generalize Tree.copyNodes is (h.deepCopyNode i).2 = q at this
      revert this
      generalize q.1 = l
      intro this
      induction this with
      | nil => exact .nil
      | cons hd _ ih =>
        refine .cons ⟨x1.nextNode.trans hd.1, hd.2.1, ?_⟩ (ih (fun j hj => hmem j (by simp [hj])))
        rw [hd.2.2]
        exact nodeView_ext x1 (hmem _ (by simp))

/-- Out-of-sample prediction depends on what one sees of the nodes only. -/
theorem predictX_view {q : Nat} (t t' : Tree K n p) (h : t'.nodes.map (nodeView t'.heap) = t.nodes.map (nodeView t.heap)) (Z : Fin q → Fin p → Fl K) :
    t'.predictX Z = t.predictX Z := by
  unfold Tree.predictX Tree.leafNodes
  generalize t.nodes = l at h
  generalize t'.nodes = l' at h
  generalize (fun _ : Fin q => (0 : K)) = z
  induction l generalizing l' z with
  | nil =>
    cases l' with
    | nil => rfl
    | cons => simp at h
  | cons a l ih =>
    cases l' with
    | nil => simp at h
    | cons b l' =>
      rw [List.map_cons, List.map_cons, List.cons.injEq] at h
      obtain ⟨h1, h2⟩ := h
      have hk : (t'.heap.node b).kind = (t.heap.node a).kind := congrArg NodeView.kind h1
      have hc : (t'.heap.node b).split.combined = (t.heap.node a).split.combined := congrArg NodeView.condition h1
      have hv : (nodeView t'.heap b).value = (nodeView t.heap a).value := congrArg NodeView.value h1
      simp only [List.filter_cons, hk]
      by_cases hl : (t.heap.node a).kind = .leaf
      · have hv' : (t'.heap.node b).value = (t.heap.node a).value := by
          simp only [nodeView, hk, hl, if_true, Option.some.injEq] at hv; exact hv
        simp only [hl, decide_true, if_true, List.foldl_cons, Heap.outOfSample, hc, hv']
        exact ih _ h2 _
      · simp only [hl, decide_false, Bool.false_eq_true, if_false]
        exact ih _ h2 z

/-- The nodes of a copy, seen after whatever has happened to the tree. -/
theorem copy_untouched (hX : NoNan X) {t t' : Tree K n p} (ht : ReachableTree X t) (h : Untouched t.deepCopy.2 t') :
    t.deepCopy.1.map (nodeView t'.heap) = t.nodes.map (nodeView t.heap) := by
  obtain ⟨y, s, hI⟩ := reachable_tree_inv hX ht
  have hlt : ∀ i ∈ t.nodes, i < t.heap.nextNode := fun i hi => hI.mem_lt hi
  have hs := copyNodes_spec t.nodes t.heap hlt
  have hn : ∀ c, t.heap.nextNode ≤ c → c < t.deepCopy.2.heap.nextNode → nodeView t'.heap c = nodeView t.deepCopy.2.heap c := by
    intro c h1 h2
    unfold nodeView
    rw [h.node c h2 (fun hc => absurd (hlt c hc) (by omega))]
  show (Tree.copyNodes t.nodes t.heap).1.map _ = _
  have hn' : ∀ c, t.heap.nextNode ≤ c → c < (Tree.copyNodes t.nodes t.heap).2.nextNode → nodeView t'.heap c = nodeView (Tree.copyNodes t.nodes t.heap).2 c := hn
  revert hs hn'
  generalize (Tree.copyNodes t.nodes t.heap).2 = h2
  generalize (Tree.copyNodes t.nodes t.heap).1 = l
  generalize t.nodes = l0
  intro hs hn'
  induction hs with
  | nil => rfl
  | cons hd _ ih =>
    rw [List.map_cons, List.map_cons, ih, hn' _ hd.1 hd.2.1, hd.2.2]

variable [MathFns K]

theorem stored_core (hX : NoNan X) {m m' : BModel K n p} (hm : ∀ t ∈ m.trees, ReachableTree X t) (h : List.Forall₂ Untouched m.deepCopy.2.trees m'.trees) :
    storedContent m' m.deepCopy.1 = liveContent m ∧ ∀ {q : Nat} (Z : Fin q → Fin p → Fl K), m'.storedPredictX m.deepCopy.1 Z = m.predictX Z := by
  have h' : List.Forall₂ (fun t t' => Untouched t.deepCopy.2 t') m.trees m'.trees := by
    have : m.deepCopy.2.trees = m.trees.map (fun t => t.deepCopy.2) := rfl
    rw [this, List.forall₂_map_left_iff] at h
    exact h
  constructor
  · show List.zipWith _ m'.trees (m.trees.map _) = m.trees.map _
    revert h' hm
    generalize m.trees = l
    generalize m'.trees = l'
    intro hm h'
    clear h
    induction h' with
    | nil => rfl
    | cons hd _ ih =>
      simp only [List.map_cons, List.zipWith_cons_cons]
      rw [ih (fun t ht => hm t (by simp [ht])), copy_untouched hX (hm _ (by simp)) hd]
  · intro q Z
    funext r
    unfold BModel.storedPredictX BModel.predictX BModel.storedTrees
    show ((List.zipWith _ m'.trees (m.trees.map _)).map _).sum = _
    congr 1
    revert h' hm
    generalize m.trees = l
    generalize m'.trees = l'
    intro hm h'
    clear h
    induction h' with
    | nil => rfl
    | @cons t t' _ _ hd _ ih =>
      simp only [List.map_cons, List.zipWith_cons_cons]
      rw [ih (fun t ht => hm t (by simp [ht]))]
      congr 1
      have := copy_untouched hX (hm t (by simp)) hd
      exact congrFun (predictX_view t (t'.stored t.deepCopy.1) this Z) r

/-- C46: a sample stored from a model `m` shows for ever what `m` showed at that moment: the attributes of all nodes of all trees, sigma, and
the predictions for any data, whatever sweeps, predictions and further copies follow. -/
theorem C46_frozen (hX : NoNan X) {m m' : BModel K n p} (hm : ReachableModel X m) {pGrow pPrune : K} (hp1 : pGrow ≠ 0) (hp2 : pPrune ≠ 0) {k : Nat}
    (h : ModelRun pGrow pPrune m.deepCopy.2 k m') :
    storedContent m' m.deepCopy.1 = liveContent m ∧ m'.storedSigma m.deepCopy.1 = m.sigma ∧
      ∀ {q : Nat} (Z : Fin q → Fin p → Fl K), m'.storedPredictX m.deepCopy.1 Z = m.predictX Z := by
  have hr := model_trees_reachable hX hm
  have h1 : ∀ t ∈ m.deepCopy.2.trees, ReachableTree X t := by
    intro t ht
    obtain ⟨t0, ht0, rfl⟩ := List.mem_map.1 ht
    exact (hr t0 ht0).copy
  obtain ⟨-, h2⟩ := (untouched_rel hX).run hX hp1 hp2 h1 h
  obtain ⟨a, b⟩ := stored_core hX hr h2
  exact ⟨a, rfl, b⟩

/-- C47, what holds: the number of trees and sigma are those of the model. -/
theorem C47_parameters_partial (hX : NoNan X) {m : BModel K n p} (hm : ReachableModel X m) :
    m.deepCopy.1.nTrees = m.nTrees ∧ m.deepCopy.2.storedSigma m.deepCopy.1 = m.sigma ∧
      m.deepCopy.1.alpha = 95 / 100 ∧ m.deepCopy.1.beta = 2 ∧ m.deepCopy.1.k = 2 := by
  obtain ⟨y0, pg, pp, m0, k, h1, h2, h3, h4⟩ := hm
  obtain ⟨y, -, hI, -⟩ := reachable_model_inv (N := False) hX (fun h => h.elim) h1 h2 h3 h4
  exact ⟨hI.len, rfl, rfl, rfl, rfl⟩

/-- C47 is false: there is a model whose stored samples have another `alpha`, another `beta`; another `k` is possible too. -/
theorem C47_refuted : ¬ ∀ (m : BModel ℚ 3 1), (letI := exFns; ReachableModel exX m) →
    m.deepCopy.1.alpha = m.alpha ∧ m.deepCopy.1.beta = m.beta ∧ m.deepCopy.1.k = m.k := by
  intro h
  letI := exFns
  obtain ⟨m, hm, hP⟩ := exReachModel (fun m => decide (m.deepCopy.1.alpha ≠ m.alpha ∧ m.deepCopy.1.beta ≠ m.beta)) (by decide +kernel)
  exact (of_decide_eq_true hP).1 (h m hm).1

section C46ex
attribute [local instance] exFns

/-- Draws for a second sweep of the example. -/
def exRand2 : Rand ℚ := ⟨[.prune, .prune], [0, 0], [-100000, -100000], [3, 5, 7, 9], [4]⟩

/-- C46, the example: after the copy a sweep changes the predictions of the live model and its sigma; those of the sample stay. -/
theorem exStored (P : BModel ℚ 3 1 → BModel ℚ 3 1 → Bool)
    (h : (match exSweep with
      | .ok (_, m, _) =>
        match m.deepCopy.2.sweep (1/2) (1/2) exRand2 with
        | .ok (_, m', _) => P m m'
        | .error _ => false
      | .error _ => false) = true) :
    ∃ m m', ReachableModel exX m ∧ ModelRun (1/2) (1/2) m.deepCopy.2 1 m' ∧ P m m' = true := by
  unfold exSweep at h
  split at h
  · next mus m r e =>
    split at e
    · next m0 e0 =>
      split at h
      · next mus' m' r' e' =>
        exact ⟨m, m', ⟨exY, 1/2, 1/2, m0, 1, by norm_num, by norm_num, ⟨false, _, _, _, _, _, _, exData_init _ _, e0⟩,
          ModelRun.sweep (ModelRun.nil m0) e⟩, ModelRun.sweep (ModelRun.nil _) e', h⟩
      · cases h
    · cases e
  · cases h

example : ∃ m m', ReachableModel exX m ∧ ModelRun (1/2) (1/2) m.deepCopy.2 1 m' ∧
    decide (m'.predictX exX 0 ≠ m.predictX exX 0 ∧ m'.sigma.current ≠ m.sigma.current ∧ m.trees.map (fun t => t.nodes.length) = [3, 3] ∧
      m'.storedPredictX m.deepCopy.1 exX 0 = m.predictX exX 0) = true :=
  exStored _ (by decide +kernel)

end C46ex

/-! ### C69 -/

/-- Class, depth and conditions of an object never change. -/
structure Lasting (t t' : Tree K n p) : Prop where
  next : t.heap.nextNode ≤ t'.heap.nextNode
  node : ∀ i < t.heap.nextNode, (t'.heap.node i).kind = (t.heap.node i).kind ∧ (t'.heap.node i).depth = (t.heap.node i).depth ∧
    (t'.heap.node i).split = (t.heap.node i).split

theorem Lasting.ofExt {t t' : Tree K n p} (h : HeapExt t.heap t'.heap) : Lasting t t' :=
  ⟨h.nextNode, fun i hi => by rw [h.node i hi]; exact ⟨rfl, rfl, rfl⟩⟩

theorem lasting_rel (hX : NoNan X) : TreeRel X (Lasting (K := K) (n := n) (p := p)) where
  refl t := ⟨le_refl _, fun _ _ => ⟨rfl, rfl, rfl⟩⟩
  trans a b c h h' := ⟨h.next.trans h'.next, fun i hi => by
    obtain ⟨a1, a2, a3⟩ := h.node i hi
    obtain ⟨b1, b2, b3⟩ := h'.node i (hi.trans_le h.next)
    exact ⟨b1.trans a1, b2.trans a2, b3.trans a3⟩⟩
  predict := by
    intro t b t' _ h
    obtain ⟨e1, -⟩ := predict_cases h
    exact ⟨by rw [e1], fun i _ => by rw [e1]; exact ⟨rfl, rfl, rfl⟩⟩
  updateY := by
    intro t y t' ht h
    obtain ⟨y0, s, hI⟩ := reachable_tree_inv hX ht
    obtain ⟨t2, e, -, -, -, -, hu, -⟩ := updateY_spec hI y
    rw [h] at e; injection e with e; subst e
    exact ⟨by rw [hu.nextNode], fun i _ => by rw [hu.node]; exact ⟨rfl, rfl, rfl⟩⟩
  treeStep := by
    intro t m pGrow pPrune r mu t' r' ht hz hp1 hp2 h
    obtain ⟨y, s, hI⟩ := reachable_tree_inv hX ht
    obtain ⟨z, hz⟩ := hz
    have := hI.target hz; subst this
    have h2 := Sampler.treeStep_core hX hI m hp1 hp2 r
    rw [h] at h2
    cases h2 with
    | reject he => exact .ofExt he.heap
    | accept he hp hm =>
      obtain ⟨t2, s', e, -, -, -, -, -, hn, -, hk⟩ := (hp s hI).mutate hI he
      rw [hm] at e; injection e with e; subst e
      refine ⟨by rw [hn]; exact he.heap.nextNode, fun i hi => ?_⟩
      obtain ⟨-, b1, b2, b3⟩ := hk i
      rw [b1, b2, b3, he.heap.node i hi]
      exact ⟨rfl, rfl, rfl⟩
  leafStep := by
    intro t m i r t' r' ht hi h
    obtain ⟨y, s, hI⟩ := reachable_tree_inv hX ht
    obtain ⟨h', v, x, rfl⟩ := Sampler.leafStep_core hI m hi h
    refine ⟨x.nextNode, fun k hk => ?_⟩
    by_cases hki : k = i
    · subst hki; simp [Heap.setValue, Heap.setNode, x.node k hk]
    · simp [Heap.setValue, Heap.setNode, hki, x.node k hk]
  copy := fun _ => .ofExt (copyNodes_ext _ _)

/-- C69, what holds: the children of a stored decision node are the two children that its original had when it was stored (objects of the live tree); their class,
depth and conditions stay what they were, so that `most_recent_split_condition()` and `is_prunable()` of a stored decision node never change. -/
theorem C69_links_partial (hX : NoNan X) {m m' : BModel K n p} (hm : ReachableModel X m) {pGrow pPrune : K} (hp1 : pGrow ≠ 0) (hp2 : pPrune ≠ 0) {k : Nat}
    (h : ModelRun pGrow pPrune m.deepCopy.2 k m') :
    List.Forall₂ (fun t t' : Tree K n p => List.Forall₂ (fun i c => (t.heap.node i).kind = .decision →
        ∃ l r, (t.heap.node i).left = some l ∧ (t.heap.node i).right = some r ∧ (t'.heap.node c).left = some l ∧ (t'.heap.node c).right = some r ∧
          (∀ j, j = l ∨ j = r → j ∈ t.nodes ∧ (t'.heap.node j).kind = (t.heap.node j).kind ∧ (t'.heap.node j).depth = (t.heap.node j).depth ∧
            (t'.heap.node j).split.combined = (t.heap.node j).split.combined) ∧
          t'.heap.isPrunable c = t.heap.isPrunable i ∧ t'.heap.mostRecentSplitCondition c = t.heap.mostRecentSplitCondition i)
      t.nodes t.deepCopy.1) m.trees m'.trees := by
  have hr := model_trees_reachable hX hm
  have h1 : ∀ t ∈ m.deepCopy.2.trees, ReachableTree X t := by
    intro t ht
    obtain ⟨t0, ht0, rfl⟩ := List.mem_map.1 ht
    exact (hr t0 ht0).copy
  obtain ⟨-, h2⟩ := (untouched_rel hX).run hX hp1 hp2 h1 h
  obtain ⟨-, h3⟩ := (lasting_rel hX).run hX hp1 hp2 h1 h
  have e : m.deepCopy.2.trees = m.trees.map (fun t => t.deepCopy.2) := rfl
  rw [e, List.forall₂_map_left_iff] at h2 h3
  clear h h1 e hm
  generalize m.trees = l at *
  generalize m'.trees = l' at *
  induction h2 with
  | nil => exact .nil
  | @cons t t' ts ts' hd _ ih =>
    cases h3 with
    | cons hd3 h3 =>
      refine .cons ?_ (ih (fun t ht => hr t (by simp [ht])) h3)
      have ht := hr t (by simp)
      obtain ⟨y, s, hI⟩ := reachable_tree_inv hX ht
      have hv := copy_untouched hX ht hd
      have hchild : ∀ i ∈ t.nodes, (t.heap.node i).kind = .decision → ∃ l r, (t.heap.node i).left = some l ∧ (t.heap.node i).right = some r ∧ l ∈ t.nodes ∧ r ∈ t.nodes := by
        intro i hi hk
        obtain ⟨l, r, b1, b2, -, b3, b4⟩ := (C15_well_formed hX ht).decision i hi hk
        exact ⟨l, r, b1, b2, b3, b4⟩
      have hlast : ∀ j ∈ t.nodes, (t'.heap.node j).kind = (t.heap.node j).kind ∧ (t'.heap.node j).depth = (t.heap.node j).depth ∧
          (t'.heap.node j).split.combined = (t.heap.node j).split.combined := by
        intro j hj
        have x := copyNodes_ext t.nodes t.heap
        obtain ⟨a1, a2, a3⟩ := hd3.node j ((hI.mem_lt hj).trans_le x.nextNode)
        have : t.deepCopy.2.heap.node j = t.heap.node j := x.node j (hI.mem_lt hj)
        rw [a1, a2, a3, this]
        exact ⟨rfl, rfl, rfl⟩
      have key : ∀ l l' : List NodeId, (∀ i ∈ l, i ∈ t.nodes) → l'.map (nodeView t'.heap) = l.map (nodeView t.heap) → List.Forall₂ (fun i c => (t.heap.node i).kind = .decision →
        ∃ l r, (t.heap.node i).left = some l ∧ (t.heap.node i).right = some r ∧ (t'.heap.node c).left = some l ∧ (t'.heap.node c).right = some r ∧
          (∀ j, j = l ∨ j = r → j ∈ t.nodes ∧ (t'.heap.node j).kind = (t.heap.node j).kind ∧ (t'.heap.node j).depth = (t.heap.node j).depth ∧
            (t'.heap.node j).split.combined = (t.heap.node j).split.combined) ∧
          t'.heap.isPrunable c = t.heap.isPrunable i ∧ t'.heap.mostRecentSplitCondition c = t.heap.mostRecentSplitCondition i) l l' := by
        intro l
        induction l with
        | nil => intro l' _ h; cases l' with
          | nil => exact .nil
          | cons => simp at h
        | cons i l ihl =>
          intro l' hl h
          cases l' with
          | nil => simp at h
          | cons c l' =>
            rw [List.map_cons, List.map_cons, List.cons.injEq] at h
            refine .cons ?_ (ihl l' (fun j hj => hl j (by simp [hj])) h.2)
            intro hk
            obtain ⟨lc, rc, b1, b2, b3, b4⟩ := hchild i (hl i (by simp)) hk
            have v1 : (t'.heap.node c).kind = (t.heap.node i).kind := congrArg NodeView.kind h.1
            have v2 : (nodeView t'.heap c).left = (nodeView t.heap i).left := congrArg NodeView.left h.1
            have v3 : (nodeView t'.heap c).right = (nodeView t.heap i).right := congrArg NodeView.right h.1
            have v2' : (t'.heap.node c).left = some lc := by
              simp only [nodeView, v1, hk, reduceCtorEq, if_false] at v2; rw [v2, b1]
            have v3' : (t'.heap.node c).right = some rc := by
              simp only [nodeView, v1, hk, reduceCtorEq, if_false] at v3; rw [v3, b2]
            obtain ⟨l1, l2, l3⟩ := hlast lc b3
            obtain ⟨r1, r2, r3⟩ := hlast rc b4
            refine ⟨lc, rc, b1, b2, v2', v3', ?_, ?_, ?_⟩
            · rintro j (rfl | rfl)
              · exact ⟨b3, l1, l2, l3⟩
              · exact ⟨b4, r1, r2, r3⟩
            · simp only [Heap.isPrunable, Heap.isLeafPtr, v2', v3', b1, b2, l1, r1]
            · simp only [Heap.mostRecentSplitCondition, v2', b1, l3]
      exact key _ _ (fun i hi => hi) hv

/-- C69 is false: the child of a stored decision node is not a node of the stored tree, and the value found there changes with the live tree. -/
theorem C69_refuted : letI := exFns
    ∃ m m' : BModel ℚ 3 1, ReachableModel exX m ∧ ModelRun (1/2) (1/2) m.deepCopy.2 1 m' ∧
      ∃ t t' : Tree ℚ 3 1, m.trees.head? = some t ∧ m'.trees.head? = some t' ∧ ∃ c ∈ t.deepCopy.1, ∃ l, (t'.heap.node c).kind = .decision ∧
        (t'.heap.node c).left = some l ∧ l ∉ t.deepCopy.1 ∧ (t.deepCopy.2.heap.node c).left = some l ∧
        (t'.heap.node l).value ≠ (t.deepCopy.2.heap.node l).value := by
  letI := exFns
  obtain ⟨m, m', h1, h2, h3⟩ := exStored (fun m m' =>
    match m.trees.head?, m'.trees.head? with
    | some t, some t' => t.deepCopy.1.any (fun c => match (t'.heap.node c).left with
      | some l => decide ((t'.heap.node c).kind = .decision ∧ l ∉ t.deepCopy.1 ∧ (t.deepCopy.2.heap.node c).left = some l ∧
        (t'.heap.node l).value ≠ (t.deepCopy.2.heap.node l).value)
      | none => false)
    | _, _ => false) (by decide +kernel)
  refine ⟨m, m', h1, h2, ?_⟩
  split at h3
  · next t t' e1 e2 =>
    obtain ⟨c, hc, hl⟩ := List.any_eq_true.1 h3
    split at hl
    · next l el =>
      obtain ⟨a1, a2, a3, a4⟩ := of_decide_eq_true hl
      exact ⟨t, t', e1, e2, c, hc, l, a1, el, a2, a3, a4⟩
    · cases hl
  · cases h3

end Bart
