import Verif.Props.ReferenceProps
import Verif.Props.FeatureProps
import Verif.Model.Diagnostics

/-! Property theorems C120: the trees that are stored and what the diagnostics of trees make of them. -/

set_option linter.unusedSectionVars false

namespace Bart
open Spec Reference
variable {K : Type} [Field K] [LinearOrder K] {n p : Nat} {X : Fin n → Fin p → Fl K}

/-! ### splits of a tree -/

theorem look_splitsOn (t : Tree K n p) (j : Fin p) : splitsOn (look t) j = decisionsOn t j := by
  unfold splitsOn look decisionsOn Tree.decisionNodes
  rw [List.countP_map, List.filter_filter, ← List.countP_eq_length_filter]
  apply List.countP_congr
  intro i _
  simp only [Function.comp, lookNode, contentOf]
  cases hk : (t.heap.node i).kind <;> cases hr : rule t.heap i <;> simp

/-- The columns of the last comparisons of the nodes: every split by column `j` has two nodes below it. -/
theorem shape_counts [IsStrictOrderedRing K] {y : Option (Fin n → K)} {t : Tree K n p} {s : Shape} (hI : TreeInv X y t s) :
    (∀ j, ((look t).map (fun nd => (referenceNode nd).column)).count (some j) = 2 * splitsOn (look t) j) ∧
    ((look t).map (fun nd => (referenceNode nd).column)).count none = 1 := by
  have e : (look t).map (fun nd => (referenceNode nd).column) = treeVars t := by
    have := congrArg (List.map ShownNode.column) (look_shown hI)
    rw [List.map_map, List.map_map] at this
    exact this
  have key : ∀ (v : Option (Fin p)), (treeVars t).count v = s.ids.countP (fun i => decide ((t.heap.node i).split.combined.splittingVariable = v)) := by
    intro v
    unfold treeVars List.count
    rw [List.countP_map, hI.perm.countP_eq]
    apply List.countP_congr
    simp
  rw [e]
  refine ⟨fun j => ?_, ?_⟩
  · rw [key, hI.repr.count_var j, look_splitsOn]
    simp only [List.getLast?_nil, Option.map_none, reduceCtorEq, if_false, Nat.zero_add]
    unfold decisionsOn Tree.decisionNodes
    rw [List.filter_filter, ← List.countP_eq_length_filter, hI.perm.countP_eq]
  · rw [key, hI.repr.count_none]; simp

/-! ### samples -/

/-- The columns of the last comparisons in the trees of a state. -/
def stateColumns (s : State K p) : List (Option (Fin p)) := (referenceTrees s).flatMap (List.map ShownNode.column)

section samples
variable [IsStrictOrderedRing K] [MathFns K] [FloorRing K]

theorem sample_columns {x : Sample K p} {st : List Bool × State K p} (h : SampleRef x st) :
    x.trees.flatMap (fun t => t.nodes.map (fun i => (t.heap.node i).split.combined.splittingVariable)) = stateColumns st.2 := by
  rw [sample_vars]
  unfold stateColumns
  rw [← h.trees]
  unfold shownTrees
  rw [List.flatMap, List.map_map]
  congr 1
  apply List.map_congr_left
  intro l _
  simp [shownNode, Function.comp_def]

theorem samples_columns {xs : List (Sample K p)} {l : List (List Bool × State K p)} (h : List.Forall₂ SampleRef xs l) : splitVariables xs = (l.map Prod.snd).flatMap stateColumns := by
  unfold splitVariables
  induction h with
  | nil => rfl
  | cons h _ ih => rw [List.flatMap_cons, List.map_cons, List.flatMap_cons, sample_columns h, ih]

theorem state_counts {x : Sample K p} {st : List Bool × State K p} (h : SampleRef x st) :
    (∀ j, (stateColumns st.2).count (some j) = 2 * totalSplitsOn [st.2] j) ∧ (stateColumns st.2).length = nodesIn [st.2] := by
  have hs := h.shape
  unfold stateColumns referenceTrees totalSplitsOn nodesIn
  simp only [List.map_cons, List.map_nil, List.sum_cons, List.sum_nil, Nat.add_zero]
  generalize st.2.trees = ts at hs
  induction ts with
  | nil => exact ⟨fun j => rfl, rfl⟩
  | cons t ts ih =>
    obtain ⟨i1, i2⟩ := ih (fun t ht => hs t (List.mem_cons_of_mem _ ht))
    obtain ⟨n, X, t', y, s, hI, rfl⟩ := hs t (List.mem_cons_self ..)
    obtain ⟨c1, -⟩ := shape_counts hI
    refine ⟨fun j => ?_, ?_⟩
    · rw [List.map_cons, List.flatMap_cons, List.count_append, i1, List.map_map]
      have := c1 j
      rw [show (ShownNode.column ∘ referenceNode : RNode K p → _) = fun nd => (referenceNode nd).column from rfl, this]
      simp only [List.map_cons, List.sum_cons]
      omega
    · rw [List.map_cons, List.flatMap_cons, List.length_append, i2]
      simp

theorem samples_counts {xs : List (Sample K p)} {l : List (List Bool × State K p)} (h : List.Forall₂ SampleRef xs l) :
    (∀ j, (splitVariables xs).count (some j) = 2 * totalSplitsOn (l.map Prod.snd) j) ∧ (splitVariables xs).length = nodesIn (l.map Prod.snd) := by
  rw [samples_columns h]
  induction h with
  | nil => exact ⟨fun j => rfl, rfl⟩
  | cons h _ ih =>
    obtain ⟨c1, c2⟩ := state_counts h
    obtain ⟨i1, i2⟩ := ih
    refine ⟨fun j => ?_, ?_⟩
    · rw [List.map_cons, List.flatMap_cons, List.count_append, i1, c1]
      simp [totalSplitsOn]; omega
    · rw [List.map_cons, List.flatMap_cons, List.length_append, i2, c2]
      simp [nodesIn]

theorem fit_samples (hX : NoNan X) {s f : SkModel K p} (hp : 0 < p) (hp1 : s.pGrow ≠ 0) (hp2 : s.pPrune ≠ 0) (hth : s.thin ≠ 0) (hch : 0 < s.nChains) {y : Fin n → K} {lo hi : K}
    (hlo : IsLeast (Set.range y) lo) (hhi : IsGreatest (Set.range y) hi) (hlt : lo < hi) {rs : Nat → Rand K} (h : s.fit X y rs = .ok f) :
    ∃ samples c, Reference.fit s.config X lo hi y rs = .ok samples ∧ f.samples = some c ∧ List.Forall₂ SampleRef c.models samples := by
  have h1 := chains_ref hX hp hp1 hp2 hth hlo hhi hlt ((List.range s.nChains).map rs)
  obtain ⟨d, m, hc, -, -, -, hum⟩ := constructModel_ref (s := s) (X := X) hp hlo hhi hlt
  unfold SkModel.fit at h
  unfold Reference.fit
  rw [show s.config.nChains = s.nChains from rfl]
  simp only [hc] at h
  cases e : s.runChains X y ((List.range s.nChains).map rs) with
  | error er => rw [e] at h; cases h
  | ok os =>
    rw [e] at h1 h
    obtain ⟨l, a1, a2, -⟩ := h1
    obtain ⟨c, hc1, -⟩ := C51_fit hX hp1 hp2 (by simp; omega) e
    obtain ⟨m1, -⟩ := C51_combine hc1
    simp only [hc1] at h
    cases h
    rw [show (fun o : ChainOut K p => o.chain.model.map (fun x => (⟨o.n, o.live, x⟩ : Sample K p))) = ChainOut.models from rfl] at m1
    rw [← m1] at a2
    exact ⟨l, c, a1, rfl, a2⟩

/-! ### C120 -/

/-- C120. The trees of the samples of a fit are those of the reference implementation, tree by tree and node by node: the comparisons on the way to the node, its depth, the value of a leaf. -/
theorem C120_trees (hX : NoNan X) {s f : SkModel K p} (hp : 0 < p) (hp1 : s.pGrow ≠ 0) (hp2 : s.pPrune ≠ 0) (hth : s.thin ≠ 0) (hch : 0 < s.nChains) {y : Fin n → K} {lo hi : K}
    (hlo : IsLeast (Set.range y) lo) (hhi : IsGreatest (Set.range y) hi) (hlt : lo < hi) {rs : Nat → Rand K} (h : s.fit X y rs = .ok f) :
    ∃ samples c, Reference.fit s.config X lo hi y rs = .ok samples ∧ f.samples = some c ∧ c.models.map shownTrees = samples.map (fun st => referenceTrees st.2) := by
  obtain ⟨l, c, a1, a2, a3⟩ := fit_samples hX hp hp1 hp2 hth hch hlo hhi hlt h
  exact ⟨l, c, a1, a2, (forall₂_map_eq (fun x st h => h.trees.symm) a3).symm⟩

/-- C120, the shares of the columns: for each column twice the number of splits by it, divided by the number of nodes, in the trees of the reference implementation. -/
theorem C120_features (hX : NoNan X) {s f : SkModel K p} (hp : 0 < p) (hp1 : s.pGrow ≠ 0) (hp2 : s.pPrune ≠ 0) (hth : s.thin ≠ 0) (hch : 0 < s.nChains) {y : Fin n → K} {lo hi : K}
    (hlo : IsLeast (Set.range y) lo) (hhi : IsGreatest (Set.range y) hi) (hlt : lo < hi) {rs : Nat → Rand K} (h : s.fit X y rs = .ok f) :
    ∃ samples, Reference.fit s.config X lo hi y rs = .ok samples ∧ ∀ columns, ∃ d, f.featureSplitProportions columns = .ok d ∧ IsDict d ∧
      ∀ j v, (j, v) ∈ d ↔ (match columns with
        | none => 0 < totalSplitsOn (samples.map Prod.snd) j
        | some l => j ∈ l) ∧ v = (2 * totalSplitsOn (samples.map Prod.snd) j : K) / (nodesIn (samples.map Prod.snd) : K) := by
  obtain ⟨l, c, a1, a2, a3⟩ := fit_samples hX hp hp1 hp2 hth hch hlo hhi hlt h
  obtain ⟨c1, c2⟩ := samples_counts a3
  refine ⟨l, a1, fun columns => ⟨_, by unfold SkModel.featureSplitProportions; rw [a2], ?_⟩⟩
  rw [featureSplitProportions_eq]
  obtain ⟨i1, i2⟩ := Dict.foldl_set (fun j => ((splitVariables c.models).count (some j) : K) / ((splitVariables c.models).length : K))
    (columns.getD ((List.finRange p).filter (fun j => (splitVariables c.models).contains (some j)))) [] (by simp [IsDict]) (by simp)
  refine ⟨i1, fun j v => ?_⟩
  rw [i2, c1, c2]
  push_cast
  cases columns with
  | some l => simp [Dict.keys]
  | none =>
    have : (some j ∈ splitVariables c.models) ↔ 0 < totalSplitsOn (l.map Prod.snd) j := by
      rw [← List.count_pos_iff, c1]; omega
    simp [this, Dict.keys]

/-- C120, the depths that `plot_tree_depth` summarizes: for each sample the depths of all nodes in the trees of the reference implementation. -/
theorem C120_depths (hX : NoNan X) {s f : SkModel K p} (hp : 0 < p) (hp1 : s.pGrow ≠ 0) (hp2 : s.pPrune ≠ 0) (hth : s.thin ≠ 0) (hch : 0 < s.nChains) {y : Fin n → K} {lo hi : K}
    (hlo : IsLeast (Set.range y) lo) (hhi : IsGreatest (Set.range y) hi) (hlt : lo < hi) {rs : Nat → Rand K} (h : s.fit X y rs = .ok f) :
    ∃ samples, Reference.fit s.config X lo hi y rs = .ok samples ∧
      plotTreeDepth f = samples.mapM (fun st => depthSummary (st.2.trees.flatMap (fun t => t.map (fun nd => nd.path.length)))) := by
  obtain ⟨l, c, a1, a2, a3⟩ := fit_samples hX hp hp1 hp2 hth hch hlo hhi hlt h
  refine ⟨l, a1, ?_⟩
  unfold plotTreeDepth
  rw [a2]
  simp only
  clear a1 a2
  generalize c.models = xs at a3
  induction a3 with
  | nil => rfl
  | @cons x st _ _ h _ ih =>
    have e : x.depths = st.2.trees.flatMap (fun t => t.map (fun nd => nd.path.length)) := by
      have e1 := congrArg (List.flatMap (List.map ShownNode.depth)) h.trees
      unfold shownTrees referenceTrees at e1
      rw [List.flatMap, List.map_map, List.flatMap, List.map_map] at e1
      unfold Sample.depths Sample.trees BModel.storedTrees
      rw [List.flatMap, List.map_zipWith]
      unfold storedContent at e1
      rw [List.map_zipWith] at e1
      rw [List.flatMap]
      convert e1 using 2
      · congr 1
        funext t ids
        simp [Tree.stored, nodeView, shownNode]
      · apply List.map_congr_left
        intro t _
        simp [referenceNode]
    rw [List.mapM_cons, List.mapM_cons, ih, e]

end samples

/-! ### a concrete case -/

section examples
attribute [local instance] exFns

/-- The hypotheses of C120 are met by the example of C103. In the sweeps of its first chain both trees split the only column, so that the share of the column is 4/6; the nodes are in the order in which the code
makes them. -/
example : (match Reference.sweeps (exSk true).config.toSettings exX (scaled 0 2 exY) 4 (start (exSk true).config.toSettings) exRands1 with
    | .ok (l, _, _) => decide (l.map (fun st => totalSplitsOn [st.2] 0) = [2, 2, 2, 2] ∧ nodesIn (l.map Prod.snd) = 24 ∧
        l.map (fun st => (referenceTrees st.2).map (List.map ShownNode.depth)) = List.replicate 4 [[1, 1, 0], [1, 1, 0]])
    | .error _ => false) = true := by decide +kernel

example : (match exFit true with
    | .ok f => (match f.featureSplitProportions none with
      | .ok d => decide (d = [(0, 2/3)])
      | .error _ => false)
    | .error _ => false) = true := by decide +kernel

end examples
end Bart
