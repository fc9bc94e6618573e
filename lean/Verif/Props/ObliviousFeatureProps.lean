import Verif.Props.ObliviousReferenceProps
import Verif.Props.StoredTreesProps
import Verif.Props.RunLengthProps

/-! C130: the diagnostics of trees after a fit with the oblivious tree sampler. -/

set_option linter.unusedSectionVars false

namespace Bart.Oblivious
open Bart Spec Reference
variable {K : Type} [Field K] [LinearOrder K] [IsStrictOrderedRing K] {n p : Nat} {X : Fin n → Fin p → Fl K}

/-- The number of leaves that were split by column `j` in the trees of the samples. -/
def splitsIn (samples : List (List Bool × Layers.State K p)) (j : Fin p) : Nat := (samples.flatMap (fun st => st.2.trees.map (fun T => Layers.splitsOn T.layers j))).sum

/-- The number of leaves below a comparison with column `j` that were doubled in the trees of the samples. -/
def doublingsIn (samples : List (List Bool × Layers.State K p)) (j : Fin p) : Nat := (samples.flatMap (fun st => st.2.trees.map (fun T => Layers.doublingsOn T.layers j))).sum

/-- The number of nodes of the trees of the samples: a tree after `d` growths has `2 ^ (d + 1) - 1` nodes. -/
def nodesIn (samples : List (List Bool × Layers.State K p)) : Nat := (samples.flatMap (fun st => st.2.trees.map (fun T => 2 ^ (T.layers.length + 1) - 1))).sum

theorem tree_vars (t : Tree K n p) : t.nodes.map (fun i => (t.heap.node i).split.combined.splittingVariable) = (nodesOf t).map (fun q => q.2.2) := by
  unfold nodesOf
  rw [List.map_map]
  rfl

theorem sample_counts {x : Sample K p} {st : List Bool × Layers.State K p} (h : OSample x st) :
    (∀ j, (x.trees.flatMap (fun t => t.nodes.map (fun i => (t.heap.node i).split.combined.splittingVariable))).count (some j) = 2 * (splitsIn [st] j + doublingsIn [st] j)) ∧
    (x.trees.flatMap (fun t => t.nodes.map (fun i => (t.heap.node i).split.combined.splittingVariable))).length = nodesIn [st] ∧
    x.depths.Perm (st.2.trees.flatMap (fun T => Layers.fullDepths T.layers.length)) := by
  have hn := h.nodes
  unfold Sample.depths splitsIn doublingsIn nodesIn
  simp only [List.flatMap_cons, List.flatMap_nil, List.append_nil]
  generalize x.trees = l at hn
  generalize st.2.trees = l' at hn
  induction hn with
  | nil => exact ⟨fun j => rfl, rfl, .refl _⟩
  | @cons t T _ _ hd _ ih =>
    obtain ⟨i1, i2, i3⟩ := ih
    obtain ⟨h1, h2⟩ := hd
    refine ⟨fun j => ?_, ?_, ?_⟩
    · rw [List.flatMap_cons, List.count_append, i1, tree_vars, (h1.map _).count_eq, List.map_map]
      have := h2.count j
      simp only [Function.comp_def] at this ⊢
      rw [this]
      simp only [List.map_cons, List.sum_cons]
      omega
    · rw [List.flatMap_cons, List.length_append, i2, tree_vars, List.length_map, h1.length_eq, List.length_map, h2.length]
      simp only [List.map_cons, List.sum_cons]
    · rw [List.flatMap_cons, List.flatMap_cons]
      refine List.Perm.append ?_ i3
      have : t.nodes.map (fun i => (t.heap.node i).depth) = (nodesOf t).map Prod.fst := by
        unfold nodesOf
        rw [List.map_map]
        rfl
      rw [this, ← h2.depths]
      have := h1.map Prod.fst
      rwa [List.map_map] at this

theorem osamples_counts {xs : List (Sample K p)} {l : List (List Bool × Layers.State K p)} (h : List.Forall₂ OSample xs l) :
    (∀ j, (splitVariables xs).count (some j) = 2 * (splitsIn l j + doublingsIn l j)) ∧ (splitVariables xs).length = nodesIn l := by
  unfold splitVariables
  induction h with
  | nil => exact ⟨fun j => rfl, rfl⟩
  | cons h _ ih =>
    obtain ⟨c1, c2, -⟩ := sample_counts h
    obtain ⟨i1, i2⟩ := ih
    refine ⟨fun j => ?_, ?_⟩
    · rw [List.flatMap_cons, List.count_append, i1, c1]
      simp [splitsIn, doublingsIn]; omega
    · rw [List.flatMap_cons, List.length_append, i2, c2]
      simp [nodesIn]

theorem min?_perm {l l' : List Nat} (h : l.Perm l') : l.min? = l'.min? := by
  cases e : l.min? with
  | none =>
    rw [List.min?_eq_none_iff] at e
    subst e
    rw [h.symm.eq_nil]; rfl
  | some a =>
    rw [List.min?_eq_some_iff] at e
    symm
    rw [List.min?_eq_some_iff]
    exact ⟨h.mem_iff.1 e.1, fun b hb => e.2 b (h.mem_iff.2 hb)⟩

theorem max?_perm {l l' : List Nat} (h : l.Perm l') : l.max? = l'.max? := by
  cases e : l.max? with
  | none =>
    rw [List.max?_eq_none_iff] at e
    subst e
    rw [h.symm.eq_nil]; rfl
  | some a =>
    rw [List.max?_eq_some_iff] at e
    symm
    rw [List.max?_eq_some_iff]
    exact ⟨h.mem_iff.1 e.1, fun b hb => e.2 b (h.mem_iff.2 hb)⟩

theorem depthSummary_perm {l l' : List Nat} (h : l.Perm l') : (depthSummary l : Except PyErr (Nat × K × Nat)) = depthSummary l' := by
  unfold depthSummary
  rw [min?_perm h, max?_perm h, (h.map (fun d : Nat => (d : K))).sum_eq, h.length_eq]

variable [MathFns K] [FloorRing K]

theorem ofit_samples (hX : ∀ r, GoodRow (X r)) {s f : SkModel K p} (hp : 0 < p) (hp1 : s.pGrow ≠ 0) (hp2 : s.pPrune ≠ 0) (hth : s.thin ≠ 0) {y : Fin n → K} {lo hi : K}
    (hlo : IsLeast (Set.range y) lo) (hhi : IsGreatest (Set.range y) hi) (hlt : lo < hi) {rs : Nat → Rand K} (h : fit s X y rs = .ok f) :
    ∃ samples c, Layers.fit s.config X lo hi y rs = .ok samples ∧ f.samples = some c ∧ List.Forall₂ OSample c.models samples := by
  have h1 := chains_ref hX hp hp1 hp2 hth hlo hhi hlt ((List.range s.nChains).map rs)
  obtain ⟨d, m, hc, -, -⟩ := constructModel_start (s := s) hX hp hlo hhi hlt
  unfold fit at h
  unfold Layers.fit
  rw [show s.config.nChains = s.nChains from rfl]
  simp only [hc] at h
  cases e : runChains s X y ((List.range s.nChains).map rs) with
  | error er => rw [e] at h; cases h
  | ok os =>
    rw [e] at h1 h
    obtain ⟨l, a1, a2, -⟩ := h1
    simp only at h
    cases hc1 : combineChains os with
    | error er => rw [hc1] at h; cases h
    | ok c =>
      obtain ⟨m1, -⟩ := C51_combine hc1
      rw [hc1] at h
      cases h
      rw [show (fun o : ChainOut K p => o.chain.model.map (fun x => (⟨o.n, o.live, x⟩ : Sample K p))) = ChainOut.models from rfl] at m1
      rw [← m1] at a2
      exact ⟨l, c, a1, rfl, a2⟩

/-! ### C130 -/

/-- C130, what the code does: the share of a column is twice the number of splits by it plus twice the number of doublings of leaves below a comparison with it, divided by the number of nodes,
in the trees of the reference implementation. Without `columns`, the columns are those for which this is not 0. -/
theorem C130_features (hX : ∀ r, GoodRow (X r)) {s f : SkModel K p} (hp : 0 < p) (hp1 : s.pGrow ≠ 0) (hp2 : s.pPrune ≠ 0) (hth : s.thin ≠ 0) {y : Fin n → K} {lo hi : K}
    (hlo : IsLeast (Set.range y) lo) (hhi : IsGreatest (Set.range y) hi) (hlt : lo < hi) {rs : Nat → Rand K} (h : fit s X y rs = .ok f) :
    ∃ samples, Layers.fit s.config X lo hi y rs = .ok samples ∧ ∀ columns, ∃ d, f.featureSplitProportions columns = .ok d ∧ IsDict d ∧
      ∀ j v, (j, v) ∈ d ↔ (match columns with
        | none => 0 < splitsIn samples j + doublingsIn samples j
        | some l => j ∈ l) ∧ v = (2 * (splitsIn samples j + doublingsIn samples j) : K) / (nodesIn samples : K) := by
  obtain ⟨l, c, a1, a2, a3⟩ := ofit_samples hX hp hp1 hp2 hth hlo hhi hlt h
  obtain ⟨c1, c2⟩ := osamples_counts a3
  refine ⟨l, a1, fun columns => ⟨_, by unfold SkModel.featureSplitProportions; rw [a2], ?_⟩⟩
  rw [featureSplitProportions_eq]
  obtain ⟨i1, i2⟩ := Dict.foldl_set (fun j => ((splitVariables c.models).count (some j) : K) / ((splitVariables c.models).length : K))
    (columns.getD ((List.finRange p).filter (fun j => (splitVariables c.models).contains (some j)))) [] (by simp [IsDict]) (by simp)
  refine ⟨i1, fun j v => ?_⟩
  rw [i2, c1, c2]
  push_cast
  cases columns with
  | some l => simp [Dict.keys]
  | none =>
    have : (some j ∈ splitVariables c.models) ↔ 0 < splitsIn l j + doublingsIn l j := by
      rw [← List.count_pos_iff, c1]; omega
    simp [this, Dict.keys]

/-- C130 holds if no leaf was doubled in the trees of the samples. (Full property: without this condition. It is false, see `C130_refuted`.) -/
theorem C130_partial (hX : ∀ r, GoodRow (X r)) {s f : SkModel K p} (hp : 0 < p) (hp1 : s.pGrow ≠ 0) (hp2 : s.pPrune ≠ 0) (hth : s.thin ≠ 0) {y : Fin n → K} {lo hi : K}
    (hlo : IsLeast (Set.range y) lo) (hhi : IsGreatest (Set.range y) hi) (hlt : lo < hi) {rs : Nat → Rand K} (h : fit s X y rs = .ok f) :
    ∃ samples, Layers.fit s.config X lo hi y rs = .ok samples ∧ ((∀ st ∈ samples, ∀ T ∈ st.2.trees, ∀ rules ∈ T.layers, none ∉ rules) → ∀ columns, ∃ d, f.featureSplitProportions columns = .ok d ∧ IsDict d ∧
      ∀ j v, (j, v) ∈ d ↔ (match columns with
        | none => 0 < splitsIn samples j
        | some l => j ∈ l) ∧ v = (2 * splitsIn samples j : K) / (nodesIn samples : K)) := by
  obtain ⟨samples, a1, a2⟩ := C130_features hX hp hp1 hp2 hth hlo hhi hlt h
  refine ⟨samples, a1, fun hno columns => ?_⟩
  obtain ⟨d, b1, b2, b3⟩ := a2 columns
  refine ⟨d, b1, b2, fun j v => ?_⟩
  have key : ∀ layers : List (List (Layers.Rule K p)), (∀ rules ∈ layers, none ∉ rules) → Layers.doublingsOn layers j = 0 := by
    intro layers
    induction layers with
    | nil => intro _; rfl
    | cons rules rest ih =>
      intro hl
      unfold Layers.doublingsOn
      rw [ih (fun r hr => hl r (List.mem_cons_of_mem _ hr)), Nat.zero_add, List.countP_eq_zero]
      rintro ⟨a, b⟩ hq
      have hb := (List.of_mem_zip hq).2
      cases b with
      | none => exact absurd hb (hl rules (List.mem_cons_self ..))
      | some q => simp
  have h0 : doublingsIn samples j = 0 := by
    unfold doublingsIn
    rw [List.sum_eq_zero_iff]
    intro a ha
    obtain ⟨st, hst, ha⟩ := List.mem_flatMap.1 ha
    obtain ⟨T, hT, rfl⟩ := List.mem_map.1 ha
    exact key _ (hno st hst T hT)
  have := b3 j v
  rw [h0] at this
  simpa using this

/-- C130, the depths that `plot_tree_depth` summarizes: for each sample those of trees with `2 ^ e` nodes at each depth `e` up to the number of growths. -/
theorem C130_depths (hX : ∀ r, GoodRow (X r)) {s f : SkModel K p} (hp : 0 < p) (hp1 : s.pGrow ≠ 0) (hp2 : s.pPrune ≠ 0) (hth : s.thin ≠ 0) {y : Fin n → K} {lo hi : K}
    (hlo : IsLeast (Set.range y) lo) (hhi : IsGreatest (Set.range y) hi) (hlt : lo < hi) {rs : Nat → Rand K} (h : fit s X y rs = .ok f) :
    ∃ samples, Layers.fit s.config X lo hi y rs = .ok samples ∧
      plotTreeDepth f = samples.mapM (fun st => depthSummary (st.2.trees.flatMap (fun T => Layers.fullDepths T.layers.length))) := by
  obtain ⟨l, c, a1, a2, a3⟩ := ofit_samples hX hp hp1 hp2 hth hlo hhi hlt h
  refine ⟨l, a1, ?_⟩
  unfold plotTreeDepth
  rw [a2]
  simp only
  clear a1 a2
  generalize c.models = xs at a3
  induction a3 with
  | nil => rfl
  | @cons x st _ _ h _ ih => rw [List.mapM_cons, List.mapM_cons, ih, depthSummary_perm (sample_counts h).2.2]

/-! ### concrete cases -/

section examples
attribute [local instance] exFns

/-- The hypotheses are met by the example of C127. Its three samples have 3, 7 and 15 nodes; one, two and two leaves were split by the only column, and none, one and five were doubled. -/
example : (match Layers.sweeps exSkf.config.toSettings exXf (scaled 0 1 exYf) 4 (Layers.start exSkf.config.toSettings) exRf with
    | .ok (l, _, _) => decide (l.map (fun st => (splitsIn [st] 0, doublingsIn [st] 0, nodesIn [st])) = [(0, 0, 1), (1, 0, 3), (2, 1, 7), (2, 5, 15)] ∧
        Layers.fullDepths 2 = [0, 1, 1, 2, 2, 2, 2])
    | .error _ => false) = true := by decide +kernel

/-- The depths of the same example. -/
example : (match exFitf with
    | .ok f => (match plotTreeDepth f with
      | .ok d => decide (d = [(0, 2/3, 1), (0, 10/7, 2), (0, 34/15, 3)])
      | .error _ => false)
    | .error _ => false) = true := by decide +kernel

/-- A fit in which no leaf is doubled: one growth. -/
example : (match Layers.sweeps exSkf.config.toSettings exXf (scaled 0 1 exYf) 2 (Layers.start exSkf.config.toSettings) exRf with
    | .ok (l, _, _) => l.all (fun st => st.2.trees.all (fun T => T.layers.all (fun rules => rules.all Option.isSome))) && decide (splitsIn l 0 = 1)
    | .error _ => false) = true := by decide +kernel

/-- C130 is false: in the samples of the example 5 leaves were split by the only column, and there are 25 nodes; the share that the code reports is not 10/25 but 22/25, since 6 leaves were doubled. -/
theorem C130_refuted : ∃ (f : SkModel ℚ 1) (samples : List (List Bool × Layers.State ℚ 1)), (∀ r, GoodRow (exXf r)) ∧ fit exSkf exXf exYf (fun _ => exRf) = .ok f ∧
    Layers.fit exSkf.config exXf 0 1 exYf (fun _ => exRf) = .ok samples ∧ (2 * splitsIn samples 0 : ℚ) / (nodesIn samples : ℚ) = 10/25 ∧ f.featureSplitProportions none = .ok [(0, 22/25)] := by
  have h1 : (match exFitf with
      | .ok f => (match f.featureSplitProportions none with
        | .ok d => decide (d = [(0, 22/25)])
        | .error _ => false)
      | .error _ => false) = true := by decide +kernel
  have h2 : (match Layers.sweeps exSkf.config.toSettings exXf (scaled 0 1 exYf) 4 (Layers.start exSkf.config.toSettings) exRf with
      | .ok (l, _, _) => decide ((2 * splitsIn ((List.range 3).filterMap (fun t => l[1 + t]?) ++ []) 0 : ℚ) / (nodesIn ((List.range 3).filterMap (fun t => l[1 + t]?) ++ []) : ℚ) = 10/25)
      | .error _ => false) = true := by decide +kernel
  cases e : exFitf with
  | error er => rw [e] at h1; cases h1
  | ok f =>
    rw [e] at h1
    simp only at h1
    cases e1 : f.featureSplitProportions none with
    | error er => rw [e1] at h1; cases h1
    | ok d =>
      rw [e1] at h1
      obtain rfl := of_decide_eq_true h1
      cases e2 : Layers.sweeps exSkf.config.toSettings exXf (scaled 0 1 exYf) 4 (Layers.start exSkf.config.toSettings) exRf with
      | error er => rw [e2] at h2; cases h2
      | ok q =>
        obtain ⟨l, s', r'⟩ := q
        rw [e2] at h2
        have h3 : Layers.chain exSkf.config exXf (scaled 0 1 exYf) exRf = .ok ((List.range 3).filterMap (fun t => l[1 + t]?)) := by
          unfold Layers.chain
          rw [show exSkf.config.nBurn + exSkf.config.nSamples = 4 from rfl, e2]
          simp only
          rw [show exSkf.config.thin = 1 from rfl, storedTimes_one]
          rfl
        refine ⟨f, _, exXf_good, e, ?_, of_decide_eq_true h2, e1⟩
        unfold Layers.fit
        rw [show (List.range exSkf.config.nChains).map (fun _ => exRf) = [exRf] from rfl]
        simp only [Layers.chains, h3]

end examples
end Bart.Oblivious
