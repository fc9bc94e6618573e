import Verif.Model.Tables
import Verif.Props.ForestProps
import Verif.Props.SelectionProps

/-! Tables with another number of columns: C95. DataFrames: C96. `feature_importance`: C97. -/

set_option linter.unusedSectionVars false

namespace Bart
open Spec
variable {K : Type} [Field K] [LinearOrder K] [IsStrictOrderedRing K] {n p q : Nat} {X : Fin n → Fin p → Fl K}

/-! ### lemmas -/

/-- The first `p` columns. -/
def Spec.firstColumns {m : Nat} (h : p ≤ q) (Z : Fin m → Fin q → Fl K) : Fin m → Fin p → Fl K := fun r v => Z r (Fin.castLE h v)

theorem conditionOn_wide {m : Nat} (h : p ≤ q) (c : CombinedCondition K p) (Z : Fin m → Fin q → Fl K) : c.conditionOn Z = .ok (fun r => c.condition (firstColumns h Z r)) := by
  unfold CombinedCondition.conditionOn CombinedCondition.condition
  have key : ∀ (l : List (Fin p)) (acc : Fin m → Bool), l.foldlM (c.condStep Z) acc = .ok (fun r => l.foldl
      (fun acc v => acc && (Fl.gt (firstColumns h Z r v) (c.variables v).minValue) && (Fl.le (firstColumns h Z r v) (c.variables v).maxValue)) (acc r)) := by
    intro l
    induction l with
    | nil => intro acc; rfl
    | cons v l ih =>
      intro acc
      rw [List.foldlM_cons]
      have e : c.condStep Z acc v = .ok (fun r => acc r && Fl.gt (firstColumns h Z r v) (c.variables v).minValue && Fl.le (firstColumns h Z r v) (c.variables v).maxValue) := by
        unfold CombinedCondition.condStep
        rw [dif_pos (lt_of_lt_of_le v.isLt h)]
        rfl
      rw [e]
      exact ih _
  exact key _ _

theorem conditionOn_narrow {m : Nat} (h : q < p) (c : CombinedCondition K p) (Z : Fin m → Fin q → Fl K) : c.conditionOn Z = .error .indexError := by
  unfold CombinedCondition.conditionOn
  have key : ∀ (l : List (Fin p)) (acc : Fin m → Bool), (⟨q, h⟩ : Fin p) ∈ l → l.foldlM (c.condStep Z) acc = .error .indexError := by
    intro l
    induction l with
    | nil => intro acc hm; cases hm
    | cons v l ih =>
      intro acc hm
      rw [List.foldlM_cons]
      unfold CombinedCondition.condStep
      by_cases hv : v.val < q
      · rw [dif_pos hv]
        refine ih _ ?_
        rcases List.mem_cons.1 hm with e | hm
        · rw [← e] at hv; exact absurd hv (lt_irrefl _)
        · exact hm
      · rw [dif_neg hv]; rfl
  exact key _ _ (List.mem_finRange _)

theorem tree_predictOn_wide {m : Nat} (h : p ≤ q) (t : Tree K n p) (Z : Fin m → Fin q → Fl K) : t.predictOn Z = .ok (t.predictX (firstColumns h Z)) := by
  unfold Tree.predictOn Tree.predictX
  have key : ∀ (l : List NodeId) (f : Fin m → K), l.foldlM (t.predictStep Z) f =
      .ok (l.foldl (fun pred i r => if Heap.outOfSample (t.heap.node i).split (firstColumns h Z r) then (t.heap.node i).value else pred r) f) := by
    intro l
    induction l with
    | nil => intro f; rfl
    | cons i l ih =>
      intro f
      rw [List.foldlM_cons]
      unfold Tree.predictStep
      rw [conditionOn_wide h]
      exact ih _
  exact key _ _

theorem tree_predictOn_narrow {m : Nat} (h : q < p) {t : Tree K n p} (ht : t.leafNodes ≠ []) (Z : Fin m → Fin q → Fl K) : t.predictOn Z = .error .indexError := by
  unfold Tree.predictOn
  obtain ⟨i, l, e⟩ := List.exists_cons_of_ne_nil ht
  rw [e, List.foldlM_cons]
  unfold Tree.predictStep
  rw [conditionOn_narrow h]
  rfl

theorem sample_predictOn_wide {m : Nat} (h : p ≤ q) (x : Sample K p) (Z : Fin m → Fin q → Fl K) : x.predictOn Z = .ok (List.ofFn (x.predictX (firstColumns h Z))) := by
  unfold Sample.predictOn
  rw [mapM_ok (g := fun t => t.predictX (firstColumns h Z)) (fun t _ => tree_predictOn_wide h t Z)]
  simp only [List.map_map]
  rfl

theorem sample_predictOn_narrow {m : Nat} (h : q < p) {x : Sample K p} (hx : x.trees ≠ []) (hl : ∀ t ∈ x.trees, t.leafNodes ≠ []) (Z : Fin m → Fin q → Fl K) : x.predictOn Z = .error .indexError := by
  unfold Sample.predictOn
  obtain ⟨t, ts, e⟩ := List.exists_cons_of_ne_nil hx
  rw [e, List.mapM_cons, tree_predictOn_narrow h (hl t (by rw [e]; simp))]
  rfl

variable [MathFns K]

theorem content_leaf (hX : NoNan X) (hn : 0 < n) {x : Sample K p} {M : BModel K n p} (hM : ReachableModel X M) (h : storedContent x.live x.stored = liveContent M) :
    x.trees.length = M.trees.length ∧ ∀ t ∈ x.trees, t.leafNodes ≠ [] := by
  have h1 : x.trees.map (fun t => t.nodes.map (fun i => (t.heap.node i).kind)) = (storedContent x.live x.stored).map (fun l => l.map NodeView.kind) := by
    unfold Sample.trees BModel.storedTrees storedContent
    rw [List.map_zipWith, List.map_zipWith]
    simp [Tree.stored, nodeView, Function.comp_def]
  have h2 : (liveContent M).map (fun l => l.map NodeView.kind) = M.trees.map (fun t => t.nodes.map (fun i => (t.heap.node i).kind)) := by
    unfold liveContent
    rw [List.map_map]
    simp [nodeView, Function.comp_def]
  rw [h, h2] at h1
  refine ⟨by simpa using congrArg List.length h1, ?_⟩
  intro t ht h0
  have hm : t.nodes.map (fun i => (t.heap.node i).kind) ∈ M.trees.map (fun t => t.nodes.map (fun i => (t.heap.node i).kind)) := by
    rw [← h1]; exact List.mem_map_of_mem (f := fun t : Tree K x.n p => t.nodes.map (fun i => (t.heap.node i).kind)) ht
  obtain ⟨t', ht', e⟩ := List.mem_map.1 hm
  obtain ⟨i, ⟨hi, -⟩, -⟩ := C16_leaves_partition_rows hX (model_trees_reachable hX hM t' ht') ⟨0, hn⟩
  unfold Tree.leafNodes at hi h0
  obtain ⟨hi1, hi2⟩ := List.mem_filter.1 hi
  have : NodeKind.leaf ∈ t.nodes.map (fun i => (t.heap.node i).kind) := by
    rw [← e]
    exact List.mem_map.2 ⟨i, hi1, by simpa using hi2⟩
  obtain ⟨k, hk1, hk2⟩ := List.mem_map.1 this
  have : k ∈ t.nodes.filter (fun i => decide ((t.heap.node i).kind = NodeKind.leaf)) := List.mem_filter.2 ⟨hk1, by simp [hk2]⟩
  rw [h0] at this
  cases this

variable [FloorRing K]

/-! ### C95 -/

/-- C95, too few columns: `predict` raises IndexError. -/
theorem C95_too_few (hX : NoNan X) {s s' : SkModel K p} (hp1 : s.pGrow ≠ 0) (hp2 : s.pPrune ≠ 0) {y : Fin n → K} {rs : Nat → Rand K} (h : s.fit X y rs = .ok s') (hns : 0 < s.nSamples)
    (hnt : 0 < s.nTrees) {m : Nat} (hq : q < p) (Z : Fin m → Fin q → Fl K) : s'.predictOn Z = .error .indexError := by
  have hn : 0 < n := by
    obtain ⟨d, m, os, c, e1, -⟩ := fit_spec h
    exact (constructModel_spec e1).1
  obtain ⟨d, c, forests, hd, hd', hc, hlen, hne, -⟩ := fit_forests hX hp1 hp2 h hns
  obtain ⟨c', Ms, hc', hMs, hM, -⟩ := C57_fit hX hp1 hp2 h
  rw [hc] at hc'; injection hc' with hc'; subst hc'
  unfold SkModel.predictOn
  simp only [hd', hc]
  obtain ⟨x, xs, e⟩ := List.exists_cons_of_ne_nil hne
  rw [e] at hMs ⊢
  cases hMs with
  | @cons _ M _ Ms hxM _ =>
    obtain ⟨k1, k2⟩ := content_leaf hX hn (hM M (by simp)).1 hxM
    have hx : x.trees ≠ [] := by
      intro h0
      rw [h0, (hM M (by simp)).2] at k1
      simp at k1
      omega
    rw [List.mapM_cons, sample_predictOn_narrow hq hx k2]
    rfl

/-- C95, too many columns: `predict` uses the first columns without a word. With the right number of columns this is `predict` as in C48. -/
theorem C95_too_many_partial {s : SkModel K p} {m : Nat} (hq : p ≤ q) (Z : Fin m → Fin q → Fl K) : s.predictOn Z = s.predict (some ⟨m, firstColumns hq Z⟩) := by
  unfold SkModel.predictOn SkModel.predict SkModel.outOfSamplePredict
  cases s.data with
  | none => rfl
  | some d =>
    simp only []
    cases s.samples with
    | none => rfl
    | some c =>
      simp only []
      rw [mapM_ok (g := fun x => List.ofFn (x.predictX (firstColumns hq Z))) (fun x _ => sample_predictOn_wide hq x Z)]
      rfl

/-! ### C96 -/

/-- C96: `fit` and `predict` do the same with a DataFrame as with its values; `predict` is the one of C48, which is modelled apart from the one for tables. -/
theorem C96_values_partial (s : SkModel K p) (labels : Fin p → String) (y : Fin n → K) (rs : Nat → Rand K) {m : Nat} (labels' : Fin p → String) (Z : Fin m → Fin p → Fl K) :
    s.fitTable (.frame labels X) y rs = s.fit X y rs ∧ s.predictTable (.frame labels' Z) = s.predict (some ⟨m, Z⟩) ∧ ∀ normalize, makeBartpyData (.frame labels X) y normalize = makeBartpyData (.array X) y normalize :=
  ⟨rfl, C95_too_many_partial (le_refl p) Z, fun _ => rfl⟩

/-- C96 is false: `original_model_rmse`, `null_rmse_distribution` and `feature_importance` never work with a DataFrame. -/
theorem C96_importance_refuted (s : SkModel K p) (labels : Fin p → String) (y : Fin n → K) (j : Fin p) {folds : List (List (Fin n) × List (Fin n))} (hf : folds ≠ []) {runs : List (NullRun n)} (hr : runs ≠ [])
    (rs1 rs2 : Nat → Nat → Rand K) : (∀ vs, originalModelRmseTable (.frame labels X) y rs1 s folds ≠ .ok vs) ∧ nullRmseDistributionTable s (.frame labels X) y j runs rs2 = .error .typeError ∧
      ∀ v, featureImportance s (.frame labels X) y j folds runs rs1 rs2 ≠ .ok v := by
  have h1 : ∃ e, originalModelRmseTable (.frame labels X) y rs1 s folds = .error e := by
    obtain ⟨⟨train, test⟩, folds, rfl⟩ := List.exists_cons_of_ne_nil hf
    cases train <;> exact ⟨_, rfl⟩
  obtain ⟨e, he⟩ := h1
  refine ⟨?_, ?_, ?_⟩
  · intro vs h; rw [he] at h; cases h
  · unfold nullRmseDistributionTable
    exact if_neg hr
  · intro v h
    unfold featureImportance at h
    rw [he] at h
    cases h

/-! ### C97 -/

/-- C97 is false: the documentation of `feature_importance` says that the model does not have to be trained; with an untrained model it never returns. -/
theorem C97_refuted {s : SkModel K p} (hk : 0 < s.nChains) (hs : s.samples = none) {y : Fin n → K} {j : Fin p} {folds : List (List (Fin n) × List (Fin n))} {runs : List (NullRun n)} (hr : runs ≠ [])
    {rs1 rs2 : Nat → Nat → Rand K} (v) : featureImportance s (.array X) y j folds runs rs1 rs2 ≠ .ok v := by
  intro h
  unfold featureImportance at h
  split at h
  · cases h
  · split at h
    · cases h
    · next b hb =>
      unfold nullRmseDistributionTable at hb
      simp only [] at hb
      have hb' := hb
      unfold nullRmseDistribution at hb'
      split at hb'
      · cases hb'
      · next s' fits e =>
        rw [C61_refuted_unfitted hk hs hr e] at hb
        cases hb

/-- C97, when `feature_importance` returns: the first list has an entry for each fold, the second for each run of the null distribution; they are those of `original_model_rmse` and `null_rmse_distribution` on the same model. -/
theorem C97_returned_partial {s : SkModel K p} (hk : 0 < s.nChains) {y : Fin n → K} {j : Fin p} {folds : List (List (Fin n) × List (Fin n))} {runs : List (NullRun n)}
    (hdis : ∀ a ∈ runs, ∀ r ∈ a.train, r ∉ a.test) {rs1 rs2 : Nat → Nat → Rand K} {a b} (h : featureImportance s (.array X) y j folds runs rs1 rs2 = .ok (a, b)) :
    originalModelRmse X y rs1 0 s folds = .ok a ∧ nullRmseDistribution s X y j runs rs2 = .ok b ∧ a.length = folds.length ∧ b.length = runs.length := by
  unfold featureImportance at h
  split at h
  · cases h
  · next a' ha =>
    split at h
    · cases h
    · next b' hb =>
      injection h with h
      injection h with h1 h2
      subst h1 h2
      obtain ⟨-, -, -, -, hl, -⟩ := C61_compared_partial hk hdis hb
      exact ⟨ha, hb, (C71_original_rmse ha).1, hl⟩

/-! ### examples -/

section ex
attribute [local instance] exFns

/-- C95 is false: a fit on one column and predictions for two columns. -/
theorem C95_refuted : ∃ s f, exFit true = .ok s ∧ s.predictOn (fun (r : Fin 3) (v : Fin 2) => if v = 0 then exX r 0 else .nan) = .ok f ∧ s.predict (some ⟨3, exX⟩) = .ok f := by
  have h : (match exFit true with
    | .ok s => (match s.predictOn (fun (r : Fin 3) (v : Fin 2) => if v = 0 then exX r 0 else .nan), s.predict (some ⟨3, exX⟩) with
      | .ok f, .ok g => decide (f = g)
      | _, _ => false)
    | .error _ => false) = true := by
    decide +kernel
  split at h
  · next s hs =>
    split at h
    · next f g hf hg => exact ⟨s, f, hs, hf, by rw [of_decide_eq_true h]; exact hg⟩
    · cases h
  · cases h

/-- C95, the example for too few columns. -/
example : (match exFit true with
    | .ok s => decide (s.predictOn (fun (_ : Fin 2) (_ : Fin 0) => Fl.nan) = .error .indexError)
    | .error _ => false) = true := by
  decide +kernel

/-- C96 is false: columns are not matched by their labels. The columns of the second DataFrame are those of the first, with the same labels, in the other order; the predictions are different. -/
theorem C96_labels_refuted : ∃ s f g, exSk2.fitTable (.frame (fun v => if v = 0 then "a" else "b") exX2) exY exRs = .ok s ∧
    s.predictTable (.frame (fun v : Fin 2 => if v = 0 then "a" else "b") exX2) = .ok f ∧ s.predictTable (.frame (fun v : Fin 2 => if v = 0 then "b" else "a") (fun r v => exX2 r (1 - v))) = .ok g ∧ f ≠ g := by
  have h : (match exSk2.fitTable (.frame (fun v => if v = 0 then "a" else "b") exX2) exY exRs with
    | .ok s => (match s.predictTable (.frame (fun v : Fin 2 => if v = 0 then "a" else "b") exX2), s.predictTable (.frame (fun v : Fin 2 => if v = 0 then "b" else "a") (fun r v => exX2 r (1 - v))) with
      | .ok f, .ok g => decide (f ≠ g)
      | _, _ => false)
    | .error _ => false) = true := by
    decide +kernel
  split at h
  · next s hs =>
    split at h
    · next f g hf hg => exact ⟨s, f, g, hs, hf, hg, of_decide_eq_true h⟩
    · cases h
  · cases h

/-- C97, the examples: the untrained model, and the trained one. -/
example : featureImportance (exSk true) (.array exX6) exY6 0 [([0, 1, 2], [3, 4, 5]), ([3, 4, 5], [0, 1, 2])] exRuns (fun _ => exRs) (fun _ => exRs) = .error .typeError ∧
    (match (exSk true).fit exX6 exY6 exRs with
      | .ok s => (featureImportance s (.array exX6) exY6 0 [([0, 1, 2], [3, 4, 5]), ([3, 4, 5], [0, 1, 2])] exRuns (fun _ => exRs) (fun _ => exRs)).isOk
      | .error _ => false) = true ∧ (∀ a ∈ exRuns, ∀ r ∈ a.train, r ∉ a.test) ∧ exRuns ≠ [] := by
  refine ⟨by decide +kernel, by decide +kernel, by decide, by decide⟩

end ex

end Bart
