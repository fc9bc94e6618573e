import Verif.Proofs.LayerView
import Verif.Proofs.ObliviousRatio

/-! The proposals of the oblivious tree sampler are those of the reference implementation, for the same draws. -/

set_option linter.unusedSectionVars false

namespace Bart.Oblivious
open Bart Spec Reference
variable {K : Type} [Field K] [LinearOrder K] {n p : Nat} {X : Fin n → Fin p → Fl K}

/-- The conditions a node proposes, draw by draw. -/
theorem sampleSplitCondition_draws (hX : NoNan X) {y : Option (Fin n → K)} {h : Heap K n p} {i : NodeId}
    {path : List (SplitCondition K p)} (hk : NodeOk X y h i path) (u : Nat) (us : List Nat) {j : Fin p}
    (hc : choice (columns X (rowsOf (h.dataOf i))) u = .ok j) :
    match drawCut (column X (rowsOf (h.dataOf i)) j) us with
    | .error e => (sampleSplitCondition h i (u :: us)).2.2 = .error e
    | .ok (v, us') => (sampleSplitCondition h i (u :: us)).2 = (us', .ok (leCond j v, gtCond j v)) := by
  obtain ⟨a1, a2, a3⟩ := CovariateMatrix.isAtLeastOneSplittable_spec hk.inv.X
  obtain ⟨h1, h2, h3⟩ := CovariateMatrix.splittable_spec a3
  have hjm := choice_ok_mem hc
  have hcol : ∀ j, (h.dataOf i).X.isAtLeastOneSplittable.2.splittable.2.col j = column X (rowsOf (h.dataOf i)) j := by
    intro j; rw [h2.col, a2.col]; exact hk.col j
  have hcol' : ∀ j, (h.dataOf i).X.isAtLeastOneSplittable.2.col j = column X (rowsOf (h.dataOf i)) j := by
    intro j; rw [a2.col]; exact hk.col j
  have hlist : (h.dataOf i).X.isAtLeastOneSplittable.2.splittable.1 = columns X (rowsOf (h.dataOf i)) := by
    rw [h1, columns_eq hX]
    unfold CovariateMatrix.refSplittable
    apply List.filter_congr
    intro j _
    rw [hcol' j]
  have hj : j ∈ (h.dataOf i).X.isAtLeastOneSplittable.2.splittable.2.refSplittable := by
    have := hjm
    rw [columns_eq hX] at this
    simpa [CovariateMatrix.refSplittable, hcol] using this
  have hne : (h.dataOf i).X.refSplittable ≠ [] := by
    have : j ∈ (h.dataOf i).X.refSplittable := by
      have := hjm
      rw [columns_eq hX] at this
      simpa [CovariateMatrix.refSplittable, hk.col] using this
    exact List.ne_nil_of_mem this
  have hnn : NoNan (h.dataOf i).X.isAtLeastOneSplittable.2.splittable.2.X := by rw [h2.X, a2.X, hk.hX]; exact hX
  have hd := CovariateMatrix.randomSplittableValue_draws h3 hnn hj us
  rw [hcol] at hd
  have hvar : (h.dataOf i).X.randomSplittableVariable u = .ok (j, (h.dataOf i).X.isAtLeastOneSplittable.2.splittable.2) := by
    unfold CovariateMatrix.randomSplittableVariable
    simp only [a1, ne_eq, hne, not_false_eq_true, decide_true, if_true, hlist, hc]
  have hdof := setDataOf_self h i { h.dataOf i with X := (h.dataOf i).X.isAtLeastOneSplittable.2.splittable.2 }
  unfold sampleSplitCondition
  simp only [hvar, hdof]
  cases hr : (h.dataOf i).X.isAtLeastOneSplittable.2.splittable.2.randomSplittableValue j us with
  | error e => rw [hr] at hd; rw [← hd]; rfl
  | ok q => obtain ⟨v, us', c⟩ := q; rw [hr] at hd; rw [← hd]; rfl

/-- What becomes of a leaf. -/
theorem sampleSplitNode_ref (hX : NoNan X) {y : Fin n → K} {h : Heap K n p} {i : NodeId} (hlt : i < h.nextNode) (hk : ∃ q, NodeOk X (some y) h i q) (hg : GoodNode h i)
    (us : List Nat) :
    match sampleSplitNode h i us with
    | (h1, us1, .ok D) => ∃ rule, Layers.growRule X (pathOf h i) us = .ok (rule, us1) ∧ NodeRule h1 D rule ∧ pathOf h1 D = pathOf h i
    | (_, _, .error e) => Layers.growRule X (pathOf h i) us = .error e := by
  obtain ⟨q, hk⟩ := hk
  have he0 : HeapExt h (h.isSplittable i).2 := isSplittable_ext hk.inv
  have hb : (h.isSplittable i).1 = decide (∃ j, isNotConstant (column X (rowsOf (h.dataOf i)) j) = true) := by
    have := (filterSplittable_spec [i] (h := h) (X := X) (y := some y) (by simpa using ⟨hlt, q, hk⟩)).2
    unfold Tree.filterSplittable Tree.filterSplittable at this
    simp only [List.filter_cons, List.filter_nil] at this
    by_cases h1 : (h.isSplittable i).1 = true <;>
      by_cases h2 : ∃ j, isNotConstant (column X (rowsOf (h.dataOf i)) j) = true <;> simp_all
  have hrows : rowsOf (h.dataOf i) = Layers.rowsOn X (pathOf h i) := hg.rows hX hk
  have hk0 := he0.nodeOk hlt hk
  have hr0 := he0.rowsOf hlt hk
  have hn0 := he0.node i hlt
  have hlt0 : i < (h.isSplittable i).2.nextNode := hlt.trans_le he0.nextNode
  have hcols : columns X (Layers.rowsOn X (pathOf h i)) = [] ↔ ¬ ∃ j, isNotConstant (column X (rowsOf (h.dataOf i)) j) = true := by
    rw [← hrows, columns_eq hX, List.filter_eq_nil_iff]
    simp
  unfold sampleSplitNode
  simp only [hb]
  generalize (h.isSplittable i).2 = h0 at *
  by_cases hs : ∃ j, isNotConstant (column X (rowsOf (h.dataOf i)) j) = true
  · simp only [hs, decide_true, if_true]
    have hne : columns X (Layers.rowsOn X (pathOf h i)) ≠ [] := fun h => hcols.1 h hs
    unfold Layers.growRule
    rw [if_neg hne]
    cases us with
    | nil => rfl
    | cons u us =>
      simp only
      obtain ⟨j, hjm, hc⟩ := choice_ok_of_ne_nil hne u
      rw [hc]
      simp only
      have hss := sampleSplitCondition_spec hX hk0 (by rw [hr0]; exact hs) (u :: us)
      have hds := sampleSplitCondition_draws hX hk0 u us (j := j) (by rw [hr0, hrows]; exact hc)
      rw [hr0, hrows] at hds
      cases hd : drawCut (column X (Layers.rowsOn X (pathOf h i)) j) us with
      | error e =>
        rw [hd] at hds
        simp only at hds
        generalize sampleSplitCondition h0 i (u :: us) = res at hds
        obtain ⟨h1, us1, res⟩ := res
        simp only at hds
        subst hds
        rfl
      | ok w =>
        obtain ⟨v, us'⟩ := w
        rw [hd] at hds
        simp only at hds
        generalize sampleSplitCondition h0 i (u :: us) = res at hss hds
        obtain ⟨h1, us1, res⟩ := res
        simp only [Prod.mk.injEq] at hds
        obtain ⟨rfl, rfl⟩ := hds
        obtain ⟨e1, e2, e3, j', v', hj', -, hns, hvc, hvm⟩ := hss
        have hj1 : j' = j := (congrArg SplitCondition.splittingVariable hj').symm
        have hv1 : v' = v := (congrArg SplitCondition.splittingValue hj').symm
        subst hj1 hv1
        have hvn : v' ≠ .nan := by obtain ⟨r, -, hr⟩ := mem_column.1 hvc; rw [← hr]; exact hX r j'
        have hk1 := e1.nodeOk hlt0 hk0
        have hlt1 : i < h1.nextNode := hlt0.trans_le e1.nextNode
        obtain ⟨h2, cr, s1, s2, s3, s4, s5, s6, s7, s8, s9, -⟩ := splitNode_spec hk1 (leCond_gtCond_pair j' hvn) (fun r => hX r _) rfl rfl
        simp only [s1]
        have hpi : pathOf h i = q.map condOf := pathOf_init hk.combined
        have hpD : pathOf h2 (h1.nextNode + 2) = q.map condOf := by
          apply pathOf_init
          rw [s7]
          exact hk1.combined
        refine ⟨some (j', v'), rfl, ⟨h1.nextNode, h1.nextNode + 1, by rw [s7]; rfl, by rw [s7]; rfl, by omega, by omega, by omega, ?_⟩, by rw [hpD, hpi]⟩
        rw [hpD, pathOf_init s8.combined, pathOf_init s9.combined]
        have c1 : condOf (leCond j' v' : SplitCondition K p) = ⟨j', v', true⟩ := rfl
        have c2 : condOf cr = ⟨j', v', false⟩ := by
          simp only [condOf, s2.opr, s2.var, s2.val]
          rfl
        simp [Layers.expand, c1, c2]
  · simp only [hs, decide_false, Bool.false_eq_true, if_false]
    unfold Layers.growRule
    rw [if_pos (hcols.2 hs)]
    have x1 : HeapExt h0 (h0.newLeaf (h0.node i).split ((h0.node i).depth + 1)).2 := HeapExt.allocNode h0 _
    generalize hL : h0.newLeaf (h0.node i).split ((h0.node i).depth + 1) = L at *
    have x2 : HeapExt L.2 (L.2.newLeaf (h0.node i).split ((h0.node i).depth + 1)).2 := HeapExt.allocNode L.2 _
    generalize hR : L.2.newLeaf (h0.node i).split ((h0.node i).depth + 1) = R at *
    have x3 : HeapExt R.2 (R.2.newDecision (h0.node i).split L.1 R.1 (h0.node i).depth).2 := HeapExt.allocNode R.2 _
    generalize hD : R.2.newDecision (h0.node i).split L.1 R.1 (h0.node i).depth = D at *
    have l1 : L.1 = h0.nextNode := by rw [← hL]; rfl
    have l2 : L.2.nextNode = h0.nextNode + 1 := by rw [← hL]; rfl
    have r1 : R.1 = h0.nextNode + 1 := by rw [← hR]; exact l2
    have r2 : R.2.nextNode = h0.nextNode + 2 := by rw [← hR]; show L.2.nextNode + 1 = _; omega
    have d1 : D.1 = h0.nextNode + 2 := by rw [← hD]; exact r2
    have d2 : D.2.nextNode = h0.nextNode + 3 := by rw [← hD]; show R.2.nextNode + 1 = _; omega
    have nL : D.2.node L.1 = leafRec ((h0.node i).depth + 1) (h0.node i).split := by
      rw [x3.node _ (by omega), x2.node _ (by omega), ← hL]
      simp [Heap.newLeaf, Heap.allocNode, leafRec]
    have nR : D.2.node R.1 = leafRec ((h0.node i).depth + 1) (h0.node i).split := by
      rw [x3.node _ (by omega), ← hR]
      simp [Heap.newLeaf, Heap.allocNode, leafRec]
    have nD : D.2.node D.1 = decRec (h0.node i).depth (h0.node i).split L.1 R.1 := by
      rw [← hD]
      simp [Heap.newDecision, Heap.allocNode, decRec]
    have pp : ∀ k, (D.2.node k).split = (h0.node i).split → pathOf D.2 k = pathOf h i := by
      intro k hk'
      unfold pathOf
      rw [hk', hn0]
    have pL := pp L.1 (by rw [nL]; rfl)
    have pR := pp R.1 (by rw [nR]; rfl)
    have pD := pp D.1 (by rw [nD]; rfl)
    refine ⟨none, rfl, ⟨L.1, R.1, by rw [nD]; rfl, by rw [nD]; rfl, by omega, by omega, by omega, ?_⟩, pD⟩
    rw [pL, pR, pD]; rfl

theorem NodeRule.ext {h h' : Heap K n p} {i : NodeId} {rule : Layers.Rule K p} (hr : NodeRule h i rule) (he : HeapExt h h') : NodeRule h' i rule :=
  hr.same he.nextNode (fun k hk => by rw [he.node k hk]; exact SameNode.refl _)

theorem pathOf_ext {h h' : Heap K n p} (he : HeapExt h h') {i : NodeId} (hi : i < h.nextNode) : pathOf h' i = pathOf h i := by
  unfold pathOf; rw [he.node i hi]

/-- All leaves. -/
theorem growMutations_ref (hX : NoNan X) {y : Fin n → K} : ∀ (is : List NodeId) {h : Heap K n p}
    (_ : ∀ i ∈ is, i < h.nextNode ∧ (∃ q, NodeOk X (some y) h i q) ∧ (∃ d, Struct X h (.leaf i) d) ∧ GoodNode h i) (us : List Nat),
    match growMutations is h us with
    | (h1, us1, .ok ms) => ∃ rules, Layers.growRules X (is.map (pathOf h)) us = .ok (rules, us1) ∧ List.Forall₂ (fun mu rule => NodeRule h1 mu.updated rule) ms rules
    | (_, _, .error e) => Layers.growRules X (is.map (pathOf h)) us = .error e := by
  intro is
  induction is with
  | nil => intro h _ us; exact ⟨[], rfl, .nil⟩
  | cons i is ih =>
    intro h hi us
    obtain ⟨hlt, hk, ⟨d, hS⟩, hg⟩ := hi i (by simp)
    have h1 := osampleSplitNode_spec hX hlt hk hS us
    have h2 := sampleSplitNode_ref hX hlt hk hg us
    unfold growMutations
    simp only [List.map_cons, Layers.growRules]
    generalize sampleSplitNode h i us = res at h1 h2
    obtain ⟨h', us1, res⟩ := res
    cases res with
    | error e => simp only at h2 ⊢; rw [h2]
    | ok D =>
      obtain ⟨he, L, R, hb⟩ := h1
      obtain ⟨rule, e1, hr, -⟩ := h2
      simp only
      rw [e1]
      simp only
      have hleaf : (h'.node i).kind = .leaf := by rw [he.node i hlt]; exact hS.1
      have hm : Tree.growMutation h' i D = .ok { kind := .grow, existing := i, updated := D } := by
        unfold Tree.growMutation; simp [hleaf]
      simp only [hm]
      have hi' : ∀ k ∈ is, k < h'.nextNode ∧ (∃ q, NodeOk X (some y) h' k q) ∧ (∃ d, Struct X h' (.leaf k) d) ∧ GoodNode h' k := by
        intro k hk
        obtain ⟨a1, ⟨q, a2⟩, ⟨d, a3⟩, a4⟩ := hi k (by simp [hk])
        exact ⟨a1.trans_le he.nextNode, ⟨q, he.nodeOk a1 a2⟩, ⟨d, a3.of_nodes_eq (fun j hj => by simp [Shape.ids] at hj; subst hj; exact he.node _ a1)⟩, a4.ext he a1⟩
      have h3 := ih hi' us1
      have h4 := ogrowMutations_spec hX (y := y) is (h := h') (fun k hk => ⟨(hi' k hk).1, (hi' k hk).2.1, (hi' k hk).2.2.1⟩) us1
      have hp : is.map (pathOf h') = is.map (pathOf h) := List.map_congr_left (fun k hk => pathOf_ext he (hi k (by simp [hk])).1)
      rw [hp] at h3
      generalize growMutations is h' us1 = res2 at h3 h4
      obtain ⟨h'', us2, res2⟩ := res2
      cases res2 with
      | error e => simp only at h3 ⊢; rw [h3]
      | ok ms =>
        obtain ⟨rules, e2, hf⟩ := h3
        simp only
        rw [e2]
        exact ⟨_, rfl, .cons (hr.ext h4.1) hf⟩

end Bart.Oblivious
