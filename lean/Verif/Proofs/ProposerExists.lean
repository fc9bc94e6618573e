import Verif.Proofs.TreeSampler

/-! Which proposals can come out: every splittable leaf with every value below the maximum of a splittable column, and every prunable
decision node. -/

set_option linter.unusedSectionVars false

namespace Bart
open Spec
variable {K : Type} [Field K] [LinearOrder K] {n p : Nat} {X : Fin n → Fin p → Fl K}

theorem CovariateMatrix.randomSplittableValue_exact {c : CovariateMatrix K n p} (h : CMInv c) (hn : NoNan c.X) {i : Fin p}
    (hi : i ∈ c.refSplittable) {x : Fl K} (hx : x ∈ c.col i) {b : Fl K} (hb : b ∈ c.col i) (hlt : Fl.lt x b = true) :
    ∃ u c', ∀ rest, c.randomSplittableValue i (u :: rest) = .ok (x, rest, c') := by
  obtain ⟨h1, h2, h3⟩ := splittable_spec h
  have hnc : ∀ x ∈ c.col i, x ≠ .nan := by
    intro x hx
    obtain ⟨r, -, hr⟩ := mem_column.1 hx
    rw [← hr]; exact hn r i
  have hne : c.col i ≠ [] := List.ne_nil_of_mem hx
  have hm := maxValueOfColumn_spec h3 i
  rw [h2.col] at hm
  unfold randomSplittableValue
  simp only [h1, hi, if_true]
  cases e : c.splittable.2.maxValueOfColumn i with
  | error e' =>
    rw [e] at hm
    obtain ⟨m, hm'⟩ := npMaxList_ok hne
    simp only at hm
    rw [hm'] at hm; cases hm
  | ok q =>
    obtain ⟨m, c1⟩ := q
    rw [e] at hm
    obtain ⟨m1, m2, m3⟩ := hm
    obtain ⟨g1, g2, g3, -⟩ := getColumn_spec m3 i
    simp only [g1, m2.col, h2.col]
    obtain ⟨mm, ml⟩ := npMaxList_spec hnc m1
    have hxm : x ≠ m := by
      rintro rfl
      have := ml b hb
      cases x <;> cases b <;> simp_all [Fl.le, Fl.lt]
      exact absurd hlt (not_lt.2 this)
    obtain ⟨u, hu⟩ := exists_choice_eq hx
    have hef : Fl.eq x m = false := by
      cases he : Fl.eq x m with
      | false => rfl
      | true => exact absurd (Fl.eq_iff.1 he).2 hxm
    refine ⟨u, (c1.getColumn i).2, fun rest => ?_⟩
    simp [drawNonMax, hu, hef]

theorem sampleSplitCondition_exact (hX : NoNan X) {y : Option (Fin n → K)} {h : Heap K n p} {i : NodeId}
    {path : List (SplitCondition K p)} (hk : NodeOk X y h i path) {j : Fin p} (hj : isNotConstant (column X (rowsOf (h.dataOf i)) j) = true)
    {x b : Fl K} (hx : x ∈ column X (rowsOf (h.dataOf i)) j) (hb : b ∈ column X (rowsOf (h.dataOf i)) j) (hlt : Fl.lt x b = true) :
    ∃ u0 u1 h', ∀ us, Tree.sampleSplitCondition h i (u0 :: u1 :: us) = (h', us, .ok (leCond j x, gtCond j x)) := by
  obtain ⟨h1, h2, h3⟩ := CovariateMatrix.splittable_spec hk.inv.X
  have hext := HeapExt.setX hk.inv h2 h3
  have hdof := setDataOf_self h i { h.dataOf i with X := (h.dataOf i).X.splittable.2 }
  have hcol : ∀ j, (h.dataOf i).X.splittable.2.col j = column X (rowsOf (h.dataOf i)) j := by
    intro j; rw [h2.col]; exact hk.col j
  have hmem : j ∈ (h.dataOf i).X.splittable.1 := by
    rw [h1]
    simp only [CovariateMatrix.refSplittable, List.mem_filter, List.mem_finRange, true_and]
    rw [hk.col]; exact hj
  obtain ⟨u0, hu0⟩ := exists_choice_eq hmem
  have hX' : (h.dataOf i).X.splittable.2.X = X := by rw [h2.X]; exact hk.hX
  have hj' : j ∈ (h.dataOf i).X.splittable.2.refSplittable := by
    simp only [CovariateMatrix.refSplittable, List.mem_filter, List.mem_finRange, true_and]
    rw [hcol]; exact hj
  obtain ⟨u1, c', hc⟩ := CovariateMatrix.randomSplittableValue_exact h3 (by rw [hX']; exact hX) hj' (by rw [hcol]; exact hx) (by rw [hcol]; exact hb) hlt
  refine ⟨u0, u1, (h.setDataOf i { h.dataOf i with X := (h.dataOf i).X.splittable.2 }).setDataOf i
    { (h.setDataOf i { h.dataOf i with X := (h.dataOf i).X.splittable.2 }).dataOf i with X := c' }, fun us => ?_⟩
  unfold Tree.sampleSplitCondition
  simp only [hu0, hdof, hc]
  rfl

/-- Every cut of a splittable leaf at a value below the maximum of a splittable column can be proposed. -/
theorem sampleGrow_exact (hX : NoNan X) {y : Fin n → K} {t : Tree K n p} {s : Shape} (hI : TreeInv X (some y) t s)
    {i : NodeId} (hi : i ∈ t.leafNodes) {j : Fin p} (hj : isNotConstant (column X (rowsOf (t.heap.dataOf i)) j) = true)
    {x b : Fl K} (hx : x ∈ column X (rowsOf (t.heap.dataOf i)) j) (hb : b ∈ column X (rowsOf (t.heap.dataOf i)) j) (hlt : Fl.lt x b = true) :
    ∃ u0 u1 u2 t1 D, rule t1.heap D = some (j, x) ∧
      ∀ us, t.sampleGrow (u0 :: u1 :: u2 :: us) = (t1, us, .ok { kind := .grow, existing := i, updated := D }) := by
  have hx0 := splittableLeaves_ext hI
  have hI0 := hI.ext hx0
  have him : i ∈ t.splittableLeafNodes.1 := (mem_splittableLeaves hI).2 ⟨hi, j, hj⟩
  obtain ⟨u0, hu0⟩ := exists_choice_eq him
  have hin : i ∈ t.nodes := (List.mem_filter.1 hi).1
  have hin0 : i ∈ t.splittableLeafNodes.2.nodes := hin
  obtain ⟨q, hk⟩ := hI0.repr.nodeOk i (hI0.perm.mem_iff.1 hin0)
  have hrows0 := hx0.rows hI hin
  obtain ⟨u1, u2, h1, hc⟩ := sampleSplitCondition_exact hX hk (by rw [hrows0]; exact hj) (by rw [hrows0]; exact hx) (by rw [hrows0]; exact hb) hlt
  have hss := sampleSplitCondition_spec hX hk [u1, u2]
  rw [hc] at hss
  have e1 := hss.1
  have hlen : ¬ t.splittableLeafNodes.1.length = 0 := by
    intro h0; rw [List.length_eq_zero_iff.1 h0] at him; cases him
  have hvn : x ≠ .nan := by obtain ⟨r, -, hr⟩ := mem_column.1 hx; rw [← hr]; exact hX r j
  have hx1 : TreeExt t.splittableLeafNodes.2 { t.splittableLeafNodes.2 with heap := h1 } := TreeExt.withHeap e1
  have hI1 := hI0.ext hx1
  have hin1 : i ∈ ({ t.splittableLeafNodes.2 with heap := h1 } : Tree K n p).nodes := hin
  have hil1 : i ∈ ({ t.splittableLeafNodes.2 with heap := h1 } : Tree K n p).leafNodes := by rw [(hx0.trans hx1).leafNodes hI]; exact hi
  obtain ⟨m, t2, hp⟩ := proposeGrow_ok (j := j) hX hI1 hvn hil1
  obtain ⟨-, -, rfl, g1, g2, g3, he, hn, hrd, v1, v2, hrule, -⟩ := proposeGrow_spec hX hI1 hvn hin1 hp
  unfold Tree.proposeGrow at hp
  simp only at hp
  split at hp
  · cases hp
  · next d h2 hs =>
    split at hp
    · cases hp
    · next m' hm =>
      simp only [Except.ok.injEq, Prod.mk.injEq] at hp
      obtain ⟨rfl, rfl⟩ := hp
      refine ⟨u0, u1, u2, { t.splittableLeafNodes.2 with heap := h2 }, _, hrule, fun us => ?_⟩
      unfold Tree.sampleGrow Tree.sampleSplitNode
      simp only [hlen, if_false, hu0, hc, hs, hm]

/-- Every prunable decision node can be proposed. -/
theorem samplePrune_exact {y : Option (Fin n → K)} {t : Tree K n p} {s : Shape} (hI : TreeInv X y t s)
    {i : NodeId} (hi : i ∈ t.prunableDecisionNodes) :
    ∃ u t1 U, ∀ us, t.samplePrune (u :: us) = (t1, us, .ok { kind := .prune, existing := i, updated := U }) := by
  obtain ⟨u, hu⟩ := exists_choice_eq hi
  have hlen : ¬ t.prunableDecisionNodes.length = 0 := by
    intro h0; rw [List.length_eq_zero_iff.1 h0] at hi; cases hi
  have hs := samplePrune_spec hI [u]
  refine ⟨u, { t with heap := (t.heap.newLeaf (t.heap.node i).split (t.heap.node i).depth).2 },
    (t.heap.newLeaf (t.heap.node i).split (t.heap.node i).depth).1, fun us => ?_⟩
  unfold Tree.samplePrune at hs ⊢
  simp only [hlen, if_false, hu] at hs ⊢
  generalize hr : t.heap.newLeaf (t.heap.node i).split (t.heap.node i).depth = r at hs ⊢
  cases e : Tree.pruneMutation r.2 i r.1 with
  | error er =>
    rw [e] at hs
    rcases hs with ⟨-, ⟨h1, -⟩ | ⟨h1, -⟩⟩
    · subst h1; unfold Tree.pruneMutation at e; split at e <;> cases e
    · subst h1; unfold Tree.pruneMutation at e; split at e <;> cases e
  | ok mu =>
    unfold Tree.pruneMutation at e
    split at e
    · cases e
    · injection e with e; subst e
      rfl

end Bart
