import Verif.Proofs.RealLemmas
import Verif.Proofs.TreeSampler

/-! A grow and the prune that undoes it. -/

set_option linter.unusedSectionVars false

namespace Bart
open Spec
variable {K : Type} [Field K] [LinearOrder K] {n p : Nat} {X : Fin n → Fin p → Fl K}

/-- The node that a grow puts in place of a leaf. -/
theorem grown_node {y : Fin n → K} {t t1 t2 : Tree K n p} {s : Shape} (hI : TreeInv X (some y) t s) (he : TreeExt t t1)
    {i D L R : NodeId} {j : Fin p} {v : Fl K} (hg : GrowProp X (some y) t t1.heap i D L R j v)
    (hm : t1.mutate { kind := .grow, existing := i, updated := D } = .ok t2) :
    rule t2.heap D = some (j, v) ∧ rowsOf (t2.heap.dataOf D) = rowsOf (t1.heap.dataOf i) ∧
    (t2.heap.node D).depth = (t1.heap.node i).depth ∧ D ∈ t2.nodes ∧ (∃ s', TreeInv X (some y) t2 s') ∧ D ∈ t2.prunableDecisionNodes := by
  obtain ⟨t', f1, f2, f3, f4, f5, f6, f7, f8, f9, f10⟩ := mutate_grow (hI.ext he) (by rw [he.leafNodes hI]; exact hg.leaf) hg.ready hg.nodup
    (by rw [he.nodes]; exact hg.fresh) hg.lt
  rw [f1] at hm; injection hm with hm; subst hm
  have hDm : D ∈ t'.nodes := by rw [f3]; simp
  have hin : i ∈ t.nodes := (List.mem_filter.1 hg.leaf).1
  have hLi : L ≠ i := fun e => hg.fresh L (by simp) (e ▸ hin)
  have hRi : R ≠ i := fun e => hg.fresh R (by simp) (e ▸ hin)
  obtain ⟨c1, c2, c3, c4, c5, c6, c7, c8, c9⟩ := hg.children
  have hl : (t'.heap.node D).left = some L := by
    rw [f10 D hDm]; simp [relinkRec, c1, hLi]
  have hr : (t'.heap.node D).right = some R := by
    rw [f10 D hDm]; simp [relinkRec, c2, hRi]
  refine ⟨?_, ?_, ?_, hDm, ⟨_, f2⟩, ?_⟩
  · have := hg.rule
    unfold Spec.rule at this ⊢
    rw [c1] at this
    rw [hl]
    simp only [(f9 L).2.2.2] at this ⊢
    exact this
  · have : t'.heap.dataOf D = t1.heap.dataOf i := by
      unfold Heap.dataOf
      rw [(f9 D).2.2.2, hg.split, f6]
    rw [this]
  · rw [(f9 D).2.2.1, c4]
  · unfold Tree.prunableDecisionNodes Tree.decisionNodes
    simp only [List.mem_filter, decide_eq_true_eq]
    refine ⟨⟨hDm, by rw [(f9 D).2.1]; exact c7⟩, ?_⟩
    unfold Heap.isPrunable
    rw [hl, hr]
    simp [Heap.isLeafPtr, (f9 L).2.1, (f9 R).2.1, c8, c9]

/-- The same after anything that only extends the heap. -/
theorem grown_node_ext {y : Fin n → K} {t t1 t2 t3 : Tree K n p} {s : Shape} (hI : TreeInv X (some y) t s) (he : TreeExt t t1)
    {i D L R : NodeId} {j : Fin p} {v : Fl K} (hg : GrowProp X (some y) t t1.heap i D L R j v)
    (hm : t1.mutate { kind := .grow, existing := i, updated := D } = .ok t2) (h3 : TreeExt t2 t3) :
    rule t3.heap D = some (j, v) ∧ rowsOf (t3.heap.dataOf D) = rowsOf (t1.heap.dataOf i) ∧
    (t3.heap.node D).depth = (t1.heap.node i).depth := by
  obtain ⟨a1, a2, a3, a4, ⟨s', hI2⟩, -⟩ := grown_node hI he hg hm
  refine ⟨?_, by rw [h3.rows hI2 a4, a2], by rw [h3.heap.node D (hI2.mem_lt a4), a3]⟩
  rw [← a1]
  unfold Spec.rule
  rw [h3.heap.node D (hI2.mem_lt a4)]
  cases hl : (t2.heap.node D).left with
  | none => rfl
  | some l =>
    simp only
    have := (hI2.repr.child D (hI2.perm.mem_iff.1 a4) l (Or.inl hl)).1
    rw [h3.heap.node l (hI2.lt l this)]

/-- The rows of a proposed cut are the rows of the leaf. -/
theorem GrowProp.rows_base {y : Fin n → K} {t t1 : Tree K n p} {s : Shape} (hI : TreeInv X (some y) t s) (he : TreeExt t t1)
    {i D L R : NodeId} {j : Fin p} {v : Fl K} (hg : GrowProp X (some y) t t1.heap i D L R j v) :
    rowsOf (t1.heap.dataOf i) = rowsOf (t.heap.dataOf i) ∧ (t1.heap.node i).depth = (t.heap.node i).depth :=
  ⟨he.rows hI (List.mem_filter.1 hg.leaf).1, by rw [he.heap.node i (hI.mem_lt (List.mem_filter.1 hg.leaf).1)]⟩

/-- A leaf that is grown is splittable. -/
theorem GrowProp.nsl_pos {y : Fin n → K} {t t1 : Tree K n p} {s : Shape} (hI : TreeInv X (some y) t s) (he : TreeExt t t1)
    {i D L R : NodeId} {j : Fin p} {v : Fl K} (hg : GrowProp X (some y) t t1.heap i D L R j v) : 0 < (splitLeavesOf X t).length := by
  apply List.length_pos_of_mem (a := i)
  refine mem_splitLeavesOf.2 ⟨hg.leaf, j, ?_⟩
  rw [← (GrowProp.rows_base hI he hg).1]
  exact hg.splittable

/-- A grow makes no other node prunable than the new one. -/
theorem grown_prunable {y : Fin n → K} {t t1 t2 : Tree K n p} {s : Shape} (hI : TreeInv X (some y) t s) (he : TreeExt t t1)
    {i D L R : NodeId} {j : Fin p} {v : Fl K} (hg : GrowProp X (some y) t t1.heap i D L R j v)
    (hm : t1.mutate { kind := .grow, existing := i, updated := D } = .ok t2) {k : NodeId} (hk : k ∈ t2.prunableDecisionNodes) :
    k = D ∨ k ∈ t.prunableDecisionNodes := by
  obtain ⟨t', f1, f2, f3, f4, f5, f6, f7, f8, f9, f10⟩ := mutate_grow (hI.ext he) (by rw [he.leafNodes hI]; exact hg.leaf) hg.ready hg.nodup
    (by rw [he.nodes]; exact hg.fresh) hg.lt
  rw [f1] at hm; injection hm with hm; subst hm
  obtain ⟨c1, c2, c3, c4, c5, c6, c7, c8, c9⟩ := hg.children
  unfold Tree.prunableDecisionNodes Tree.decisionNodes at hk
  simp only [List.mem_filter, decide_eq_true_eq] at hk
  obtain ⟨⟨hk1, hk2⟩, hk3⟩ := hk
  have hk1' := hk1
  rw [f3] at hk1'
  simp only [List.append_assoc, List.mem_append, List.mem_singleton] at hk1'
  rw [(f9 k).2.1] at hk2
  rcases hk1' with h | rfl | rfl | rfl
  · right
    rw [← prunable_congr hI he]
    unfold Tree.prunableDecisionNodes Tree.decisionNodes
    simp only [List.mem_filter, decide_eq_true_eq]
    refine ⟨⟨List.mem_of_mem_erase h, hk2⟩, ?_⟩
    unfold Heap.isPrunable at hk3 ⊢
    rw [f10 k hk1] at hk3
    have hD : t'.heap.isLeafPtr (some D) = false := by simp [Heap.isLeafPtr, (f9 D).2.1, c7]
    have hc : ∀ c, t'.heap.isLeafPtr (if c = some i then some D else c) = true → t1.heap.isLeafPtr c = true := by
      intro c h
      split at h
      · rw [hD] at h; cases h
      · cases c with
        | none => exact h
        | some q => simpa [Heap.isLeafPtr, (f9 q).2.1] using h
    simp only [relinkRec, Bool.and_eq_true] at hk3 ⊢
    exact ⟨hc _ hk3.1, hc _ hk3.2⟩
  · rw [c8] at hk2; cases hk2
  · rw [c9] at hk2; cases hk2
  · exact Or.inl rfl

theorem grown_prunable_length {y : Fin n → K} {t t1 t2 : Tree K n p} {s : Shape} (hI : TreeInv X (some y) t s) (he : TreeExt t t1)
    {i D L R : NodeId} {j : Fin p} {v : Fl K} (hg : GrowProp X (some y) t t1.heap i D L R j v)
    (hm : t1.mutate { kind := .grow, existing := i, updated := D } = .ok t2) :
    t2.prunableDecisionNodes.length ≤ t.prunableDecisionNodes.length + 1 := by
  obtain ⟨-, -, -, -, ⟨s', hI2⟩, -⟩ := grown_node hI he hg hm
  have hnd : t2.prunableDecisionNodes.Nodup := (hI2.nodes_nodup.filter _).filter _
  have : t2.prunableDecisionNodes ⊆ D :: t.prunableDecisionNodes := by
    intro k hk
    rcases grown_prunable hI he hg hm hk with rfl | h
    · simp
    · simp [h]
  simpa using (hnd.subperm this).length_le

end Bart
