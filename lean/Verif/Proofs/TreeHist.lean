import Verif.Proofs.TreeWalk
import Verif.Proofs.DataRun

/-! Every history keeps the tree invariant. -/

set_option linter.unusedSectionVars false

namespace Bart
open Spec
variable {K : Type} [Field K] [LinearOrder K] {n p : Nat}

/-- Without a target a node cannot be split. -/
theorem splitNode_none {X : Fin n → Fin p → Fl K} {h : Heap K n p} {i : NodeId} {path : List (SplitCondition K p)}
    (hk : NodeOk X none h i path) (c0 c1 : SplitCondition K p) : ∀ r, h.splitNode i c0 c1 ≠ .ok r := by
  intro r hr
  unfold Heap.splitNode Heap.splitAdd at hr
  simp only at hr
  split at hr
  · cases hr
  · next ls h1 e1 =>
    split at e1
    · cases e1
    · next d hd =>
      injection e1 with e1
      have e1 := congrArg Prod.snd e1
      simp only at e1
      have hh : h1.data (h.node i).split.data = h.dataOf i := by
        have : (h.node i).split.data ≠ h.nextData := Nat.ne_of_lt hk.data_lt
        rw [← e1]; simp [Heap.allocData, this, Heap.dataOf]
      have hs := Data.sumY_spec hk.inv
      have : h1.sumYOf (h.node i).split.data = .error .typeError := by
        unfold Heap.sumYOf
        rw [hh]
        cases e : (h.dataOf i).sumY with
        | error er => rw [e] at hs; rw [hs.1]
        | ok q =>
          obtain ⟨a, b⟩ := q
          rw [e] at hs
          obtain ⟨y, hy, -⟩ := hs
          rw [hk.y] at hy; cases hy
      rw [this] at hr
      cases hr

section
variable {X : Fin n → Fin p → Fl K} {y : Option (Fin n → K)} {t : Tree K n p} {s : Shape}

theorem TreeInv.mem_lt (hI : TreeInv X y t s) {i : NodeId} (hi : i ∈ t.nodes) : i < t.heap.nextNode :=
  hI.lt i (hI.perm.mem_iff.1 hi)

/-- What building a grow does. -/
theorem proposeGrow_spec (hX : NoNan X) (hI : TreeInv X y t s) {i : NodeId} {j : Fin p} {v : Fl K} (hv : v ≠ .nan)
    (hi : i ∈ t.nodes) {m : TreeMutation} {t1 : Tree K n p} (h : t.proposeGrow i j v = .ok (m, t1)) :
    (∃ y', y = some y') ∧ i ∈ t.leafNodes ∧ m = { kind := .grow, existing := i, updated := t.heap.nextNode + 2 } ∧
    t1.nodes = t.nodes ∧ t1.cacheUpToDate = t.cacheUpToDate ∧ t1.prediction = t.prediction ∧ HeapExt t.heap t1.heap ∧
    t1.heap.nextNode = t.heap.nextNode + 3 ∧
    Ready X y t1.heap (.leaf i) (.node (t.heap.nextNode + 2) (.leaf t.heap.nextNode) (.leaf (t.heap.nextNode + 1))) ∧
    (t1.heap.node t.heap.nextNode).value = 0 ∧ (t1.heap.node (t.heap.nextNode + 1)).value = 0 ∧
    rule t1.heap (t.heap.nextNode + 2) = some (j, v) ∧ (t1.heap.node (t.heap.nextNode + 2)).split = (t.heap.node i).split ∧
    (∃ path, NodeOk X y t.heap i path ∧ ∃ cr, SplitPair (leCond j v) cr ∧
        NodeOk X y t1.heap t.heap.nextNode (path ++ [leCond j v]) ∧ NodeOk X y t1.heap (t.heap.nextNode + 1) (path ++ [cr])) := by
  unfold Tree.proposeGrow at h
  obtain ⟨q, hk⟩ := hI.repr.nodeOk i (hI.perm.mem_iff.1 hi)
  cases y with
  | none =>
    exfalso
    split at h
    · cases h
    · next d h' e => exact splitNode_none hk _ _ _ e
  | some y' =>
    refine ⟨⟨y', rfl⟩, ?_⟩
    have hleaf : (t.heap.node i).kind = .leaf := by
      by_contra hne
      split at h
      · cases h
      · next d h' e =>
        obtain ⟨h2, cr, e2, hp, he, -⟩ := splitNode_spec hk (leCond_gtCond_pair j hv) (fun r => hX r j) rfl rfl
        rw [e] at e2; injection e2 with e2
        have e2' := congrArg Prod.snd e2; simp only at e2'; subst e2'
        unfold Tree.growMutation at h
        rw [he.node i (hI.mem_lt hi)] at h
        simp [hne] at h
    have hil : i ∈ t.leafNodes := by unfold Tree.leafNodes; simp [hi, hleaf]
    obtain ⟨-, hR⟩ := hI.leaf_sub hil
    obtain ⟨h', e1, he, hn, hrd, v1, v2, hrule, hsp, hok⟩ := splitNode_ready hR (hI.mem_lt hi) (fun r => hX r j) hv
    rw [e1] at h
    simp only [Tree.growMutation, he.node i (hI.mem_lt hi), hleaf, ne_eq, not_true_eq_false, if_false, Except.ok.injEq, Prod.mk.injEq] at h
    obtain ⟨rfl, rfl⟩ := h
    exact ⟨hil, rfl, rfl, rfl, rfl, he, hn, hrd, v1, v2, hrule, hsp, hok⟩

/-- A grow of a leaf with target can always be built. -/
theorem proposeGrow_ok {y : Fin n → K} (hX : NoNan X) (hI : TreeInv X (some y) t s) {i : NodeId} {j : Fin p} {v : Fl K} (hv : v ≠ .nan)
    (hi : i ∈ t.leafNodes) : ∃ m t1, t.proposeGrow i j v = .ok (m, t1) := by
  have him : i ∈ t.nodes := (List.mem_filter.1 hi).1
  have hleaf : (t.heap.node i).kind = .leaf := by have := (List.mem_filter.1 hi).2; simpa using this
  obtain ⟨-, hR⟩ := hI.leaf_sub hi
  obtain ⟨h', e1, he, -⟩ := splitNode_ready hR (hI.mem_lt him) (fun r => hX r j) hv
  unfold Tree.proposeGrow
  rw [e1]
  simp [Tree.growMutation, he.node i (hI.mem_lt him), hleaf]

/-- What building a prune does. -/
theorem proposePrune_spec (hI : TreeInv X y t s) {i : NodeId}
    (hi : i ∈ t.nodes) {m : TreeMutation} {t1 : Tree K n p} (h : t.proposePrune i = .ok (m, t1)) :
    i ∈ t.prunableDecisionNodes ∧ m = { kind := .prune, existing := i, updated := t.heap.nextNode } ∧
    t1.nodes = t.nodes ∧ t1.cacheUpToDate = t.cacheUpToDate ∧ t1.prediction = t.prediction ∧ HeapExt t.heap t1.heap ∧
    t1.heap.nextNode = t.heap.nextNode + 1 ∧ t1.heap.data = t.heap.data ∧
    t1.heap.node t.heap.nextNode = leafRec (t.heap.node i).depth (t.heap.node i).split ∧
    ∃ l r, (Shape.node i (.leaf l) (.leaf r)).Sub s ∧ (t.heap.node i).left = some l ∧ (t.heap.node i).right = some r ∧
      Ready X y t1.heap (.node i (.leaf l) (.leaf r)) (.leaf t.heap.nextNode) := by
  unfold Tree.proposePrune at h
  simp only at h
  have he : HeapExt t.heap (t.heap.newLeaf (t.heap.node i).split (t.heap.node i).depth).2 := HeapExt.allocNode _ _
  have hkid : ∀ l, IsChild t.heap i l → (t.heap.newLeaf (t.heap.node i).split (t.heap.node i).depth).2.node l = t.heap.node l := by
    intro l hl
    have := (hI.repr.child i (hI.perm.mem_iff.1 hi) l hl).1
    exact he.node l (hI.lt l this)
  split at h
  · cases h
  · next m' hm =>
    unfold Tree.pruneMutation at hm
    rw [he.node i (hI.mem_lt hi)] at hm
    split at hm
    · cases hm
    · next hc =>
      injection hm with hm
      simp only [Except.ok.injEq, Prod.mk.injEq] at h
      obtain ⟨rfl, rfl⟩ := h
      simp only [not_or, not_not, Bool.not_eq_false] at hc
      have hpr : t.heap.isPrunable i = true := by
        have h2 := hc.2
        unfold Heap.isPrunable at h2 ⊢
        rw [he.node i (hI.mem_lt hi)] at h2
        cases hl : (t.heap.node i).left with
        | none => rw [hl] at h2; simp [Heap.isLeafPtr] at h2
        | some l =>
          cases hr : (t.heap.node i).right with
          | none => rw [hl, hr] at h2; simp [Heap.isLeafPtr] at h2
          | some r =>
            rw [hl, hr] at h2
            simp only [Heap.isLeafPtr, hkid l (Or.inl hl), hkid r (Or.inr hr)] at h2
            simpa [Heap.isLeafPtr] using h2
      have hip : i ∈ t.prunableDecisionNodes := by
        unfold Tree.prunableDecisionNodes Tree.decisionNodes
        simp [hi, hc.1, hpr]
      obtain ⟨l, r, hsub, hR⟩ := hI.prunable_sub hip
      have hlt : ∀ j ∈ (Shape.node i (.leaf l) (.leaf r)).ids, j < t.heap.nextNode := fun j hj => hI.lt j (hsub.ids_subset j hj)
      obtain ⟨-, hrd⟩ := newLeaf_ready hR rfl hlt
      obtain ⟨q, d, hR⟩ := hR
      exact ⟨hip, hm.symm, rfl, rfl, rfl, he, rfl, rfl, by simp [Heap.newLeaf, Heap.allocNode, leafRec], l, r, hsub,
        hR.2.1, hR.2.2.1, hrd⟩

theorem proposePrune_ok (hI : TreeInv X y t s) {i : NodeId} (hi : i ∈ t.prunableDecisionNodes) :
    ∃ m t1, t.proposePrune i = .ok (m, t1) := by
  obtain ⟨l, r, hsub, q, d, hR⟩ := hI.prunable_sub hi
  have hlt : ∀ j ∈ (Shape.node i (.leaf l) (.leaf r)).ids, j < t.heap.nextNode := fun j hj => hI.lt j (hsub.ids_subset j hj)
  have he : HeapExt t.heap (t.heap.newLeaf (t.heap.node i).split (t.heap.node i).depth).2 := HeapExt.allocNode _ _
  have ei := he.node i (hlt i (by simp [Shape.ids]))
  have el := he.node l (hlt l (by simp [Shape.ids]))
  have er := he.node r (hlt r (by simp [Shape.ids]))
  obtain ⟨r1, r2, r3, -, -, cl, cr, -, hl, hr⟩ := hR
  simp only [Shape.root] at r2 r3
  unfold Tree.proposePrune
  simp [Tree.pruneMutation, Heap.isPrunable, ei, r1, r2, r3, Heap.isLeafPtr, el, er, hl.1, hr.1]

/-- Growing, as one step. -/
theorem grow_step (hX : NoNan X) (hI : TreeInv X y t s) {i : NodeId} {j : Fin p} {v : Fl K} (hv : v ≠ .nan)
    (hi : i ∈ t.nodes) {t' : Tree K n p} (h : t.step (.grow i j v) = .ok t') :
    (∃ y', y = some y') ∧ i ∈ t.leafNodes ∧
    ∃ t1, t.proposeGrow i j v = .ok ({ kind := .grow, existing := i, updated := t.heap.nextNode + 2 }, t1) ∧
      t1.mutate { kind := .grow, existing := i, updated := t.heap.nextNode + 2 } = .ok t' ∧
      TreeInv X y t1 s ∧
      TreeInv X y t' (s.replace i (.node (t.heap.nextNode + 2) (.leaf t.heap.nextNode) (.leaf (t.heap.nextNode + 1)))) ∧
      t'.nodes = t.nodes.erase i ++ [t.heap.nextNode] ++ [t.heap.nextNode + 1] ++ [t.heap.nextNode + 2] ∧
      t'.cacheUpToDate = false ∧ t'.prediction = t.prediction ∧ t'.heap.data = t1.heap.data ∧
      t'.heap.nextNode = t.heap.nextNode + 3 ∧
      (∀ i, (t'.heap.node i).value = (t1.heap.node i).value ∧ (t'.heap.node i).kind = (t1.heap.node i).kind ∧
        (t'.heap.node i).depth = (t1.heap.node i).depth ∧ (t'.heap.node i).split = (t1.heap.node i).split) ∧
      (∀ k ∈ t'.nodes, t'.heap.node k = relinkRec { kind := .grow, existing := i, updated := t.heap.nextNode + 2 } (t1.heap.node k)) := by
  unfold Tree.step at h
  simp only at h
  split at h
  · cases h
  · next m t1 e =>
    obtain ⟨hy, hil, rfl, g1, g2, g3, he, hn, hrd, v1, v2, hrule, hsp, hok⟩ := proposeGrow_spec hX hI hv hi e
    have hI1 : TreeInv X y t1 s := ⟨he.repr hI.lt hI.repr, by rw [g1]; exact hI.perm, hI.nodup, fun i hi => (hI.lt i hi).trans_le he.nextNode⟩
    have hil1 : i ∈ t1.leafNodes := hI1.mem_leafNodes.2 (hI.mem_leafNodes.1 hil)
    have hfresh : ∀ j ∈ [t.heap.nextNode + 2, t.heap.nextNode, t.heap.nextNode + 1], j ∉ t1.nodes := by
      intro k hk hc
      rw [g1] at hc
      have := hI.mem_lt hc
      simp at hk
      omega
    obtain ⟨t2, f1, f2, f3, f4, f5, f6, f7, f8, f9, f10⟩ := mutate_grow hI1 hil1 hrd (by simp) hfresh (by
      intro k hk; rw [hn]; simp at hk; omega)
    rw [h] at f1; injection f1 with f1; subst f1
    exact ⟨hy, hil, t1, e, h, hI1, f2, by rw [f3, g1], f4, by rw [f5, g3], f6, by rw [f7, hn], f9, f10⟩

/-- Pruning, as one step. -/
theorem prune_step (hI : TreeInv X y t s) {i : NodeId} (hi : i ∈ t.nodes) {t' : Tree K n p} (h : t.step (.prune i) = .ok t') :
    i ∈ t.prunableDecisionNodes ∧ ∃ t1 l r, t.proposePrune i = .ok ({ kind := .prune, existing := i, updated := t.heap.nextNode }, t1) ∧
      (t.heap.node i).left = some l ∧ (t.heap.node i).right = some r ∧
      TreeInv X y t1 s ∧
      TreeInv X y t' (s.replace i (.leaf t.heap.nextNode)) ∧
      t'.nodes = ((t.nodes.erase i).erase l).erase r ++ [t.heap.nextNode] ∧
      t'.cacheUpToDate = false ∧ t'.prediction = t.prediction ∧ t'.heap.data = t.heap.data ∧
      t'.heap.nextNode = t.heap.nextNode + 1 ∧
      (∀ i, (t'.heap.node i).value = (t1.heap.node i).value ∧ (t'.heap.node i).kind = (t1.heap.node i).kind ∧
        (t'.heap.node i).depth = (t1.heap.node i).depth ∧ (t'.heap.node i).split = (t1.heap.node i).split) ∧
      (∀ k ∈ t'.nodes, t'.heap.node k = relinkRec { kind := .prune, existing := i, updated := t.heap.nextNode } (t1.heap.node k)) := by
  unfold Tree.step at h
  simp only at h
  split at h
  · cases h
  · next m t1 e =>
    obtain ⟨hip, rfl, g1, g2, g3, he, hn, hd, hleaf, l, r, hsub, hl, hr, hrd⟩ := proposePrune_spec hI hi e
    have hI1 : TreeInv X y t1 s := ⟨he.repr hI.lt hI.repr, by rw [g1]; exact hI.perm, hI.nodup, fun i hi => (hI.lt i hi).trans_le he.nextNode⟩
    obtain ⟨t2, f1, f2, f3, f4, f5, f6, f7, f8, f9, f10⟩ := mutate_prune hI1 hsub hrd
      (by rw [g1]; intro hc; have := hI.mem_lt hc; omega) (by rw [hn]; omega)
    rw [h] at f1; injection f1 with f1; subst f1
    exact ⟨hip, t1, l, r, e, hl, hr, hI1, f2, by rw [f3, g1], f4, by rw [f5, g3], by rw [f6, hd], by rw [f7, hn], f9, f10⟩

theorem splittableLeaves_spec (hI : TreeInv X y t s) : HeapExt t.heap t.splittableLeafNodes.2.heap ∧
    t.splittableLeafNodes.1 = t.leafNodes.filter (fun i => decide (∃ j, isNotConstant (column X (rowsOf (t.heap.dataOf i)) j) = true)) := by
  unfold Tree.splittableLeafNodes
  refine filterSplittable_spec t.leafNodes (X := X) (y := y) (fun i hi => ?_)
  have him : i ∈ t.nodes := (List.mem_filter.1 hi).1
  exact ⟨hI.mem_lt him, hI.repr.nodeOk i (hI.perm.mem_iff.1 him)⟩

theorem predict_cases {t t' : Tree K n p} {b : PredBuf K n} (h : t.predict = .ok (b, t')) :
    t'.heap = t.heap ∧ t'.nodes = t.nodes ∧ t'.cacheUpToDate = true ∧ t'.prediction = b := by
  unfold Tree.predict at h
  split at h
  · next hc => simp at h; obtain ⟨rfl, rfl⟩ := h; exact ⟨rfl, rfl, hc, rfl⟩
  · split at h
    · cases h
    · simp at h; obtain ⟨rfl, rfl⟩ := h; exact ⟨rfl, rfl, rfl, rfl⟩

/-- The current target after a call. -/
def nextTarget (y : Option (Fin n → K)) : TreeOp K n p → Option (Fin n → K)
  | .updateY y' => y'
  | _ => y

/-- Every call keeps the invariant. -/
theorem step_inv (hX : NoNan X) (hI : TreeInv X y t s) {op : TreeOp K n p} (hop : TreeOp.ok t op) {t' : Tree K n p}
    (h : t.step op = .ok t') : ∃ s', TreeInv X (nextTarget y op) t' s' := by
  cases op with
  | grow i j v =>
    obtain ⟨-, -, t1, -, -, -, h1, -⟩ := grow_step hX hI hop.2 hop.1 h
    exact ⟨_, h1⟩
  | prune i =>
    obtain ⟨-, t1, l, r, -, -, -, -, h1, -⟩ := prune_step hI hop h
    exact ⟨_, h1⟩
  | proposeGrow i j v =>
    unfold Tree.step at h
    simp only at h
    split at h
    · cases h
    · next m t1 e =>
      simp at h; subst h
      obtain ⟨-, -, -, g1, g2, g3, he, -⟩ := proposeGrow_spec hX hI hop.2 hop.1 e
      exact ⟨s, he.repr hI.lt hI.repr, by rw [g1]; exact hI.perm, hI.nodup, fun i hi => (hI.lt i hi).trans_le he.nextNode⟩
  | proposePrune i =>
    unfold Tree.step at h
    simp only at h
    split at h
    · cases h
    · next m t1 e =>
      simp at h; subst h
      obtain ⟨-, -, g1, g2, g3, he, -⟩ := proposePrune_spec hI hop e
      exact ⟨s, he.repr hI.lt hI.repr, by rw [g1]; exact hI.perm, hI.nodup, fun i hi => (hI.lt i hi).trans_le he.nextNode⟩
  | updateY y' =>
    obtain ⟨t2, e, h1, -⟩ := updateY_spec hI y'
    have h : t.updateY y' = .ok t' := h
    rw [e] at h; injection h with h; subst h
    exact ⟨s, h1⟩
  | setValue i v =>
    unfold Tree.step at h
    simp only at h
    split at h
    · simp at h; subst h; exact ⟨s, setValue_inv hI i v⟩
    · cases h
  | predict =>
    unfold Tree.step at h
    simp only at h
    split at h
    · cases h
    · next b t1 e =>
      simp at h; subst h
      obtain ⟨c1, c2, -, -⟩ := predict_cases e
      exact ⟨s, by rw [c1]; exact hI.repr, by rw [c2]; exact hI.perm, hI.nodup, by rw [c1]; exact hI.lt⟩
  | splittableLeaves =>
    have h : t.splittableLeafNodes.2 = t' := by unfold Tree.step at h; simpa using h
    subst h
    exact ⟨s, (splittableLeaves_spec hI).1.treeInv hI _ _⟩

end

theorem fresh_tree_inv {X : Fin n → Fin p → Fl K} {y : Fin n → K} {t : Tree K n p} (h : Fresh X y t) :
    (∃ y', TreeInv X (some y') t (.leaf 0)) ∧ t.nodes = [0] ∧ t.cacheUpToDate = false ∧ t.prediction = .none ∧
      (∀ r, rowsOf (t.heap.dataOf 0) r = true) := by
  obtain ⟨nz, d0, h1, rfl⟩ := h
  obtain ⟨i1, i2, i3⟩ := init_inv h1
  have hm : ∀ r, d0.mask r = false := by intro r; rw [i3]; rfl
  have hy : ∃ y', d0.y.y = some y' := by
    unfold Data.init at h1
    simp only at h1
    split at h1
    · cases h1
    · next tg ht =>
      injection h1 with h1
      rw [← h1]
      unfold Target.init at ht
      simp only at ht
      split at ht
      · split at ht
        · injection ht with ht; rw [← ht]; exact ⟨_, rfl⟩
        · cases ht
        · cases ht
        · cases ht
      · injection ht with ht; rw [← ht]; exact ⟨_, rfl⟩
  obtain ⟨y', hy⟩ := hy
  refine ⟨⟨y', ?_⟩, rfl, rfl, rfl, ?_⟩
  · rw [← hy]; exact fresh_inv i1 i2 hm
  · intro r; simp [rowsOf, Tree.ofData, Heap.dataOf, hm]

theorem run_inv {X : Fin n → Fin p → Fl K} (hX : NoNan X) {t0 t : Tree K n p} {ops : List (TreeOp K n p)}
    (hr : Run t0 ops t) {y : Option (Fin n → K)} {s0 : Shape} (h0 : TreeInv X y t0 s0) :
    ∃ s, TreeInv X (ops.foldl nextTarget y) t s := by
  induction hr with
  | nil => exact ⟨s0, h0⟩
  | snoc _ hok hst ih =>
    obtain ⟨s, hI⟩ := ih
    obtain ⟨s', h'⟩ := step_inv hX hI hok hst
    exact ⟨s', by rw [List.foldl_append]; exact h'⟩

end Bart
