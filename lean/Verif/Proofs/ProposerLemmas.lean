import Verif.Model.Proposer
import Verif.Proofs.TreeHist

/-! What the proposer (bartpy/samplers/unconstrainedtree/proposer.py) returns. -/

set_option linter.unusedSectionVars false

namespace Bart
open Spec
variable {K : Type} [Field K] [LinearOrder K] {n p : Nat}

/-- The same tree, possibly with other caches and with more objects in the heap. -/
structure TreeExt (t t' : Tree K n p) : Prop where
  heap : HeapExt t.heap t'.heap
  nodes : t'.nodes = t.nodes
  cache : t'.cacheUpToDate = t.cacheUpToDate
  pred : t'.prediction = t.prediction

theorem TreeExt.refl (t : Tree K n p) : TreeExt t t := ⟨HeapExt.refl _, rfl, rfl, rfl⟩

theorem TreeExt.trans {a b c : Tree K n p} (h : TreeExt a b) (h' : TreeExt b c) : TreeExt a c :=
  ⟨h.heap.trans h'.heap, h'.nodes.trans h.nodes, h'.cache.trans h.cache, h'.pred.trans h.pred⟩

theorem TreeExt.withHeap {t : Tree K n p} {h : Heap K n p} (he : HeapExt t.heap h) : TreeExt t { t with heap := h } := ⟨he, rfl, rfl, rfl⟩

theorem TreeInv.ext {X : Fin n → Fin p → Fl K} {y : Option (Fin n → K)} {t t' : Tree K n p} {s : Shape} (hI : TreeInv X y t s)
    (he : TreeExt t t') : TreeInv X y t' s :=
  ⟨he.heap.repr hI.lt hI.repr, by rw [he.nodes]; exact hI.perm, hI.nodup, fun i hi => (hI.lt i hi).trans_le he.heap.nextNode⟩

/-- A cache change of the covariates of one node. -/
theorem HeapExt.setX {h : Heap K n p} {i : NodeId} {c : CovariateMatrix K n p} (hi : DataInv (h.dataOf i)) (h1 : SameCM (h.dataOf i).X c)
    (h2 : CMInv c) : HeapExt h (h.setDataOf i { h.dataOf i with X := c }) := by
  obtain ⟨s1, s2⟩ := Data.withX_spec hi h1 h2
  exact HeapExt.setData s1 (fun _ => s2)

theorem setDataOf_self (h : Heap K n p) (i : NodeId) (d : Data K n p) : (h.setDataOf i d).dataOf i = d := by
  simp [Heap.setDataOf, Heap.setData, Heap.dataOf]

theorem NodeOk.col {X : Fin n → Fin p → Fl K} {y : Option (Fin n → K)} {h : Heap K n p} {i : NodeId} {path : List (SplitCondition K p)}
    (hk : NodeOk X y h i path) (j : Fin p) : (h.dataOf i).X.col j = column X (rowsOf (h.dataOf i)) j := by
  unfold CovariateMatrix.col
  rw [hk.hX, hk.inv.maskX]
  rfl

theorem HeapExt.rowsOf {X : Fin n → Fin p → Fl K} {y : Option (Fin n → K)} {h h' : Heap K n p} (he : HeapExt h h') {i : NodeId}
    {path : List (SplitCondition K p)} (hi : i < h.nextNode) (hk : NodeOk X y h i path) :
    rowsOf (h'.dataOf i) = rowsOf (h.dataOf i) := by
  have hd := (he.data _ hk.data_lt).1.mask
  funext r
  simp only [Bart.Spec.rowsOf, Heap.dataOf, he.node i hi, hd]

/-- The conditions a node proposes are a cut at a value of a splittable column below its maximum. -/
theorem sampleSplitCondition_spec {X : Fin n → Fin p → Fl K} (hX : NoNan X) {y : Option (Fin n → K)} {h : Heap K n p} {i : NodeId}
    {path : List (SplitCondition K p)} (hk : NodeOk X y h i path) (us : List Nat) :
    match Tree.sampleSplitCondition h i us with
    | (h', _, r) => HeapExt h h' ∧ h'.node = h.node ∧ h'.nextNode = h.nextNode ∧
      match r with
      | .ok (c0, c1) => ∃ j v, c0 = leCond j v ∧ c1 = gtCond j v ∧ isNotConstant (column X (rowsOf (h.dataOf i)) j) = true ∧
          v ∈ column X (rowsOf (h.dataOf i)) j ∧ ∃ m ∈ column X (rowsOf (h.dataOf i)) j, Fl.lt v m = true
      | .error e => e = .outOfDraws ∨ (e = .valueError ∧ ∀ j, isNotConstant (column X (rowsOf (h.dataOf i)) j) = false) := by
  obtain ⟨h1, h2, h3⟩ := CovariateMatrix.splittable_spec hk.inv.X
  have hext := HeapExt.setX hk.inv h2 h3
  have hdof := setDataOf_self h i { h.dataOf i with X := (h.dataOf i).X.splittable.2 }
  have hcol : ∀ j, (h.dataOf i).X.splittable.2.col j = column X (rowsOf (h.dataOf i)) j := by
    intro j; rw [h2.col]; exact hk.col j
  have href : ∀ j, j ∈ (h.dataOf i).X.refSplittable ↔ isNotConstant (column X (rowsOf (h.dataOf i)) j) = true := by
    intro j; simp [CovariateMatrix.refSplittable, hk.col j]
  unfold Tree.sampleSplitCondition
  cases us with
  | nil => exact ⟨hext, rfl, rfl, Or.inl rfl⟩
  | cons u us =>
    simp only
    cases hc : choice (h.dataOf i).X.splittable.1 u with
    | error e =>
      refine ⟨hext, rfl, rfl, Or.inr ⟨?_, fun j => ?_⟩⟩
      · unfold choice at hc; split at hc <;> simp at hc; exact hc.symm
      · by_contra hne
        have hne : isNotConstant (column X (rowsOf (h.dataOf i)) j) = true := by simpa using hne
        have hmem : j ∈ (h.dataOf i).X.splittable.1 := by rw [h1]; exact (href j).2 hne
        obtain ⟨a, -, ha⟩ := choice_ok_of_ne_nil (List.ne_nil_of_mem hmem) u
        rw [hc] at ha; cases ha
    | ok j =>
      have hj := choice_ok_mem hc
      rw [h1, href] at hj
      simp only [hdof]
      have hnn : NoNan (h.dataOf i).X.splittable.2.X := by rw [h2.X, hk.hX]; exact hX
      have hsp := CovariateMatrix.randomSplittableValue_spec h3 hnn j us
      have href2 : ∀ k, k ∈ (h.dataOf i).X.splittable.2.refSplittable ↔ isNotConstant (column X (rowsOf (h.dataOf i)) k) = true := by
        intro k; simp [CovariateMatrix.refSplittable, hcol k]
      cases hr : (h.dataOf i).X.splittable.2.randomSplittableValue j us with
      | error e =>
        rw [hr] at hsp
        simp only at hsp
        rw [href2] at hsp
        rcases hsp with ⟨-, hn⟩ | ⟨rfl, -⟩
        · exact absurd hj hn
        · exact ⟨hext, rfl, rfl, Or.inl rfl⟩
      | ok q =>
        obtain ⟨v, us', c⟩ := q
        rw [hr] at hsp
        obtain ⟨g1, g2, g3, g4, g5⟩ := hsp
        refine ⟨?_, rfl, rfl, j, v, rfl, rfl, hj, by rw [← hcol j]; exact g2, by rw [← hcol j]; exact g3⟩
        refine hext.trans ?_
        have hinv : DataInv ((h.setDataOf i { h.dataOf i with X := (h.dataOf i).X.splittable.2 }).dataOf i) := by
          rw [hdof]; exact (Data.withX_spec hk.inv h2 h3).2
        have := HeapExt.setX (c := c) hinv (by rw [hdof]; exact g4) g5
        rw [hdof] at this
        exact this

/-- A grow of leaf `i` of `t` that has been built in the heap `h`: decision node `D` with children `L`, `R` cut at `x_j <= v`. -/
structure GrowProp (X : Fin n → Fin p → Fl K) (y : Option (Fin n → K)) (t : Tree K n p) (h : Heap K n p) (i D L R : NodeId)
    (j : Fin p) (v : Fl K) : Prop where
  leaf : i ∈ t.leafNodes
  ready : Ready X y h (.leaf i) (.node D (.leaf L) (.leaf R))
  nodup : [D, L, R].Nodup
  fresh : ∀ k ∈ [D, L, R], k ∉ t.nodes
  old : i < h.nextNode
  lt : ∀ k ∈ [D, L, R], k < h.nextNode
  valL : (h.node L).value = 0
  valR : (h.node R).value = 0
  rule : rule h D = some (j, v)
  split : (h.node D).split = (h.node i).split
  rowsL : ∀ r, rowsOf (h.dataOf L) r = (rowsOf (h.dataOf i) r && Fl.le (X r j) v)
  rowsR : ∀ r, rowsOf (h.dataOf R) r = (rowsOf (h.dataOf i) r && !Fl.le (X r j) v)
  splittable : isNotConstant (column X (rowsOf (h.dataOf i)) j) = true
  vcol : v ∈ column X (rowsOf (h.dataOf i)) j
  vmax : ∃ m ∈ column X (rowsOf (h.dataOf i)) j, Fl.lt v m = true
  new : ∀ k ∈ [D, L, R], t.heap.nextNode ≤ k

theorem GrowProp.nodeOk {X : Fin n → Fin p → Fl K} {y : Option (Fin n → K)} {t : Tree K n p} {h : Heap K n p} {i D L R : NodeId}
    {j : Fin p} {v : Fl K} (hg : GrowProp X y t h i D L R j v) :
    (∃ q, NodeOk X y h i q) ∧ (∃ q, NodeOk X y h D q) ∧ (∃ q, NodeOk X y h L q) ∧ ∃ q, NodeOk X y h R q := by
  obtain ⟨q, d, h1, h2⟩ := hg.ready
  exact ⟨h1.nodeOk i (by simp [Shape.ids]), h2.nodeOk D (by simp [Shape.ids]), h2.nodeOk L (by simp [Shape.ids]), h2.nodeOk R (by simp [Shape.ids])⟩

theorem GrowProp.children {X : Fin n → Fin p → Fl K} {y : Option (Fin n → K)} {t : Tree K n p} {h : Heap K n p} {i D L R : NodeId}
    {j : Fin p} {v : Fl K} (hg : GrowProp X y t h i D L R j v) :
    (h.node D).left = some L ∧ (h.node D).right = some R ∧ (h.node i).kind = .leaf ∧ (h.node D).depth = (h.node i).depth ∧
    (h.node L).depth = (h.node i).depth + 1 ∧ (h.node R).depth = (h.node i).depth + 1 ∧ (h.node D).kind = .decision ∧
    (h.node L).kind = .leaf ∧ (h.node R).kind = .leaf := by
  obtain ⟨q, d, h1, h2⟩ := hg.ready
  obtain ⟨a1, a2, a3, a4, a5⟩ := h1
  obtain ⟨b1, b2, b3, b4, b5, cl, cr, hp, hl, hr⟩ := h2
  refine ⟨b2, b3, a1, by rw [a4, b4], ?_, ?_, b1, hl.1, hr.1⟩
  · rw [a4]; exact hl.2.2.2.1
  · rw [a4]; exact hr.2.2.2.1

theorem GrowProp.ext {X : Fin n → Fin p → Fl K} {y : Option (Fin n → K)} {t : Tree K n p} {h h' : Heap K n p} {i D L R : NodeId}
    {j : Fin p} {v : Fl K} (hg : GrowProp X y t h i D L R j v) (he : HeapExt h h') : GrowProp X y t h' i D L R j v := by
  obtain ⟨⟨qi, oki⟩, ⟨qD, okD⟩, ⟨qL, okL⟩, ⟨qR, okR⟩⟩ := hg.nodeOk
  have hD := he.node D (hg.lt D (by simp))
  have hL := he.node L (hg.lt L (by simp))
  have hR := he.node R (hg.lt R (by simp))
  have hi := he.node i hg.old
  have ri := he.rowsOf hg.old oki
  have rL := he.rowsOf (hg.lt L (by simp)) okL
  have rR := he.rowsOf (hg.lt R (by simp)) okR
  refine ⟨hg.leaf, hg.ready.ext he (by simpa [Shape.ids] using hg.old) (by simpa [Shape.ids] using hg.lt), hg.nodup, hg.fresh,
    hg.old.trans_le he.nextNode, fun k hk => (hg.lt k hk).trans_le he.nextNode, by rw [hL]; exact hg.valL, by rw [hR]; exact hg.valR, ?_,
    by rw [hD, hi]; exact hg.split, by rw [rL, ri]; exact hg.rowsL, by rw [rR, ri]; exact hg.rowsR, by rw [ri]; exact hg.splittable,
    by rw [ri]; exact hg.vcol, by rw [ri]; exact hg.vmax, hg.new⟩
  have := hg.rule
  have hl := hg.children.1
  unfold Spec.rule at this ⊢
  rw [hl] at this
  rw [hD, hl]
  simp only [hL]
  exact this

/-- The conditions of the two new leaves: those of the old leaf, and one more. -/
theorem GrowProp.childConds {X : Fin n → Fin p → Fl K} {y : Option (Fin n → K)} {t : Tree K n p} {h : Heap K n p} {i D L R : NodeId}
    {j : Fin p} {v : Fl K} (hg : GrowProp X y t h i D L R j v) {k : NodeId} (hk : k = L ∨ k = R) :
    ∀ c ∈ (h.node k).split.combined.conditions, c ∈ (h.node i).split.combined.conditions ∨ (c.splittingVariable = j ∧ c.splittingValue = v) := by
  obtain ⟨q, d, h1, h2⟩ := hg.ready
  obtain ⟨-, r2, r3, -, r5, cl, cr, hp, hl, hr⟩ := h2
  have hrule := hg.rule
  unfold Spec.rule at hrule
  simp only [Shape.root] at r2
  rw [r2] at hrule
  simp only [hl.2.2.2.2.combined, CombinedCondition.init, List.getLast?_append, List.getLast?_singleton, Option.some_or, Option.map_some, Option.some.injEq, Prod.mk.injEq] at hrule
  have hc1 : (h.node i).split.combined.conditions = q := by rw [h1.2.2.2.2.combined]; rfl
  have hcl : (h.node L).split.combined.conditions = q ++ [cl] := by rw [hl.2.2.2.2.combined]; rfl
  have hcr : (h.node R).split.combined.conditions = q ++ [cr] := by rw [hr.2.2.2.2.combined]; rfl
  intro c hc
  rw [hc1]
  rcases hk with rfl | rfl
  · rw [hcl, List.mem_append, List.mem_singleton] at hc
    rcases hc with hc | rfl
    · exact .inl hc
    · exact .inr hrule
  · rw [hcr, List.mem_append, List.mem_singleton] at hc
    rcases hc with hc | rfl
    · exact .inl hc
    · exact .inr ⟨hp.var.trans hrule.1, hp.val.trans hrule.2⟩

/-- Both children of a proposed grow have a row. -/
theorem GrowProp.nonempty {X : Fin n → Fin p → Fl K} (hX : NoNan X) {y : Option (Fin n → K)} {t : Tree K n p} {h : Heap K n p} {i D L R : NodeId}
    {j : Fin p} {v : Fl K} (hg : GrowProp X y t h i D L R j v) :
    (∃ r, rowsOf (h.dataOf L) r = true) ∧ ∃ r, rowsOf (h.dataOf R) r = true := by
  obtain ⟨r, hr, hv⟩ := mem_column.1 hg.vcol
  obtain ⟨m, hm, hlt⟩ := hg.vmax
  obtain ⟨r', hr', hv'⟩ := mem_column.1 hm
  have hvn : v ≠ .nan := by rw [← hv]; exact hX r j
  refine ⟨⟨r, ?_⟩, ⟨r', ?_⟩⟩
  · rw [hg.rowsL, hr, hv]
    cases v <;> simp_all [Fl.le]
  · rw [hg.rowsR, hr', hv']
    cases v <;> cases m <;> simp_all [Fl.le, Fl.lt]

/-- A prune of node `i` of `t` that has been built in the heap `h`: new leaf `U` for the decision node `i` with leaves `l`, `r`. -/
structure PruneProp (X : Fin n → Fin p → Fl K) (y : Option (Fin n → K)) (t : Tree K n p) (s : Shape) (h : Heap K n p) (i l r U : NodeId) : Prop where
  prunable : i ∈ t.prunableDecisionNodes
  sub : (Shape.node i (.leaf l) (.leaf r)).Sub s
  ready : Ready X y h (.node i (.leaf l) (.leaf r)) (.leaf U)
  fresh : U ∉ t.nodes
  old : ∀ k ∈ [i, l, r], k < h.nextNode
  lt : U < h.nextNode
  leaf : h.node U = leafRec (h.node i).depth (h.node i).split
  new : t.heap.nextNode ≤ U

theorem PruneProp.ext {X : Fin n → Fin p → Fl K} {y : Option (Fin n → K)} {t : Tree K n p} {s : Shape} {h h' : Heap K n p} {i l r U : NodeId}
    (hg : PruneProp X y t s h i l r U) (he : HeapExt h h') : PruneProp X y t s h' i l r U := by
  refine ⟨hg.prunable, hg.sub, hg.ready.ext he (by simpa [Shape.ids] using hg.old) (by simpa [Shape.ids] using hg.lt), hg.fresh,
    fun k hk => (hg.old k hk).trans_le he.nextNode, hg.lt.trans_le he.nextNode, ?_, hg.new⟩
  rw [he.node U hg.lt, he.node i (hg.old i (by simp))]
  exact hg.leaf

theorem PruneProp.nodeOk {X : Fin n → Fin p → Fl K} {y : Option (Fin n → K)} {t : Tree K n p} {s : Shape} {h : Heap K n p} {i l r U : NodeId}
    (hg : PruneProp X y t s h i l r U) :
    (∃ q, NodeOk X y h i q) ∧ (∃ q, NodeOk X y h U q) ∧ (∃ q, NodeOk X y h l q) ∧ ∃ q, NodeOk X y h r q := by
  obtain ⟨q, d, h2, h1⟩ := hg.ready
  exact ⟨h2.nodeOk i (by simp [Shape.ids]), h1.nodeOk U (by simp [Shape.ids]), h2.nodeOk l (by simp [Shape.ids]), h2.nodeOk r (by simp [Shape.ids])⟩

theorem PruneProp.children {X : Fin n → Fin p → Fl K} {y : Option (Fin n → K)} {t : Tree K n p} {s : Shape} {h : Heap K n p} {i l r U : NodeId}
    (hg : PruneProp X y t s h i l r U) :
    (h.node i).left = some l ∧ (h.node i).right = some r ∧ (h.node U).kind = .leaf ∧ (h.node U).depth = (h.node i).depth ∧
    (h.node l).depth = (h.node i).depth + 1 ∧ (h.node r).depth = (h.node i).depth + 1 ∧
    ∃ c, (h.node l).split.combined.mostRecentSplitCondition = some c := by
  obtain ⟨q, d, h2, h1⟩ := hg.ready
  obtain ⟨a1, a2, a3, a4, a5⟩ := h1
  obtain ⟨b1, b2, b3, b4, b5, cl, cr, hp, hl, hr⟩ := h2
  refine ⟨b2, b3, a1, by rw [a4, b4], by rw [b4]; exact hl.2.2.2.1, by rw [b4]; exact hr.2.2.2.1, cl, ?_⟩
  rw [hl.2.2.2.2.combined]
  simp [CombinedCondition.mostRecentSplitCondition, CombinedCondition.init]

/-- A leaf that has a splittable column. -/
def SplittableLeaf (X : Fin n → Fin p → Fl K) (t : Tree K n p) (i : NodeId) : Prop :=
  i ∈ t.leafNodes ∧ ∃ j, isNotConstant (column X (rowsOf (t.heap.dataOf i)) j) = true

theorem mem_splittableLeaves {X : Fin n → Fin p → Fl K} {y : Option (Fin n → K)} {t : Tree K n p} {s : Shape} (hI : TreeInv X y t s) {i : NodeId} :
    i ∈ t.splittableLeafNodes.1 ↔ SplittableLeaf X t i := by
  rw [(splittableLeaves_spec hI).2]; simp [SplittableLeaf]

theorem splittableLeaves_ext {X : Fin n → Fin p → Fl K} {y : Option (Fin n → K)} {t : Tree K n p} {s : Shape} (hI : TreeInv X y t s) :
    TreeExt t t.splittableLeafNodes.2 := ⟨(splittableLeaves_spec hI).1, rfl, rfl, rfl⟩

theorem TreeExt.leafNodes {X : Fin n → Fin p → Fl K} {y : Option (Fin n → K)} {t t' : Tree K n p} {s : Shape} (hI : TreeInv X y t s)
    (he : TreeExt t t') : t'.leafNodes = t.leafNodes := by
  unfold Tree.leafNodes
  rw [he.nodes]
  apply List.filter_congr
  intro i hi
  rw [he.heap.node i (hI.mem_lt hi)]

theorem TreeExt.rows {X : Fin n → Fin p → Fl K} {y : Option (Fin n → K)} {t t' : Tree K n p} {s : Shape} (hI : TreeInv X y t s)
    (he : TreeExt t t') {i : NodeId} (hi : i ∈ t.nodes) : rowsOf (t'.heap.dataOf i) = rowsOf (t.heap.dataOf i) := by
  obtain ⟨q, hk⟩ := hI.repr.nodeOk i (hI.perm.mem_iff.1 hi)
  exact he.heap.rowsOf (hI.mem_lt hi) hk

theorem TreeExt.splittableLeaf {X : Fin n → Fin p → Fl K} {y : Option (Fin n → K)} {t t' : Tree K n p} {s : Shape} (hI : TreeInv X y t s)
    (he : TreeExt t t') {i : NodeId} : SplittableLeaf X t' i ↔ SplittableLeaf X t i := by
  unfold SplittableLeaf
  rw [he.leafNodes hI]
  constructor <;> rintro ⟨h1, h2⟩ <;> refine ⟨h1, ?_⟩
  · rwa [he.rows hI (List.mem_filter.1 h1).1] at h2
  · rwa [he.rows hI (List.mem_filter.1 h1).1]

theorem prunable_congr {X : Fin n → Fin p → Fl K} {y : Option (Fin n → K)} {t t' : Tree K n p} {s : Shape} (hI : TreeInv X y t s)
    (he : TreeExt t t') : t'.prunableDecisionNodes = t.prunableDecisionNodes := by
  unfold Tree.prunableDecisionNodes Tree.decisionNodes
  rw [he.nodes]
  have hnode : ∀ i ∈ t.nodes, t'.heap.node i = t.heap.node i := fun i hi => he.heap.node i (hI.mem_lt hi)
  have e1 : t.nodes.filter (fun i => decide ((t'.heap.node i).kind = .decision)) = t.nodes.filter (fun i => decide ((t.heap.node i).kind = .decision)) := by
    apply List.filter_congr
    intro i hi
    rw [hnode i hi]
  rw [e1]
  apply List.filter_congr
  intro i hi
  have hi := (List.mem_filter.1 hi).1
  unfold Heap.isPrunable
  rw [hnode i hi]
  have hkid : ∀ c, IsChild t.heap i c → t'.heap.isLeafPtr (some c) = t.heap.isLeafPtr (some c) := by
    intro c hc
    have := (hI.repr.child i (hI.perm.mem_iff.1 hi) c hc).1
    simp [Heap.isLeafPtr, he.heap.node c (hI.lt c this)]
  cases hl : (t.heap.node i).left with
  | none => simp [Heap.isLeafPtr]
  | some l =>
    rw [hkid l (Or.inl hl)]
    cases hr : (t.heap.node i).right with
    | none => simp [Heap.isLeafPtr]
    | some r => rw [hkid r (Or.inr hr)]

/-- What `uniformly_sample_grow_mutation` returns. -/
theorem sampleGrow_spec {X : Fin n → Fin p → Fl K} (hX : NoNan X) {y : Option (Fin n → K)} {t : Tree K n p} {s : Shape} (hI : TreeInv X y t s)
    (us : List Nat) :
    match t.sampleGrow us with
    | (t1, _, .ok mu) => TreeExt t t1 ∧ ∃ i D L R j v, mu = { kind := .grow, existing := i, updated := D } ∧ GrowProp X y t t1.heap i D L R j v
    | (t1, us1, .error e) => TreeExt t t1 ∧ ((e = .noSplittableVariable ∧ us1 = us ∧ ∀ i, ¬ SplittableLeaf X t i) ∨
        (e = .outOfDraws ∧ ∃ i, SplittableLeaf X t i) ∨ y = none) := by
  have hx0 := splittableLeaves_ext hI
  have hI0 := hI.ext hx0
  unfold Tree.sampleGrow
  by_cases hnil : t.splittableLeafNodes.1.length = 0
  · simp only [hnil, if_true]
    refine ⟨hx0, Or.inl ⟨trivial, trivial, fun i hi => ?_⟩⟩
    have := (mem_splittableLeaves hI).2 hi
    rw [List.length_eq_zero_iff.1 hnil] at this
    cases this
  · simp only [hnil, if_false]
    have hex : ∃ i, SplittableLeaf X t i := by
      obtain ⟨a, ha⟩ := List.exists_mem_of_length_pos (Nat.pos_of_ne_zero hnil)
      exact ⟨a, (mem_splittableLeaves hI).1 ha⟩
    cases us with
    | nil => exact ⟨hx0, Or.inr (Or.inl ⟨rfl, hex⟩)⟩
    | cons u us =>
      simp only
      obtain ⟨i, him, hc⟩ := choice_ok_of_ne_nil (l := t.splittableLeafNodes.1) (by intro h; rw [h] at hnil; simp at hnil) u
      rw [hc]
      simp only
      obtain ⟨hil, hspl⟩ := (mem_splittableLeaves hI).1 him
      have hin : i ∈ t.nodes := (List.mem_filter.1 hil).1
      have hil0 : i ∈ t.splittableLeafNodes.2.leafNodes := by rw [hx0.leafNodes hI]; exact hil
      have hin0 : i ∈ t.splittableLeafNodes.2.nodes := hin
      obtain ⟨q, hk⟩ := hI0.repr.nodeOk i (hI0.perm.mem_iff.1 hin0)
      have hrows0 := hx0.rows hI hin
      have hss := sampleSplitCondition_spec hX hk us
      unfold Tree.sampleSplitNode
      generalize Tree.sampleSplitCondition t.splittableLeafNodes.2.heap i us = res at hss
      obtain ⟨h1, us1, res⟩ := res
      obtain ⟨e1, e2, e3, hres⟩ := hss
      cases res with
      | error e =>
        simp only at hres ⊢
        refine ⟨hx0.trans (TreeExt.withHeap e1), ?_⟩
        rcases hres with rfl | ⟨-, hno⟩
        · exact Or.inr (Or.inl ⟨rfl, hex⟩)
        · obtain ⟨j, hj⟩ := hspl
          rw [← hrows0, hno j] at hj; cases hj
      | ok c =>
        obtain ⟨c0, c1⟩ := c
        obtain ⟨j, v, rfl, rfl, hns, hvc, hvm⟩ := hres
        have hvn : v ≠ .nan := by obtain ⟨r, -, hr⟩ := mem_column.1 hvc; rw [← hr]; exact hX r j
        have hx1 : TreeExt t.splittableLeafNodes.2 { t.splittableLeafNodes.2 with heap := h1 } := TreeExt.withHeap e1
        have hI1 := hI0.ext hx1
        have hin1 : i ∈ ({ t.splittableLeafNodes.2 with heap := h1 } : Tree K n p).nodes := hin
        have hx01 := hx0.trans hx1
        have hlt0 := hI1.mem_lt hin1
        simp only
        cases y with
        | none =>
          cases hs : h1.splitNode i (leCond j v) (gtCond j v) with
          | error e =>
            exact ⟨hx01, Or.inr (Or.inr rfl)⟩
          | ok r =>
            obtain ⟨q', hk'⟩ := hI1.repr.nodeOk i (hI1.perm.mem_iff.1 hin1)
            exact absurd hs (splitNode_none hk' _ _ _)
        | some y' =>
          have hil1 : i ∈ ({ t.splittableLeafNodes.2 with heap := h1 } : Tree K n p).leafNodes := by rw [hx01.leafNodes hI]; exact hil
          obtain ⟨m, t2, hp⟩ := proposeGrow_ok (j := j) hX hI1 hvn hil1
          obtain ⟨-, -, rfl, g1, g2, g3, he, hn, hrd, v1, v2, hrule, hsp, path, okp, cr, hpair, okL, okR⟩ := proposeGrow_spec hX hI1 hvn hin1 hp
          unfold Tree.proposeGrow at hp
          simp only at hp
          split at hp
          · cases hp
          · next d h2 hs =>
            rw [hs]
            simp only
            split at hp
            · cases hp
            · next m' hm =>
              simp only [Except.ok.injEq, Prod.mk.injEq] at hp
              obtain ⟨rfl, rfl⟩ := hp
              rw [hm]
              have hx2 : TreeExt t { t.splittableLeafNodes.2 with heap := h2 } := hx01.trans ⟨he, rfl, rfl, rfl⟩
              have hr2 := hx2.rows hI hin
              simp only at hr2 he hn okL okR okp
              refine ⟨hx2, i, h1.nextNode + 2, h1.nextNode, h1.nextNode + 1, j, v, rfl, hil, hrd, by simp, ?_, hlt0.trans_le he.nextNode, ?_, v1, v2, hrule,
                by rw [hsp, he.node i hlt0], ?_, ?_, by rw [hr2, ← hrows0]; exact hns, by rw [hr2, ← hrows0]; exact hvc, by rw [hr2, ← hrows0]; exact hvm, ?_⟩
              · intro k hk hkn
                have : k < h1.nextNode := hI1.mem_lt (i := k) hkn
                simp at hk; omega
              · intro k hk
                show k < h2.nextNode
                rw [hn]; simp at hk; omega
              · intro r
                rw [he.rowsOf hlt0 okp, okp.rows, okL.rows]
                simp [sat, leCond, holdsOp]
              · intro r
                rw [he.rowsOf hlt0 okp, okp.rows, okR.rows]
                have := hpair.sat_compl (x := X r) (hX r _)
                simp [this]
                simp [sat, leCond, holdsOp]
              · intro k hk
                have : t.heap.nextNode ≤ h1.nextNode := hx01.heap.nextNode
                simp at hk; omega

/-- What `uniformly_sample_prune_mutation` returns. -/
theorem samplePrune_spec {X : Fin n → Fin p → Fl K} {y : Option (Fin n → K)} {t : Tree K n p} {s : Shape} (hI : TreeInv X y t s)
    (us : List Nat) :
    match t.samplePrune us with
    | (t1, _, .ok mu) => TreeExt t t1 ∧ ∃ i l r U, mu = { kind := .prune, existing := i, updated := U } ∧ PruneProp X y t s t1.heap i l r U
    | (t1, us1, .error e) => t1 = t ∧ ((e = .noPrunableNode ∧ us1 = us ∧ t.prunableDecisionNodes = []) ∨
        (e = .outOfDraws ∧ t.prunableDecisionNodes ≠ [])) := by
  unfold Tree.samplePrune
  by_cases hnil : t.prunableDecisionNodes.length = 0
  · simp only [hnil, if_true]
    exact ⟨trivial, Or.inl ⟨trivial, trivial, List.length_eq_zero_iff.1 hnil⟩⟩
  · simp only [hnil, if_false]
    have hne : t.prunableDecisionNodes ≠ [] := fun h => hnil (by rw [h]; rfl)
    cases us with
    | nil => exact ⟨rfl, Or.inr ⟨rfl, hne⟩⟩
    | cons u us =>
      simp only
      obtain ⟨i, him, hc⟩ := choice_ok_of_ne_nil hne u
      rw [hc]
      simp only
      obtain ⟨m, t1, hp⟩ := proposePrune_ok hI him
      have hin : i ∈ t.nodes := by
        have := (List.mem_filter.1 him).1
        exact (List.mem_filter.1 this).1
      obtain ⟨-, rfl, g1, g2, g3, he, hn, hd, hleaf, l, r, hsub, hl, hr, hrd⟩ := proposePrune_spec hI hin hp
      unfold Tree.proposePrune at hp
      simp only at hp
      split at hp
      · cases hp
      · next m' hm =>
        simp only [Except.ok.injEq, Prod.mk.injEq] at hp
        obtain ⟨rfl, rfl⟩ := hp
        rw [hm]
        have hlt : ∀ k ∈ [i, l, r], k < t.heap.nextNode := fun k hk => hI.lt k (hsub.ids_subset k (by simpa [Shape.ids] using hk))
        refine ⟨⟨he, rfl, rfl, rfl⟩, i, l, r, t.heap.nextNode, rfl, him, hsub, hrd, fun h => by have := hI.mem_lt h; omega,
          fun k hk => (hlt k hk).trans_le he.nextNode, by rw [hn]; omega, ?_, le_refl _⟩
        rw [he.node i (hlt i (by simp))]
        exact hleaf

/-- A mutation built for `t` in the heap `h`. -/
def IsProposal (X : Fin n → Fin p → Fl K) (y : Option (Fin n → K)) (t : Tree K n p) (s : Shape) (h : Heap K n p) (mu : TreeMutation) : Prop :=
  (∃ i D L R j v, mu = { kind := .grow, existing := i, updated := D } ∧ GrowProp X y t h i D L R j v) ∨
  (∃ i l r U, mu = { kind := .prune, existing := i, updated := U } ∧ PruneProp X y t s h i l r U)

theorem IsProposal.ext {X : Fin n → Fin p → Fl K} {y : Option (Fin n → K)} {t : Tree K n p} {s : Shape} {h h' : Heap K n p} {mu : TreeMutation}
    (hp : IsProposal X y t s h mu) (he : HeapExt h h') : IsProposal X y t s h' mu := by
  rcases hp with ⟨i, D, L, R, j, v, e, hg⟩ | ⟨i, l, r, U, e, hg⟩
  · exact Or.inl ⟨i, D, L, R, j, v, e, hg.ext he⟩
  · exact Or.inr ⟨i, l, r, U, e, hg.ext he⟩

/-- The base tree of a proposal may be replaced by the extended one. -/
theorem IsProposal.base {X : Fin n → Fin p → Fl K} {y : Option (Fin n → K)} {t t1 : Tree K n p} {s : Shape} {h : Heap K n p} {mu : TreeMutation}
    (hI : TreeInv X y t s) (he : TreeExt t t1) (hp : IsProposal X y t1 s h mu) : IsProposal X y t s h mu := by
  rcases hp with ⟨i, D, L, R, j, v, e, hg⟩ | ⟨i, l, r, U, e, hg⟩
  · exact Or.inl ⟨i, D, L, R, j, v, e, ⟨by rw [← he.leafNodes hI]; exact hg.leaf, hg.ready, hg.nodup, by rw [← he.nodes]; exact hg.fresh, hg.old, hg.lt, hg.valL, hg.valR,
      hg.rule, hg.split, hg.rowsL, hg.rowsR, hg.splittable, hg.vcol, hg.vmax, fun k hk => he.heap.nextNode.trans (hg.new k hk)⟩⟩
  · exact Or.inr ⟨i, l, r, U, e, ⟨by rw [← prunable_congr hI he]; exact hg.prunable, hg.sub, hg.ready, by rw [← he.nodes]; exact hg.fresh, hg.old, hg.lt, hg.leaf, he.heap.nextNode.trans hg.new⟩⟩

/-- What `propose` returns. -/
theorem propose_spec {X : Fin n → Fin p → Fl K} (hX : NoNan X) {y : Option (Fin n → K)} {s : Shape} (ms : List Method) :
    ∀ {t : Tree K n p} (_ : TreeInv X y t s) (us : List Nat),
    match t.propose us ms with
    | .ok (mu, t1, _, _) => TreeExt t t1 ∧ IsProposal X y t s t1.heap mu
    | .error e => e = .outOfDraws ∨ y = none := by
  induction ms with
  | nil => intro t hI us; exact Or.inl rfl
  | cons m ms ih =>
    intro t hI us
    have key : match t.sampleMethod m us with
      | (t1, _, .ok mu) => TreeExt t t1 ∧ IsProposal X y t s t1.heap mu
      | (t1, _, .error e) => TreeExt t t1 ∧ (e = .noSplittableVariable ∨ e = .noPrunableNode ∨ e = .outOfDraws ∨ y = none) := by
      cases m with
      | grow =>
        have := sampleGrow_spec hX hI us
        rw [show t.sampleMethod .grow us = t.sampleGrow us from rfl]
        generalize t.sampleGrow us = q at this
        obtain ⟨t1, us1, res⟩ := q
        cases res with
        | ok mu => exact ⟨this.1, Or.inl this.2⟩
        | error e => exact ⟨this.1, by rcases this.2 with ⟨h, -⟩ | ⟨h, -⟩ | h <;> simp [h]⟩
      | prune =>
        have := samplePrune_spec hI us
        rw [show t.sampleMethod .prune us = t.samplePrune us from rfl]
        generalize t.samplePrune us = q at this
        obtain ⟨t1, us1, res⟩ := q
        cases res with
        | ok mu => exact ⟨this.1, Or.inr this.2⟩
        | error e => exact ⟨by rw [this.1]; exact TreeExt.refl t, by rcases this.2 with ⟨h, -⟩ | ⟨h, -⟩ <;> simp [h]⟩
    unfold Tree.propose
    generalize t.sampleMethod m us = q at key
    obtain ⟨t1, us1, res⟩ := q
    cases res with
    | ok mu => exact key
    | error e =>
      obtain ⟨k1, k2⟩ := key
      have hrec := ih (hI.ext k1) us1
      have hcont : match t1.propose us1 ms with
        | .ok (mu, t1, _, _) => TreeExt t t1 ∧ IsProposal X y t s t1.heap mu
        | .error e => e = .outOfDraws ∨ y = none := by
        generalize t1.propose us1 ms = q at hrec
        cases q with
        | error e => exact hrec
        | ok q =>
          obtain ⟨mu, t2, us2, ms2⟩ := q
          exact ⟨k1.trans hrec.1, hrec.2.base hI k1⟩
      by_cases e1 : e = .noSplittableVariable
      · subst e1; exact hcont
      · by_cases e2 : e = .noPrunableNode
        · subst e2; exact hcont
        · have : e = .outOfDraws ∨ y = none := by
            rcases k2 with h | h | h | h
            · exact absurd h e1
            · exact absurd h e2
            · exact Or.inl h
            · exact Or.inr h
          cases e <;> first | exact this | exact absurd rfl e1 | exact absurd rfl e2

/-- Applying a proposal. -/
theorem IsProposal.mutate {X : Fin n → Fin p → Fl K} {y : Option (Fin n → K)} {t t1 : Tree K n p} {s : Shape} {mu : TreeMutation}
    (hI : TreeInv X y t s) (he : TreeExt t t1) (hp : IsProposal X y t s t1.heap mu) :
    ∃ t' s', t1.mutate mu = .ok t' ∧ TreeInv X y t' s' ∧ t'.cacheUpToDate = false ∧ t'.prediction = t1.prediction ∧
      (∀ k ∈ t'.nodes, k ∈ t.nodes ∨ (∃ i ∈ t.nodes, (t'.heap.node k).split = (t.heap.node i).split ∧ k = mu.updated) ∨
        (mu.kind = .grow ∧ ∃ D L R, mu.updated = D ∧ (t1.heap.node D).left = some L ∧ (t1.heap.node D).right = some R ∧ (k = L ∨ k = R))) ∧
      t'.heap.data = t1.heap.data ∧ t'.heap.nextNode = t1.heap.nextNode ∧ t'.heap.nextData = t1.heap.nextData ∧
      (∀ i, (t'.heap.node i).value = (t1.heap.node i).value ∧ (t'.heap.node i).kind = (t1.heap.node i).kind ∧
        (t'.heap.node i).depth = (t1.heap.node i).depth ∧ (t'.heap.node i).split = (t1.heap.node i).split) := by
  have hI1 := hI.ext he
  rcases hp with ⟨i, D, L, R, j, v, rfl, hg⟩ | ⟨i, l, r, U, rfl, hg⟩
  · obtain ⟨t', f1, f2, f3, f4, f5, f6, f7, f8, f9, f10⟩ := mutate_grow hI1 (by rw [he.leafNodes hI]; exact hg.leaf) hg.ready hg.nodup
      (by rw [he.nodes]; exact hg.fresh) hg.lt
    refine ⟨t', _, f1, f2, f4, f5, ?_, f6, f7, f8, f9⟩
    intro k hk
    rw [f3] at hk
    simp only [List.append_assoc, List.mem_append, List.mem_singleton] at hk
    have hin : i ∈ t.nodes := (List.mem_filter.1 hg.leaf).1
    rcases hk with hk | rfl | rfl | rfl
    · left
      rw [← he.nodes]; exact List.mem_of_mem_erase hk
    · exact Or.inr (Or.inr ⟨rfl, D, k, R, rfl, hg.children.1, hg.children.2.1, Or.inl rfl⟩)
    · exact Or.inr (Or.inr ⟨rfl, D, L, k, rfl, hg.children.1, hg.children.2.1, Or.inr rfl⟩)
    · right; left
      refine ⟨i, hin, ?_, rfl⟩
      rw [(f9 k).2.2.2, hg.split, he.heap.node i (hI.mem_lt hin)]
  · obtain ⟨t', f1, f2, f3, f4, f5, f6, f7, f8, f9, f10⟩ := mutate_prune hI1 hg.sub hg.ready (by rw [he.nodes]; exact hg.fresh) hg.lt
    refine ⟨t', _, f1, f2, f4, f5, ?_, f6, f7, f8, f9⟩
    intro k hk
    rw [f3] at hk
    simp only [List.mem_append, List.mem_singleton] at hk
    have hin : i ∈ t.nodes := (List.mem_filter.1 (List.mem_filter.1 hg.prunable).1).1
    rcases hk with hk | rfl
    · left
      rw [← he.nodes]; exact List.mem_of_mem_erase (List.mem_of_mem_erase (List.mem_of_mem_erase hk))
    · right; left
      refine ⟨i, hin, ?_, rfl⟩
      rw [(f9 k).2.2.2, hg.leaf, he.heap.node i (hI.mem_lt hin)]
      rfl

end Bart
