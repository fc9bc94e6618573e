import Verif.Spec.Reference
import Verif.Proofs.LikLemmas

/-! A tree of the model as a tree of the reference implementation: the nodes, the leaves that can be split, the splits that can be removed. -/

set_option linter.unusedSectionVars false

namespace Bart
open Spec Reference
variable {K : Type} [Field K] [LinearOrder K] {n p : Nat}

/-- A condition without the numbers it carries. -/
def condOf (c : SplitCondition K p) : Cond K p := ⟨c.splittingVariable, c.splittingValue, decide (c.operator = .le)⟩

/-- The conditions of a node. -/
def pathOf (h : Heap K n p) (i : NodeId) : List (Cond K p) := (h.node i).split.combined.conditions.map condOf

/-- The content of a node. -/
def contentOf (h : Heap K n p) (i : NodeId) : Content K p :=
  match (h.node i).kind, rule h i with
  | .decision, some (j, v) => .split j v
  | _, _ => .leaf (h.node i).value

/-- A node as the reference implementation sees it. -/
def lookNode (h : Heap K n p) (i : NodeId) : RNode K p := ⟨pathOf h i, contentOf h i⟩

/-- A tree as the reference implementation sees it. -/
def look (t : Tree K n p) : RTree K p := t.nodes.map (lookNode t.heap)

/-- A comparison of the kinds that the code makes. -/
def GoodCond (c : SplitCondition K p) : Prop := (c.operator = .le ∨ c.operator = .gt) ∧ c.splittingValue ≠ .nan

theorem condOf_holds {c : SplitCondition K p} (hc : GoodCond c) {x : Fin p → Fl K} (hx : x c.splittingVariable ≠ .nan) : (condOf c).holds x = sat c x := by
  obtain ⟨h | h, hv⟩ := hc
  · simp [Cond.holds, condOf, h, sat_le h]
  · simp [Cond.holds, condOf, h, sat_gt h, Fl.gt_eq_not_le hx hv]

section repr
variable {X : Fin n → Fin p → Fl K} {y : Option (Fin n → K)} {h : Heap K n p}

/-- The root of a represented shape has the given path. -/
theorem Repr.root_path {s : Shape} {path : List (SplitCondition K p)} {d : Nat} (hR : Repr X y h s path d) :
    (h.node s.root).split.combined.conditions = path ∧ (h.node s.root).depth = d := by
  cases s with
  | leaf i => exact ⟨by rw [Shape.root, hR.2.2.2.2.combined]; rfl, hR.2.2.2.1⟩
  | node i l r => exact ⟨by rw [Shape.root, hR.2.2.2.2.1.combined]; rfl, hR.2.2.2.1⟩

/-- The rule of a decision node. -/
theorem Repr.rule_eq {i : NodeId} {l r : Shape} {path : List (SplitCondition K p)} {d : Nat} (hR : Repr X y h (.node i l r) path d) :
    ∃ cl cr, SplitPair cl cr ∧ rule h i = some (cl.splittingVariable, cl.splittingValue) ∧ Repr X y h l (path ++ [cl]) (d + 1) ∧ Repr X y h r (path ++ [cr]) (d + 1) ∧
      condOf cl = ⟨cl.splittingVariable, cl.splittingValue, true⟩ ∧ condOf cr = ⟨cl.splittingVariable, cl.splittingValue, false⟩ := by
  obtain ⟨-, r2, -, -, -, cl, cr, hp, hl, hr⟩ := hR
  refine ⟨cl, cr, hp, ?_, hl, hr, by simp [condOf, hp.opl], by simp [condOf, hp.opr, hp.var, hp.val]⟩
  unfold Spec.rule
  rw [r2]
  simp [hl.root_path.1]

/-- The conditions of the nodes below extend the path, and are of the right kind. -/
theorem Repr.paths {s : Shape} : ∀ {path : List (SplitCondition K p)} {d : Nat}, Repr X y h s path d → ∀ i ∈ s.ids,
    ∃ q, (h.node i).split.combined.conditions = path ++ q ∧ (∀ c ∈ q, GoodCond c) ∧ (h.node i).depth = d + q.length := by
  induction s with
  | leaf i =>
    intro path d hR j hj
    simp only [Shape.ids, List.mem_singleton] at hj; subst hj
    have := hR.root_path
    simp only [Shape.root] at this
    exact ⟨[], by simpa using this.1, by simp, by simpa using this.2⟩
  | node i l r ihl ihr =>
    intro path d hR j hj
    obtain ⟨cl, cr, hp, -, hl, hr, -, -⟩ := hR.rule_eq
    simp only [Shape.ids, List.mem_cons, List.mem_append] at hj
    rcases hj with rfl | hj | hj
    · have := hR.root_path
      simp only [Shape.root] at this
      exact ⟨[], by simpa using this.1, by simp, by simpa using this.2⟩
    · obtain ⟨q, e, g, dd⟩ := ihl hl j hj
      refine ⟨cl :: q, by simp [e], ?_, by rw [dd, List.length_cons]; omega⟩
      intro c hc
      rcases List.mem_cons.1 hc with rfl | hc
      · exact ⟨Or.inl hp.opl, hp.notNan⟩
      · exact g c hc
    · obtain ⟨q, e, g, dd⟩ := ihr hr j hj
      refine ⟨cr :: q, by simp [e], ?_, by rw [dd, List.length_cons]; omega⟩
      intro c hc
      rcases List.mem_cons.1 hc with rfl | hc
      · exact ⟨Or.inr hp.opr, by rw [hp.val]; exact hp.notNan⟩
      · exact g c hc

/-- Different nodes have different paths. -/
theorem Repr.path_inj {s : Shape} : ∀ {path : List (SplitCondition K p)} {d : Nat}, Repr X y h s path d → ∀ i ∈ s.ids, ∀ j ∈ s.ids, pathOf h i = pathOf h j → i = j := by
  induction s with
  | leaf i => intro path d _ a ha b hb _; simp only [Shape.ids, List.mem_singleton] at ha hb; rw [ha, hb]
  | node i l r ihl ihr =>
    intro path d hR
    have hroot := hR.root_path.1
    obtain ⟨cl, cr, hp, -, hl, hr, el, er⟩ := hR.rule_eq
    have pi : pathOf h i = path.map condOf := by unfold pathOf; rw [show (h.node i).split.combined.conditions = path from hroot]
    have pl : ∀ a ∈ l.ids, ∃ q, pathOf h a = path.map condOf ++ condOf cl :: q := by
      intro a ha
      obtain ⟨q, e, -⟩ := hl.paths a ha
      exact ⟨q.map condOf, by unfold pathOf; rw [e]; simp⟩
    have pr : ∀ a ∈ r.ids, ∃ q, pathOf h a = path.map condOf ++ condOf cr :: q := by
      intro a ha
      obtain ⟨q, e, -⟩ := hr.paths a ha
      exact ⟨q.map condOf, by unfold pathOf; rw [e]; simp⟩
    have hne : condOf cl ≠ condOf cr := by rw [el, er]; simp
    intro a ha b hb e
    simp only [Shape.ids, List.mem_cons, List.mem_append] at ha hb
    rcases ha with rfl | ha | ha <;> rcases hb with rfl | hb | hb
    · rfl
    · obtain ⟨q, e'⟩ := pl b hb; rw [pi, e'] at e; simp at e
    · obtain ⟨q, e'⟩ := pr b hb; rw [pi, e'] at e; simp at e
    · obtain ⟨q, e'⟩ := pl a ha; rw [pi, e'] at e; simp at e
    · exact ihl hl a ha b hb e
    · obtain ⟨q, e1⟩ := pl a ha; obtain ⟨q', e2⟩ := pr b hb
      rw [e1, e2] at e; simp at e; exact absurd e.1 hne
    · obtain ⟨q, e'⟩ := pr a ha; rw [pi, e'] at e; simp at e
    · obtain ⟨q, e1⟩ := pr a ha; obtain ⟨q', e2⟩ := pl b hb
      rw [e1, e2] at e; simp at e; exact absurd e.1.symm hne
    · exact ihr hr a ha b hb e

end repr

section tree
variable {X : Fin n → Fin p → Fl K} {y : Option (Fin n → K)} {t : Tree K n p} {s : Shape}

theorem TreeInv.path_inj (hI : TreeInv X y t s) {i j : NodeId} (hi : i ∈ t.nodes) (hj : j ∈ t.nodes) (e : pathOf t.heap i = pathOf t.heap j) : i = j :=
  hI.repr.path_inj i (hI.perm.mem_iff.1 hi) j (hI.perm.mem_iff.1 hj) e

theorem TreeInv.goodConds (hI : TreeInv X y t s) {i : NodeId} (hi : i ∈ t.nodes) : ∀ c ∈ (t.heap.node i).split.combined.conditions, GoodCond c := by
  obtain ⟨q, e, g, -⟩ := hI.repr.paths i (hI.perm.mem_iff.1 hi)
  rw [e]; exact g

/-- The depth of a node is the number of its conditions. -/
theorem TreeInv.depth_eq (hI : TreeInv X y t s) {i : NodeId} (hi : i ∈ t.nodes) : (t.heap.node i).depth = (pathOf t.heap i).length := by
  obtain ⟨q, e, -, d⟩ := hI.repr.paths i (hI.perm.mem_iff.1 hi)
  unfold pathOf
  rw [e, d]; simp

/-- Whether a row gets to a node. -/
theorem TreeInv.reaches (hI : TreeInv X y t s) {i : NodeId} (hi : i ∈ t.nodes) {x : Fin p → Fl K} (hx : ∀ j, x j ≠ .nan) :
    (lookNode t.heap i).reaches x = (t.heap.node i).split.combined.conditions.all (fun c => sat c x) := by
  have g := hI.goodConds hi
  unfold RNode.reaches lookNode pathOf
  simp only [List.all_map]
  rw [Bool.eq_iff_iff, List.all_eq_true, List.all_eq_true]
  constructor
  · intro H c hc; rw [← condOf_holds (g c hc) (hx _)]; exact H c hc
  · intro H c hc; show (condOf c).holds x = true; rw [condOf_holds (g c hc) (hx _)]; exact H c hc

/-- The rows of a node. -/
theorem TreeInv.rows_eq (hX : NoNan X) (hI : TreeInv X y t s) {i : NodeId} (hi : i ∈ t.nodes) : (lookNode t.heap i).rows X = rowsOf (t.heap.dataOf i) := by
  obtain ⟨q, hk⟩ := hI.repr.nodeOk i (hI.perm.mem_iff.1 hi)
  funext r
  have h1 := hI.reaches hi (hX r)
  rw [hk.combined] at h1
  rw [hk.rows r]
  exact h1

theorem TreeInv.isLeaf_eq (hI : TreeInv X y t s) {i : NodeId} (hi : i ∈ t.nodes) : (lookNode t.heap i).isLeaf = decide ((t.heap.node i).kind = .leaf) := by
  obtain ⟨u, hu, rfl⟩ := Shape.exists_sub (hI.perm.mem_iff.1 hi)
  obtain ⟨q, d, hR⟩ := hI.repr.sub hu
  cases u with
  | leaf j =>
    have h1 : (t.heap.node j).kind = .leaf := hR.1
    simp [RNode.isLeaf, lookNode, contentOf, Shape.root, h1]
  | node j l r =>
    have h1 : (t.heap.node j).kind = .decision := hR.1
    obtain ⟨cl, cr, -, e, -⟩ := hR.rule_eq
    simp [RNode.isLeaf, lookNode, contentOf, Shape.root, h1, e]

/-- The columns that can be split. -/
theorem columns_eq (hX : NoNan X) (rows : Fin n → Bool) : columns X rows = (List.finRange p).filter (fun j => isNotConstant (column X rows j)) := by
  unfold columns
  apply List.filter_congr
  intro j _
  have hn : ∀ x ∈ column X rows j, x ≠ .nan := by
    intro x hx
    obtain ⟨r, -, hr⟩ := mem_column.1 hx
    rw [← hr]; exact hX r j
  rw [Bool.eq_iff_iff, isNotConstant_noNan hn]
  simp [HasTwoValues]

/-- The leaves that can be split. -/
theorem look_splittable (hX : NoNan X) (hI : TreeInv X y t s) : (look t).splittable X = (splitLeavesOf X t).map (lookNode t.heap) := by
  unfold RTree.splittable look splitLeavesOf Tree.leafNodes
  rw [List.filter_map, List.filter_filter]
  congr 1
  apply List.filter_congr
  intro i hi
  simp only [Function.comp]
  rw [hI.isLeaf_eq hi, hI.rows_eq hX hi, columns_eq hX, Bool.and_comm]
  congr 1
  rw [Bool.eq_iff_iff]
  simp [List.filter_eq_nil_iff]

/-- The nodes below a decision node, by their paths. -/
theorem TreeInv.hasLeaf_child (hI : TreeInv X y t s) {c : NodeId} (hc : c ∈ t.nodes) {q : List (Cond K p)} (e : pathOf t.heap c = q) :
    (look t).hasLeaf q = decide ((t.heap.node c).kind = .leaf) := by
  rw [← hI.isLeaf_eq hc, Bool.eq_iff_iff]
  unfold RTree.hasLeaf look
  simp only [List.any_map, List.any_eq_true, Function.comp, Bool.and_eq_true, decide_eq_true_eq]
  constructor
  · rintro ⟨k, hk, h1, h2⟩
    have : k = c := hI.path_inj hk hc (by rw [e]; exact h2)
    rwa [this] at h1
  · intro h1
    exact ⟨c, hc, h1, e⟩

/-- The splits that can be removed. -/
theorem look_prunable (hI : TreeInv X y t s) : (look t).prunable = t.prunableDecisionNodes.map (lookNode t.heap) := by
  unfold RTree.prunable Tree.prunableDecisionNodes Tree.decisionNodes
  conv_lhs => rw [look]
  rw [List.filter_map, List.filter_filter]
  congr 1
  apply List.filter_congr
  intro i hi
  simp only [Function.comp]
  obtain ⟨u, hu, rfl⟩ := Shape.exists_sub (hI.perm.mem_iff.1 hi)
  obtain ⟨q, d, hR⟩ := hI.repr.sub hu
  cases u with
  | leaf j =>
    have h1 : (t.heap.node j).kind = .leaf := hR.1
    simp [lookNode, contentOf, Shape.root, h1]
  | node j l r =>
    have h1 : (t.heap.node j).kind = .decision := hR.1
    have hroot : (t.heap.node j).split.combined.conditions = q := hR.root_path.1
    obtain ⟨cl, cr, -, e, hl, hr, el, er⟩ := hR.rule_eq
    obtain ⟨-, r2, r3, -⟩ := hR
    have ml : l.root ∈ t.nodes := hI.perm.mem_iff.2 (hu.ids_subset _ (by simp [Shape.ids, l.root_mem]))
    have mr : r.root ∈ t.nodes := hI.perm.mem_iff.2 (hu.ids_subset _ (by simp [Shape.ids, r.root_mem]))
    have pl : pathOf t.heap l.root = pathOf t.heap j ++ [⟨cl.splittingVariable, cl.splittingValue, true⟩] := by
      unfold pathOf; rw [hl.root_path.1, hroot, List.map_append, List.map_singleton, el]
    have pr : pathOf t.heap r.root = pathOf t.heap j ++ [⟨cl.splittingVariable, cl.splittingValue, false⟩] := by
      unfold pathOf; rw [hr.root_path.1, hroot, List.map_append, List.map_singleton, er]
    simp only [Shape.root, lookNode, contentOf, h1, e]
    rw [show List.map (lookNode t.heap) t.nodes = look t from rfl]
    rw [hI.hasLeaf_child ml pl, hI.hasLeaf_child mr pr]
    simp [Heap.isPrunable, Heap.isLeafPtr, r2, r3]

end tree
end Bart
