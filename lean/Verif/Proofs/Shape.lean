import Verif.Model.Tree
import Verif.Spec.Condition
import Verif.Proofs.DataLemmas
import Verif.Proofs.Condition
import Mathlib.Data.List.Perm.Basic
import Mathlib.Data.List.Perm.Subperm

/-! The representation invariant of trees: the heap holds a binary tree shape. -/

set_option linter.unusedSectionVars false

namespace Bart
open Spec
variable {K : Type} [Field K] [LinearOrder K] {n p : Nat}

/-- A binary tree of node identities. -/
inductive Shape where
  | leaf (i : NodeId)
  | node (i : NodeId) (l r : Shape)
  deriving DecidableEq

namespace Shape

def root : Shape → NodeId
  | leaf i => i
  | node i _ _ => i

def ids : Shape → List NodeId
  | leaf i => [i]
  | node i l r => i :: (l.ids ++ r.ids)

def leaves : Shape → List NodeId
  | leaf i => [i]
  | node _ l r => l.leaves ++ r.leaves

def decisions : Shape → List NodeId
  | leaf _ => []
  | node i l r => i :: (l.decisions ++ r.decisions)

/-- Replace the subtree with root `i`. -/
def replace (s : Shape) (i : NodeId) (s' : Shape) : Shape :=
  match s with
  | leaf j => if j = i then s' else leaf j
  | node j l r => if j = i then s' else node j (l.replace i s') (r.replace i s')

theorem root_mem (s : Shape) : s.root ∈ s.ids := by cases s <;> simp [root, ids]

theorem replace_of_not_mem {i : NodeId} {s' s : Shape} (h : i ∉ s.ids) : s.replace i s' = s := by
  induction s with
  | leaf j => simp [ids] at h; simp [replace, Ne.symm h]
  | node j l r ihl ihr =>
    simp only [ids, List.mem_cons, List.mem_append, not_or] at h
    simp [replace, Ne.symm h.1, ihl h.2.1, ihr h.2.2]

theorem leaves_length (s : Shape) : s.leaves.length = s.decisions.length + 1 := by
  induction s with
  | leaf j => rfl
  | node j l r ihl ihr => simp [leaves, decisions, ihl, ihr]; omega

theorem ids_perm (s : Shape) : s.ids.Perm (s.leaves ++ s.decisions) := by
  induction s with
  | leaf j => simp [ids, leaves, decisions]
  | node j l r ihl ihr =>
    simp only [ids, leaves, decisions]
    have h1 : (l.ids ++ r.ids).Perm ((l.leaves ++ r.leaves) ++ (l.decisions ++ r.decisions)) := by
      refine (ihl.append ihr).trans ?_
      rw [List.append_assoc, List.append_assoc]
      refine List.Perm.append_left _ ?_
      rw [← List.append_assoc, ← List.append_assoc]
      exact List.Perm.append_right _ List.perm_append_comm
    exact (h1.cons j).trans List.perm_middle.symm

theorem leaves_subset (s : Shape) {i : NodeId} (h : i ∈ s.leaves) : i ∈ s.ids :=
  (s.ids_perm.mem_iff).2 (List.mem_append_left _ h)

theorem decisions_subset (s : Shape) {i : NodeId} (h : i ∈ s.decisions) : i ∈ s.ids :=
  (s.ids_perm.mem_iff).2 (List.mem_append_right _ h)

/-- Subtrees. -/
def Sub (t : Shape) : Shape → Prop
  | leaf j => t = leaf j
  | node j l r => t = node j l r ∨ t.Sub l ∨ t.Sub r

theorem Sub.refl (s : Shape) : s.Sub s := by cases s <;> simp [Sub]

theorem Sub.ids_subset {t s : Shape} (h : t.Sub s) : ∀ i ∈ t.ids, i ∈ s.ids := by
  induction s with
  | leaf j => simp only [Sub] at h; subst h; simp
  | node j l r ihl ihr =>
    intro i hi
    rcases h with rfl | h | h
    · exact hi
    · simp [ids, ihl h i hi]
    · simp [ids, ihr h i hi]

theorem exists_sub {s : Shape} {i : NodeId} (h : i ∈ s.ids) : ∃ t : Shape, t.Sub s ∧ t.root = i := by
  induction s with
  | leaf j => simp [ids] at h; exact ⟨leaf j, by simp [Sub], by simp [root, h]⟩
  | node j l r ihl ihr =>
    simp only [ids, List.mem_cons, List.mem_append] at h
    rcases h with h | h | h
    · exact ⟨node j l r, Sub.refl _, by simp [root, h]⟩
    · obtain ⟨t, h1, h2⟩ := ihl h; exact ⟨t, Or.inr (Or.inl h1), h2⟩
    · obtain ⟨t, h1, h2⟩ := ihr h; exact ⟨t, Or.inr (Or.inr h1), h2⟩

/-- Replacing a subtree exchanges its identities for the new ones. -/
theorem replace_ids {i : NodeId} {s' t : Shape} : ∀ {s : Shape}, t.Sub s → t.root = i → s.ids.Nodup →
    ∃ rest, s.ids.Perm (t.ids ++ rest) ∧ (s.replace i s').ids.Perm (s'.ids ++ rest) := by
  intro s
  induction s with
  | leaf j =>
    intro h hr _
    simp only [Sub] at h
    subst h
    simp only [root] at hr
    exact ⟨[], by simp, by simp [replace, hr]⟩
  | node j l r ihl ihr =>
    intro h hr hn
    simp only [ids, List.nodup_cons, List.mem_append, not_or, List.nodup_append] at hn
    obtain ⟨⟨hjl, hjr⟩, hl, hrn, hdis⟩ := hn
    rcases h with rfl | h | h
    · simp only [root] at hr
      exact ⟨[], by simp, by simp [replace, hr]⟩
    · have him : i ∈ l.ids := h.ids_subset _ (hr ▸ t.root_mem)
      have hji : j ≠ i := by rintro rfl; exact hjl him
      have hnr : i ∉ r.ids := fun hc => hdis _ him _ hc rfl
      obtain ⟨rest, p1, p2⟩ := ihl h hr hl
      refine ⟨j :: (rest ++ r.ids), ?_, ?_⟩
      · simp only [ids]
        refine ((p1.append_right r.ids).cons j).trans ?_
        rw [List.append_assoc]; exact List.perm_middle.symm
      · simp only [replace, hji, if_false, ids, replace_of_not_mem hnr]
        refine ((p2.append_right r.ids).cons j).trans ?_
        rw [List.append_assoc]; exact List.perm_middle.symm
    · have him : i ∈ r.ids := h.ids_subset _ (hr ▸ t.root_mem)
      have hji : j ≠ i := by rintro rfl; exact hjr him
      have hnl : i ∉ l.ids := fun hc => hdis _ hc _ him rfl
      obtain ⟨rest, p1, p2⟩ := ihr h hr hrn
      refine ⟨j :: (l.ids ++ rest), ?_, ?_⟩
      · simp only [ids]
        refine ((p1.append_left l.ids).cons j).trans ?_
        have : (l.ids ++ (t.ids ++ rest)).Perm (t.ids ++ (l.ids ++ rest)) := by
          rw [← List.append_assoc, ← List.append_assoc]
          exact List.Perm.append_right _ List.perm_append_comm
        exact (this.cons j).trans List.perm_middle.symm
      · simp only [replace, hji, if_false, ids, replace_of_not_mem hnl]
        refine ((p2.append_left l.ids).cons j).trans ?_
        have : (l.ids ++ (s'.ids ++ rest)).Perm (s'.ids ++ (l.ids ++ rest)) := by
          rw [← List.append_assoc, ← List.append_assoc]
          exact List.Perm.append_right _ List.perm_append_comm
        exact (this.cons j).trans List.perm_middle.symm

end Shape

/-! ### the representation predicate -/

/-- A `(<= v, > v)` pair of conditions on one column. -/
structure SplitPair (cl cr : SplitCondition K p) : Prop where
  var : cr.splittingVariable = cl.splittingVariable
  val : cr.splittingValue = cl.splittingValue
  notNan : cl.splittingValue ≠ .nan
  opl : cl.operator = .le
  opr : cr.operator = .gt

/-- Node `i` holds the rows that satisfy the conditions of `path`, with right caches and target `y`. -/
structure NodeOk (X : Fin n → Fin p → Fl K) (y : Option (Fin n → K)) (h : Heap K n p) (i : NodeId)
    (path : List (SplitCondition K p)) : Prop where
  data_lt : (h.node i).split.data < h.nextData
  combined : (h.node i).split.combined = CombinedCondition.init path
  inv : DataInv (h.dataOf i)
  hX : (h.dataOf i).X.X = X
  rows : ∀ r, rowsOf (h.dataOf i) r = path.all (fun c => sat c (X r))
  y : (h.dataOf i).y.y = y

/-- The heap represents the shape below the given path and depth. -/
def Repr (X : Fin n → Fin p → Fl K) (y : Option (Fin n → K)) (h : Heap K n p) :
    Shape → List (SplitCondition K p) → Nat → Prop
  | .leaf i, path, d => (h.node i).kind = .leaf ∧ (h.node i).left = none ∧ (h.node i).right = none ∧ (h.node i).depth = d ∧
      NodeOk X y h i path
  | .node i l r, path, d => (h.node i).kind = .decision ∧ (h.node i).left = some l.root ∧ (h.node i).right = some r.root ∧
      (h.node i).depth = d ∧ NodeOk X y h i path ∧
      ∃ cl cr, SplitPair cl cr ∧ Repr X y h l (path ++ [cl]) (d + 1) ∧ Repr X y h r (path ++ [cr]) (d + 1)

/-- The tree invariant. -/
structure TreeInv (X : Fin n → Fin p → Fl K) (y : Option (Fin n → K)) (t : Tree K n p) (s : Shape) : Prop where
  repr : Repr X y t.heap s [] 0
  perm : t.nodes.Perm s.ids
  nodup : s.ids.Nodup
  lt : ∀ i ∈ s.ids, i < t.heap.nextNode

/-! ### frame lemmas -/

/-- Two nodes that differ at most in the leaf value. -/
structure SameNode (a b : Node K p) : Prop where
  kind : b.kind = a.kind
  depth : b.depth = a.depth
  split : b.split = a.split
  left : b.left = a.left
  right : b.right = a.right

theorem SameNode.refl (a : Node K p) : SameNode a a := ⟨rfl, rfl, rfl, rfl, rfl⟩
theorem SameNode.trans {a b c : Node K p} (h : SameNode a b) (h' : SameNode b c) : SameNode a c :=
  ⟨h'.kind.trans h.kind, h'.depth.trans h.depth, h'.split.trans h.split, h'.left.trans h.left, h'.right.trans h.right⟩

/-- The representation only depends on the nodes of the shape and their data. -/
theorem Repr.congr {X : Fin n → Fin p → Fl K} {y y' : Option (Fin n → K)} {h h' : Heap K n p} {s : Shape} :
    ∀ {path : List (SplitCondition K p)} {d : Nat}, Repr X y h s path d →
    (∀ i ∈ s.ids, SameNode (h.node i) (h'.node i)) →
    (∀ i ∈ s.ids, (h.node i).split.data < h'.nextData) →
    (∀ i ∈ s.ids, DataInv (h'.dataOf i) ∧ (h'.dataOf i).X.X = (h.dataOf i).X.X ∧ (h'.dataOf i).mask = (h.dataOf i).mask ∧
      (h'.dataOf i).y.y = y') →
    Repr X y' h' s path d := by
  have nodeOk : ∀ {i path}, NodeOk X y h i path → SameNode (h.node i) (h'.node i) → (h.node i).split.data < h'.nextData →
      (DataInv (h'.dataOf i) ∧ (h'.dataOf i).X.X = (h.dataOf i).X.X ∧ (h'.dataOf i).mask = (h.dataOf i).mask ∧
        (h'.dataOf i).y.y = y') → NodeOk X y' h' i path := by
    intro i path hk hs hlt ⟨d1, d2, d3, d4⟩
    refine ⟨by rw [hs.split]; exact hlt, by rw [hs.split]; exact hk.combined, d1, d2.trans hk.hX, ?_, d4⟩
    intro r
    rw [← hk.rows r]
    simp [rowsOf, d3]
  induction s with
  | leaf i =>
    intro path d hR hs hlt hd
    obtain ⟨r1, r2, r3, r4, r5⟩ := hR
    have hsi := hs i (by simp [Shape.ids])
    exact ⟨hsi.kind.trans r1, hsi.left.trans r2, hsi.right.trans r3, hsi.depth.trans r4,
      nodeOk r5 hsi (hlt i (by simp [Shape.ids])) (hd i (by simp [Shape.ids]))⟩
  | node i l r ihl ihr =>
    intro path d hR hs hlt hd
    obtain ⟨r1, r2, r3, r4, r5, cl, cr, hp, hl, hr⟩ := hR
    have hsi := hs i (by simp [Shape.ids])
    refine ⟨hsi.kind.trans r1, hsi.left.trans r2, hsi.right.trans r3, hsi.depth.trans r4,
      nodeOk r5 hsi (hlt i (by simp [Shape.ids])) (hd i (by simp [Shape.ids])), cl, cr, hp, ?_, ?_⟩
    · exact ihl hl (fun j hj => hs j (by simp [Shape.ids, hj])) (fun j hj => hlt j (by simp [Shape.ids, hj]))
        (fun j hj => hd j (by simp [Shape.ids, hj]))
    · exact ihr hr (fun j hj => hs j (by simp [Shape.ids, hj])) (fun j hj => hlt j (by simp [Shape.ids, hj]))
        (fun j hj => hd j (by simp [Shape.ids, hj]))

/-- Every node of a represented shape is in order. -/
theorem Repr.nodeOk {X : Fin n → Fin p → Fl K} {y : Option (Fin n → K)} {h : Heap K n p} {s : Shape} :
    ∀ {path : List (SplitCondition K p)} {d : Nat}, Repr X y h s path d → ∀ i ∈ s.ids, ∃ path', NodeOk X y h i path' := by
  induction s with
  | leaf i =>
    intro path d hR j hj
    simp [Shape.ids] at hj; subst hj
    exact ⟨path, hR.2.2.2.2⟩
  | node i l r ihl ihr =>
    intro path d hR j hj
    obtain ⟨r1, r2, r3, r4, r5, cl, cr, hp, hl, hr⟩ := hR
    simp only [Shape.ids, List.mem_cons, List.mem_append] at hj
    rcases hj with rfl | hj | hj
    · exact ⟨path, r5⟩
    · exact ihl hl j hj
    · exact ihr hr j hj

/-- Subtrees of a represented shape are represented. -/
theorem Repr.sub {X : Fin n → Fin p → Fl K} {y : Option (Fin n → K)} {h : Heap K n p} {t s : Shape} (hs : t.Sub s) :
    ∀ {path : List (SplitCondition K p)} {d : Nat}, Repr X y h s path d → ∃ path' d', Repr X y h t path' d' := by
  induction s with
  | leaf i => intro path d hR; simp only [Shape.Sub] at hs; subst hs; exact ⟨path, d, hR⟩
  | node i l r ihl ihr =>
    intro path d hR
    rcases hs with rfl | hs | hs
    · exact ⟨path, d, hR⟩
    · obtain ⟨_, _, _, _, _, cl, cr, hp, hl, hr⟩ := hR; exact ihl hs hl
    · obtain ⟨_, _, _, _, _, cl, cr, hp, hl, hr⟩ := hR; exact ihr hs hr

/-- `h'` extends `h`: existing nodes are untouched, existing data objects at most have other caches. -/
structure HeapExt (h h' : Heap K n p) : Prop where
  nextNode : h.nextNode ≤ h'.nextNode
  nextData : h.nextData ≤ h'.nextData
  node : ∀ i < h.nextNode, h'.node i = h.node i
  data : ∀ k < h.nextData, SameData (h.data k) (h'.data k) ∧ (DataInv (h.data k) → DataInv (h'.data k))

namespace HeapExt

theorem refl (h : Heap K n p) : HeapExt h h := ⟨le_refl _, le_refl _, fun _ _ => rfl, fun _ _ => ⟨SameData.refl _, id⟩⟩

theorem trans {a b c : Heap K n p} (h : HeapExt a b) (h' : HeapExt b c) : HeapExt a c :=
  ⟨h.nextNode.trans h'.nextNode, h.nextData.trans h'.nextData,
   fun i hi => (h'.node i (hi.trans_le h.nextNode)).trans (h.node i hi),
   fun k hk => ⟨(h.data k hk).1.trans (h'.data k (hk.trans_le h.nextData)).1,
     fun hd => (h'.data k (hk.trans_le h.nextData)).2 ((h.data k hk).2 hd)⟩⟩

theorem nodeOk {X : Fin n → Fin p → Fl K} {y : Option (Fin n → K)} {h h' : Heap K n p} (he : HeapExt h h') {i : NodeId}
    {path : List (SplitCondition K p)} (hi : i < h.nextNode) (hk : NodeOk X y h i path) : NodeOk X y h' i path := by
  have hd := he.data _ hk.data_lt
  have hnode := he.node i hi
  have e : h'.dataOf i = h'.data (h.node i).split.data := by simp [Heap.dataOf, hnode]
  refine ⟨by rw [hnode]; exact hk.data_lt.trans_le he.nextData, by rw [hnode]; exact hk.combined, ?_, ?_, ?_, ?_⟩
  · rw [e]; exact hd.2 hk.inv
  · rw [e]; exact hd.1.X.X.trans hk.hX
  · intro r
    rw [← hk.rows r, e]
    simp [rowsOf, hd.1.mask, Heap.dataOf]
  · rw [e]; exact hd.1.y.trans hk.y

theorem repr {X : Fin n → Fin p → Fl K} {y : Option (Fin n → K)} {h h' : Heap K n p} (he : HeapExt h h') {s : Shape}
    {path : List (SplitCondition K p)} {d : Nat} (hlt : ∀ i ∈ s.ids, i < h.nextNode) (hR : Repr X y h s path d) :
    Repr X y h' s path d := by
  refine hR.congr (fun i hi => ?_) (fun i hi => ?_) (fun i hi => ?_)
  · rw [he.node i (hlt i hi)]; exact SameNode.refl _
  · obtain ⟨path', hk⟩ := hR.nodeOk i hi
    exact hk.data_lt.trans_le he.nextData
  · obtain ⟨path', hk⟩ := hR.nodeOk i hi
    have hd := he.data _ hk.data_lt
    have hnode := he.node i (hlt i hi)
    have e : h'.dataOf i = h'.data (h.node i).split.data := by simp [Heap.dataOf, hnode]
    rw [e]
    exact ⟨hd.2 hk.inv, hd.1.X.X, hd.1.mask, hd.1.y.trans hk.y⟩

theorem treeInv {X : Fin n → Fin p → Fl K} {y : Option (Fin n → K)} {t : Tree K n p} {h' : Heap K n p} {s : Shape}
    (he : HeapExt t.heap h') (hI : TreeInv X y t s) (c : Bool) (b : PredBuf K n) :
    TreeInv X y { heap := h', nodes := t.nodes, cacheUpToDate := c, prediction := b } s :=
  ⟨he.repr hI.lt hI.repr, hI.perm, hI.nodup, fun i hi => (hI.lt i hi).trans_le he.nextNode⟩

/-- Replacing one data object by an equivalent one. -/
theorem setData {h : Heap K n p} {k : DataId} {d : Data K n p} (hs : SameData (h.data k) d)
    (hd : DataInv (h.data k) → DataInv d) : HeapExt h (h.setData k d) := by
  refine ⟨le_refl _, le_refl _, fun i _ => rfl, fun j _ => ?_⟩
  by_cases hj : j = k
  · subst hj; simp [Heap.setData]; exact ⟨hs, hd⟩
  · simp [Heap.setData, hj]; exact SameData.refl _

theorem allocData (h : Heap K n p) (d : Data K n p) : HeapExt h (h.allocData d).2 := by
  refine ⟨le_refl _, Nat.le_succ _, fun i _ => rfl, fun j hj => ?_⟩
  have : j ≠ h.nextData := Nat.ne_of_lt hj
  simp [Heap.allocData, this]; exact SameData.refl _

theorem allocNode (h : Heap K n p) (nd : Node K p) : HeapExt h (h.allocNode nd).2 := by
  refine ⟨Nat.le_succ _, le_refl _, fun i hi => ?_, fun j _ => ⟨SameData.refl _, id⟩⟩
  have : i ≠ h.nextNode := Nat.ne_of_lt hi
  simp [Heap.allocNode, this]

end HeapExt

/-! ### split_node -/

theorem sat_le {cl : SplitCondition K p} {x : Fin p → Fl K} (ho : cl.operator = .le) :
    sat cl x = Fl.le (x cl.splittingVariable) cl.splittingValue := by simp [sat, ho, holdsOp]

theorem sat_gt {cl : SplitCondition K p} {x : Fin p → Fl K} (ho : cl.operator = .gt) :
    sat cl x = Fl.gt (x cl.splittingVariable) cl.splittingValue := by simp [sat, ho, holdsOp]

theorem SplitPair.sat_compl {cl cr : SplitCondition K p} (h : SplitPair cl cr) {x : Fin p → Fl K}
    (hx : x cl.splittingVariable ≠ .nan) : sat cr x = !sat cl x := by
  rw [sat_le h.opl, sat_gt h.opr, h.var, h.val]
  exact Fl.gt_eq_not_le hx h.notNan

/-- A new leaf. -/
def leafRec (d : Nat) (s : Split K p) : Node K p := { kind := .leaf, depth := d, split := s, left := none, right := none, value := 0 }

/-- A new decision node. -/
def decRec (d : Nat) (s : Split K p) (l r : NodeId) : Node K p :=
  { kind := .decision, depth := d, split := s, left := some l, right := some r, value := 0 }

/-- Everything about `split_node` on a node that is in order and has a target. -/
theorem splitNode_spec {X : Fin n → Fin p → Fl K} {y : Fin n → K} {h : Heap K n p} {i : NodeId}
    {path : List (SplitCondition K p)} (hk : NodeOk X (some y) h i path) {c0 c1 : SplitCondition K p}
    (hp : SplitPair c0 c1) (hX : ∀ r, X r c0.splittingVariable ≠ .nan)
    (hc1 : c0.carryNObsv = none) (hc2 : c0.carryYSum = none) :
    ∃ h' cr, h.splitNode i c0 c1 = .ok (h.nextNode + 2, h') ∧ SplitPair c0 cr ∧ HeapExt h h' ∧
      h'.nextNode = h.nextNode + 3 ∧
      h'.node h.nextNode = leafRec ((h.node i).depth + 1) { data := h.nextData, combined := CombinedCondition.init (path ++ [c0]) } ∧
      h'.node (h.nextNode + 1) = leafRec ((h.node i).depth + 1) { data := h.nextData + 1, combined := CombinedCondition.init (path ++ [cr]) } ∧
      h'.node (h.nextNode + 2) = decRec ((h.node i).depth) (h.node i).split h.nextNode (h.nextNode + 1) ∧
      NodeOk X (some y) h' h.nextNode (path ++ [c0]) ∧ NodeOk X (some y) h' (h.nextNode + 1) (path ++ [cr]) ∧
      cr.splittingVariable = c1.splittingVariable ∧ cr.splittingValue = c1.splittingValue := by
  obtain ⟨inv, hdX, hrows, hy, hlt, hcomb⟩ := (⟨hk.inv, hk.hX, hk.rows, hk.y, hk.data_lt, hk.combined⟩ :
    DataInv (h.dataOf i) ∧ _ ∧ _ ∧ _ ∧ _ ∧ _)
  have hDof : h.dataOf i = h.data (h.node i).split.data := rfl
  -- left child
  obtain ⟨m0, hm0, hr0⟩ := updateMask_ok (h.dataOf i).X c0 (by rw [hp.opl]; simp)
  obtain ⟨dl, l1, l2, l3, l4, l5, l6⟩ := Data.add_spec inv hm0 (by rw [hc1]; simp) (by rw [hc2]; simp)
  have hlrows : ∀ r, inRows dl.mask r = (path ++ [c0]).all (fun c => sat c (X r)) := by
    intro r
    rw [l4, hr0]
    simp only [List.all_append, List.all_cons, List.all_nil, Bool.and_true]
    rw [inv.maskX, ← hrows r, sat_le hp.opl, hp.opl, hdX]
    simp only [keep]
    rw [Fl.le_eq_not_gt (hX r) hp.notNan]
    rfl
  let h1 := (h.allocData dl).2
  have e1 : h.splitAdd (h.node i).split c0 = .ok ({ data := h.nextData, combined := (h.node i).split.combined.add c0 }, h1) := by
    unfold Heap.splitAdd; rw [← hDof, l1]; rfl
  have ext1 : HeapExt h h1 := HeapExt.allocData h dl
  have h1d : h1.data (h.node i).split.data = h.dataOf i := by
    have : (h.node i).split.data ≠ h.nextData := Nat.ne_of_lt hlt
    simp [h1, Heap.allocData, this, Heap.dataOf]
  have h1l : h1.data h.nextData = dl := by simp [h1, Heap.allocData]
  -- sum of the node
  have hs1 := Data.sumY_spec inv
  cases es1 : (h.dataOf i).sumY with
  | error e => rw [es1] at hs1; rw [hy] at hs1; cases hs1.2
  | ok q =>
    obtain ⟨s1, d1⟩ := q
    rw [es1] at hs1
    obtain ⟨y1, hy1, hv1, sd1, id1⟩ := hs1
    rw [hy] at hy1; injection hy1 with hy1; subst hy1
    let h2 := h1.setData (h.node i).split.data d1
    have e2 : h1.sumYOf (h.node i).split.data = .ok (s1, h2) := by unfold Heap.sumYOf; rw [h1d, es1]
    have ext2 : HeapExt h1 h2 := HeapExt.setData (by rw [h1d]; exact sd1) (fun _ => id1)
    have h2l : h2.data h.nextData = dl := by
      have : h.nextData ≠ (h.node i).split.data := (Nat.ne_of_lt hlt).symm
      simp [h2, Heap.setData, this, h1l]
    have h2d : h2.data (h.node i).split.data = d1 := by simp [h2, Heap.setData]
    -- sum of the left child
    have hs2 := Data.sumY_spec l2
    cases es2 : dl.sumY with
    | error e => rw [es2] at hs2; rw [l5, hy] at hs2; cases hs2.2
    | ok q2 =>
      obtain ⟨s2, dl1⟩ := q2
      rw [es2] at hs2
      obtain ⟨y2, hy2, hv2, sdl, idl⟩ := hs2
      rw [l5, hy] at hy2; injection hy2 with hy2; subst hy2
      let h3 := h2.setData h.nextData dl1
      have e3 : h2.sumYOf h.nextData = .ok (s2, h3) := by unfold Heap.sumYOf; rw [h2l, es2]
      have ext3 : HeapExt h2 h3 := HeapExt.setData (by rw [h2l]; exact sdl) (fun _ => idl)
      have h3d : h3.data (h.node i).split.data = d1 := by
        have : (h.node i).split.data ≠ h.nextData := Nat.ne_of_lt hlt
        simp [h3, Heap.setData, this, h2d]
      have h3l : h3.data h.nextData = dl1 := by simp [h3, Heap.setData]
      -- right child
      let cN : Int := (h.dataOf i).X.nObsv - dl.X.nObsv
      let cr : SplitCondition K p := { c1 with carryNObsv := some cN, carryYSum := some (s1 - s2) }
      have hpr : SplitPair c0 cr := ⟨hp.var, hp.val, hp.notNan, hp.opl, hp.opr⟩
      obtain ⟨m1, hm1, hr1⟩ := updateMask_ok d1.X cr (by rw [hpr.opr]; simp)
      have hr1' : inRows m1 = fun r => inRows (h.dataOf i).mask r && !keep (X r c0.splittingVariable) c0.splittingValue .le := by
        rw [hr1]; funext r
        rw [sd1.X.mask, sd1.X.X, inv.maskX, hdX, hpr.opr, hpr.var, hpr.val, keep_gt_eq_not_le (hX r) hp.notNan]
      have hl' : inRows dl.mask = fun r => inRows (h.dataOf i).mask r && keep (X r c0.splittingVariable) c0.splittingValue .le := by
        rw [l4, hr0, hp.opl, inv.maskX, hdX]
      obtain ⟨dr, r1, r2, r3, r4, r5, r6⟩ := Data.add_spec id1 hm1 (by
          intro k hk'
          simp only [cr, Option.some.injEq] at hk'
          rw [← hk', hr1']
          simp only [cN]
          rw [inv.X.nObsv, l2.X.nObsv, inv.maskX, l2.maskX, hl']
          have := count_split (inRows (h.dataOf i).mask) (fun r => keep (X r c0.splittingVariable) c0.splittingValue .le)
          omega) (by
          intro w hw
          simp only [cr, Option.some.injEq] at hw
          refine ⟨y, sd1.y.trans hy, ?_⟩
          rw [← hw, hv1, hv2, hl', hr1']
          have := total_split y (inRows (h.dataOf i).mask) (fun r => keep (X r c0.splittingVariable) c0.splittingValue .le)
          rw [← this]; ring)
      have hrrows : ∀ r, inRows dr.mask r = (path ++ [cr]).all (fun c => sat c (X r)) := by
        intro r
        rw [r4, hr1]
        simp only [List.all_append, List.all_cons, List.all_nil, Bool.and_true]
        rw [sd1.X.mask, sd1.X.X, inv.maskX, ← hrows r, sat_gt hpr.opr, hpr.opr, hdX]
        simp only [keep]
        rw [Fl.gt_eq_not_le (by rw [hpr.var]; exact hX r) (by rw [hpr.val]; exact hp.notNan)]
        rfl
      let h4 := (h3.allocData dr).2
      have e4 : h3.splitAdd (h.node i).split cr
          = .ok ({ data := h.nextData + 1, combined := (h.node i).split.combined.add cr }, h4) := by
        unfold Heap.splitAdd; rw [h3d, r1]; rfl
      have ext4 : HeapExt h3 h4 := HeapExt.allocData h3 dr
      have h4l : h4.data h.nextData = dl1 := by
        have : h.nextData ≠ h3.nextData := by simp [h3, h2, h1, Heap.setData, Heap.allocData]
        simp [h4, Heap.allocData, this, h3l]
      have h4r : h4.data (h.nextData + 1) = dr := by
        have : h.nextData + 1 = h3.nextData := rfl
        simp [h4, Heap.allocData, this]
      -- nodes
      let L : Node K p := leafRec ((h.node i).depth + 1) { data := h.nextData, combined := (h.node i).split.combined.add c0 }
      let R : Node K p := leafRec ((h.node i).depth + 1) { data := h.nextData + 1, combined := (h.node i).split.combined.add cr }
      let D : Node K p := decRec ((h.node i).depth) (h.node i).split h.nextNode (h.nextNode + 1)
      let h5 := (h4.allocNode L).2
      let h6 := (h5.allocNode R).2
      let h7 := (h6.allocNode D).2
      have e7 : h.splitNode i c0 c1 = .ok (h.nextNode + 2, h7) := by
        unfold Heap.splitNode
        simp only [e1, e2, h1d, h1l, e3]
        rw [e4]
        rfl
      have ext : HeapExt h h7 := ((((((ext1.trans ext2).trans ext3).trans ext4).trans (HeapExt.allocNode h4 L)).trans
        (HeapExt.allocNode h5 R)).trans (HeapExt.allocNode h6 D))
      have nL : h7.node h.nextNode = L := by
        have a1 : h.nextNode ≠ h6.nextNode := by show h.nextNode ≠ h.nextNode + 2; omega
        have a2 : h.nextNode ≠ h5.nextNode := by show h.nextNode ≠ h.nextNode + 1; omega
        have a3 : h.nextNode = h4.nextNode := rfl
        simp only [h7, h6, h5, Heap.allocNode]
        rw [Function.update_of_ne (by exact a1), Function.update_of_ne (by exact a2), ← a3, Function.update_self]
      have nR : h7.node (h.nextNode + 1) = R := by
        have a1 : h.nextNode + 1 ≠ h6.nextNode := by show h.nextNode + 1 ≠ h.nextNode + 2; omega
        have a3 : h.nextNode + 1 = h5.nextNode := rfl
        simp only [h7, h6, Heap.allocNode]
        rw [Function.update_of_ne (by exact a1), ← a3, Function.update_self]
      have nD : h7.node (h.nextNode + 2) = D := by
        have a3 : h.nextNode + 2 = h6.nextNode := rfl
        simp only [h7, Heap.allocNode]
        rw [← a3, Function.update_self]
      have dL : h7.dataOf h.nextNode = dl1 := by
        unfold Heap.dataOf; rw [nL]; exact h4l
      have dR : h7.dataOf (h.nextNode + 1) = dr := by
        unfold Heap.dataOf; rw [nR]; exact h4r
      refine ⟨h7, cr, e7, hpr, ext, rfl, ?_, ?_, nD, ?_, ?_, rfl, rfl⟩
      · rw [nL]; simp only [L, leafRec, hcomb, init_add]
      · rw [nR]; simp only [R, leafRec, hcomb, init_add]
      · refine ⟨by rw [nL]; show h.nextData < h.nextData + 2; omega, by rw [nL]; simp only [L, leafRec, hcomb, init_add], ?_, ?_, ?_, ?_⟩
        · rw [dL]; exact idl
        · rw [dL]; exact sdl.X.X.trans (l3.trans hdX)
        · intro r; rw [dL, ← hlrows r]; simp [rowsOf, inRows, sdl.mask]
        · rw [dL]; exact sdl.y.trans (l5.trans hy)
      · refine ⟨by rw [nR]; show h.nextData + 1 < h.nextData + 2; omega, by rw [nR]; simp only [R, leafRec, hcomb, init_add], ?_, ?_, ?_, ?_⟩
        · rw [dR]; exact r2
        · rw [dR]; exact r3.trans (sd1.X.X.trans hdX)
        · intro r; rw [dR, ← hrrows r]; rfl
        · rw [dR]; exact r5.trans (sd1.y.trans hy)

end Bart
