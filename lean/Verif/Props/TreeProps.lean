import Verif.Proofs.TreeSampler
import Verif.Props.DataProps

/-! Property theorems C04, C15-C23, C25 (nodes and trees). -/

set_option linter.unusedSectionVars false

namespace Bart
open Spec
variable {K : Type} [Field K] [LinearOrder K] {n p : Nat}

/-! ### concrete reachable trees, used in the examples -/

/-- `TreeOp.ok` as a computation. -/
def okB (t : Tree ℚ n p) : TreeOp ℚ n p → Bool
  | .grow i _ v => decide (i ∈ t.nodes ∧ v ≠ .nan)
  | .prune i => decide (i ∈ t.nodes)
  | .proposeGrow i _ v => decide (i ∈ t.nodes ∧ v ≠ .nan)
  | .proposePrune i => decide (i ∈ t.nodes)
  | .setValue i _ => decide (i ∈ t.nodes)
  | _ => true

/-- Run calls, checking that they are legal and succeed. -/
def checkRun (t : Tree ℚ n p) : List (TreeOp ℚ n p) → Option (Tree ℚ n p)
  | [] => some t
  | op :: ops =>
    if okB t op then
      match t.step op with
      | .error _ => none
      | .ok t1 => checkRun t1 ops
    else none

theorem Run.cons {t t1 t2 : Tree K n p} {op : TreeOp K n p} {ops : List (TreeOp K n p)} (h1 : TreeOp.ok t op)
    (h2 : t.step op = .ok t1) (h3 : Run t1 ops t2) : Run t (op :: ops) t2 := by
  induction h3 with
  | nil => exact Run.snoc (ops := []) (Run.nil t) h1 h2
  | snoc _ a b ih => exact Run.snoc (ops := op :: _) ih a b

theorem checkRun_run : ∀ (ops : List (TreeOp ℚ n p)) (t t' : Tree ℚ n p), checkRun t ops = some t' → Run t ops t' := by
  intro ops
  induction ops with
  | nil => intro t t' h; simp [checkRun] at h; subst h; exact Run.nil t
  | cons op ops ih =>
    intro t t' h
    unfold checkRun at h
    split at h
    · next hok =>
      split at h
      · cases h
      · next t1 e =>
        refine Run.cons ?_ e (ih t1 t' h)
        cases op <;> simp [TreeOp.ok, okB] at hok ⊢ <;> exact hok
    · cases h

/-- Rows 1, 2, 3 (one column) with target 0, 1, 2. -/
def exX : Fin 3 → Fin 1 → Fl ℚ := exX3 (.fin 1) (.fin 2) (.fin 3)
def exY : Fin 3 → ℚ := fun r => (r.val : ℚ)
def exRoot : Tree ℚ 3 1 := Tree.ofData (exData exX exY)

theorem exX_noNan : NoNan exX := by unfold NoNan; decide +kernel

theorem exRoot_fresh : Fresh exX exY exRoot := ⟨false, _, exData_init _ _, rfl⟩

theorem exReach {ops : List (TreeOp ℚ 3 1)} {t : Tree ℚ 3 1} (h : checkRun exRoot ops = some t) : ReachableTree exX t :=
  (checkRun_run _ _ _ h).reachable (.fresh exRoot_fresh)

/-- A facility to exhibit a reachable tree with a decidable property. -/
theorem exReach' (ops : List (TreeOp ℚ 3 1)) (P : Tree ℚ 3 1 → Bool) (h : (checkRun exRoot ops).any P = true) :
    ∃ t, ReachableTree exX t ∧ P t = true := by
  cases e : checkRun exRoot ops with
  | none => rw [e] at h; simp at h
  | some t => rw [e] at h; exact ⟨t, exReach e, by simpa using h⟩

/-! ### C04 -/

/-- C04: `split_node` on any node of a reachable tree divides its rows and target sum between the two children. -/
theorem C04_split_partitions {X : Fin n → Fin p → Fl K} (hX : NoNan X) {t : Tree K n p} (ht : ReachableTree X t)
    {i : NodeId} (hi : i ∈ t.nodes) {y : Fin n → K} (hy : (t.heap.dataOf i).y.y = some y) (j : Fin p) {v : Fl K} (hv : v ≠ .nan) :
    ∃ D h' l r, t.heap.splitNode i (leCond j v) (gtCond j v) = .ok (D, h') ∧
      (h'.node D).left = some l ∧ (h'.node D).right = some r ∧
      (∀ a, rowsOf (h'.dataOf l) a = (rowsOf (t.heap.dataOf i) a && Fl.le (X a j) v)) ∧
      (∀ a, rowsOf (h'.dataOf r) a = (rowsOf (t.heap.dataOf i) a && Fl.gt (X a j) v)) ∧
      (∀ a, rowsOf (t.heap.dataOf i) a = true ↔ (rowsOf (h'.dataOf l) a ^^ rowsOf (h'.dataOf r) a) = true) ∧
      (h'.dataOf l).X.nObsv = (count (rowsOf (h'.dataOf l)) : Int) ∧
      (h'.dataOf r).X.nObsv = (count (rowsOf (h'.dataOf r)) : Int) ∧
      (h'.dataOf l).X.nObsv + (h'.dataOf r).X.nObsv = (t.heap.dataOf i).X.nObsv ∧
      (∃ dl dr, (h'.dataOf l).sumY = .ok (total y (rowsOf (h'.dataOf l)), dl) ∧
        (h'.dataOf r).sumY = .ok (total y (rowsOf (h'.dataOf r)), dr)) ∧
      total y (rowsOf (h'.dataOf l)) + total y (rowsOf (h'.dataOf r)) = total y (rowsOf (t.heap.dataOf i)) := by
  obtain ⟨y', s, hI⟩ := reachable_tree_inv hX ht
  obtain ⟨q, hk⟩ := hI.repr.nodeOk i (hI.perm.mem_iff.1 hi)
  have : y' = some y := by rw [← hy, hk.y]
  subst this
  obtain ⟨h', cr, e1, hp, he, hn, nL, nR, nD, okL, okR, -, -⟩ :=
    splitNode_spec hk (leCond_gtCond_pair j hv) (fun r => hX r j) rfl rfl
  have rl : ∀ a, rowsOf (h'.dataOf t.heap.nextNode) a = (rowsOf (t.heap.dataOf i) a && Fl.le (X a j) v) := by
    intro a
    rw [okL.rows, hk.rows]
    simp [List.all_append, sat, leCond, holdsOp]
  have rr : ∀ a, rowsOf (h'.dataOf (t.heap.nextNode + 1)) a = (rowsOf (t.heap.dataOf i) a && Fl.gt (X a j) v) := by
    intro a
    rw [okR.rows, hk.rows]
    simp only [List.all_append, List.all_cons, List.all_nil, Bool.and_true]
    rw [sat_gt hp.opr, hp.var, hp.val]
    rfl
  have hgt : ∀ a, Fl.gt (X a j) v = !Fl.le (X a j) v := fun a => Fl.gt_eq_not_le (hX a j) hv
  have cl : (h'.dataOf t.heap.nextNode).X.nObsv = (count (rowsOf (h'.dataOf t.heap.nextNode)) : Int) := by
    rw [okL.inv.X.nObsv, okL.inv.maskX]; rfl
  have cr' : (h'.dataOf (t.heap.nextNode + 1)).X.nObsv = (count (rowsOf (h'.dataOf (t.heap.nextNode + 1))) : Int) := by
    rw [okR.inv.X.nObsv, okR.inv.maskX]; rfl
  have sums : ∀ {k q'}, NodeOk X (some y) h' k q' → ∃ d', (h'.dataOf k).sumY = .ok (total y (rowsOf (h'.dataOf k)), d') := by
    intro k q' ok
    have := Data.sumY_spec ok.inv
    cases e : (h'.dataOf k).sumY with
    | error er => rw [e] at this; rw [ok.y] at this; cases this.2
    | ok qq =>
      obtain ⟨a, b⟩ := qq
      rw [e] at this
      obtain ⟨y2, hy2, hv2, -⟩ := this
      rw [ok.y] at hy2; injection hy2 with hy2; subst hy2
      exact ⟨b, by rw [hv2]; rfl⟩
  obtain ⟨dl, sl⟩ := sums okL
  obtain ⟨dr, sr⟩ := sums okR
  have erl : rowsOf (h'.dataOf t.heap.nextNode) = fun a => rowsOf (t.heap.dataOf i) a && Fl.le (X a j) v := funext rl
  have err : rowsOf (h'.dataOf (t.heap.nextNode + 1)) = fun a => rowsOf (t.heap.dataOf i) a && !Fl.le (X a j) v :=
    funext (fun a => by rw [rr, hgt])
  refine ⟨t.heap.nextNode + 2, h', t.heap.nextNode, t.heap.nextNode + 1, e1, by rw [nD]; rfl, by rw [nD]; rfl, rl, rr, ?_, cl, cr', ?_,
    ⟨dl, dr, sl, sr⟩, ?_⟩
  · intro a
    rw [rl, rr, hgt]
    cases rowsOf (t.heap.dataOf i) a <;> cases Fl.le (X a j) v <;> simp
  · rw [cl, cr', hk.inv.X.nObsv, hk.inv.maskX, erl, err]
    have := count_split (rowsOf (t.heap.dataOf i)) (fun a => Fl.le (X a j) v)
    show _ = (count (rowsOf (t.heap.dataOf i)) : Int)
    omega
  · rw [erl, err]
    exact total_split y _ _

example : ∃ t, ReachableTree exX t ∧ decide (3 ∈ t.nodes ∧ (t.heap.dataOf 3).y.y.isSome = true) = true :=
  exReach' [.grow 0 0 (.fin 1)] _ (by decide +kernel)

/-! ### C15 -/

theorem TreeInv.isRoot {X : Fin n → Fin p → Fl K} {y : Option (Fin n → K)} {t : Tree K n p} {s : Shape} (hI : TreeInv X y t s)
    {i : NodeId} : IsRoot t i ↔ i = s.root := by
  constructor
  · rintro ⟨h1, h2⟩
    by_contra hne
    obtain ⟨j, hj, hc⟩ := hI.repr.has_parent i (hI.perm.mem_iff.1 h1) hne
    exact h2 j (hI.perm.mem_iff.2 hj) hc
  · rintro rfl
    refine ⟨hI.perm.mem_iff.2 s.root_mem, fun j hj hc => ?_⟩
    have hj' := hI.perm.mem_iff.1 hj
    have := (hI.repr.child j hj' _ hc).2
    have h0 := hI.repr.root_ok.2
    omega

theorem TreeInv.wellFormed {X : Fin n → Fin p → Fl K} {y : Option (Fin n → K)} {t : Tree K n p} {s : Shape} (hI : TreeInv X y t s) : WellFormed t := by
  have hmem : ∀ {i}, i ∈ t.nodes ↔ i ∈ s.ids := hI.perm.mem_iff
  refine ⟨hI.nodes_nodup, ⟨s.root, hI.isRoot.2 rfl, fun i hi => hI.isRoot.1 hi⟩, ?_, ?_, ?_, ?_, ?_⟩
  · intro i hi j
    rw [hI.isRoot] at hi; subst hi
    rw [hmem]
    exact ⟨fun hj => hI.repr.chain j hj, fun ⟨k, hk⟩ => (hI.repr.chain_depth hk).1⟩
  · intro i hi hk
    obtain ⟨u, hu, hur⟩ := Shape.exists_sub (hmem.1 hi)
    obtain ⟨q, d, hR⟩ := hI.repr.sub hu
    have := hR.eq_leaf (by rw [hur]; exact hk)
    rw [hur] at this; rw [this] at hR
    exact ⟨hR.2.1, hR.2.2.1⟩
  · intro i hi hk
    obtain ⟨u, hu, hur⟩ := Shape.exists_sub (hmem.1 hi)
    obtain ⟨q, d, hR⟩ := hI.repr.sub hu
    cases u with
    | leaf k => simp only [Shape.root] at hur; subst hur; rw [hR.1] at hk; cases hk
    | node k l r =>
      simp only [Shape.root] at hur; subst hur
      have hsub := hu.ids_subset
      have hnd : (Shape.node k l r).ids.Nodup := by
        obtain ⟨rest, p1, -⟩ := Shape.replace_ids (s' := .leaf 0) hu rfl hI.nodup
        have := p1.nodup_iff.1 hI.nodup
        rw [List.nodup_append] at this
        exact this.1
      refine ⟨l.root, r.root, hR.2.1, hR.2.2.1, ?_, hmem.2 (hsub _ (by simp [Shape.ids, l.root_mem])),
        hmem.2 (hsub _ (by simp [Shape.ids, r.root_mem]))⟩
      simp only [Shape.ids, List.nodup_cons, List.nodup_append] at hnd
      exact fun e => hnd.2.2.2 _ l.root_mem _ r.root_mem e
  · intro i hi j hj l hil hjl
    exact hI.repr.parent_unique hI.nodup i (hmem.1 hi) j (hmem.1 hj) l hil hjl
  · have hl : t.leafNodes.Perm s.leaves := by
      rw [List.perm_ext_iff_of_nodup]
      · intro a; exact hI.mem_leafNodes
      · exact hI.nodes_nodup.filter _
      · have := s.ids_perm.nodup_iff.1 hI.nodup
        rw [List.nodup_append] at this; exact this.1
    have hd : t.decisionNodes.Perm s.decisions := by
      rw [List.perm_ext_iff_of_nodup]
      · intro a; exact hI.mem_decisionNodes
      · exact hI.nodes_nodup.filter _
      · have := s.ids_perm.nodup_iff.1 hI.nodup
        rw [List.nodup_append] at this; exact this.2.1
    rw [hl.length_eq, hd.length_eq]
    exact s.leaves_length

/-- C15: every reachable tree is a finite rooted binary tree, listed once. -/
theorem C15_well_formed {X : Fin n → Fin p → Fl K} (hX : NoNan X) {t : Tree K n p} (ht : ReachableTree X t) : WellFormed t := by
  obtain ⟨y, s, hI⟩ := reachable_tree_inv hX ht
  exact hI.wellFormed

/-- A history with two grows, a rejected proposal, a value change, a prediction and a prune. -/
example : ∃ t, ReachableTree exX t ∧ decide (t.nodes = [1, 3, 10] ∧ t.leafNodes = [1, 10]) = true :=
  exReach' [.predict, .grow 0 0 (.fin 1), .setValue 1 5, .grow 2 0 (.fin 2), .proposeGrow 4 0 (.fin 2), .predict,
    .updateY (some exY), .prune 6] _ (by decide +kernel)

/-! ### C16, C17 -/

/-- C16: each training row lies in exactly one leaf. -/
theorem C16_leaves_partition_rows {X : Fin n → Fin p → Fl K} (hX : NoNan X) {t : Tree K n p} (ht : ReachableTree X t) (r : Fin n) :
    ∃! i, i ∈ t.leafNodes ∧ t.heap.inSample (t.heap.node i).split r = true := by
  obtain ⟨y, s, hI⟩ := reachable_tree_inv hX ht
  obtain ⟨i, i1, -, i3, i4⟩ := hI.leaf_of_row (hX r)
  exact ⟨i, ⟨i1, i3⟩, fun j hj => i4 j hj.1 hj.2⟩

/-- C17: each new row lies in exactly one leaf. -/
theorem C17_leaves_partition_space {X : Fin n → Fin p → Fl K} (hX : NoNan X) {t : Tree K n p} (ht : ReachableTree X t)
    {x : Fin p → Fl K} (hx : GoodRow x) :
    ∃! i, i ∈ t.leafNodes ∧ Heap.outOfSample (t.heap.node i).split x = true := by
  obtain ⟨y, s, hI⟩ := reachable_tree_inv hX ht
  obtain ⟨i, i1, -, i3, i4⟩ := hI.leaf_of_newRow hx
  exact ⟨i, ⟨i1, i3⟩, fun j hj => i4 j hj.1 hj.2⟩

example : ∃ t, ReachableTree exX t ∧ decide (t.leafNodes.length = 3 ∧
    (t.leafNodes.map (fun i => (t.heap.inSample (t.heap.node i).split 1))).count true = 1 ∧
    (t.leafNodes.map (fun i => Heap.outOfSample (t.heap.node i).split (fun _ => .fin (5/2)))).count true = 1) = true :=
  exReach' [.grow 0 0 (.fin 2), .grow 1 0 (.fin 1)] _ (by decide +kernel)

/-! ### C18 -/

/-- C18: the depth of a node is its distance from the root; siblings have the same depth. -/
theorem C18_depth {X : Fin n → Fin p → Fl K} (hX : NoNan X) {t : Tree K n p} (ht : ReachableTree X t) :
    (∀ root, IsRoot t root → ∀ k i, Chain t.heap root k i → (t.heap.node i).depth = k) ∧
    (∀ i ∈ t.nodes, ∀ l r, (t.heap.node i).left = some l → (t.heap.node i).right = some r →
      (t.heap.node l).depth = (t.heap.node r).depth) := by
  obtain ⟨y, s, hI⟩ := reachable_tree_inv hX ht
  constructor
  · intro root hr k i hc
    rw [hI.isRoot] at hr; subst hr
    have := (hI.repr.chain_depth hc).2
    omega
  · intro i hi l r hl hr
    have hi' := hI.perm.mem_iff.1 hi
    rw [(hI.repr.child i hi' l (Or.inl hl)).2, (hI.repr.child i hi' r (Or.inr hr)).2]

example : ∃ t, ReachableTree exX t ∧ decide (t.nodes.map (fun i => (t.heap.node i).depth) = [1, 0, 2, 2, 1]) = true :=
  exReach' [.grow 0 0 (.fin 2), .grow 1 0 (.fin 1)] _ (by decide +kernel)

/-! ### C19 -/

/-- C19: the node lists are consistent; a tree with a decision node can be pruned. -/
theorem C19_node_lists {X : Fin n → Fin p → Fl K} (hX : NoNan X) {t : Tree K n p} (ht : ReachableTree X t) :
    (t.leafNodes ++ t.decisionNodes).Perm t.nodes ∧ (∀ i, i ∈ t.leafNodes → i ∉ t.decisionNodes) ∧
    (∀ i, i ∈ t.prunableDecisionNodes ↔ i ∈ t.decisionNodes ∧ ∃ l ∈ t.leafNodes, ∃ r ∈ t.leafNodes,
      (t.heap.node i).left = some l ∧ (t.heap.node i).right = some r) ∧
    (t.decisionNodes ≠ [] → t.prunableDecisionNodes ≠ []) := by
  obtain ⟨y, s, hI⟩ := reachable_tree_inv hX ht
  have hdisj : ∀ i, i ∈ t.leafNodes → i ∉ t.decisionNodes := by
    intro i h1 h2
    unfold Tree.leafNodes at h1; unfold Tree.decisionNodes at h2
    simp at h1 h2
    rw [h1.2] at h2; simp at h2
  have key : ∀ i l r, (Shape.node i (.leaf l) (.leaf r)).Sub s → i ∈ t.prunableDecisionNodes := by
    intro i l r hsub
    obtain ⟨q, d, hR⟩ := hI.repr.sub hsub
    obtain ⟨r1, r2, r3, -, -, cl, cr, -, hl, hr⟩ := hR
    simp only [Shape.root] at r2 r3
    have hi : i ∈ t.nodes := hI.perm.mem_iff.2 (hsub.ids_subset _ (by simp [Shape.ids]))
    unfold Tree.prunableDecisionNodes Tree.decisionNodes
    simp [hi, r1, Heap.isPrunable, r2, r3, Heap.isLeafPtr, hl.1, hr.1]
  refine ⟨?_, hdisj, ?_, ?_⟩
  · unfold Tree.leafNodes Tree.decisionNodes
    have : (fun i => decide ((t.heap.node i).kind = NodeKind.decision)) = fun i => !decide ((t.heap.node i).kind = NodeKind.leaf) := by
      funext i; cases (t.heap.node i).kind <;> rfl
    rw [this]
    exact List.filter_append_perm _ _
  · intro i
    constructor
    · intro hi
      obtain ⟨l, r, hsub, q, d, hR⟩ := hI.prunable_sub hi
      have hd : i ∈ t.decisionNodes := by unfold Tree.prunableDecisionNodes at hi; exact (List.mem_filter.1 hi).1
      obtain ⟨r1, r2, r3, -, -, cl, cr, -, hl, hr⟩ := hR
      have ml : l ∈ t.nodes := hI.perm.mem_iff.2 (hsub.ids_subset _ (by simp [Shape.ids]))
      have mr : r ∈ t.nodes := hI.perm.mem_iff.2 (hsub.ids_subset _ (by simp [Shape.ids]))
      refine ⟨hd, l, ?_, r, ?_, r2, r3⟩
      · unfold Tree.leafNodes; simp [ml, hl.1]
      · unfold Tree.leafNodes; simp [mr, hr.1]
    · rintro ⟨hd, l, hl, r, hr, e1, e2⟩
      unfold Tree.prunableDecisionNodes
      rw [List.mem_filter]
      refine ⟨hd, ?_⟩
      unfold Tree.leafNodes at hl hr
      simp at hl hr
      simp [Heap.isPrunable, e1, e2, Heap.isLeafPtr, hl.2, hr.2]
  · intro hne
    have : s.decisions ≠ [] := by
      obtain ⟨i, hi⟩ := List.exists_mem_of_ne_nil _ hne
      exact List.ne_nil_of_mem (hI.mem_decisionNodes.1 hi)
    obtain ⟨i, l, r, hsub⟩ := Shape.exists_prunable s this
    exact List.ne_nil_of_mem (key i l r hsub)

example : ∃ t, ReachableTree exX t ∧ decide (t.decisionNodes = [3, 6] ∧ t.prunableDecisionNodes = [6]) = true :=
  exReach' [.grow 0 0 (.fin 2), .grow 1 0 (.fin 1)] _ (by decide +kernel)

/-! ### C20 -/

/-- C20: growing leaf `i` and pruning the new decision node `D` gives the same tree, with `i` replaced by a leaf `U` of value 0. -/
theorem C20_prune_undoes_grow {X : Fin n → Fin p → Fl K} (hX : NoNan X) {t t1 t2 : Tree K n p} (ht : ReachableTree X t)
    {i D : NodeId} {j : Fin p} {v : Fl K} (hv : v ≠ .nan) (hi : i ∈ t.nodes) (h1 : t.step (.grow i j v) = .ok t1)
    (hD : D ∈ t1.decisionNodes) (hDn : D ∉ t.nodes) (h2 : t1.step (.prune D) = .ok t2) :
    ∃ U, U ∉ t.nodes ∧
      let f : NodeId → NodeId := fun k => if k = i then U else k
      t2.nodes.Perm (t.nodes.map f) ∧
      (∀ k ∈ t.nodes, (t2.heap.node (f k)).kind = (t.heap.node k).kind ∧ (t2.heap.node (f k)).depth = (t.heap.node k).depth ∧
        (t2.heap.node (f k)).split.combined = (t.heap.node k).split.combined ∧
        rowsOf (t2.heap.dataOf (f k)) = rowsOf (t.heap.dataOf k) ∧
        (t2.heap.node (f k)).left = (t.heap.node k).left.map f ∧ (t2.heap.node (f k)).right = (t.heap.node k).right.map f ∧
        (t2.heap.node (f k)).value = if k = i then 0 else (t.heap.node k).value) := by
  obtain ⟨y, s, hI⟩ := reachable_tree_inv hX ht
  obtain ⟨-, hil, ta, ea, ema, hIa, hI1, n1, -, -, d1, nn1, same1, rel1⟩ := grow_step hX hI hv hi h1
  obtain ⟨-, -, -, ga, -, -, hea, hna, -, -, -, -, hspD, path, hkp, cr, hpp, okl, okr⟩ := proposeGrow_spec hX hI hv hi ea
  -- the new decision node
  have hDm : D ∈ t1.nodes := (List.mem_filter.1 hD).1
  have hDk : (t1.heap.node D).kind = .decision := by have := (List.mem_filter.1 hD).2; simpa using this
  have hshape := hI1.repr
  have hsubD : (Shape.node (t.heap.nextNode + 2) (.leaf t.heap.nextNode) (.leaf (t.heap.nextNode + 1))).Sub
      (s.replace i (.node (t.heap.nextNode + 2) (.leaf t.heap.nextNode) (.leaf (t.heap.nextNode + 1)))) := by
    have him := s.leaves_subset (hI.mem_leafNodes.1 hil)
    clear hI1 hshape hIa
    have : ∀ u : Shape, i ∈ u.ids → (Shape.node (t.heap.nextNode + 2) (.leaf t.heap.nextNode) (.leaf (t.heap.nextNode + 1))).Sub
      (u.replace i (.node (t.heap.nextNode + 2) (.leaf t.heap.nextNode) (.leaf (t.heap.nextNode + 1)))) := by
      intro u
      induction u with
      | leaf k => intro hk; simp [Shape.ids] at hk; subst hk; simp [Shape.replace, Shape.Sub]
      | node k l r ihl ihr =>
        intro hk
        by_cases e : k = i
        · simp [Shape.replace, e, Shape.Sub]
        · simp only [Shape.replace, e, if_false]
          simp only [Shape.ids, List.mem_cons, List.mem_append] at hk
          rcases hk with hk | hk | hk
          · exact absurd hk.symm e
          · exact Or.inr (Or.inl (ihl hk))
          · exact Or.inr (Or.inr (ihr hk))
    exact this s him
  obtain ⟨qD, dD, hRD⟩ := hI1.repr.sub hsubD
  obtain ⟨k1, k2, k3, k4, k5, clD, crD, hpD, hRl, hRr⟩ := hRD
  have hDeq : D = t.heap.nextNode + 2 := by
    rw [n1] at hDm
    simp only [List.mem_append, List.mem_singleton] at hDm
    rcases hDm with ((h | h) | h) | h
    · exact absurd (List.mem_of_mem_erase h) hDn
    · subst h; have := hRl.1; rw [hDk] at this; cases this
    · subst h; have := hRr.1; rw [hDk] at this; cases this
    · exact h
  subst hDeq
  obtain ⟨hprn, tb, l, r, eb, hl, hr, hIb, hI2, n2, -, -, d2, nn2, same2, rel2⟩ := prune_step hI1 hDm h2
  obtain ⟨-, -, gb, -, -, heb, hnb, hdb, leafU, -⟩ := proposePrune_spec hI1 hDm eb
  simp only [Shape.root] at k2 k3
  rw [k2] at hl; injection hl with hl; subst hl
  rw [k3] at hr; injection hr with hr; subst hr
  have hU : t1.heap.nextNode = t.heap.nextNode + 3 := nn1
  rw [hU] at n2 leafU
  have hlt : ∀ k ∈ t.nodes, k < t.heap.nextNode := fun k hk => hI.mem_lt hk
  have hnodes1 : t1.nodes = t.nodes.erase i ++ [t.heap.nextNode] ++ [t.heap.nextNode + 1] ++ [t.heap.nextNode + 2] := n1
  have hne : ∀ k ∈ t.nodes.erase i, k ≠ t.heap.nextNode ∧ k ≠ t.heap.nextNode + 1 ∧ k ≠ t.heap.nextNode + 2 := by
    intro k hk
    have := hlt k (List.mem_of_mem_erase hk)
    refine ⟨?_, ?_, ?_⟩ <;> omega
  have hn2 : t2.nodes = t.nodes.erase i ++ [t.heap.nextNode + 3] := by
    rw [n2, hnodes1]
    congr 1
    have m1 : t.heap.nextNode + 2 ∉ t.nodes.erase i ++ [t.heap.nextNode] ++ [t.heap.nextNode + 1] := by
      intro hc
      simp only [List.mem_append, List.mem_singleton] at hc
      rcases hc with (hc | hc) | hc
      · exact (hne _ hc).2.2 rfl
      · omega
      · omega
    rw [List.erase_append_right _ m1]
    simp only [List.erase_cons_head, List.append_nil]
    have m2 : t.heap.nextNode ∉ t.nodes.erase i := fun hc => (hne _ hc).1 rfl
    rw [List.append_assoc, List.erase_append_right _ m2]
    simp only [List.singleton_append, List.erase_cons_head]
    have m3 : t.heap.nextNode + 1 ∉ t.nodes.erase i := fun hc => (hne _ hc).2.1 rfl
    rw [List.erase_append_right _ m3]
    simp
  -- nodes that stay
  have hstay : ∀ k ∈ t.nodes, k ≠ i → t2.heap.node k =
      relinkRec { kind := .prune, existing := t.heap.nextNode + 2, updated := t.heap.nextNode + 3 }
        (relinkRec { kind := .grow, existing := i, updated := t.heap.nextNode + 2 } (t.heap.node k)) := by
    intro k hk hki
    have hke : k ∈ t.nodes.erase i := (List.mem_erase_of_ne hki).2 hk
    rw [rel2 k (by rw [hn2]; simp [hke]), hU]
    rw [heb.node k (by rw [hU]; have := hlt k hk; omega)]
    rw [rel1 k (by rw [hnodes1]; simp [hke])]
    rw [hea.node k (hlt k hk)]
  have hsplitU : (t2.heap.node (t.heap.nextNode + 3)).split = (t.heap.node i).split := by
    rw [(same2 _).2.2.2, leafU]
    show (t1.heap.node (t.heap.nextNode + 2)).split = _
    rw [(same1 _).2.2.2, hspD]
  have hdata : ∀ k ∈ t.nodes, ∀ a, (t2.heap.data (t.heap.node k).split.data).mask a = (t.heap.dataOf k).mask a := by
    intro k hk a
    obtain ⟨q, hkk⟩ := hI.repr.nodeOk k (hI.perm.mem_iff.1 hk)
    rw [d2, d1]
    have := (hea.data _ hkk.data_lt).1.mask
    rw [this]; rfl
  refine ⟨t.heap.nextNode + 3, fun hc => by have := hlt _ hc; omega, ?_, ?_⟩
  · rw [hn2]
    have hp : t.nodes.Perm (i :: t.nodes.erase i) := List.perm_cons_erase hi
    refine List.Perm.trans ?_ (hp.map _).symm
    simp only [List.map_cons, if_true]
    have : (t.nodes.erase i).map (fun k => if k = i then t.heap.nextNode + 3 else k) = t.nodes.erase i := by
      rw [List.map_congr_left (g := id) (by
        intro k hk
        have : k ≠ i := by rintro rfl; exact (List.Nodup.not_mem_erase hI.nodes_nodup) hk
        simp [this])]
      simp
    rw [this]
    exact List.perm_append_comm
  · intro k hk
    by_cases hki : k = i
    · subst hki
      simp only [if_true]
      have hleafk := hI.leaf_sub hil
      obtain ⟨-, qk, dk, hRk⟩ := hleafk
      have hUm : t.heap.nextNode + 3 ∈ t2.nodes := by rw [hn2]; simp
      have e := rel2 _ hUm
      rw [hU, leafU] at e
      have hdepthD : (t1.heap.node (t.heap.nextNode + 2)).depth = (t.heap.node k).depth := by
        rw [(same1 _).2.2.1]
        obtain ⟨-, -, -, -, -, -, -, -, hrdy, -⟩ := proposeGrow_spec hX hI hv hi ea
        obtain ⟨qq, dd, w1, w2⟩ := hrdy
        rw [w2.2.2.2.1, ← w1.2.2.2.1, hea.node k (hlt k hk)]
      refine ⟨?_, ?_, by rw [hsplitU], ?_, ?_, ?_, ?_⟩
      · rw [e, hRk.1]; rfl
      · rw [e, ← hdepthD]; rfl
      · funext a
        show (!(t2.heap.data (t2.heap.node (t.heap.nextNode + 3)).split.data).mask a) = _
        rw [hsplitU, hdata k hk a]; rfl
      · rw [e, hRk.2.1]; simp [relinkRec, leafRec]
      · rw [e, hRk.2.2.1]; simp [relinkRec, leafRec]
      · rw [e]; rfl
    · simp only [hki, if_false]
      have e := hstay k hk hki
      have hptr : ∀ c, IsChild t.heap k c → c ≠ t.heap.nextNode + 2 := by
        intro c hc
        have := hI.lt c (hI.repr.child k (hI.perm.mem_iff.1 hk) c hc).1
        omega
      refine ⟨by rw [e]; rfl, by rw [e]; rfl, by rw [e]; rfl, ?_, ?_, ?_, by rw [e]; rfl⟩
      · funext a
        show (!(t2.heap.data (t2.heap.node k).split.data).mask a) = _
        have : (t2.heap.node k).split = (t.heap.node k).split := by rw [e]; rfl
        rw [this, hdata k hk a]; rfl
      · rw [e]
        simp only [relinkRec]
        cases hc : (t.heap.node k).left with
        | none => simp
        | some c =>
          have hcd := hptr c (Or.inl hc)
          by_cases hci : c = i
          · simp [hci]
          · simp [hci, hcd]
      · rw [e]
        simp only [relinkRec]
        cases hc : (t.heap.node k).right with
        | none => simp
        | some c =>
          have hcd := hptr c (Or.inr hc)
          by_cases hci : c = i
          · simp [hci]
          · simp [hci, hcd]

/-- C20 in the concrete: growing leaf 1 and pruning decision node 6 of a tree with three nodes. -/
example : ∃ t, ReachableTree exX t ∧ decide (t.nodes = [2, 3, 7] ∧ (t.heap.node 3).left = some 7) = true :=
  exReach' [.grow 0 0 (.fin 2), .grow 1 0 (.fin 1), .prune 6] _ (by decide +kernel)

/-! ### C21 -/

/-- C21: `GrowMutation` accepts exactly leaves, `PruneMutation` exactly decision nodes with two leaf children (TypeError otherwise);
`mutate` with a node that is not in the tree raises ValueError. -/
theorem C21_illegal_rejected {X : Fin n → Fin p → Fl K} (hX : NoNan X) {t : Tree K n p} (ht : ReachableTree X t) (u : NodeId) :
    (∀ i ∈ t.nodes, Tree.growMutation t.heap i u =
      if (t.heap.node i).kind = .leaf then .ok { kind := .grow, existing := i, updated := u } else .error .typeError) ∧
    (∀ i ∈ t.nodes,
      ((∃ l r, (t.heap.node i).kind = .decision ∧ (t.heap.node i).left = some l ∧ (t.heap.node i).right = some r ∧
          (t.heap.node l).kind = .leaf ∧ (t.heap.node r).kind = .leaf) →
        Tree.pruneMutation t.heap i u = .ok { kind := .prune, existing := i, updated := u }) ∧
      ((¬ ∃ l r, (t.heap.node i).kind = .decision ∧ (t.heap.node i).left = some l ∧ (t.heap.node i).right = some r ∧
          (t.heap.node l).kind = .leaf ∧ (t.heap.node r).kind = .leaf) →
        Tree.pruneMutation t.heap i u = .error .typeError)) ∧
    (∀ m : TreeMutation, m.existing ∉ t.nodes → m.kind ≠ .other → t.mutate m = .error .valueError) := by
  refine ⟨?_, ?_, ?_⟩
  · intro i hi
    unfold Tree.growMutation
    by_cases h : (t.heap.node i).kind = .leaf <;> simp [h]
  · intro i hi
    have hp : t.heap.isPrunable i = true ↔ ∃ l r, (t.heap.node i).left = some l ∧ (t.heap.node i).right = some r ∧
        (t.heap.node l).kind = .leaf ∧ (t.heap.node r).kind = .leaf := by
      unfold Heap.isPrunable Heap.isLeafPtr
      cases (t.heap.node i).left <;> cases (t.heap.node i).right <;> simp
    unfold Tree.pruneMutation
    refine ⟨?_, fun h => ?_⟩
    · rintro ⟨l, r, h1, h2⟩
      simp [h1, hp.2 ⟨l, r, h2⟩]
    · by_cases hk : (t.heap.node i).kind = .decision
      · have : t.heap.isPrunable i ≠ true := fun hh => by
          obtain ⟨l, r, h2⟩ := hp.1 hh
          exact h ⟨l, r, hk, h2⟩
        simp [hk, this]
      · simp [hk]
  · intro m hm hk
    unfold Tree.mutate Tree.mutateNodes Tree.removeNode
    cases hk' : m.kind with
    | other => exact absurd hk' hk
    | prune => simp [hm]
    | grow => simp [hm]

example : ∃ t, ReachableTree exX t ∧ decide (Tree.pruneMutation t.heap 3 9 = .error .typeError ∧
    Tree.growMutation t.heap 3 9 = .error .typeError ∧ 3 ∈ t.nodes) = true :=
  exReach' [.grow 0 0 (.fin 2), .grow 1 0 (.fin 1)] _ (by decide +kernel)

/-! ### C23 -/

/-- C23: `predict(X)` gives each row the value of the leaf that the rules lead to from the root. -/
theorem C23_out_of_sample {X : Fin n → Fin p → Fl K} (hX : NoNan X) {t : Tree K n p} (ht : ReachableTree X t) {m : Nat}
    (Xn : Fin m → Fin p → Fl K) (r : Fin m) (hx : GoodRow (Xn r)) {root : NodeId} (hr : IsRoot t root) :
    ∃! i, Walk t.heap (Xn r) root i ∧ i ∈ t.leafNodes ∧ t.predictX Xn r = (t.heap.node i).value := by
  obtain ⟨y, s, hI⟩ := reachable_tree_inv hX ht
  rw [hI.isRoot] at hr; subst hr
  obtain ⟨i, i1, i2, i3⟩ := hI.predictX_eq Xn r hx
  exact ⟨i, ⟨i2, i1, i3⟩, fun j hj => Walk.unique hj.1 i2⟩

example : ∃ t, ReachableTree exX t ∧ decide (t.predictX (fun (_ : Fin 1) _ => .fin (3/2)) 0 = 8 ∧ t.predictX exX 0 = 7) = true :=
  exReach' [.grow 0 0 (.fin 2), .grow 1 0 (.fin 1), .setValue 4 7, .setValue 5 8] _ (by decide +kernel)

/-! ### C03 in a tree -/

/-- C03 in a tree: whatever the history of the tree (calls, proposals, steps of the samplers), every node holds the same target, and `summed_y()` of
every node is the sum of this target over the rows of the node; `n_obsv` is the number of these rows. -/
theorem C03_summed_y_nodes {X : Fin n → Fin p → Fl K} (hX : NoNan X) {t : Tree K n p} (ht : ReachableTree X t) :
    ∃ y, ∀ i ∈ t.nodes, (t.heap.dataOf i).y.y = y ∧ (t.heap.dataOf i).X.nObsv = (count (rowsOf (t.heap.dataOf i)) : Int) ∧
      match y with
      | none => (t.heap.dataOf i).sumY = .error .typeError
      | some y => ∃ d', (t.heap.dataOf i).sumY = .ok (total y (rowsOf (t.heap.dataOf i)), d') := by
  obtain ⟨y, s, hI⟩ := reachable_tree_inv hX ht
  refine ⟨y, fun i hi => ?_⟩
  obtain ⟨q, hk⟩ := hI.repr.nodeOk i (hI.perm.mem_iff.1 hi)
  refine ⟨hk.y, by rw [hk.inv.X.nObsv, hk.inv.maskX]; rfl, ?_⟩
  have := Data.sumY_spec hk.inv
  cases e : (t.heap.dataOf i).sumY with
  | error er =>
    rw [e] at this
    obtain ⟨h1, h2⟩ := this
    rw [hk.y] at h2
    subst h1; subst h2
    rfl
  | ok qq =>
    obtain ⟨a, b⟩ := qq
    rw [e] at this
    obtain ⟨y2, hy2, hv2, -⟩ := this
    rw [hk.y] at hy2
    subst hy2
    exact ⟨b, by rw [hv2]; rfl⟩

/-- Three levels with carried sums: the right children hold the difference of their parent's and their sibling's sums. -/
example : ∃ t, ReachableTree exX t ∧ decide (t.nodes.length = 5 ∧
    t.nodes.map (fun i => (match (t.heap.dataOf i).sumY with | .ok (s, _) => s | .error _ => 99)) = [30, 60, 10, 20, 30]) = true :=
  exReach' [.updateY (some (fun r => 10 * (r.val + 1))), .grow 0 0 (.fin 2), .grow 1 0 (.fin 1)] _ (by decide +kernel)

/-! ### C25 -/

/-- C25: after `update_y(y)` every node has target `y` and reports the sum of `y` over its rows. -/
theorem C25_update_reaches_nodes {X : Fin n → Fin p → Fl K} (hX : NoNan X) {t : Tree K n p} (ht : ReachableTree X t) (y : Fin n → K) :
    ∃ t', t.updateY (some y) = .ok t' ∧ t'.nodes = t.nodes ∧
      ∀ i ∈ t'.nodes, (t'.heap.dataOf i).y.y = some y ∧ rowsOf (t'.heap.dataOf i) = rowsOf (t.heap.dataOf i) ∧
        ∃ d', (t'.heap.dataOf i).sumY = .ok (total y (rowsOf (t'.heap.dataOf i)), d') := by
  obtain ⟨y0, s, hI⟩ := reachable_tree_inv hX ht
  obtain ⟨t', e, hI', hn, -, -, -, hd⟩ := updateY_spec hI (some y)
  refine ⟨t', e, hn, fun i hi => ?_⟩
  obtain ⟨q, hk⟩ := hI'.repr.nodeOk i (hI'.perm.mem_iff.1 hi)
  refine ⟨hk.y, by rw [hd i (hn ▸ hi)]; rfl, ?_⟩
  have := Data.sumY_spec hk.inv
  cases e : (t'.heap.dataOf i).sumY with
  | error er => rw [e] at this; rw [hk.y] at this; cases this.2
  | ok qq =>
    obtain ⟨a, b⟩ := qq
    rw [e] at this
    obtain ⟨y2, hy2, hv2, -⟩ := this
    rw [hk.y] at hy2; injection hy2 with hy2; subst hy2
    exact ⟨b, by rw [hv2]; rfl⟩

example : ∃ t, ReachableTree exX t ∧ decide (t.nodes.length = 5 ∧
    t.nodes.map (fun i => (match (t.heap.dataOf i).sumY with | .ok (s, _) => s | .error _ => 99)) = [30, 60, 10, 20, 30]) = true :=
  exReach' [.grow 0 0 (.fin 2), .grow 1 0 (.fin 1), .updateY (some (fun r => 10 * (r.val + 1)))] _ (by decide +kernel)

end Bart
