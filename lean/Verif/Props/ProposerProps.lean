import Verif.Proofs.ProposerExists
import Verif.Proofs.ModelTrees
import Verif.Props.PredictProps

/-! Property theorems C26, C27 (proposals). -/

set_option linter.unusedSectionVars false

namespace Bart
open Spec
variable {K : Type} [Field K] [LinearOrder K] {n p : Nat} {X : Fin n → Fin p → Fl K}

/-! ### C26 -/

/-- Nothing that can be seen of the tree `t` is different in `t'`. -/
structure Unchanged (t t' : Tree K n p) : Prop where
  nodes : t'.nodes = t.nodes
  node : ∀ i ∈ t.nodes, t'.heap.node i = t.heap.node i
  rows : ∀ i ∈ t.nodes, ∀ r, t'.heap.inSample (t'.heap.node i).split r = t.heap.inSample (t.heap.node i).split r
  target : ∀ i ∈ t.nodes, (t'.heap.dataOf i).y.y = (t.heap.dataOf i).y.y
  lists : t'.leafNodes = t.leafNodes ∧ t'.prunableDecisionNodes = t.prunableDecisionNodes
  cache : t'.cacheUpToDate = t.cacheUpToDate ∧ t'.prediction = t.prediction
  predictX : ∀ {m : Nat} (Xn : Fin m → Fin p → Fl K), t'.predictX Xn = t.predictX Xn

/-- A legal proposal for the tree `t`, its new nodes being in `h`: a cut of a leaf into two non-empty leaves, or the replacement of a
decision node with two leaf children by a leaf with the same rows. -/
def LegalProposal (X : Fin n → Fin p → Fl K) (t : Tree K n p) (h : Heap K n p) (mu : TreeMutation) : Prop :=
  (mu.kind = .grow ∧ mu.existing ∈ t.leafNodes ∧ mu.updated ∉ t.nodes ∧ (h.node mu.updated).kind = .decision ∧
    ∃ l r j v, (h.node mu.updated).left = some l ∧ (h.node mu.updated).right = some r ∧ l ≠ r ∧ l ∉ t.nodes ∧ r ∉ t.nodes ∧
      (h.node l).kind = .leaf ∧ (h.node r).kind = .leaf ∧ rule h mu.updated = some (j, v) ∧
      (∀ a, h.inSample (h.node l).split a = (t.heap.inSample (t.heap.node mu.existing).split a && Fl.le (X a j) v)) ∧
      (∀ a, h.inSample (h.node r).split a = (t.heap.inSample (t.heap.node mu.existing).split a && Fl.gt (X a j) v)) ∧
      (∃ a, h.inSample (h.node l).split a = true) ∧ (∃ a, h.inSample (h.node r).split a = true)) ∨
  (mu.kind = .prune ∧ mu.existing ∈ t.prunableDecisionNodes ∧ mu.updated ∉ t.nodes ∧ (h.node mu.updated).kind = .leaf ∧
    (h.node mu.updated).value = 0 ∧ (h.node mu.updated).split = (t.heap.node mu.existing).split ∧
    ∀ a, h.inSample (h.node mu.updated).split a = t.heap.inSample (t.heap.node mu.existing).split a)

theorem TreeExt.unchanged {y : Option (Fin n → K)} {t t' : Tree K n p} {s : Shape} (hI : TreeInv X y t s) (he : TreeExt t t') : Unchanged t t' := by
  have hnode : ∀ i ∈ t.nodes, t'.heap.node i = t.heap.node i := fun i hi => he.heap.node i (hI.mem_lt hi)
  refine ⟨he.nodes, hnode, fun i hi r => ?_, fun i hi => ?_, ⟨he.leafNodes hI, prunable_congr hI he⟩, ⟨he.cache, he.pred⟩, fun Xn => ?_⟩
  · exact congrFun (he.rows hI hi) r
  · obtain ⟨q, hk⟩ := hI.repr.nodeOk i (hI.perm.mem_iff.1 hi)
    obtain ⟨q', hk'⟩ := (hI.ext he).repr.nodeOk i (hI.perm.mem_iff.1 hi)
    rw [hk.y, hk'.y]
  · unfold Tree.predictX
    rw [he.leafNodes hI]
    have hval : ∀ i ∈ t.leafNodes, t'.heap.node i = t.heap.node i := fun i hi => hnode i (List.mem_filter.1 hi).1
    revert hval
    generalize (fun _ => 0 : Fin _ → K) = f
    generalize t.leafNodes = l
    intro hval
    induction l generalizing f with
    | nil => rfl
    | cons a l ih =>
      simp only [List.foldl_cons]
      rw [hval a (by simp)]
      exact ih _ (fun i hi => hval i (by simp [hi]))

theorem IsProposal.legal (hX : NoNan X) {y : Option (Fin n → K)} {t t1 : Tree K n p} {s : Shape} (hI : TreeInv X y t s) (he : TreeExt t t1)
    {mu : TreeMutation} (hm : IsProposal X y t s t1.heap mu) : LegalProposal X t t1.heap mu := by
  rcases hm with ⟨i, D, L, R, j, v, rfl, hg⟩ | ⟨i, l, r, U, rfl, hg⟩
  · left
    obtain ⟨c1, c2, c3, c4, c5, c6, c7, c8, c9⟩ := hg.children
    have hr := he.rows hI (List.mem_filter.1 hg.leaf).1
    have hvn : v ≠ .nan := by obtain ⟨r, -, hr⟩ := mem_column.1 hg.vcol; rw [← hr]; exact hX r j
    obtain ⟨n1, n2⟩ := hg.nonempty hX
    have hnd := hg.nodup
    simp at hnd
    refine ⟨rfl, hg.leaf, hg.fresh D (by simp), c7, L, R, j, v, c1, c2, hnd.2, hg.fresh L (by simp), hg.fresh R (by simp), c8, c9, hg.rule, ?_, ?_, n1, n2⟩
    · intro a
      have := hg.rowsL a
      rw [hr] at this; exact this
    · intro a
      have := hg.rowsR a
      rw [hr] at this
      rw [Fl.gt_eq_not_le (hX a j) hvn]; exact this
  · right
    have hin : i ∈ t.nodes := hI.perm.mem_iff.2 (hg.sub.ids_subset _ (by simp [Shape.ids]))
    have hsp : (t1.heap.node U).split = (t.heap.node i).split := by rw [hg.leaf, he.heap.node i (hI.mem_lt hin)]; rfl
    refine ⟨rfl, hg.prunable, hg.fresh, hg.children.2.2.1, by rw [hg.leaf]; rfl, hsp, fun a => ?_⟩
    have := congrFun (he.rows hI hin) a
    simp only
    rw [hsp]
    have e1 : t1.heap.inSample (t.heap.node i).split a = rowsOf (t1.heap.dataOf i) a := by
      rw [← he.heap.node i (hI.mem_lt hin)]; exact inSample_eq _ _ _
    rw [e1, this]; exact (inSample_eq _ _ _).symm

/-- C26: on a reachable tree with a target, `propose` ends only by running out of draws or returns a legal mutation (which can be applied), and
nothing that can be seen of the tree changes. -/
theorem C26_proposals_legal (hX : NoNan X) {t : Tree K n p} (ht : ReachableTree X t) (hy : ∃ y, HasTarget t y) (us : List Nat) (ms : List Method) :
    (∀ e, t.propose us ms = .error e → e = .outOfDraws) ∧
    (∀ mu t1 us1 ms1, t.propose us ms = .ok (mu, t1, us1, ms1) →
      Unchanged t t1 ∧ LegalProposal X t t1.heap mu ∧ ∃ t2, t1.mutate mu = .ok t2) := by
  obtain ⟨y, s, hI⟩ := reachable_tree_inv hX ht
  obtain ⟨y', hy⟩ := hy
  have := hI.target hy; subst this
  have hp := propose_spec hX ms hI us
  constructor
  · intro e he
    rw [he] at hp
    simpa using hp
  · intro mu t1 us1 ms1 he
    rw [he] at hp
    obtain ⟨x, hm⟩ := hp
    obtain ⟨t2, s', e, -⟩ := hm.mutate hI x
    exact ⟨x.unchanged hI, hm.legal hX hI x, t2, e⟩

/-- A reachable tree with a target and three nodes, and a run of `propose` on it. -/
example : ∃ t, ReachableTree exX t ∧ decide (t.nodes = [1, 2, 3] ∧ (∀ i ∈ t.nodes, (t.heap.dataOf i).y.y = some exY) ∧
    (match t.propose [0] [.prune] with | .ok (mu, _, _, _) => decide (mu = ⟨.prune, 3, 4⟩) | _ => false) = true) = true :=
  exReach' [.grow 0 0 (.fin 1)] _ (by decide +kernel)

/-! ### C27

Full statement: for every reachable tree there are draws with which `propose` returns a mutation. It is false for a single leaf without
splittable column. -/

/-- C27, the part that holds, and more: in every reachable tree with a target every prunable node can be proposed for pruning, and every leaf
can be proposed for growing at every value below the maximum of every splittable column (the values after the first row are not all equal,
see C01); so `propose` can succeed if there is such a leaf or more than one node. Missing: single leaves without a splittable column, for which
the statement is false. -/
theorem C27_can_propose_partial (hX : NoNan X) {t : Tree K n p} (ht : ReachableTree X t) (hy : ∃ y, HasTarget t y) :
    (∀ i ∈ t.prunableDecisionNodes, ∃ u, ∀ us ms, ∃ U t1, t.propose (u :: us) (.prune :: ms) = .ok (⟨.prune, i, U⟩, t1, us, ms)) ∧
    (∀ i ∈ t.leafNodes, ∀ j, HasTwoValues (column X (rowsOf (t.heap.dataOf i)) j).tail → ∀ a b, rowsOf (t.heap.dataOf i) a = true →
      rowsOf (t.heap.dataOf i) b = true → Fl.lt (X a j) (X b j) = true →
      ∃ u0 u1 u2, ∀ us ms, ∃ D t1, t.propose (u0 :: u1 :: u2 :: us) (.grow :: ms) = .ok (⟨.grow, i, D⟩, t1, us, ms) ∧
        rule t1.heap D = some (j, X a j)) ∧
    (1 < t.nodes.length → ∃ us ms mu t1 us1 ms1, t.propose us ms = .ok (mu, t1, us1, ms1)) := by
  obtain ⟨y, s, hI⟩ := reachable_tree_inv hX ht
  obtain ⟨y', hy⟩ := hy
  have := hI.target hy; subst this
  have hprune : ∀ i ∈ t.prunableDecisionNodes, ∃ u, ∀ us ms, ∃ U t1, t.propose (u :: us) (.prune :: ms) = .ok (⟨.prune, i, U⟩, t1, us, ms) := by
    intro i hi
    obtain ⟨u, t1, U, e⟩ := samplePrune_exact hI hi
    refine ⟨u, fun us ms => ?_⟩
    refine ⟨U, t1, ?_⟩
    unfold Tree.propose
    simp only [Tree.sampleMethod, e]
  refine ⟨hprune, ?_, ?_⟩
  · intro i hi j hj a b ha hb hlt
    obtain ⟨u0, u1, u2, t1, D, hr, e⟩ := sampleGrow_exact hX hI hi (j := j)
      ((isNotConstant_noNan (by intro x hx; obtain ⟨r, -, hr⟩ := mem_column.1 hx; rw [← hr]; exact hX r j)).2 hj)
      (mem_column.2 ⟨a, ha, rfl⟩) (mem_column.2 ⟨b, hb, rfl⟩) hlt
    refine ⟨u0, u1, u2, fun us ms => ?_⟩
    refine ⟨D, t1, ?_, hr⟩
    unfold Tree.propose
    simp only [Tree.sampleMethod, e]
  · intro hlen
    have hd : t.decisionNodes ≠ [] := by
      intro h0
      have h1 := (C19_node_lists hX ht).1.length_eq
      have h2 := (C15_well_formed hX ht).count
      rw [h0] at h1 h2
      simp at h1 h2
      omega
    obtain ⟨i, hi⟩ := List.exists_mem_of_ne_nil _ ((C19_node_lists hX ht).2.2.2 hd)
    obtain ⟨u, hu⟩ := hprune i hi
    obtain ⟨U, t1, e⟩ := hu [] []
    exact ⟨_, _, _, _, _, _, e⟩

/-- C27 is false: for a reachable tree with a single node, none of whose columns has two values after the first row, every sequence of draws
leads to further recursive calls of `propose` (Python's RecursionError in the end). -/
theorem C27_refuted_for (hX : NoNan X) {t : Tree K n p} (ht : ReachableTree X t) (h1 : t.nodes.length = 1)
    (hc : ∀ i ∈ t.nodes, ∀ j, ¬ HasTwoValues (column X (rowsOf (t.heap.dataOf i)) j).tail) (us : List Nat) (ms : List Method) :
    t.propose us ms = .error .outOfDraws := by
  have key : ∀ (ms : List Method) {t : Tree K n p} {y : Option (Fin n → K)} {s : Shape}, TreeInv X y t s → t.prunableDecisionNodes = [] →
      (∀ i, ¬ SplittableLeaf X t i) → t.propose us ms = .error .outOfDraws := by
    intro ms
    induction ms with
    | nil => intros; rfl
    | cons m ms ih =>
      intro t y s hI hp hs
      unfold Tree.propose
      cases m with
      | prune =>
        have : t.samplePrune us = (t, us, .error .noPrunableNode) := by unfold Tree.samplePrune; simp [hp]
        simp only [Tree.sampleMethod, this]
        exact ih hI hp hs
      | grow =>
        have he := splittableLeaves_ext hI
        have hnil : t.splittableLeafNodes.1 = [] := by
          rw [List.eq_nil_iff_forall_not_mem]
          intro i hi
          exact hs i ((mem_splittableLeaves hI).1 hi)
        have : t.sampleGrow us = (t.splittableLeafNodes.2, us, .error .noSplittableVariable) := by
          unfold Tree.sampleGrow; simp [hnil]
        simp only [Tree.sampleMethod, this]
        exact ih (hI.ext he) (by rw [prunable_congr hI he]; exact hp) (fun i hi => hs i ((he.splittableLeaf hI).1 hi))
  obtain ⟨y, s, hI⟩ := reachable_tree_inv hX ht
  refine key ms hI ?_ ?_
  · have h2 := (C15_well_formed hX ht).count
    have h3 := (C19_node_lists hX ht).1.length_eq
    rw [List.length_append] at h3
    have : t.decisionNodes = [] := List.length_eq_zero_iff.1 (by omega)
    unfold Tree.prunableDecisionNodes; rw [this]; rfl
  · rintro i ⟨hi, j, hj⟩
    exact hc i (List.mem_filter.1 hi).1 j
      ((isNotConstant_noNan (by intro x hx; obtain ⟨r, -, hr⟩ := mem_column.1 hx; rw [← hr]; exact hX r j)).1 hj)

/-- C27 is false already for a new tree over the column 1, 2, 2 (which has two values). -/
theorem C27_refuted : ∃ (X : Fin 3 → Fin 1 → Fl ℚ) (t : Tree ℚ 3 1), NoNan X ∧ ReachableTree X t ∧ (∃ y, HasTarget t y) ∧
    HasTwoValues (column X (fun _ => true) 0) ∧ ∀ us ms, t.propose us ms = .error .outOfDraws := by
  have hX : NoNan (exX3 (.fin 1 : Fl ℚ) (.fin 2) (.fin 2)) := by unfold NoNan; decide +kernel
  have ht : ReachableTree (exX3 (.fin 1 : Fl ℚ) (.fin 2) (.fin 2)) (Tree.ofData (exData (exX3 (.fin 1) (.fin 2) (.fin 2)) exY)) :=
    .fresh ⟨false, _, exData_init _ _, rfl⟩
  refine ⟨_, _, hX, ht, ⟨exY, ?_⟩, ⟨.fin 1, by decide +kernel, .fin 2, by decide +kernel, by decide +kernel⟩, C27_refuted_for hX ht rfl ?_⟩
  · unfold HasTarget; decide +kernel
  · intro i hi j
    have hi0 : i = 0 := by simpa [Tree.ofData] using hi
    subst hi0
    have hj0 : j = 0 := Subsingleton.elim _ _
    subst hj0
    have : (column (exX3 (.fin 1 : Fl ℚ) (.fin 2) (.fin 2)) (rowsOf ((Tree.ofData (exData (exX3 (.fin 1) (.fin 2) (.fin 2)) exY)).heap.dataOf 0)) 0).tail = [.fin 2, .fin 2] := by
      decide +kernel
    rw [this]
    rintro ⟨a, ha, b, hb, hab⟩
    simp at ha hb
    exact hab (ha.trans hb.symm)

/-- The hypotheses of `C27_can_propose_partial` hold of a tree with a prunable node and a leaf that can be cut. -/
example : ∃ t, ReachableTree exX t ∧ decide ((∀ i ∈ t.nodes, (t.heap.dataOf i).y.y = some exY) ∧ t.nodes.length = 1 ∧
    (match t.propose [0, 0, 1] [.grow] with | .ok (mu, _, _, _) => decide (mu.kind = .grow) | _ => false) = true) = true :=
  exReach' [] _ (by decide +kernel)

end Bart
