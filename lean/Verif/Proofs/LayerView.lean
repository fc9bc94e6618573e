import Verif.Spec.Layers
import Verif.Proofs.RefPropose
import Verif.Proofs.ObliviousFit

/-! A tree of the oblivious tree sampler as a tree of the reference implementation: the levels, the leaves and what became of them. -/

set_option linter.unusedSectionVars false

namespace Bart.Oblivious
open Bart Spec Reference
variable {K : Type} [Field K] [LinearOrder K] {n p : Nat} {X : Fin n → Fin p → Fl K}

/-- The nodes at a depth, in the order of the list of nodes. -/
def idsAt (t : Tree K n p) (e : Nat) : List NodeId := t.nodes.filter (fun i => decide ((t.heap.node i).depth = e))

/-- What became of a node. -/
def NodeRule (h : Heap K n p) (i : NodeId) (rule : Layers.Rule K p) : Prop :=
  ∃ l r, (h.node i).left = some l ∧ (h.node i).right = some r ∧ i < h.nextNode ∧ l < h.nextNode ∧ r < h.nextNode ∧ [pathOf h l, pathOf h r] = Layers.expand (pathOf h i) rule

/-- The levels of the tree are the growths. -/
def Lv (t : Tree K n p) : List (List (Layers.Rule K p)) → Prop
  | [] => (idsAt t 0).map (pathOf t.heap) = [[]]
  | rules :: rest => Lv t rest ∧ List.Forall₂ (NodeRule t.heap) (idsAt t rest.length) rules ∧ (idsAt t (rest.length + 1)).map (pathOf t.heap) = Layers.paths (rules :: rest)

theorem Lv.paths {t : Tree K n p} {layers : List (List (Layers.Rule K p))} (h : Lv t layers) : (idsAt t layers.length).map (pathOf t.heap) = Layers.paths layers := by
  cases layers with
  | nil => exact h
  | cons rules rest => exact h.2.2

theorem Lv.mono {t t' : Tree K n p} : ∀ {layers : List (List (Layers.Rule K p))}, Lv t layers →
    (∀ e ≤ layers.length, (idsAt t' e).map (pathOf t'.heap) = (idsAt t e).map (pathOf t.heap)) → (∀ e < layers.length, idsAt t' e = idsAt t e) →
    (∀ i rule, NodeRule t.heap i rule → NodeRule t'.heap i rule) → Lv t' layers := by
  intro layers
  induction layers with
  | nil => intro h h1 _ _; exact (h1 0 (le_refl _)).trans h
  | cons rules rest ih =>
    intro h h1 h2 h3
    refine ⟨ih h.1 (fun e he => h1 e (by simp; omega)) (fun e he => h2 e (by simp; omega)) h3, ?_, ?_⟩
    · rw [h2 rest.length (by simp)]
      exact h.2.1.imp (fun i rule => h3 i rule)
    · rw [h1 (rest.length + 1) (by simp)]
      exact h.2.2

/-- The tree has these growths. -/
def View (t : Tree K n p) (layers : List (List (Layers.Rule K p))) : Prop := Lv t layers ∧ ∀ i ∈ t.leafNodes, (t.heap.node i).depth = layers.length

/-- The tree is the given one. -/
def Shows (t : Tree K n p) (T : Layers.LTree K p) : Prop := View t T.layers ∧ t.leafNodes.map (fun i => (t.heap.node i).value) = T.values

theorem NodeRule.same {h h' : Heap K n p} (hn : h.nextNode ≤ h'.nextNode) (hs : ∀ k < h.nextNode, SameNode (h.node k) (h'.node k)) {i : NodeId} {rule : Layers.Rule K p}
    (hr : NodeRule h i rule) : NodeRule h' i rule := by
  obtain ⟨l, r, e1, e2, l1, l2, l3, e3⟩ := hr
  refine ⟨l, r, (hs i l1).left.trans e1, (hs i l1).right.trans e2, l1.trans_le hn, l2.trans_le hn, l3.trans_le hn, ?_⟩
  have hp : ∀ k < h.nextNode, pathOf h' k = pathOf h k := fun k hk => by unfold pathOf; rw [(hs k hk).split]
  rw [hp l l2, hp r l3, hp i l1]; exact e3

/-- Only nodes, links, depths and splits count. -/
theorem View.congr {t t' : Tree K n p} {layers : List (List (Layers.Rule K p))} (hv : View t layers) (hlt : ∀ i ∈ t.nodes, i < t.heap.nextNode) (hN : t'.nodes = t.nodes)
    (hn : t.heap.nextNode ≤ t'.heap.nextNode) (hs : ∀ k < t.heap.nextNode, SameNode (t.heap.node k) (t'.heap.node k)) : View t' layers := by
  have hids : ∀ e, idsAt t' e = idsAt t e := by
    intro e
    unfold idsAt
    rw [hN]
    apply List.filter_congr
    intro i hi
    rw [(hs i (hlt i hi)).depth]
  refine ⟨hv.1.mono (fun e _ => ?_) (fun e _ => hids e) (fun i rule => NodeRule.same hn hs), ?_⟩
  · rw [hids]
    apply List.map_congr_left
    intro i hi
    unfold pathOf
    rw [(hs i (hlt i (List.mem_filter.1 hi).1)).split]
  · intro i hi
    obtain ⟨h1, h2⟩ := List.mem_filter.1 hi
    rw [hN] at h1
    have := hs i (hlt i h1)
    rw [this.depth]
    refine hv.2 i (List.mem_filter.2 ⟨h1, ?_⟩)
    rw [this.kind] at h2
    exact h2

theorem View.ext {t t' : Tree K n p} {layers : List (List (Layers.Rule K p))} (hv : View t layers) (hlt : ∀ i ∈ t.nodes, i < t.heap.nextNode) (he : TreeExt t t') : View t' layers :=
  hv.congr hlt he.nodes he.heap.nextNode (fun k hk => by rw [he.heap.node k hk]; exact SameNode.refl _)

/-! ### the levels of a perfect tree -/

theorem Struct.levels {h : Heap K n p} {s : Shape} : ∀ {d e : Nat}, Struct X h s d → Perfect e s → ∀ i ∈ s.ids, (h.node i).depth ≤ d + e ∧ ((h.node i).kind = .leaf ↔ (h.node i).depth = d + e) := by
  induction s with
  | leaf j =>
    intro d e hS hP i hi
    simp [Shape.ids] at hi; subst hi
    cases e with
    | zero => simp [hS.1, hS.2.2.2]
    | succ e => exact hP.elim
  | node j l r ihl ihr =>
    intro d e hS hP i hi
    cases e with
    | zero => exact hP.elim
    | succ e =>
      obtain ⟨hk, -, -, hd, -, h1, h2⟩ := hS
      simp only [Shape.ids, List.mem_cons, List.mem_append] at hi
      rcases hi with rfl | hi | hi
      · rw [hk, hd]; refine ⟨by omega, ⟨fun h => (by cases h), fun h => (by omega)⟩⟩
      · have := ihl h1 hP.1 i hi
        rw [show d + (e + 1) = d + 1 + e by omega]; exact this
      · have := ihr h2 hP.2 i hi
        rw [show d + (e + 1) = d + 1 + e by omega]; exact this

section
variable {y : Option (Fin n → K)} {t : Tree K n p} {s : Shape} {d : Nat}

theorem OTree.depth_le (hT : OTree X y t s d) {i : NodeId} (hi : i ∈ t.nodes) : (t.heap.node i).depth ≤ d ∧ ((t.heap.node i).kind = .leaf ↔ (t.heap.node i).depth = d) := by
  have := hT.inv.struct.levels hT.perfect i (hT.inv.perm.mem_iff.1 hi)
  simpa using this

theorem OTree.leaves_eq (hT : OTree X y t s d) : t.leafNodes = idsAt t d := by
  unfold Tree.leafNodes idsAt
  apply List.filter_congr
  intro i hi
  rw [decide_eq_decide]
  exact (hT.depth_le hi).2

theorem OTree.prunable_zero (hT : OTree X y t s 0) : t.prunableDecisionNodes = [] := by
  rw [List.eq_nil_iff_forall_not_mem]
  intro i hi
  obtain ⟨h1, -⟩ := List.mem_filter.1 hi
  obtain ⟨h1, h2⟩ := List.mem_filter.1 h1
  have := hT.depth_le h1
  rw [this.2.2 (by omega)] at h2
  simp at h2

theorem OTree.prunable_succ {e : Nat} (hT : OTree X y t s (e + 1)) : t.prunableDecisionNodes = idsAt t e := by
  unfold Tree.prunableDecisionNodes Tree.decisionNodes idsAt
  rw [List.filter_filter]
  apply List.filter_congr
  intro i hi
  rw [Bool.eq_iff_iff]
  have hiff : (t.heap.isPrunable i && decide ((t.heap.node i).kind = .decision)) = true ↔ i ∈ t.prunableDecisionNodes := by
    unfold Tree.prunableDecisionNodes Tree.decisionNodes
    rw [List.filter_filter, List.mem_filter]
    simp [hi]
  rw [hiff, decide_eq_true_eq]
  constructor
  · intro hp
    obtain ⟨l, r, hs, d', hS⟩ := hT.inv.prunable_sub hp
    obtain ⟨-, hl, -⟩ := hT.inv.sub_prunable hs
    have h1 := hT.level l hl
    rw [hS.2.2.2.2.2.1.2.2.2] at h1
    rw [hS.2.2.2.1]; omega
  · intro hd
    obtain ⟨u, hu, rfl⟩ := Shape.exists_sub (hT.inv.perm.mem_iff.1 hi)
    obtain ⟨d', hS⟩ := hT.inv.struct.sub hu
    cases u with
    | leaf j =>
      have := (hT.depth_le hi).2.1 hS.1
      omega
    | node j l r =>
      have hS' := hS
      obtain ⟨-, -, -, h4, -, hl, hr⟩ := hS
      simp only [Shape.root] at hd
      have hm : ∀ k ∈ l.ids ++ r.ids, k ∈ t.nodes := fun k hk => hT.inv.perm.mem_iff.2 (hu.ids_subset k (by simp only [Shape.ids, List.mem_cons]; exact .inr hk))
      have el := hl.eq_leaf ((hT.depth_le (hm _ (by simp [l.root_mem]))).2.2 (by rw [hl.depth_eq]; omega))
      have er := hr.eq_leaf ((hT.depth_le (hm _ (by simp [r.root_mem]))).2.2 (by rw [hr.depth_eq]; omega))
      rw [el, er] at hu
      exact (hT.inv.sub_prunable hu).1

/-- The depth of a tree is the number of its growths. -/
theorem OTree.depth_of (hT : OTree X y t s d) {layers : List (List (Layers.Rule K p))} (hv : View t layers) : d = layers.length := by
  obtain ⟨i, hi⟩ := leaves_pos s
  have hi' := hT.inv.mem_leafNodes.2 hi
  rw [← hT.level i hi', hv.2 i hi']

/-- The leaves. -/
theorem View.leaves {layers : List (List (Layers.Rule K p))} (hv : View t layers) (hT : OTree X y t s d) : t.leafNodes.map (pathOf t.heap) = Layers.paths layers := by
  rw [hT.leaves_eq, hT.depth_of hv, hv.1.paths]

end

/-! ### conditions -/

/-- The comparisons of the node are of the kinds that the code makes. -/
def GoodNode (h : Heap K n p) (i : NodeId) : Prop := ∃ q, (h.node i).split.combined = CombinedCondition.init q ∧ ∀ c ∈ q, GoodCond c

theorem PairOk.good {a b c : Split K p} (hp : PairOk X a b c) (ha : ∃ q, a.combined = CombinedCondition.init q ∧ ∀ c ∈ q, GoodCond c) :
    (∃ q, b.combined = CombinedCondition.init q ∧ ∀ c ∈ q, GoodCond c) ∧ ∃ q, c.combined = CombinedCondition.init q ∧ ∀ c ∈ q, GoodCond c := by
  rcases hp with ⟨rfl, rfl, -⟩ | ⟨path, cl, cr, hsp, ea, eb, ec, -⟩
  · exact ⟨ha, ha⟩
  · obtain ⟨q, hq, hg⟩ := ha
    have : q = path := init_injective (hq.symm.trans ea)
    subst this
    refine ⟨⟨_, eb, fun c hc => ?_⟩, ⟨_, ec, fun c hc => ?_⟩⟩
    · rcases List.mem_append.1 hc with hc | hc
      · exact hg c hc
      · simp at hc; subst hc; exact ⟨.inl hsp.opl, hsp.notNan⟩
    · rcases List.mem_append.1 hc with hc | hc
      · exact hg c hc
      · simp at hc; subst hc; exact ⟨.inr hsp.opr, by rw [hsp.val]; exact hsp.notNan⟩

theorem Struct.good {h : Heap K n p} {s : Shape} : ∀ {d : Nat}, Struct X h s d → GoodNode h s.root → ∀ i ∈ s.ids, GoodNode h i := by
  induction s with
  | leaf j => intro d _ hg i hi; simp [Shape.ids] at hi; subst hi; exact hg
  | node j l r ihl ihr =>
    intro d hS hg i hi
    obtain ⟨-, -, -, -, r5, hl, hr⟩ := hS
    obtain ⟨g1, g2⟩ := r5.good hg
    simp only [Shape.ids, List.mem_cons, List.mem_append] at hi
    rcases hi with rfl | hi | hi
    · exact hg
    · exact ihl hl g1 i hi
    · exact ihr hr g2 i hi

theorem OInv.good {y : Option (Fin n → K)} {t : Tree K n p} {s : Shape} (hI : OInv X y t s) {i : NodeId} (hi : i ∈ t.nodes) : GoodNode t.heap i :=
  hI.struct.good ⟨[], hI.top, by simp⟩ i (hI.perm.mem_iff.1 hi)

theorem meets_iff {q : List (SplitCondition K p)} (hg : ∀ c ∈ q, GoodCond c) {x : Fin p → Fl K} (hx : ∀ j, x j ≠ .nan) :
    Layers.meets (q.map condOf) x = true ↔ ∀ c ∈ q, sat c x = true := by
  unfold Layers.meets
  rw [List.all_eq_true]
  constructor
  · intro h c hc
    rw [← condOf_holds (hg c hc) (hx _)]
    exact h _ (List.mem_map_of_mem hc)
  · intro h c hc
    obtain ⟨c', hc', rfl⟩ := List.mem_map.1 hc
    rw [condOf_holds (hg c' hc') (hx _)]
    exact h c' hc'

theorem pathOf_init {h : Heap K n p} {i : NodeId} {q : List (SplitCondition K p)} (hq : (h.node i).split.combined = CombinedCondition.init q) : pathOf h i = q.map condOf := by
  unfold pathOf; rw [hq]; rfl

/-- The rows of a node are those that satisfy the comparisons. -/
theorem GoodNode.rows (hX : NoNan X) {y : Option (Fin n → K)} {h : Heap K n p} {i : NodeId} (hg : GoodNode h i) {q : List (SplitCondition K p)} (hk : NodeOk X y h i q) :
    rowsOf (h.dataOf i) = Layers.rowsOn X (pathOf h i) := by
  obtain ⟨q', hq, hg⟩ := hg
  have : q' = q := init_injective (hq.symm.trans hk.combined)
  subst this
  funext r
  rw [Bool.eq_iff_iff, hk.rows, pathOf_init hq]
  unfold Layers.rowsOn
  rw [meets_iff hg (hX r)]
  simp

theorem OInv.rows_on (hX : NoNan X) {y : Option (Fin n → K)} {t : Tree K n p} {s : Shape} (hI : OInv X y t s) {i : NodeId} (hi : i ∈ t.nodes) :
    rowsOf (t.heap.dataOf i) = Layers.rowsOn X (pathOf t.heap i) := by
  obtain ⟨q, hk⟩ := hI.nodeOk hi
  exact (hI.good hi).rows hX hk

theorem GoodNode.ext {h h' : Heap K n p} {i : NodeId} (hg : GoodNode h i) (he : HeapExt h h') (hi : i < h.nextNode) : GoodNode h' i := by
  unfold GoodNode; rw [he.node i hi]; exact hg

/-- The last comparison. -/
theorem recent_path (h : Heap K n p) (i : NodeId) :
    (h.node i).split.combined.mostRecentSplitCondition.map (fun c => (c.splittingVariable, c.splittingValue)) = (pathOf h i).getLast?.map (fun c => (c.column, c.value)) := by
  unfold CombinedCondition.mostRecentSplitCondition pathOf
  generalize (h.node i).split.combined.conditions = l
  rw [List.getLast?_map, Option.map_map]
  split
  · next h0 =>
    have : l = [] := List.length_eq_zero_iff.1 (by simpa using h0)
    subst this; rfl
  · rfl

/-! ### values -/

/-- The value for a row: that of the last leaf in the list whose comparisons it satisfies. -/
theorem last_filter (h : Heap K n p) (P : NodeId → Bool) : ∀ (ls : List NodeId) (b : K),
    lastValue h P ls b = match (ls.filter P).getLast? with | some i => (h.node i).value | none => b := by
  intro ls
  induction ls using List.reverseRecOn with
  | nil => intro b; rfl
  | append_singleton ls i _ =>
    rename_i ih
    intro b
    unfold lastValue at ih ⊢
    rw [List.foldl_append, List.filter_append]
    by_cases hi : P i = true
    · simp [hi]
    · simp only [List.foldl_cons, List.foldl_nil, hi, Bool.false_eq_true, if_false]
      rw [ih b]
      simp [hi]

theorem Shows.value {y : Option (Fin n → K)} {t : Tree K n p} {s : Shape} {d : Nat} (hT : OTree X y t s d) {T : Layers.LTree K p} (hS : Shows t T) {q : Nat}
    (Z : Fin q → Fin p → Fl K) (r : Fin q) (hx : GoodRow (Z r)) : T.value (Z r) = t.predictX Z r := by
  rw [predictX_last, last_filter]
  unfold Layers.LTree.value
  rw [← hS.1.leaves hT, ← hS.2]
  have hz : (t.leafNodes.map (pathOf t.heap)).zip (t.leafNodes.map (fun i => (t.heap.node i).value)) = t.leafNodes.map (fun i => (pathOf t.heap i, (t.heap.node i).value)) := by
    rw [List.zip_map']
  rw [hz, List.filter_map, List.getLast?_map]
  have hf : t.leafNodes.filter ((fun q => Layers.meets q.1 (Z r)) ∘ fun i => (pathOf t.heap i, (t.heap.node i).value)) =
      t.leafNodes.filter (fun i => Heap.outOfSample (t.heap.node i).split (Z r)) := by
    apply List.filter_congr
    intro i hi
    have hin := (List.mem_filter.1 hi).1
    obtain ⟨q, hq, hg⟩ := hT.inv.good hin
    simp only [Function.comp]
    rw [Bool.eq_iff_iff, pathOf_init hq, meets_iff hg (fun j => (hx j).1), hT.inv.outOfSample_iff hx hin hq]
  rw [hf]
  cases (t.leafNodes.filter (fun i => Heap.outOfSample (t.heap.node i).split (Z r))).getLast? <;> rfl

end Bart.Oblivious
