import Verif.Proofs.Oblivious
import Verif.Props.ModelProps

/-! Property theorems C65, C66, C74, C75, C76 (oblivious tree sampler). -/

set_option linter.unusedSectionVars false

namespace Bart
open Spec
variable {K : Type} [Field K] [LinearOrder K] {n p : Nat} {X : Fin n → Fin p → Fl K}

namespace Spec

/-- Some column of the leaf takes two values when the first row is left out: this is when the code regards the leaf as splittable (C01). -/
def CanSplit (X : Fin n → Fin p → Fl K) (t : Tree K n p) (i : NodeId) : Prop := ∃ j, HasTwoValues (column X (rowsOf (t.heap.dataOf i)) j).tail

/-- Row `r` is in leaf `i`. -/
def InLeaf (t : Tree K n p) (i : NodeId) (r : Fin n) : Prop := i ∈ t.leafNodes ∧ t.heap.inSample (t.heap.node i).split r = true

/-- Trees under the oblivious sampler: reachable trees, and what arises from them by calls and steps of the oblivious sampler that grow only trees
all of whose leaves can be split. -/
inductive ObliviousTree (X : Fin n → Fin p → Fl K) : Tree K n p → Prop where
  | reachable {t} : ReachableTree X t → ObliviousTree X t
  | op {t op t'} : ObliviousTree X t → TreeOp.ok t op → t.step op = .ok t' → ObliviousTree X t'
  | step {t t'} (F : MathFns K) (m : Params K) {pGrow pPrune : K} {r r' : Rand K} {res : Option (List TreeMutation)} : ObliviousTree X t → (∃ y, HasTarget t y) →
      Oblivious.treeStep m pGrow pPrune t r = .ok (res, t', r') → (r.methods.head? = some .grow → ∀ i ∈ t.leafNodes, CanSplit X t i) → ObliviousTree X t'

end Spec

open Oblivious

theorem canSplit_iff (hX : NoNan X) {t : Tree K n p} {i : NodeId} : CanSplit X t i ↔ ∃ j, isNotConstant (column X (rowsOf (t.heap.dataOf i)) j) = true := by
  unfold CanSplit
  refine exists_congr fun j => (isNotConstant_noNan ?_).symm
  intro x hx
  obtain ⟨r, -, hr⟩ := mem_column.1 hx
  rw [← hr]; exact hX r j

theorem Built.grow_of {y : Fin n → K} {t : Tree K n p} {s : Shape} {h : Heap K n p} {i D L R : NodeId} (hX : NoNan X) (hI : TreeInv X (some y) t s) (he : HeapExt t.heap h)
    (hb : Built X (some y) t h i D L R) (hc : CanSplit X t i) : ∃ j v, GrowProp X (some y) t h i D L R j v := by
  rcases hb with hb | hg
  · exact hb
  · exfalso
    have hin : i ∈ t.nodes := (List.mem_filter.1 hg.leaf).1
    obtain ⟨q, hk⟩ := hI.repr.nodeOk i (hI.perm.mem_iff.1 hin)
    obtain ⟨j, hj⟩ := (canSplit_iff hX).1 hc
    have := hg.const j
    rw [he.rowsOf (hI.mem_lt hin) hk, hj] at this
    cases this

theorem Built.dup_of {y : Fin n → K} {t : Tree K n p} {s : Shape} {h : Heap K n p} {i D L R : NodeId} (hX : NoNan X) (hI : TreeInv X (some y) t s) (he : HeapExt t.heap h)
    (hb : Built X (some y) t h i D L R) (hc : ¬ CanSplit X t i) : DupProp X t h i D L R := by
  rcases hb with ⟨j, v, hg⟩ | hg
  · exfalso
    have hin : i ∈ t.nodes := (List.mem_filter.1 hg.leaf).1
    obtain ⟨q, hk⟩ := hI.repr.nodeOk i (hI.perm.mem_iff.1 hin)
    have := hg.splittable
    rw [he.rowsOf (hI.mem_lt hin) hk] at this
    exact hc ((canSplit_iff hX).2 ⟨j, this⟩)
  · exact hg

/-- The nodes after a grow of all leaves. -/
theorem Oblivious.grow_result {y : Fin n → K} {t t1 t' : Tree K n p} {s : Shape} (hI : TreeInv X (some y) t s) (hx : TreeExt t t1) {qs : List Quad}
    (a : qs.map Quad.i = t.leafNodes) (b : (qs.flatMap Quad.news).Nodup) (c : ∀ q ∈ qs, Built X (some y) t t1.heap q.i q.D q.L q.R)
    (hm : mutateAll (qs.map Quad.mu) t1 = .ok t') :
    t'.heap.data = t1.heap.data ∧ (∀ k, (t'.heap.node k).kind = (t1.heap.node k).kind ∧ (t'.heap.node k).split = (t1.heap.node k).split) ∧
      (∀ k, k ∈ t'.nodes ↔ (k ∈ t.nodes ∧ k ∉ t.leafNodes) ∨ k ∈ qs.flatMap Quad.news) ∧
      (∀ q ∈ qs, (t'.heap.node q.D).left = some q.L) := by
  have hn := hI.ext hx
  obtain ⟨t'', h', g1, g2, g3, g4⟩ := mutateAll_grow qs (t := t1) hn.nodes_nodup (by rw [a]; exact hI.nodes_nodup.filter _)
    (fun q hq => by rw [hx.nodes]; exact (List.mem_filter.1 (c q hq).facts.1).1) b
    (fun k hk hc => by
      obtain ⟨q, hq, hkq⟩ := List.mem_flatMap.1 hk
      rw [hx.nodes] at hc
      have := (c q hq).facts.2.2.2.2.1 k hkq
      have := hI.mem_lt hc
      omega)
    (fun q hq => ⟨(c q hq).facts.2.2.2.2.2.1, (c q hq).facts.2.2.2.2.2.2.1⟩)
  rw [hm] at h'
  injection h' with h'
  subst h'
  refine ⟨g1, g2, fun k => by rw [g3, hx.nodes, a], ?_⟩
  intro q hq
  obtain ⟨-, -, -, -, f5, f6, f7, -⟩ := (c q hq).facts
  rw [g4 q.D]
  · exact f6
  · intro i hi
    rw [a] at hi
    have hlt := hI.mem_lt (List.mem_filter.1 hi).1
    have hL := f5 q.L (by simp)
    have hR := f5 q.R (by simp)
    rw [f6, f7]
    constructor <;> intro e <;> injection e with e <;> omega

/-! ### a concrete tree, used in the examples -/

/-- One column with six different values. -/
def exXo : Fin 6 → Fin 1 → Fl ℚ := fun r _ => .fin r.val
def exYo : Fin 6 → ℚ := fun r => r.val
def exRooto : Tree ℚ 6 1 := Tree.ofData (exData exXo exYo)

theorem exXo_noNan : NoNan exXo := by unfold NoNan; decide +kernel

theorem exReacho (ops : List (TreeOp ℚ 6 1)) (P : Tree ℚ 6 1 → Bool) (h : (checkRun exRooto ops).any P = true) :
    ∃ t, ReachableTree exXo t ∧ P t = true := by
  cases e : checkRun exRooto ops with
  | none => rw [e] at h; simp at h
  | some t => rw [e] at h; exact ⟨t, (checkRun_run _ _ _ e).reachable (.fresh ⟨false, _, exData_init _ _, rfl⟩), by simpa using h⟩

attribute [local instance] exFns

/-- The rows of the leaves. -/
def leafRows (t : Tree ℚ 6 1) : List (List (Fin 6)) := t.leafNodes.map (fun i => (List.finRange 6).filter (fun r => t.heap.inSample (t.heap.node i).split r))

/-- An accepted step with the given method, value of sigma and draws, and the rows of the leaves afterwards. -/
def exStepo (me : Method) (sigma : ℚ) (t : Tree ℚ 6 1) : Option (List (List (Fin 6))) :=
  match Oblivious.treeStep ⟨1/10, -1, 1/10, 1, sigma⟩ (1/2) (1/2) t ⟨[me], [0, 0, 0, 0, 0, 0], [0], [], []⟩ with
  | .ok (some _, t', _) => some (leafRows t')
  | _ => none

/-! ### C65

Full statement: after a grow step of the oblivious sampler every training row is in exactly one leaf. It is false (`C65_refuted`, `C65_refuted_witness`): a leaf that cannot be
split is replaced by a decision node with two leaves that both hold all its rows. -/

/-- C65 is false: whenever a leaf that cannot be split holds a row, an accepted grow puts this row into two leaves. -/
theorem C65_refuted [MathFns K] (hX : NoNan X) {t t' : Tree K n p} (ht : ReachableTree X t) {y : Fin n → K} (hy : HasTarget t y) {m : Params K} {pGrow pPrune : K} {r r' : Rand K}
    {mus : List TreeMutation} (hg : r.methods.head? = some .grow) (h : Oblivious.treeStep m pGrow pPrune t r = .ok (some mus, t', r'))
    {i : NodeId} {row : Fin n} (hi : InLeaf t i row) (hc : ¬ CanSplit X t i) : ∃ a b, a ≠ b ∧ InLeaf t' a row ∧ InLeaf t' b row := by
  obtain ⟨y', s, hI⟩ := reachable_tree_inv hX ht
  obtain rfl := hI.target hy
  have hs := treeStep_spec hX hI m pGrow pPrune r
  rw [h] at hs
  obtain ⟨t1, me, e1, hx, hmv, hm⟩ := hs
  rw [hg] at e1
  injection e1 with e1
  subst e1
  cases hmv with
  | grow qs a b c =>
    obtain ⟨g1, g2, g3, -⟩ := Oblivious.grow_result hI hx a b c hm
    obtain ⟨q, hq, rfl⟩ := List.mem_map.1 (a ▸ hi.1 : i ∈ qs.map Quad.i)
    have hd := Built.dup_of hX hI hx.heap (c q hq) hc
    have hin : q.i ∈ t.nodes := (List.mem_filter.1 hi.1).1
    obtain ⟨qq, hk⟩ := hI.repr.nodeOk q.i (hI.perm.mem_iff.1 hin)
    have hrow := hx.heap.rowsOf (hI.mem_lt hin) hk
    have hne : q.L ≠ q.R := by
      have := hd.nodup
      simp only [List.nodup_cons, List.mem_cons, List.not_mem_nil, or_false, not_or] at this
      exact this.2.1
    have key : ∀ k, k ∈ q.news → t1.heap.node k = leafRec ((t1.heap.node q.i).depth + 1) (t1.heap.node q.i).split → InLeaf t' k row := by
      intro k hk he
      refine ⟨?_, ?_⟩
      · unfold Tree.leafNodes
        rw [List.mem_filter]
        refine ⟨(g3 k).2 (.inr (List.mem_flatMap.2 ⟨q, hq, hk⟩)), ?_⟩
        rw [(g2 k).1, he]; rfl
      · unfold Heap.inSample
        rw [g1, (g2 k).2, he]
        show (!(t1.heap.data (t1.heap.node q.i).split.data).mask row) = true
        have h1 : rowsOf (t1.heap.dataOf q.i) row = true := by rw [hrow]; exact hi.2
        exact h1
    exact ⟨q.L, q.R, hne, key q.L (by simp [Quad.news]) hd.nodeL, key q.R (by simp [Quad.news]) hd.nodeR⟩

/-- C65, the example: the hypotheses are met by a tree whose left leaf has one row; after the grow this row is in two leaves. -/
example : ∃ t, ReachableTree exXo t ∧ decide ((∀ i ∈ t.nodes, (t.heap.dataOf i).y.y = some exYo) ∧ t.leafNodes = [1, 2] ∧ leafRows t = [[0], [1, 2, 3, 4, 5]] ∧
    (column exXo (rowsOf (t.heap.dataOf 1)) 0).tail = [] ∧ exStepo .grow (1/10) t = some [[0], [0], [1], [2, 3, 4, 5]]) = true :=
  exReacho [.grow 0 0 (.fin 0)] _ (by decide +kernel)

/-- C65 is false, on concrete data: rows 0, ..., 5, the tree split at 0, and an accepted step of the sampler. -/
theorem C65_refuted_witness : ∃ (t t' : Tree ℚ 6 1) (m : Params ℚ) (r r' : Rand ℚ) (mus : List TreeMutation), ReachableTree exXo t ∧ HasTarget t exYo ∧
    Oblivious.treeStep m (1/2) (1/2) t r = .ok (some mus, t', r') ∧ ∃ a b, a ≠ b ∧ InLeaf t' a 0 ∧ InLeaf t' b 0 := by
  obtain ⟨t, ht, h⟩ := exReacho [.grow 0 0 (.fin 0)] (fun t => decide ((∀ i ∈ t.nodes, (t.heap.dataOf i).y.y = some exYo) ∧ t.leafNodes = [1, 2] ∧
    t.heap.inSample (t.heap.node 1).split 0 = true ∧ (column exXo (rowsOf (t.heap.dataOf 1)) 0).tail = [] ∧ (exStepo .grow (1/10) t).isSome)) (by decide +kernel)
  simp only [decide_eq_true_eq] at h
  obtain ⟨hy, hl, hr, hc, hs⟩ := h
  unfold exStepo at hs
  split at hs
  · next mus t' r' e =>
    have hnc : ¬ CanSplit exXo t 1 := by
      rintro ⟨j, x, hx, -⟩
      rw [Subsingleton.elim j 0, hc] at hx
      cases hx
    exact ⟨t, t', _, _, r', mus, ht, hy, e, C65_refuted exXo_noNan ht hy rfl e ⟨by rw [hl]; simp, hr⟩ hnc⟩
  · cases hs

/-- The invariant of the trees of C65. -/
theorem ObliviousTree.inv (hX : NoNan X) {t : Tree K n p} (h : ObliviousTree X t) : ∃ y s, TreeInv X y t s := by
  induction h with
  | reachable h => exact reachable_tree_inv hX h
  | op _ h1 h2 ih =>
    obtain ⟨y, s, hI⟩ := ih
    obtain ⟨s', h'⟩ := step_inv hX hI h1 h2
    exact ⟨_, s', h'⟩
  | step F m _ hy h hc ih =>
    rename_i t t' pGrow pPrune r r' res _
    obtain ⟨y, hy⟩ := hy
    obtain ⟨y', s, hI⟩ := ih
    obtain rfl := hI.target hy
    have hs := treeStep_spec hX hI m pGrow pPrune r
    rw [h] at hs
    cases res with
    | none => exact ⟨_, s, hI.ext hs⟩
    | some mus =>
      obtain ⟨t1, me, e1, hx, hmv, hm⟩ := hs
      cases hmv with
      | grow qs a b c =>
        obtain ⟨t'', s', g1, g2⟩ := mutateAll_inv qs (hI.ext hx) (by rw [a]; exact hI.nodes_nodup.filter _) b (fun q hq => by
          obtain ⟨j, v, hg⟩ := Built.grow_of hX hI hx.heap (c q hq) (hc e1 q.i (c q hq).facts.1)
          exact ⟨by rw [hx.leafNodes hI]; exact hg.leaf, hg.ready, by rw [hx.nodes]; exact hg.fresh, hg.lt⟩)
        rw [hm] at g1
        injection g1 with g1
        subst g1
        exact ⟨_, s', g2⟩
      | prune qs a b c =>
        obtain ⟨t'', s', g1, g2, -⟩ := mutateAll_prune qs (hI.ext hx) (by rw [a]; exact (hI.nodes_nodup.filter _).filter _) b
          (fun q hq => ⟨(c q hq).sub, (c q hq).ready, by rw [hx.nodes]; exact (c q hq).fresh, (c q hq).lt⟩)
        rw [hm] at g1
        injection g1 with g1
        subst g1
        exact ⟨_, s', g2⟩

/-- C65 (partial): as long as the oblivious sampler grows only trees all of whose leaves can be split, the tree is a rooted binary tree, every training row is in exactly one leaf,
and every new row without NaN and infinities is in exactly one leaf. Missing: grow steps on trees with a leaf that cannot be split, for which it is false. -/
theorem C65_oblivious_partition_partial (hX : NoNan X) {t : Tree K n p} (h : ObliviousTree X t) :
    WellFormed t ∧ (∀ r, ∃! i, InLeaf t i r) ∧ (∀ x, GoodRow x → ∃! i, i ∈ t.leafNodes ∧ Heap.outOfSample (t.heap.node i).split x = true) := by
  obtain ⟨y, s, hI⟩ := ObliviousTree.inv hX h
  refine ⟨hI.wellFormed, fun r => ?_, fun x hx => ?_⟩
  · obtain ⟨i, i1, -, i3, i4⟩ := hI.leaf_of_row (hX r)
    exact ⟨i, ⟨i1, i3⟩, fun j hj => i4 j hj.1 hj.2⟩
  · obtain ⟨i, i1, -, i3, i4⟩ := hI.leaf_of_newRow hx
    exact ⟨i, ⟨i1, i3⟩, fun j hj => i4 j hj.1 hj.2⟩

/-- C65, the example: a tree all of whose leaves can be split, and the leaves after the grow. -/
example : ∃ t, ReachableTree exXo t ∧ decide ((∀ i ∈ t.nodes, (t.heap.dataOf i).y.y = some exYo) ∧ t.leafNodes = [1, 2] ∧
    (column exXo (rowsOf (t.heap.dataOf 1)) 0).tail = [.fin 1, .fin 2] ∧ (column exXo (rowsOf (t.heap.dataOf 2)) 0).tail = [.fin 4, .fin 5] ∧
    exStepo .grow (1/10) t = some [[0], [1, 2], [3], [4, 5]]) = true :=
  exReacho [.grow 0 0 (.fin 2)] _ (by decide +kernel)

/-! ### C66

Full statement: all decision nodes created by a grow step use the same variable and value. It is false: with one column the rules of two leaves that can be split always differ. -/

/-- Rows with the same covariates are in the same leaf. -/
theorem TreeInv.same_leaf {y : Option (Fin n → K)} {t : Tree K n p} {s : Shape} (hI : TreeInv X y t s) (hX : NoNan X) {a b : Fin n} (hab : X a = X b) {i j : NodeId}
    (hi : i ∈ t.leafNodes) (hj : j ∈ t.leafNodes) (ha : rowsOf (t.heap.dataOf i) a = true) (hb : rowsOf (t.heap.dataOf j) b = true) : i = j := by
  obtain ⟨q, hk⟩ := hI.repr.nodeOk i (hI.perm.mem_iff.1 (List.mem_filter.1 hi).1)
  have : rowsOf (t.heap.dataOf i) b = true := by
    rw [hk.rows b, ← hab, ← hk.rows a]; exact ha
  obtain ⟨k, k1, -, k3, k4⟩ := hI.leaf_of_row (hX b)
  rw [k4 i hi this, k4 j hj hb]

/-- The rules of the new nodes, after the grow. -/
theorem Oblivious.grow_rule {y : Fin n → K} {t t1 t' : Tree K n p} {s : Shape} (hX : NoNan X) (hI : TreeInv X (some y) t s) (hx : TreeExt t t1) {qs : List Quad}
    (a : qs.map Quad.i = t.leafNodes) (b : (qs.flatMap Quad.news).Nodup) (c : ∀ q ∈ qs, Built X (some y) t t1.heap q.i q.D q.L q.R)
    (hm : mutateAll (qs.map Quad.mu) t1 = .ok t') {q : Quad} (hq : q ∈ qs) (hc : CanSplit X t q.i) :
    ∃ j v, rule t'.heap q.D = some (j, v) ∧ (∃ r, rowsOf (t.heap.dataOf q.i) r = true ∧ X r j = v) ∧ (∃ r, rowsOf (t.heap.dataOf q.i) r = true ∧ Fl.lt v (X r j) = true) := by
  obtain ⟨g1, g2, g3, g4⟩ := Oblivious.grow_result hI hx a b c hm
  obtain ⟨j, v, hg⟩ := Built.grow_of hX hI hx.heap (c q hq) hc
  have hin : q.i ∈ t.nodes := (List.mem_filter.1 hg.leaf).1
  obtain ⟨qq, hk⟩ := hI.repr.nodeOk q.i (hI.perm.mem_iff.1 hin)
  have hrow := hx.heap.rowsOf (hI.mem_lt hin) hk
  refine ⟨j, v, ?_, ?_, ?_⟩
  · have hr := hg.rule
    unfold Spec.rule at hr ⊢
    rw [hg.children.1] at hr
    rw [g4 q hq]
    simp only at hr ⊢
    rw [(g2 q.L).2]
    exact hr
  · have := hg.vcol
    rw [hrow] at this
    exact mem_column.1 this
  · obtain ⟨mx, h1, h2⟩ := hg.vmax
    rw [hrow] at h1
    obtain ⟨r, hr1, hr2⟩ := mem_column.1 h1
    exact ⟨r, hr1, by rw [hr2]; exact h2⟩

/-- C66 is false: with one column, in every accepted grow of a tree with two leaves that can be split these two get different rules. -/
theorem C66_refuted [MathFns K] {X : Fin n → Fin 1 → Fl K} (hX : NoNan X) {t t' : Tree K n 1} (ht : ReachableTree X t) {y : Fin n → K} (hy : HasTarget t y) {m : Params K}
    {pGrow pPrune : K} {r r' : Rand K} {mus : List TreeMutation} (hg : r.methods.head? = some .grow)
    (h : Oblivious.treeStep m pGrow pPrune t r = .ok (some mus, t', r')) {i j : NodeId} (hij : i ≠ j) (hi : i ∈ t.leafNodes) (hj : j ∈ t.leafNodes)
    (ci : CanSplit X t i) (cj : CanSplit X t j) :
    ∃ mu ∈ mus, ∃ mu' ∈ mus, ∃ a b, rule t'.heap mu.updated = some a ∧ rule t'.heap mu'.updated = some b ∧ a ≠ b := by
  obtain ⟨y', s, hI⟩ := reachable_tree_inv hX ht
  obtain rfl := hI.target hy
  have hs := treeStep_spec hX hI m pGrow pPrune r
  rw [h] at hs
  obtain ⟨t1, me, e1, hx, hmv, hm⟩ := hs
  rw [hg] at e1
  injection e1 with e1
  subst e1
  cases hmv with
  | grow qs a b c =>
    obtain ⟨q, hq, rfl⟩ := List.mem_map.1 (a ▸ hi : i ∈ qs.map Quad.i)
    obtain ⟨q', hq', rfl⟩ := List.mem_map.1 (a ▸ hj : j ∈ qs.map Quad.i)
    obtain ⟨j1, v1, r1, ⟨x1, hx1, hv1⟩, -⟩ := Oblivious.grow_rule hX hI hx a b c hm hq ci
    obtain ⟨j2, v2, r2, ⟨x2, hx2, hv2⟩, -⟩ := Oblivious.grow_rule hX hI hx a b c hm hq' cj
    refine ⟨q.mu, List.mem_map_of_mem hq, q'.mu, List.mem_map_of_mem hq', _, _, r1, r2, ?_⟩
    intro e
    injection e with e2 e3
    refine hij (hI.same_leaf hX (a := x1) (b := x2) ?_ hi hj hx1 hx2)
    funext z
    rw [Subsingleton.elim z j1, hv1, e3, ← hv2, Subsingleton.elim j2 j1]

/-- C66 (partial): a grow step creates one decision node per leaf; for a leaf that can be split its rule is a value of a column among the rows of this leaf that is not the largest, so both
sides get a row; with a single leaf all new decision nodes have the same rule. Missing: the same rule for all leaves, which is false. -/
theorem C66_rules_partial [MathFns K] (hX : NoNan X) {t t' : Tree K n p} (ht : ReachableTree X t) {y : Fin n → K} (hy : HasTarget t y) {m : Params K}
    {pGrow pPrune : K} {r r' : Rand K} {mus : List TreeMutation} (hg : r.methods.head? = some .grow)
    (h : Oblivious.treeStep m pGrow pPrune t r = .ok (some mus, t', r')) :
    mus.map TreeMutation.existing = t.leafNodes ∧ (∀ mu ∈ mus, mu.updated ∈ t'.nodes ∧ (t'.heap.node mu.updated).kind = .decision) ∧
    (∀ mu ∈ mus, CanSplit X t mu.existing → ∃ j v, rule t'.heap mu.updated = some (j, v) ∧ (∃ a, InLeaf t mu.existing a ∧ X a j = v) ∧ (∃ a, InLeaf t mu.existing a ∧ Fl.lt v (X a j) = true)) ∧
    (t.leafNodes.length = 1 → ∀ mu ∈ mus, ∀ mu' ∈ mus, rule t'.heap mu.updated = rule t'.heap mu'.updated) := by
  obtain ⟨y', s, hI⟩ := reachable_tree_inv hX ht
  obtain rfl := hI.target hy
  have hs := treeStep_spec hX hI m pGrow pPrune r
  rw [h] at hs
  obtain ⟨t1, me, e1, hx, hmv, hm⟩ := hs
  rw [hg] at e1
  injection e1 with e1
  subst e1
  cases hmv with
  | grow qs a b c =>
    obtain ⟨g1, g2, g3, g4⟩ := Oblivious.grow_result hI hx a b c hm
    have e : (qs.map Quad.mu).map TreeMutation.existing = t.leafNodes := by
      rw [← a, List.map_map]; rfl
    refine ⟨e, ?_, ?_, ?_⟩
    · intro mu hmu
      obtain ⟨q, hq, rfl⟩ := List.mem_map.1 hmu
      obtain ⟨-, -, -, -, -, -, -, f8, -⟩ := (c q hq).facts
      exact ⟨(g3 q.D).2 (.inr (List.mem_flatMap.2 ⟨q, hq, by simp [Quad.news]⟩)), by rw [show q.mu.updated = q.D from rfl, (g2 q.D).1, f8]⟩
    · intro mu hmu hc
      obtain ⟨q, hq, rfl⟩ := List.mem_map.1 hmu
      obtain ⟨j, v, r1, ⟨x1, hx1, hv1⟩, ⟨x2, hx2, hv2⟩⟩ := Oblivious.grow_rule hX hI hx a b c hm hq hc
      exact ⟨j, v, r1, ⟨x1, ⟨(c q hq).facts.1, hx1⟩, hv1⟩, x2, ⟨(c q hq).facts.1, hx2⟩, hv2⟩
    · intro hl mu hmu mu' hmu'
      rw [← e, List.length_map] at hl
      obtain ⟨x, hx⟩ := List.length_eq_one_iff.1 hl
      rw [hx] at hmu hmu'
      rw [List.mem_singleton.1 hmu, List.mem_singleton.1 hmu']

/-- C66, the example: the accepted grow of a tree with two leaves that can be split; the left leaf is cut at 0, the right one at 3. -/
example : ∃ t, ReachableTree exXo t ∧ decide ((∀ i ∈ t.nodes, (t.heap.dataOf i).y.y = some exYo) ∧ t.leafNodes = [1, 2] ∧
    (column exXo (rowsOf (t.heap.dataOf 1)) 0).tail = [.fin 1, .fin 2] ∧ (column exXo (rowsOf (t.heap.dataOf 2)) 0).tail = [.fin 4, .fin 5] ∧
    (match Oblivious.treeStep ⟨1/10, -1, 1/10, 1, 1/10⟩ (1/2) (1/2) t ⟨[.grow], [0, 0, 0, 0, 0, 0], [0], [], []⟩ with
      | .ok (some mus, t', _) => some (mus.map (fun mu => rule t'.heap mu.updated))
      | _ => none) = some [some (0, .fin 0), some (0, .fin 3)]) = true :=
  exReacho [.grow 0 0 (.fin 2)] _ (by decide +kernel)

/-! ### C74 -/

/-- C74: an accepted prune of the oblivious sampler removes exactly the decision nodes with two leaves and their leaves, puts in place of each a leaf with the same rows, and the result is a rooted
binary tree whose leaves partition the training rows. -/
theorem C74_oblivious_prune [MathFns K] (hX : NoNan X) {t t' : Tree K n p} (ht : ReachableTree X t) {y : Fin n → K} (hy : HasTarget t y) {m : Params K}
    {pGrow pPrune : K} {r r' : Rand K} {mus : List TreeMutation} (hg : r.methods.head? = some .prune)
    (h : Oblivious.treeStep m pGrow pPrune t r = .ok (some mus, t', r')) :
    WellFormed t' ∧ (∀ a, ∃! i, InLeaf t' i a) ∧ HasTarget t' y ∧
    (∀ k ∈ t.nodes, k ∈ t'.nodes ↔ k ∉ t.prunableDecisionNodes ∧ ∀ i ∈ t.prunableDecisionNodes, ¬ IsChild t.heap i k) ∧
    (∀ i ∈ t.prunableDecisionNodes, ∃ U ∈ t'.leafNodes, U ∉ t.nodes ∧ ∀ a, InLeaf t' U a ↔ t.heap.inSample (t.heap.node i).split a = true) ∧
    (∀ k ∈ t'.nodes, k ∉ t.nodes → k ∈ t'.leafNodes) := by
  obtain ⟨y', s, hI⟩ := reachable_tree_inv hX ht
  obtain rfl := hI.target hy
  have hs := treeStep_spec hX hI m pGrow pPrune r
  rw [h] at hs
  obtain ⟨t1, me, e1, hx, hmv, hm⟩ := hs
  rw [hg] at e1
  injection e1 with e1
  subst e1
  cases hmv with
  | prune qs a b c =>
    obtain ⟨t'', s', g1, g2, g3, g4, g5⟩ := mutateAll_prune qs (hI.ext hx) (by rw [a]; exact (hI.nodes_nodup.filter _).filter _) b
      (fun q hq => ⟨(c q hq).sub, (c q hq).ready, by rw [hx.nodes]; exact (c q hq).fresh, (c q hq).lt⟩)
    rw [hm] at g1
    injection g1 with g1
    subst g1
    have hnew : ∀ q ∈ qs, q.U ∈ t'.leafNodes := by
      intro q hq
      unfold Tree.leafNodes
      rw [List.mem_filter]
      refine ⟨(g3 q.U).2 (.inr (List.mem_map_of_mem hq)), ?_⟩
      rw [(g5 q.U).1, (c q hq).leaf]; rfl
    refine ⟨g2.wellFormed, ?_, g2.hasTarget, ?_, ?_, ?_⟩
    · intro a
      obtain ⟨i, i1, -, i3, i4⟩ := g2.leaf_of_row (hX a)
      exact ⟨i, ⟨i1, i3⟩, fun j hj => i4 j hj.1 hj.2⟩
    · intro k hk
      have hkU : k ∉ qs.map PQuad.U := by
        intro hc
        obtain ⟨q, hq, rfl⟩ := List.mem_map.1 hc
        exact (c q hq).fresh hk
      have hch : ∀ q ∈ qs, ∀ k, IsChild t.heap q.i k ↔ k = q.l ∨ k = q.r := by
        intro q hq k
        have hlt : q.i < t.heap.nextNode := hI.lt _ ((c q hq).sub.ids_subset _ (by simp [Shape.ids]))
        obtain ⟨c1, c2, -⟩ := (c q hq).children
        rw [hx.heap.node _ hlt] at c1 c2
        unfold IsChild
        rw [c1, c2]
        simp [eq_comm]
      rw [g3, hx.nodes, ← a]
      constructor
      · rintro (⟨-, h2⟩ | h2)
        · refine ⟨fun hc => ?_, ?_⟩
          · obtain ⟨q, hq, rfl⟩ := List.mem_map.1 hc
            exact (h2 q hq).1 rfl
          · intro i hi
            obtain ⟨q, hq, rfl⟩ := List.mem_map.1 hi
            rw [hch q hq]
            have := h2 q hq
            tauto
        · exact absurd h2 hkU
      · rintro ⟨h1, h2⟩
        refine .inl ⟨hk, fun q hq => ?_⟩
        have h3 := h2 q.i (List.mem_map_of_mem hq)
        rw [hch q hq] at h3
        exact ⟨fun e => h1 (e ▸ List.mem_map_of_mem hq), fun e => h3 (.inl e), fun e => h3 (.inr e)⟩
    · intro i hi
      rw [← a] at hi
      obtain ⟨q, hq, rfl⟩ := List.mem_map.1 hi
      refine ⟨q.U, hnew q hq, (c q hq).fresh, fun a => ?_⟩
      have hids := (c q hq).sub.ids_subset q.i (by simp [Shape.ids])
      obtain ⟨qq, hk⟩ := hI.repr.nodeOk q.i hids
      have hrow := hx.heap.rowsOf (hI.lt _ hids) hk
      have e : t'.heap.inSample (t'.heap.node q.U).split a = rowsOf (t1.heap.dataOf q.i) a := by
        unfold Heap.inSample
        rw [g4, (g5 q.U).2, (c q hq).leaf]
        rfl
      unfold InLeaf
      rw [e, hrow]
      exact ⟨fun h => h.2, fun h => ⟨hnew q hq, h⟩⟩
    · intro k hk hn
      rw [g3, hx.nodes] at hk
      rcases hk with hk | hk
      · exact absurd hk.1 hn
      · obtain ⟨q, hq, rfl⟩ := List.mem_map.1 hk
        exact hnew q hq

/-- C74, the example: the prune of a tree with two decision nodes that have two leaves. -/
example : ∃ t, ReachableTree exXo t ∧ decide ((∀ i ∈ t.nodes, (t.heap.dataOf i).y.y = some exYo) ∧ t.prunableDecisionNodes.length = 2 ∧
    leafRows t = [[0], [1, 2], [3], [4, 5]] ∧ exStepo .prune 1 t = some [[0, 1, 2], [3, 4, 5]]) = true :=
  exReacho [.grow 0 0 (.fin 2), .grow 1 0 (.fin 0), .grow 2 0 (.fin 3)] _ (by decide +kernel)

/-! ### C75

Full statement: a step of the oblivious sampler never raises. It is false (`C75_refuted`): on a single leaf that cannot be split every grow raises AttributeError. -/

theorem TreeInv.single {y : Option (Fin n → K)} {t : Tree K n p} {s : Shape} (hI : TreeInv X y t s) {i : NodeId} (hi : t.nodes = [i]) :
    t.leafNodes = [i] ∧ (t.heap.node i).split.combined = CombinedCondition.init [] := by
  have hp := hI.perm
  rw [hi] at hp
  cases s with
  | leaf j =>
    have hij : i = j := by
      have := hp.mem_iff (a := i)
      simpa [Shape.ids] using this
    subst hij
    have hR := hI.repr
    refine ⟨?_, hR.2.2.2.2.combined⟩
    unfold Tree.leafNodes
    rw [hi]
    simp [hR.1]
  | node j l r =>
    have := hp.length_eq
    have h2 : 0 < l.ids.length := by cases l <;> simp [Shape.ids]
    simp only [Shape.ids, List.length_cons, List.length_append, List.length_nil] at this
    omega

/-- C75 is false. -/
theorem C75_refuted [MathFns K] (hX : NoNan X) {t : Tree K n p} (ht : ReachableTree X t) {y : Fin n → K} (hy : HasTarget t y) {i : NodeId} (hi : t.nodes = [i]) (hc : ¬ CanSplit X t i)
    (m : Params K) (pGrow pPrune : K) {r : Rand K} (hg : r.methods.head? = some .grow) : Oblivious.treeStep m pGrow pPrune t r = .error .attributeError := by
  obtain ⟨y', s, hI⟩ := reachable_tree_inv hX ht
  obtain rfl := hI.target hy
  have hin : i ∈ t.nodes := by rw [hi]; simp
  obtain ⟨q, hk⟩ := hI.repr.nodeOk i (hI.perm.mem_iff.1 hin)
  have hb : (t.heap.isSplittable i).1 = false := by
    rw [isSplittable_fst hI hin]
    rw [decide_eq_false_iff_not]
    exact fun h => hc ((canSplit_iff hX).2 h)
  obtain ⟨hl, hn⟩ : t.leafNodes = [i] ∧ (t.heap.node i).split.combined.mostRecentSplitCondition = none := by
    obtain ⟨e1, e2⟩ := hI.single hi
    exact ⟨e1, by rw [e2]; rfl⟩
  have hp := Oblivious.propose_spec hX hI r.picks r.methods
  cases hms : r.methods with
  | nil => rw [hms] at hg; cases hg
  | cons me ms =>
    rw [hms] at hg
    injection hg with hg
    subst hg
    rw [hms] at hp
    cases e1 : Oblivious.propose t r.picks (.grow :: ms) with
    | error e =>
      exfalso
      unfold Oblivious.propose Oblivious.sampleMethod at e1
      rw [hl] at e1
      have hleaf : (t.heap.node i).kind = .leaf := by
        have : i ∈ t.leafNodes := by rw [hl]; simp
        simpa using (List.mem_filter.1 this).2
      have hg2 : ∃ h' mus, growMutations [i] t.heap r.picks = (h', r.picks, .ok mus) := by
        unfold growMutations growMutations Oblivious.sampleSplitNode Tree.growMutation
        simp only [hb, Bool.false_eq_true, if_false]
        rw [if_neg (not_not.2 ?_)]
        · exact ⟨_, _, rfl⟩
        · have hlt := hI.mem_lt hin
          have e0 : (t.heap.isSplittable i).2.node = t.heap.node := rfl
          have e2 : (t.heap.isSplittable i).2.nextNode = t.heap.nextNode := rfl
          simp only [Heap.newDecision, Heap.newLeaf, Heap.allocNode, e0, e2]
          rw [Function.update_of_ne (by omega), Function.update_of_ne (by omega), Function.update_of_ne (by omega)]
          exact hleaf
      obtain ⟨h', mus, hg2⟩ := hg2
      simp only [hg2] at e1
      cases e1
    | ok q1 =>
      obtain ⟨mus, t1, us, ms'⟩ := q1
      rw [e1] at hp
      obtain ⟨hx, me, hme, hmv⟩ := hp
      injection hme with h1 h2
      subst h1
      cases hmv with
      | grow qs a b c =>
        rw [hl] at a
        obtain ⟨q', rfl, hq'⟩ : ∃ q', qs = [q'] ∧ q'.i = i := by
          cases qs with
          | nil => cases a
          | cons q' qs => cases qs with
            | nil => exact ⟨q', rfl, by simpa using a⟩
            | cons _ _ => simp at a
        subst hq'
        have hd := Built.dup_of hX hI hx.heap (c q' (by simp)) hc
        have hrec : t1.heap.mostRecentSplitCondition q'.D = .ok none := by
          unfold Heap.mostRecentSplitCondition
          rw [hd.nodeD]
          simp only [decRec]
          rw [hd.nodeL]
          simp only [leafRec]
          rw [hx.heap.node _ (hI.mem_lt hin), hn]
        unfold Oblivious.treeStep Oblivious.treeSample
        rw [hms, e1]
        simp only [List.map_cons, List.map_nil, sumRatios, logProbabilityRatio, logTransitionRatio, Quad.mu, logSplitWithinNode, hrec]

/-- C75 (partial): with nonzero probabilities every other step succeeds, given enough draws. Missing: the case of `C75_refuted`. -/
theorem C75_no_error_partial [MathFns K] (hX : NoNan X) {t : Tree K n p} (ht : ReachableTree X t) {y : Fin n → K} (hy : HasTarget t y) (m : Params K) {pGrow pPrune : K}
    (h1 : pGrow ≠ 0) (h2 : pPrune ≠ 0) {r : Rand K} (hc : r.methods.head? = some .prune ∨ 1 < t.nodes.length ∨ ∃ i ∈ t.leafNodes, CanSplit X t i) {e : PyErr}
    (h : Oblivious.treeStep m pGrow pPrune t r = .error e) : e = .outOfDraws := by
  obtain ⟨y', s, hI⟩ := reachable_tree_inv hX ht
  obtain rfl := hI.target hy
  have hs := treeStep_spec hX hI m pGrow pPrune r
  rw [h] at hs
  rcases hs with hs | ⟨-, hs | hs⟩ | ⟨-, hg, i, hi, hn⟩
  · exact hs
  · exact absurd hs h1
  · exact absurd hs h2
  · exfalso
    rcases hc with hc | hc | ⟨k, hk, hc⟩
    · rw [hg] at hc; cases hc
    · rw [hi] at hc; simp at hc
    · have : k ∈ t.nodes := (List.mem_filter.1 hk).1
      rw [hi] at this
      obtain rfl := List.mem_singleton.1 this
      obtain ⟨j, hj⟩ := (canSplit_iff hX).1 hc
      rw [hn j] at hj
      cases hj

/-- C75, the examples: a new tree on three rows whose last two agree (the first row is not looked at), and a tree with a leaf that can be split. -/
example : NoNan (exX3 (.fin 1 : Fl ℚ) (.fin 2) (.fin 2)) ∧ (Tree.ofData (exData (exX3 (.fin 1) (.fin 2) (.fin 2)) exY)).nodes = [0] ∧
    (column (exX3 (.fin 1 : Fl ℚ) (.fin 2) (.fin 2)) (rowsOf ((Tree.ofData (exData (exX3 (.fin 1) (.fin 2) (.fin 2)) exY)).heap.dataOf 0)) 0).tail = [.fin 2, .fin 2] ∧
    (match Oblivious.treeStep ⟨1/10, -1, 1/10, 1, 1/10⟩ (1/2) (1/2) (Tree.ofData (exData (exX3 (.fin 1 : Fl ℚ) (.fin 2) (.fin 2)) exY)) ⟨[.grow], [], [0], [], []⟩ with
      | .error e => decide (e = .attributeError)
      | .ok _ => false) = true :=
  ⟨by unfold NoNan; decide +kernel, rfl, by decide +kernel, by decide +kernel⟩

example : ∃ t, ReachableTree exXo t ∧ decide (t.nodes.length = 3 ∧ (exStepo .grow (1/10) t).isSome) = true := exReacho [.grow 0 0 (.fin 2)] _ (by decide +kernel)

/-! ### C76 -/

/-- C76: a rejected step of the oblivious sampler leaves every node of the tree and its rows, target and prediction as they were; so does a prune of a tree with nothing to prune. -/
theorem C76_oblivious_reject [MathFns K] (hX : NoNan X) {t t' : Tree K n p} (ht : ReachableTree X t) {y : Fin n → K} (hy : HasTarget t y) {m : Params K}
    {pGrow pPrune : K} {r r' : Rand K} {res : Option (List TreeMutation)} (h : Oblivious.treeStep m pGrow pPrune t r = .ok (res, t', r'))
    (hr : res = none ∨ (r.methods.head? = some .prune ∧ t.prunableDecisionNodes = [])) :
    t'.nodes = t.nodes ∧ HasTarget t' y ∧ t'.prediction = t.prediction ∧ t'.cacheUpToDate = t.cacheUpToDate ∧
    ∀ i ∈ t.nodes, t'.heap.node i = t.heap.node i ∧ ∀ a, t'.heap.inSample (t'.heap.node i).split a = t.heap.inSample (t.heap.node i).split a := by
  obtain ⟨y', s, hI⟩ := reachable_tree_inv hX ht
  obtain rfl := hI.target hy
  have hs := treeStep_spec hX hI m pGrow pPrune r
  rw [h] at hs
  have hx : TreeExt t t' := by
    rcases hr with rfl | ⟨hg, hp⟩
    · exact hs
    · cases res with
      | none => exact hs
      | some mus =>
        obtain ⟨t1, me, e1, hx, hmv, hm⟩ := hs
        rw [hg] at e1
        injection e1 with e1
        subst e1
        cases hmv with
        | prune qs a b c =>
          rw [hp] at a
          rw [List.map_eq_nil_iff.1 a] at hm
          simp only [List.map_nil, mutateAll, Except.ok.injEq] at hm
          exact hm ▸ hx
  refine ⟨hx.nodes, (hI.ext hx).hasTarget, hx.pred, hx.cache, fun i hi => ⟨hx.heap.node i (hI.mem_lt hi), ?_⟩⟩
  obtain ⟨q, hk⟩ := hI.repr.nodeOk i (hI.perm.mem_iff.1 hi)
  have hrow := hx.heap.rowsOf (hI.mem_lt hi) hk
  intro a
  exact congrFun hrow a

/-- C76, the examples: a rejected grow, and a prune of a tree with nothing to prune. -/
example : ∃ t, ReachableTree exXo t ∧ (match Oblivious.treeStep ⟨1/2, -1, 1/10, 1, 1/10⟩ (1/2) (1/2) t ⟨[.grow], [0, 0, 0, 0, 0, 0], [0], [], []⟩ with
      | .ok (res, t', _) => decide (res = none ∧ t'.nodes = t.nodes ∧ leafRows t' = [[0, 1, 2], [3, 4, 5]])
      | .error _ => false) = true := exReacho [.grow 0 0 (.fin 2)] _ (by decide +kernel)

example : ∃ t, ReachableTree exXo t ∧ decide (t.prunableDecisionNodes = [] ∧ (match Oblivious.treeStep ⟨1/2, -1, 1/10, 1, 1/10⟩ (1/2) (1/2) t ⟨[.prune], [], [-1], [], []⟩ with
      | .ok (res, t', _) => decide (res = some [] ∧ leafRows t' = [[0, 1, 2, 3, 4, 5]])
      | .error _ => false) = true) = true := exReacho [] _ (by decide +kernel)

end Bart
