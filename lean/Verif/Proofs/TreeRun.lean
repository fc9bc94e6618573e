import Verif.Spec.TreeHistory
import Verif.Proofs.TreeOps

/-! The tree invariant holds after every history. -/

set_option linter.unusedSectionVars false

namespace Bart
open Spec
variable {K : Type} [Field K] [LinearOrder K] {n p : Nat}

/-! ### a fresh tree -/

theorem fresh_inv {X : Fin n → Fin p → Fl K} {d0 : Data K n p} (hd : DataInv d0) (hX : d0.X.X = X)
    (hm : ∀ r, d0.mask r = false) : TreeInv X d0.y.y (Tree.ofData d0) (.leaf 0) := by
  refine ⟨⟨rfl, rfl, rfl, rfl, ⟨by simp [Tree.ofData], rfl, hd, hX, ?_, rfl⟩⟩, by simp [Tree.ofData, Shape.ids],
    by simp [Shape.ids], by simp [Shape.ids, Tree.ofData]⟩
  intro r
  simp [rowsOf, Tree.ofData, Heap.dataOf, hm]

/-! ### proposals -/

theorem leCond_gtCond_pair (j : Fin p) {v : Fl K} (hv : v ≠ .nan) : SplitPair (leCond j v) (gtCond j v) :=
  ⟨rfl, rfl, hv, rfl, rfl⟩

/-- Building a grow: the new decision node stands ready to replace the leaf. -/
theorem splitNode_ready {X : Fin n → Fin p → Fl K} {y : Fin n → K} {h : Heap K n p} {i : NodeId} {j : Fin p} {v : Fl K}
    (hR : ∃ path d, Repr X (some y) h (.leaf i) path d) (hi : i < h.nextNode) (hX : ∀ r, X r j ≠ .nan) (hv : v ≠ .nan) :
    ∃ h', h.splitNode i (leCond j v) (gtCond j v) = .ok (h.nextNode + 2, h') ∧ HeapExt h h' ∧
      h'.nextNode = h.nextNode + 3 ∧
      Ready X (some y) h' (.leaf i) (.node (h.nextNode + 2) (.leaf h.nextNode) (.leaf (h.nextNode + 1))) ∧
      (h'.node h.nextNode).value = 0 ∧ (h'.node (h.nextNode + 1)).value = 0 ∧
      rule h' (h.nextNode + 2) = some (j, v) ∧
      (h'.node (h.nextNode + 2)).split = (h.node i).split ∧
      (∃ path, NodeOk X (some y) h i path ∧ ∃ cr, SplitPair (leCond j v) cr ∧
        NodeOk X (some y) h' h.nextNode (path ++ [leCond j v]) ∧ NodeOk X (some y) h' (h.nextNode + 1) (path ++ [cr])) := by
  obtain ⟨path, d, r1, r2, r3, r4, hk⟩ := hR
  obtain ⟨h', cr, e1, hp, he, hn, nL, nR, nD, okL, okR, -, -⟩ :=
    splitNode_spec hk (leCond_gtCond_pair j hv) hX rfl rfl
  refine ⟨h', e1, he, hn, ⟨path, d, ?_, ?_⟩, by rw [nL]; rfl, by rw [nR]; rfl, ?_, by rw [nD]; rfl,
    path, hk, cr, hp, okL, okR⟩
  · exact he.repr (s := .leaf i) (by simpa [Shape.ids] using hi) ⟨r1, r2, r3, r4, hk⟩
  · have okD : NodeOk X (some y) h' (h.nextNode + 2) path :=
      (he.nodeOk hi hk).of_eq (by rw [nD, he.node i hi]; rfl) rfl rfl
    refine ⟨by rw [nD]; rfl, by rw [nD]; rfl, by rw [nD]; rfl, by rw [nD]; exact r4, okD, leCond j v, cr, hp, ?_, ?_⟩
    · exact ⟨by rw [nL]; rfl, by rw [nL]; rfl, by rw [nL]; rfl, by rw [nL, ← r4]; rfl, okL⟩
    · exact ⟨by rw [nR]; rfl, by rw [nR]; rfl, by rw [nR]; rfl, by rw [nR, ← r4]; rfl, okR⟩
  · unfold rule
    rw [nD]
    simp only [decRec]
    rw [nL]
    simp [leafRec, CombinedCondition.init, leCond]

/-- Building a prune. -/
theorem newLeaf_ready {X : Fin n → Fin p → Fl K} {y : Option (Fin n → K)} {h : Heap K n p} {i : NodeId} {old : Shape}
    (hR : ∃ path d, Repr X y h old path d) (hor : old.root = i) (hi : ∀ j ∈ old.ids, j < h.nextNode) :
    HeapExt h (h.newLeaf (h.node i).split (h.node i).depth).2 ∧
    Ready X y (h.newLeaf (h.node i).split (h.node i).depth).2 old (.leaf h.nextNode) := by
  have he : HeapExt h (h.newLeaf (h.node i).split (h.node i).depth).2 := HeapExt.allocNode h _
  obtain ⟨path, d, hR⟩ := hR
  have hroot : NodeOk X y h i path ∧ (h.node i).depth = d := by
    subst hor
    cases old with
    | leaf k => exact ⟨hR.2.2.2.2, hR.2.2.2.1⟩
    | node k l r => exact ⟨hR.2.2.2.2.1, hR.2.2.2.1⟩
  refine ⟨he, path, d, he.repr hi hR, ?_⟩
  have hnode : (h.newLeaf (h.node i).split (h.node i).depth).2.node h.nextNode = leafRec (h.node i).depth (h.node i).split := by
    simp [Heap.newLeaf, Heap.allocNode, leafRec]
  refine ⟨by rw [hnode]; rfl, by rw [hnode]; rfl, by rw [hnode]; rfl, by rw [hnode]; exact hroot.2, ?_⟩
  exact hroot.1.of_eq (by rw [hnode]; rfl) rfl rfl

/-! ### update_y -/

/-- Only targets of data objects changed, to `y`. -/
structure YUpd (y : Option (Fin n → K)) (h h' : Heap K n p) : Prop where
  node : h'.node = h.node
  nextNode : h'.nextNode = h.nextNode
  nextData : h'.nextData = h.nextData
  data : ∀ k, h'.data k = h.data k ∨ h'.data k = (h.data k).updateY y

theorem Data.updateY_updateY (d : Data K n p) (y : Option (Fin n → K)) : (d.updateY y).updateY y = d.updateY y := rfl

theorem YUpd.refl (y : Option (Fin n → K)) (h : Heap K n p) : YUpd y h h := ⟨rfl, rfl, rfl, fun _ => Or.inl rfl⟩

theorem YUpd.trans {y : Option (Fin n → K)} {a b c : Heap K n p} (h1 : YUpd y a b) (h2 : YUpd y b c) : YUpd y a c := by
  refine ⟨h2.node.trans h1.node, h2.nextNode.trans h1.nextNode, h2.nextData.trans h1.nextData, fun k => ?_⟩
  rcases h1.data k with e1 | e1 <;> rcases h2.data k with e2 | e2 <;> rw [e2, e1]
  · exact Or.inl rfl
  · exact Or.inr rfl
  · exact Or.inr rfl
  · exact Or.inr rfl

/-- Data that already carries the new target keeps it. -/
theorem YUpd.keep {y : Option (Fin n → K)} {a b c : Heap K n p} (h2 : YUpd y b c) {k : DataId}
    (e : b.data k = (a.data k).updateY y) : c.data k = (a.data k).updateY y := by
  rcases h2.data k with e2 | e2 <;> rw [e2, e]
  exact Data.updateY_updateY _ _

def Shape.height : Shape → Nat
  | .leaf _ => 1
  | .node _ l r => max l.height r.height + 1

theorem Shape.height_le (s : Shape) : s.height ≤ s.ids.length := by
  induction s with
  | leaf i => simp [height, ids]
  | node i l r ihl ihr =>
    simp only [height, ids, List.length_cons, List.length_append]
    omega

theorem nodeUpdateY_ok {X : Fin n → Fin p → Fl K} {y0 : Option (Fin n → K)} (y : Option (Fin n → K)) {h0 : Heap K n p} {s : Shape} :
    ∀ {path : List (SplitCondition K p)} {d fuel : Nat} {h : Heap K n p}, Repr X y0 h0 s path d → h.node = h0.node → s.height ≤ fuel →
    ∃ h', h.nodeUpdateY y fuel s.root = .ok h' ∧ YUpd y h h' ∧ ∀ i ∈ s.ids, h'.dataOf i = (h.dataOf i).updateY y := by
  have one : ∀ (h : Heap K n p) (i : NodeId), YUpd y h (h.setDataOf i ((h.dataOf i).updateY y)) ∧
      (h.setDataOf i ((h.dataOf i).updateY y)).dataOf i = (h.dataOf i).updateY y := by
    intro h i
    refine ⟨⟨rfl, rfl, rfl, fun k => ?_⟩, by simp [Heap.dataOf, Heap.setDataOf, Heap.setData]⟩
    by_cases hk : k = (h.node i).split.data
    · right; subst hk; simp [Heap.setDataOf, Heap.setData, Heap.dataOf]
    · left; simp [Heap.setDataOf, Heap.setData, hk]
  induction s with
  | leaf i =>
    intro path d fuel h hR hn hf
    cases fuel with
    | zero => simp [Shape.height] at hf
    | succ fuel =>
      obtain ⟨u1, u2⟩ := one h i
      refine ⟨_, ?_, u1, by simpa [Shape.ids] using u2⟩
      simp only [Shape.root]
      unfold Heap.nodeUpdateY
      have : ((h.setDataOf i ((h.dataOf i).updateY y)).node i).left = none := by
        simp [Heap.setDataOf, Heap.setData, hn, hR.2.1]
      simp [this]
  | node i l r ihl ihr =>
    intro path d fuel h hR hn hf
    obtain ⟨r1, r2, r3, r4, r5, cl, cr, hp, hl, hr⟩ := hR
    cases fuel with
    | zero => simp [Shape.height] at hf
    | succ fuel =>
      simp only [Shape.height] at hf
      obtain ⟨u1, u2⟩ := one h i
      obtain ⟨h2, e2, v1, v2⟩ := ihl (fuel := fuel) (h := h.setDataOf i ((h.dataOf i).updateY y)) hl (u1.node.trans hn) (by omega)
      obtain ⟨h3, e3, w1, w2⟩ := ihr (fuel := fuel) (h := h2) hr (v1.node.trans (u1.node.trans hn)) (by omega)
      have hdat : ∀ {a b : Heap K n p}, YUpd y a b → ∀ k, (b.dataOf k) = b.data (a.node k).split.data := by
        intro a b hab k; simp [Heap.dataOf, hab.node]
      refine ⟨h3, ?_, (u1.trans v1).trans w1, ?_⟩
      · simp only [Shape.root]
        unfold Heap.nodeUpdateY
        have q1 : ((h.setDataOf i ((h.dataOf i).updateY y)).node i).left = some l.root := by
          rw [u1.node, hn, r2]
        have q2 : (h2.node i).right = some r.root := by rw [v1.node, u1.node, hn, r3]
        simp only [q1, e2, q2, e3]
      · intro k hk
        simp only [Shape.ids, List.mem_cons, List.mem_append] at hk
        have uv := u1.trans v1
        rw [hdat (uv.trans w1) k]
        show h3.data (h.node k).split.data = (h.data (h.node k).split.data).updateY y
        rcases hk with rfl | hk | hk
        · exact (v1.trans w1).keep (a := h) (by rw [hdat u1] at u2; exact u2)
        · have := v2 k hk
          rw [hdat v1, u1.node] at this
          refine w1.keep (a := h) ?_
          rw [this]
          show ((h.setDataOf i ((h.dataOf i).updateY y)).data ((h.setDataOf i ((h.dataOf i).updateY y)).node k).split.data).updateY y = _
          rw [u1.node]
          rcases u1.data (h.node k).split.data with e | e <;> rw [e]
          exact Data.updateY_updateY _ _
        · have := w2 k hk
          rw [hdat w1, uv.node] at this
          rw [this]
          show (h2.data (h2.node k).split.data).updateY y = _
          rw [uv.node]
          rcases uv.data (h.node k).split.data with e | e <;> rw [e]
          exact Data.updateY_updateY _ _

theorem updateNodes_ok {X : Fin n → Fin p → Fl K} {y0 : Option (Fin n → K)} (y : Option (Fin n → K)) {h0 : Heap K n p} {s : Shape}
    {path : List (SplitCondition K p)} {d fuel : Nat} (hR : Repr X y0 h0 s path d) (hf : s.height ≤ fuel) :
    ∀ (ns : List NodeId) {h : Heap K n p}, (∀ i ∈ ns, i ∈ s.ids) → h.node = h0.node →
    ∃ h', Tree.updateNodes y fuel ns h = .ok h' ∧ YUpd y h h' ∧ ∀ i ∈ ns, h'.dataOf i = (h.dataOf i).updateY y := by
  intro ns
  induction ns with
  | nil => intro h _ _; exact ⟨h, rfl, YUpd.refl _ _, by simp⟩
  | cons i ns ih =>
    intro h hns hn
    obtain ⟨u, hu, hur⟩ := Shape.exists_sub (hns i (by simp))
    obtain ⟨q, d', hRu⟩ := hR.sub hu
    have hfu : u.height ≤ fuel := by
      refine le_trans ?_ hf
      clear hR hf hns hRu hur ih
      induction s with
      | leaf k => simp only [Shape.Sub] at hu; subst hu; exact le_refl _
      | node k l r ihl ihr =>
        rcases hu with rfl | hu | hu
        · exact le_refl _
        · have := ihl hu; simp only [Shape.height]; omega
        · have := ihr hu; simp only [Shape.height]; omega
    obtain ⟨h1, e1, u1, u2⟩ := nodeUpdateY_ok y (h := h) hRu hn hfu
    obtain ⟨h2, e2, v1, v2⟩ := ih (h := h1) (fun k hk => hns k (by simp [hk])) (u1.node.trans hn)
    refine ⟨h2, ?_, u1.trans v1, ?_⟩
    · unfold Tree.updateNodes
      rw [hur] at e1
      rw [e1]; exact e2
    · intro k hk
      have a2 : h2.dataOf k = h2.data (h.node k).split.data := by simp [Heap.dataOf, v1.node, u1.node]
      have a1 : h1.dataOf k = h1.data (h.node k).split.data := by simp [Heap.dataOf, u1.node]
      rw [a2]
      rcases List.mem_cons.1 hk with rfl | hk
      · have := u2 k (hur ▸ u.root_mem)
        rw [a1] at this
        exact v1.keep (a := h) this
      · have := v2 k hk
        rw [a2, a1] at this
        rw [this]
        show _ = (h.data (h.node k).split.data).updateY y
        rcases u1.data (h.node k).split.data with e | e <;> rw [e]
        exact Data.updateY_updateY _ _

theorem ids_length_le {s : Shape} {N : Nat} (hn : s.ids.Nodup) (hlt : ∀ i ∈ s.ids, i < N) : s.ids.length ≤ N := by
  have : s.ids ⊆ List.range N := fun i hi => List.mem_range.2 (hlt i hi)
  have := (List.subperm_of_subset hn this).length_le
  simpa using this

/-- `update_y` succeeds and only changes the targets. -/
theorem updateY_spec {X : Fin n → Fin p → Fl K} {y0 : Option (Fin n → K)} {t : Tree K n p} {s : Shape}
    (hI : TreeInv X y0 t s) (y : Option (Fin n → K)) :
    ∃ t', t.updateY y = .ok t' ∧ TreeInv X y t' s ∧ t'.nodes = t.nodes ∧ t'.cacheUpToDate = false ∧
      t'.prediction = t.prediction ∧ YUpd y t.heap t'.heap ∧
      ∀ i ∈ t.nodes, t'.heap.dataOf i = (t.heap.dataOf i).updateY y := by
  have hf : s.height ≤ t.heap.nextNode + 1 :=
    le_trans s.height_le (le_trans (ids_length_le hI.nodup hI.lt) (Nat.le_succ _))
  obtain ⟨h', e, u1, u2⟩ := updateNodes_ok y hI.repr hf t.nodes (h := t.heap) (fun i hi => hI.perm.mem_iff.1 hi) rfl
  refine ⟨{ t with heap := h', cacheUpToDate := false }, by unfold Tree.updateY; rw [e], ⟨?_, hI.perm, hI.nodup, ?_⟩, rfl, rfl, rfl, u1, u2⟩
  · refine hI.repr.congr (fun i _ => by simp only [u1.node]; exact SameNode.refl _) (fun i hi => ?_) (fun i hi => ?_)
    · obtain ⟨q, hk⟩ := hI.repr.nodeOk i hi
      simp only [u1.nextData]; exact hk.data_lt
    · obtain ⟨q, hk⟩ := hI.repr.nodeOk i hi
      have := u2 i (hI.perm.mem_iff.2 hi)
      simp only [this]
      exact ⟨Data.updateY_inv hk.inv y, rfl, rfl, rfl⟩
  · intro i hi; simp only [u1.nextNode]; exact hI.lt i hi

/-! ### queries and leaf values -/

theorem isSplittable_ext {h : Heap K n p} {i : NodeId} (hi : DataInv (h.dataOf i)) : HeapExt h (h.isSplittable i).2 := by
  obtain ⟨h1, h2, h3⟩ := CovariateMatrix.isAtLeastOneSplittable_spec hi.X
  obtain ⟨s1, s2⟩ := Data.withX_spec hi h2 h3
  exact HeapExt.setData s1 (fun _ => s2)

theorem filterSplittable_spec {X : Fin n → Fin p → Fl K} {y : Option (Fin n → K)} :
    ∀ (l : List NodeId) {h : Heap K n p}, (∀ i ∈ l, i < h.nextNode ∧ ∃ path, NodeOk X y h i path) →
    HeapExt h (Tree.filterSplittable l h).2 ∧
    (Tree.filterSplittable l h).1 = l.filter (fun i => decide (∃ j, isNotConstant (column X (rowsOf (h.dataOf i)) j) = true)) := by
  intro l
  induction l with
  | nil => intro h _; exact ⟨HeapExt.refl h, rfl⟩
  | cons i l ih =>
    intro h hl
    obtain ⟨hi, path, hk⟩ := hl i (by simp)
    obtain ⟨h1, h2, h3⟩ := CovariateMatrix.isAtLeastOneSplittable_spec hk.inv.X
    have he := isSplittable_ext hk.inv
    have := ih (h := (h.isSplittable i).2) (fun j hj => by
      obtain ⟨a, q, b⟩ := hl j (by simp [hj])
      exact ⟨a.trans_le he.nextNode, q, he.nodeOk a b⟩)
    obtain ⟨e1, e2⟩ := this
    refine ⟨he.trans e1, ?_⟩
    unfold Tree.filterSplittable
    simp only [e2]
    have hb : (h.isSplittable i).1 = decide (∃ j, isNotConstant (column X (rowsOf (h.dataOf i)) j) = true) := by
      unfold Heap.isSplittable
      simp only [h1]
      have hcol : ∀ j, (h.dataOf i).X.col j = column X (rowsOf (h.dataOf i)) j := by
        intro j
        have e : inRows (h.dataOf i).mask = rowsOf (h.dataOf i) := rfl
        simp [CovariateMatrix.col, hk.inv.maskX, hk.hX, e]
      rw [decide_eq_decide]
      unfold CovariateMatrix.refSplittable
      simp only [hcol]
      rw [ne_eq, List.filter_eq_nil_iff]
      simp
    have hrest : l.filter (fun k => decide (∃ j, isNotConstant (column X (rowsOf ((h.isSplittable i).2.dataOf k)) j) = true))
        = l.filter (fun k => decide (∃ j, isNotConstant (column X (rowsOf (h.dataOf k)) j) = true)) := by
      apply List.filter_congr
      intro k hk'
      obtain ⟨a, q, b⟩ := hl k (by simp [hk'])
      have c := he.nodeOk a b
      have : rowsOf ((h.isSplittable i).2.dataOf k) = rowsOf (h.dataOf k) := by
        funext r; rw [c.rows, b.rows]
      rw [this]
    rw [hrest, hb]
    by_cases hc : ∃ j, isNotConstant (column X (rowsOf (h.dataOf i)) j) = true
    · simp [hc]
    · simp [hc]

theorem setValue_inv {X : Fin n → Fin p → Fl K} {y : Option (Fin n → K)} {t : Tree K n p} {s : Shape}
    (hI : TreeInv X y t s) (i : NodeId) (v : K) : TreeInv X y { t with heap := t.heap.setValue i v } s := by
  have hsame : ∀ j, SameNode (t.heap.node j) ((t.heap.setValue i v).node j) := by
    intro j
    by_cases hj : j = i
    · subst hj; simp [Heap.setValue, Heap.setNode]; exact ⟨rfl, rfl, rfl, rfl, rfl⟩
    · simp [Heap.setValue, Heap.setNode, hj]; exact SameNode.refl _
  refine ⟨hI.repr.congr (fun j _ => hsame j) (fun j hj => ?_) (fun j hj => ?_), hI.perm, hI.nodup, hI.lt⟩
  · obtain ⟨q, hk⟩ := hI.repr.nodeOk j hj; exact hk.data_lt
  · obtain ⟨q, hk⟩ := hI.repr.nodeOk j hj
    have e : (t.heap.setValue i v).dataOf j = t.heap.dataOf j := by
      unfold Heap.dataOf; rw [(hsame j).split]; rfl
    rw [e]; exact ⟨hk.inv, rfl, rfl, hk.y⟩

end Bart
