import Verif.Proofs.Shape
import Mathlib.Data.List.Nodup

/-! Effect of the tree operations on the tree invariant. -/

set_option linter.unusedSectionVars false

namespace Bart
open Spec
variable {K : Type} [Field K] [LinearOrder K] {n p : Nat}

/-! ### relinking -/

/-- A node after relinking. -/
def relinkRec (m : TreeMutation) (nd : Node K p) : Node K p :=
  { nd with
    left := if nd.left = some m.existing then some m.updated else nd.left
    right := if nd.right = some m.existing then some m.updated else nd.right }

theorem relinkNode_eq (h : Heap K n p) (m : TreeMutation) (i : NodeId) :
    Tree.relinkNode h m i = { h with node := Function.update h.node i (relinkRec m (h.node i)) } := by
  unfold Tree.relinkNode
  have hid : ∀ (g : NodeId → Node K p) (a : Node K p), g i = a → Function.update g i a = g := by
    intro g a e; rw [← e]; exact Function.update_eq_self i g
  by_cases h1 : (h.node i).right = some m.existing
  · by_cases h2 : (h.node i).left = some m.existing
    · simp [h1, h2, Heap.setNode, relinkRec]
    · simp [h1, h2, Heap.setNode, relinkRec]
  · by_cases h2 : (h.node i).left = some m.existing
    · simp [h1, h2, Heap.setNode, relinkRec]
    · simp only [h1, h2, if_false, relinkRec]
      rw [hid _ _ rfl]

theorem relink_foldl (m : TreeMutation) : ∀ (ns : List NodeId) (h : Heap K n p), ns.Nodup →
    (ns.foldl (fun h i => Tree.relinkNode h m i) h) =
      { h with node := fun j => if j ∈ ns then relinkRec m (h.node j) else h.node j } := by
  intro ns
  induction ns with
  | nil => intro h _; simp
  | cons a ns ih =>
    intro h hn
    rw [List.nodup_cons] at hn
    rw [List.foldl_cons, ih _ hn.2, relinkNode_eq]
    simp only [Heap.mk.injEq, and_true, true_and]
    funext j
    by_cases hj : j = a
    · subst hj; simp [hn.1]
    · simp [hj]

/-! ### uniqueness of path and depth -/

theorem init_injective {a b : List (SplitCondition K p)} (h : CombinedCondition.init a = CombinedCondition.init b) : a = b :=
  congrArg CombinedCondition.conditions h

theorem Repr.unique {X X' : Fin n → Fin p → Fl K} {y y' : Option (Fin n → K)} {h : Heap K n p} {s s' : Shape}
    {p1 p2 : List (SplitCondition K p)} {d1 d2 : Nat} (h1 : Repr X y h s p1 d1) (h2 : Repr X' y' h s' p2 d2)
    (hr : s.root = s'.root) : p1 = p2 ∧ d1 = d2 := by
  have key : ∀ {X : Fin n → Fin p → Fl K} {y : Option (Fin n → K)} {s : Shape} {p1 : List (SplitCondition K p)} {d1 : Nat},
      Repr X y h s p1 d1 →
      (h.node s.root).split.combined = CombinedCondition.init p1 ∧ (h.node s.root).depth = d1 := by
    intro X y s p1 d1 hR
    cases s with
    | leaf i => exact ⟨hR.2.2.2.2.combined, hR.2.2.2.1⟩
    | node i l r => exact ⟨hR.2.2.2.2.1.combined, hR.2.2.2.1⟩
  obtain ⟨a1, a2⟩ := key h1
  obtain ⟨b1, b2⟩ := key h2
  rw [hr] at a1 a2
  exact ⟨init_injective (a1.symm.trans b1), a2.symm.trans b2⟩

/-- The node kind determines the outermost constructor. -/
theorem Repr.eq_leaf {X : Fin n → Fin p → Fl K} {y : Option (Fin n → K)} {h : Heap K n p} {s : Shape}
    {path : List (SplitCondition K p)} {d : Nat} (hR : Repr X y h s path d) (hk : (h.node s.root).kind = .leaf) :
    s = .leaf s.root := by
  cases s with
  | leaf i => rfl
  | node i l r => have := hR.1; simp [Shape.root] at hk; rw [this] at hk; cases hk

theorem Repr.leaf_iff {X : Fin n → Fin p → Fl K} {y : Option (Fin n → K)} {h : Heap K n p} {s : Shape} :
    ∀ {path : List (SplitCondition K p)} {d : Nat}, Repr X y h s path d → s.ids.Nodup →
    ∀ i ∈ s.ids, ((h.node i).kind = .leaf ↔ i ∈ s.leaves) ∧ ((h.node i).kind = .decision ↔ i ∈ s.decisions) := by
  induction s with
  | leaf j =>
    intro path d hR _ i hi
    simp [Shape.ids] at hi; subst hi
    simp [Shape.leaves, Shape.decisions, hR.1]
  | node j l r ihl ihr =>
    intro path d hR hn i hi
    obtain ⟨r1, r2, r3, r4, r5, cl, cr, hp, hl, hr⟩ := hR
    simp only [Shape.ids, List.nodup_cons, List.mem_append, not_or, List.nodup_append] at hn
    obtain ⟨⟨hjl, hjr⟩, hln, hrn, hdis⟩ := hn
    simp only [Shape.ids, List.mem_cons, List.mem_append] at hi
    rcases hi with rfl | hi | hi
    · have n1 : i ∉ l.leaves := fun hc => hjl (l.leaves_subset hc)
      have n2 : i ∉ r.leaves := fun hc => hjr (r.leaves_subset hc)
      simp [Shape.leaves, Shape.decisions, r1, n1, n2]
    · have n2 : i ∉ r.leaves := fun hc => hdis _ hi _ (r.leaves_subset hc) rfl
      have n3 : i ∉ r.decisions := fun hc => hdis _ hi _ (r.decisions_subset hc) rfl
      have n4 : i ≠ j := by rintro rfl; exact hjl hi
      have := ihl hl hln i hi
      simp [Shape.leaves, Shape.decisions, n2, n3, n4, this]
    · have n2 : i ∉ l.leaves := fun hc => hdis _ (l.leaves_subset hc) _ hi rfl
      have n3 : i ∉ l.decisions := fun hc => hdis _ (l.decisions_subset hc) _ hi rfl
      have n4 : i ≠ j := by rintro rfl; exact hjr hi
      have := ihr hr hrn i hi
      simp [Shape.leaves, Shape.decisions, n2, n3, n4, this]

/-! ### replacing a subtree -/

theorem Shape.root_replace (s : Shape) (i : NodeId) (s' : Shape) :
    (s.replace i s').root = if s.root = i then s'.root else s.root := by
  cases s with
  | leaf j => by_cases h : j = i <;> simp [Shape.replace, Shape.root, h]
  | node j l r => by_cases h : j = i <;> simp [Shape.replace, Shape.root, h]

theorem NodeOk.of_eq {X : Fin n → Fin p → Fl K} {y : Option (Fin n → K)} {h h' : Heap K n p} {i j : NodeId}
    {path : List (SplitCondition K p)} (hk : NodeOk X y h i path) (hs : (h'.node j).split = (h.node i).split)
    (hd : h'.data = h.data) (hn : h'.nextData = h.nextData) : NodeOk X y h' j path := by
  have e : h'.dataOf j = h.dataOf i := by simp [Heap.dataOf, hs, hd]
  exact ⟨by rw [hs, hn]; exact hk.data_lt, by rw [hs]; exact hk.combined, by rw [e]; exact hk.inv,
    by rw [e]; exact hk.hX, by intro r; rw [e]; exact hk.rows r, by rw [e]; exact hk.y⟩

/-- Relinking does nothing to a shape that does not contain the replaced node. -/
theorem Repr.relink_id {X : Fin n → Fin p → Fl K} {y : Option (Fin n → K)} {h : Heap K n p} {m : TreeMutation} {s : Shape} :
    ∀ {path : List (SplitCondition K p)} {d : Nat}, Repr X y h s path d → m.existing ∉ s.ids →
    ∀ j ∈ s.ids, relinkRec m (h.node j) = h.node j := by
  induction s with
  | leaf i =>
    intro path d hR _ j hj
    simp [Shape.ids] at hj; subst hj
    simp [relinkRec, hR.2.1, hR.2.2.1]
    cases hnode : h.node j
    have := hR.2.1; have := hR.2.2.1
    simp_all
  | node i l r ihl ihr =>
    intro path d hR hm j hj
    obtain ⟨r1, r2, r3, r4, r5, cl, cr, hp, hl, hr⟩ := hR
    simp only [Shape.ids, List.mem_cons, List.mem_append, not_or] at hm hj
    rcases hj with rfl | hj | hj
    · have a1 : l.root ≠ m.existing := by intro e; exact hm.2.1 (e ▸ l.root_mem)
      have a2 : r.root ≠ m.existing := by intro e; exact hm.2.2 (e ▸ r.root_mem)
      cases hnode : h.node j
      rw [hnode] at r2 r3
      simp at r2 r3
      simp [relinkRec, r2, r3, a1, a2]
    · exact ihl hl hm.2.1 j hj
    · exact ihr hr hm.2.2 j hj

theorem Repr.of_nodes_eq {X : Fin n → Fin p → Fl K} {y : Option (Fin n → K)} {h h' : Heap K n p} {s : Shape}
    {path : List (SplitCondition K p)} {d : Nat} (hR : Repr X y h s path d) (hn : ∀ j ∈ s.ids, h'.node j = h.node j)
    (hd : h'.data = h.data) (hnd : h'.nextData = h.nextData) : Repr X y h' s path d := by
  refine hR.congr (fun i hi => ?_) (fun i hi => ?_) (fun i hi => ?_)
  · rw [hn i hi]; exact SameNode.refl _
  · obtain ⟨q, hk⟩ := hR.nodeOk i hi
    rw [hnd]; exact hk.data_lt
  · obtain ⟨q, hk⟩ := hR.nodeOk i hi
    have e : h'.dataOf i = h.dataOf i := by simp [Heap.dataOf, hn i hi, hd]
    rw [e]; exact ⟨hk.inv, rfl, rfl, hk.y⟩

theorem Repr.replace {X : Fin n → Fin p → Fl K} {y : Option (Fin n → K)} {h h' : Heap K n p} {m : TreeMutation}
    {t s' : Shape} (htr : t.root = m.existing) (hsr : s'.root = m.updated)
    (hd : h'.data = h.data) (hnd : h'.nextData = h.nextData)
    (hsub : ∀ path d, Repr X y h t path d → Repr X y h' s' path d) {s : Shape} :
    ∀ {path : List (SplitCondition K p)} {d : Nat}, Repr X y h s path d → t.Sub s → s.ids.Nodup →
    (∀ j ∈ s.ids, j ∉ t.ids → h'.node j = relinkRec m (h.node j)) →
    Repr X y h' (s.replace m.existing s') path d := by
  induction s with
  | leaf j =>
    intro path d hR ht _ _
    simp only [Shape.Sub] at ht
    subst ht
    simp only [Shape.root] at htr
    simp only [Shape.replace, htr, if_true]
    rw [← htr] at *
    exact hsub _ _ hR
  | node j l r ihl ihr =>
    intro path d hR ht hn hstay
    have hR0 := hR
    obtain ⟨r1, r2, r3, r4, r5, cl, cr, hp, hl, hr⟩ := hR
    simp only [Shape.ids, List.nodup_cons, List.mem_append, not_or, List.nodup_append] at hn
    obtain ⟨⟨hjl, hjr⟩, hln, hrn, hdis⟩ := hn
    rcases ht with rfl | ht | ht
    · simp only [Shape.root] at htr
      simp only [Shape.replace, htr, if_true]
      exact hsub _ _ hR0
    · have htl := ht.ids_subset
      have him : m.existing ∈ l.ids := htl _ (htr ▸ t.root_mem)
      have hji : j ≠ m.existing := by rintro e; exact hjl (e ▸ him)
      have hnr : m.existing ∉ r.ids := fun hc => hdis _ him _ hc rfl
      have hj := hstay j (by simp [Shape.ids]) (fun hc => hjl (htl _ hc))
      simp only [Shape.replace, hji, if_false, Shape.replace_of_not_mem hnr]
      refine ⟨by rw [hj]; exact r1, ?_, ?_, by rw [hj]; exact r4, r5.of_eq (by rw [hj]; rfl) hd hnd, cl, cr, hp, ?_, ?_⟩
      · rw [hj]; simp only [relinkRec, r2, Shape.root_replace, hsr, Option.some.injEq]
        split <;> rfl
      · rw [hj]; simp only [relinkRec, r3, Option.some.injEq]
        have : r.root ≠ m.existing := by intro e; exact hnr (e ▸ r.root_mem)
        simp [this]
      · exact ihl hl ht hln (fun k hk hkt => hstay k (by simp [Shape.ids, hk]) hkt)
      · refine hr.of_nodes_eq (fun k hk => ?_) hd hnd
        rw [hstay k (by simp [Shape.ids, hk]) (fun hc => hdis _ (htl _ hc) _ hk rfl)]
        exact hr.relink_id hnr k hk
    · have htl := ht.ids_subset
      have him : m.existing ∈ r.ids := htl _ (htr ▸ t.root_mem)
      have hji : j ≠ m.existing := by rintro e; exact hjr (e ▸ him)
      have hnr : m.existing ∉ l.ids := fun hc => hdis _ hc _ him rfl
      have hj := hstay j (by simp [Shape.ids]) (fun hc => hjr (htl _ hc))
      simp only [Shape.replace, hji, if_false, Shape.replace_of_not_mem hnr]
      refine ⟨by rw [hj]; exact r1, ?_, ?_, by rw [hj]; exact r4, r5.of_eq (by rw [hj]; rfl) hd hnd, cl, cr, hp, ?_, ?_⟩
      · rw [hj]; simp only [relinkRec, r2, Option.some.injEq]
        have : l.root ≠ m.existing := by intro e; exact hnr (e ▸ l.root_mem)
        simp [this]
      · rw [hj]; simp only [relinkRec, r3, Shape.root_replace, hsr, Option.some.injEq]
        split <;> rfl
      · refine hl.of_nodes_eq (fun k hk => ?_) hd hnd
        rw [hstay k (by simp [Shape.ids, hk]) (fun hc => hdis _ hk _ (htl _ hc) rfl)]
        exact hl.relink_id hnr k hk
      · exact ihr hr ht hrn (fun k hk hkt => hstay k (by simp [Shape.ids, hk]) hkt)

/-! ### mutate -/

/-- The old and the new subtree are both represented, at the same place. -/
def Ready (X : Fin n → Fin p → Fl K) (y : Option (Fin n → K)) (h : Heap K n p) (old new : Shape) : Prop :=
  ∃ path d, Repr X y h old path d ∧ Repr X y h new path d

theorem Ready.ext {X : Fin n → Fin p → Fl K} {y : Option (Fin n → K)} {h h' : Heap K n p} {old new : Shape}
    (hr : Ready X y h old new) (he : HeapExt h h') (ho : ∀ i ∈ old.ids, i < h.nextNode)
    (hn : ∀ i ∈ new.ids, i < h.nextNode) : Ready X y h' old new := by
  obtain ⟨q, d, h1, h2⟩ := hr
  exact ⟨q, d, he.repr ho h1, he.repr hn h2⟩

/-- What `mutate` does to the invariant. -/
theorem mutate_core {X : Fin n → Fin p → Fl K} {y : Option (Fin n → K)} {t : Tree K n p} {s old new : Shape}
    {m : TreeMutation} {ns rest : List NodeId} (hI : TreeInv X y t s) (ho : old.Sub s) (hor : old.root = m.existing)
    (hnr : new.root = m.updated) (hrd : Ready X y t.heap old new) (hnn : new.ids.Nodup)
    (hfresh : ∀ i ∈ new.ids, i ∉ s.ids) (hlt : ∀ i ∈ new.ids, i < t.heap.nextNode)
    (hrest : s.ids.Perm (old.ids ++ rest)) (hns : ns.Perm (new.ids ++ rest))
    (hm : Tree.mutateNodes t.heap t.nodes m = .ok ns) :
    ∃ t', t.mutate m = .ok t' ∧ TreeInv X y t' (s.replace m.existing new) ∧ t'.nodes = ns ∧
      t'.cacheUpToDate = false ∧ t'.prediction = t.prediction ∧ t'.heap.data = t.heap.data ∧
      t'.heap.nextNode = t.heap.nextNode ∧ t'.heap.nextData = t.heap.nextData ∧
      (∀ i, (t'.heap.node i).value = (t.heap.node i).value ∧ (t'.heap.node i).kind = (t.heap.node i).kind ∧
        (t'.heap.node i).depth = (t.heap.node i).depth ∧ (t'.heap.node i).split = (t.heap.node i).split) ∧
      (∀ j ∈ t'.nodes, t'.heap.node j = relinkRec m (t.heap.node j)) := by
  have hex : m.existing ∈ s.ids := ho.ids_subset _ (hor ▸ old.root_mem)
  have hrestsub : ∀ j ∈ rest, j ∈ s.ids := fun j hj => hrest.mem_iff.2 (List.mem_append_right _ hj)
  have hdisj : ∀ j ∈ old.ids, j ∉ rest := by
    have := hrest.nodup_iff.1 hI.nodup
    rw [List.nodup_append] at this
    intro j hj hc; exact this.2.2 _ hj _ hc rfl
  have hrn : rest.Nodup := by
    have := hrest.nodup_iff.1 hI.nodup
    rw [List.nodup_append] at this
    exact this.2.1
  have hnsn : ns.Nodup := by
    rw [hns.nodup_iff, List.nodup_append]
    exact ⟨hnn, hrn, fun a ha b hb e => hfresh a ha (e ▸ hrestsub b hb)⟩
  obtain ⟨q, d0, hRold, hRnew⟩ := hrd
  have hmn : m.existing ∉ new.ids := fun hc => hfresh _ hc hex
  have hperm : (s.replace m.existing new).ids.Perm (new.ids ++ rest) := by
    obtain ⟨rest', p1, p2⟩ := Shape.replace_ids (s' := new) ho hor hI.nodup
    have : rest'.Perm rest := by
      have := p1.symm.trans hrest
      exact (List.perm_append_left_iff _).1 this
    exact p2.trans (this.append_left _)
  have hmut : t.mutate m = .ok { t with cacheUpToDate := false, nodes := ns, heap := ns.foldl (fun h i => Tree.relinkNode h m i) t.heap } := by
    unfold Tree.mutate; rw [hm]
  refine ⟨_, hmut, ?_, rfl, rfl, rfl, ?_⟩
  · refine ⟨?_, ?_, ?_, ?_⟩
    · simp only
      rw [relink_foldl m ns t.heap hnsn]
      refine Repr.replace (h := t.heap) (t := old) hor hnr (by rfl) (by rfl) ?_ hI.repr ho hI.nodup ?_
      · intro path d hR
        obtain ⟨rfl, rfl⟩ := hR.unique hRold rfl
        refine hRnew.of_nodes_eq (fun j hj => ?_) rfl rfl
        simp only
        split
        · exact hRnew.relink_id hmn j hj
        · rfl
      · intro j hj hjo
        have : j ∈ ns := hns.mem_iff.2 (List.mem_append_right _ (by
          have := hrest.mem_iff.1 hj
          rw [List.mem_append] at this
          exact this.resolve_left hjo))
        simp [this]
    · exact hns.trans hperm.symm
    · rw [hperm.nodup_iff, ← hns.nodup_iff]; exact hnsn
    · intro i hi
      have hi' := hperm.mem_iff.1 hi
      simp only
      rw [relink_foldl m ns t.heap hnsn]
      rw [List.mem_append] at hi'
      rcases hi' with h1 | h1
      · exact hlt i h1
      · exact hI.lt i (hrestsub i h1)
  · simp only
    rw [relink_foldl m ns t.heap hnsn]
    refine ⟨rfl, rfl, rfl, fun i => ?_, fun j hj => ?_⟩
    · simp only
      split <;> simp [relinkRec]
    · simp [hj]

theorem TreeInv.nodes_nodup {X : Fin n → Fin p → Fl K} {y : Option (Fin n → K)} {t : Tree K n p} {s : Shape}
    (hI : TreeInv X y t s) : t.nodes.Nodup := hI.perm.nodup_iff.2 hI.nodup

theorem TreeInv.mem_leafNodes {X : Fin n → Fin p → Fl K} {y : Option (Fin n → K)} {t : Tree K n p} {s : Shape}
    (hI : TreeInv X y t s) {i : NodeId} : i ∈ t.leafNodes ↔ i ∈ s.leaves := by
  unfold Tree.leafNodes
  simp only [List.mem_filter, decide_eq_true_eq]
  constructor
  · rintro ⟨h1, h2⟩
    have := hI.perm.mem_iff.1 h1
    exact (hI.repr.leaf_iff hI.nodup i this).1.1 h2
  · intro h
    have := s.leaves_subset h
    exact ⟨hI.perm.mem_iff.2 this, (hI.repr.leaf_iff hI.nodup i this).1.2 h⟩

theorem TreeInv.mem_decisionNodes {X : Fin n → Fin p → Fl K} {y : Option (Fin n → K)} {t : Tree K n p} {s : Shape}
    (hI : TreeInv X y t s) {i : NodeId} : i ∈ t.decisionNodes ↔ i ∈ s.decisions := by
  unfold Tree.decisionNodes
  simp only [List.mem_filter, decide_eq_true_eq]
  constructor
  · rintro ⟨h1, h2⟩
    have := hI.perm.mem_iff.1 h1
    exact (hI.repr.leaf_iff hI.nodup i this).2.1 h2
  · intro h
    have := s.decisions_subset h
    exact ⟨hI.perm.mem_iff.2 this, (hI.repr.leaf_iff hI.nodup i this).2.2 h⟩

/-- The subtree below a leaf node. -/
theorem TreeInv.leaf_sub {X : Fin n → Fin p → Fl K} {y : Option (Fin n → K)} {t : Tree K n p} {s : Shape}
    (hI : TreeInv X y t s) {i : NodeId} (hi : i ∈ t.leafNodes) :
    (Shape.leaf i).Sub s ∧ ∃ path d, Repr X y t.heap (.leaf i) path d := by
  have h1 := hI.mem_leafNodes.1 hi
  obtain ⟨u, hu, hur⟩ := Shape.exists_sub (s.leaves_subset h1)
  obtain ⟨q, d, hR⟩ := hI.repr.sub hu
  have hk : (t.heap.node i).kind = .leaf := by
    unfold Tree.leafNodes at hi; simp at hi; exact hi.2
  have := hR.eq_leaf (by rw [hur]; exact hk)
  rw [hur] at this
  rw [this] at hu hR
  exact ⟨hu, q, d, hR⟩

/-- The subtree below a prunable decision node. -/
theorem TreeInv.prunable_sub {X : Fin n → Fin p → Fl K} {y : Option (Fin n → K)} {t : Tree K n p} {s : Shape}
    (hI : TreeInv X y t s) {i : NodeId} (hi : i ∈ t.prunableDecisionNodes) :
    ∃ l r, (Shape.node i (.leaf l) (.leaf r)).Sub s ∧ ∃ path d, Repr X y t.heap (.node i (.leaf l) (.leaf r)) path d := by
  unfold Tree.prunableDecisionNodes at hi
  simp only [List.mem_filter] at hi
  obtain ⟨hd, hp⟩ := hi
  have h1 := hI.mem_decisionNodes.1 hd
  obtain ⟨u, hu, hur⟩ := Shape.exists_sub (s.decisions_subset h1)
  obtain ⟨q, d, hR⟩ := hI.repr.sub hu
  have hk : (t.heap.node i).kind = .decision := by
    unfold Tree.decisionNodes at hd; simp at hd; exact hd.2
  cases u with
  | leaf j =>
    simp only [Shape.root] at hur; subst hur
    have := hR.1; rw [hk] at this; cases this
  | node j l r =>
    simp only [Shape.root] at hur; subst hur
    have hR' := hR
    obtain ⟨r1, r2, r3, r4, r5, cl, cr, hp', hl, hr⟩ := hR
    unfold Heap.isPrunable at hp
    rw [r2, r3] at hp
    simp only [Heap.isLeafPtr, Bool.and_eq_true, decide_eq_true_eq] at hp
    have e1 := hl.eq_leaf hp.1
    have e2 := hr.eq_leaf hp.2
    rw [e1, e2] at hu hR'
    exact ⟨_, _, hu, q, d, hR'⟩

/-- Growing a leaf. -/
theorem mutate_grow {X : Fin n → Fin p → Fl K} {y : Option (Fin n → K)} {t : Tree K n p} {s : Shape} {i D L R : NodeId}
    (hI : TreeInv X y t s) (hi : i ∈ t.leafNodes) (hrd : Ready X y t.heap (.leaf i) (.node D (.leaf L) (.leaf R)))
    (hnn : [D, L, R].Nodup) (hfresh : ∀ j ∈ [D, L, R], j ∉ t.nodes) (hlt : ∀ j ∈ [D, L, R], j < t.heap.nextNode) :
    ∃ t', t.mutate { kind := .grow, existing := i, updated := D } = .ok t' ∧
      TreeInv X y t' (s.replace i (.node D (.leaf L) (.leaf R))) ∧ t'.nodes = t.nodes.erase i ++ [L] ++ [R] ++ [D] ∧
      t'.cacheUpToDate = false ∧ t'.prediction = t.prediction ∧ t'.heap.data = t.heap.data ∧
      t'.heap.nextNode = t.heap.nextNode ∧ t'.heap.nextData = t.heap.nextData ∧
      (∀ i, (t'.heap.node i).value = (t.heap.node i).value ∧ (t'.heap.node i).kind = (t.heap.node i).kind ∧
        (t'.heap.node i).depth = (t.heap.node i).depth ∧ (t'.heap.node i).split = (t.heap.node i).split) ∧
      (∀ j ∈ t'.nodes, t'.heap.node j = relinkRec { kind := .grow, existing := i, updated := D } (t.heap.node j)) := by
  obtain ⟨hsub, -⟩ := hI.leaf_sub hi
  have him : i ∈ t.nodes := by unfold Tree.leafNodes at hi; exact (List.mem_filter.1 hi).1
  have hp : t.nodes.Perm (i :: t.nodes.erase i) := List.perm_cons_erase him
  obtain ⟨q, d, hRo, hRn⟩ := hrd
  refine mutate_core (m := { kind := .grow, existing := i, updated := D }) (rest := t.nodes.erase i)
    hI hsub rfl rfl ⟨q, d, hRo, hRn⟩ (by simpa [Shape.ids] using hnn) ?_ (by simpa [Shape.ids] using hlt) ?_ ?_ ?_
  · intro j hj hc
    exact hfresh j (by simpa [Shape.ids] using hj) (hI.perm.mem_iff.2 hc)
  · exact hI.perm.symm.trans hp
  · simp only [Shape.ids]
    refine List.perm_append_comm.trans ?_
    simp only [List.cons_append]
    refine List.Perm.cons D ?_
    rw [List.nil_append, List.append_assoc]
    exact List.perm_append_comm
  · have h2 := hRn.2.1
    have h3 := hRn.2.2.1
    simp [Tree.mutateNodes, Tree.removeNode, him, h2, h3, Tree.childOf, Shape.root]

/-- Pruning a decision node with two leaves. -/
theorem mutate_prune {X : Fin n → Fin p → Fl K} {y : Option (Fin n → K)} {t : Tree K n p} {s : Shape} {i U l r : NodeId}
    (hI : TreeInv X y t s) (hsub : (Shape.node i (.leaf l) (.leaf r)).Sub s)
    (hrd : Ready X y t.heap (.node i (.leaf l) (.leaf r)) (.leaf U))
    (hfresh : U ∉ t.nodes) (hlt : U < t.heap.nextNode) :
    ∃ t', t.mutate { kind := .prune, existing := i, updated := U } = .ok t' ∧
      TreeInv X y t' (s.replace i (.leaf U)) ∧ t'.nodes = ((t.nodes.erase i).erase l).erase r ++ [U] ∧
      t'.cacheUpToDate = false ∧ t'.prediction = t.prediction ∧ t'.heap.data = t.heap.data ∧
      t'.heap.nextNode = t.heap.nextNode ∧ t'.heap.nextData = t.heap.nextData ∧
      (∀ i, (t'.heap.node i).value = (t.heap.node i).value ∧ (t'.heap.node i).kind = (t.heap.node i).kind ∧
        (t'.heap.node i).depth = (t.heap.node i).depth ∧ (t'.heap.node i).split = (t.heap.node i).split) ∧
      (∀ j ∈ t'.nodes, t'.heap.node j = relinkRec { kind := .prune, existing := i, updated := U } (t.heap.node j)) := by
  obtain ⟨q, d, hRo, hRn⟩ := hrd
  obtain ⟨rest', hp1, -⟩ := Shape.replace_ids (s' := .leaf U) hsub rfl hI.nodup
  have hp1 := hI.perm.trans hp1
  have hnd := hp1.nodup_iff.1 hI.nodes_nodup
  simp only [Shape.ids, List.cons_append, List.nil_append] at hp1 hnd
  have h1 : i ∈ t.nodes := hp1.mem_iff.2 (by simp)
  have hil : i ≠ l := by rintro rfl; simp at hnd
  have hir : i ≠ r := by rintro rfl; simp at hnd
  have hlr : l ≠ r := by rintro rfl; simp at hnd
  have h2 : l ∈ t.nodes.erase i := (List.mem_erase_of_ne hil.symm).2 (hp1.mem_iff.2 (by simp))
  have h3 : r ∈ (t.nodes.erase i).erase l :=
    (List.mem_erase_of_ne hlr.symm).2 ((List.mem_erase_of_ne hir.symm).2 (hp1.mem_iff.2 (by simp)))
  have q1 := List.perm_cons_erase h1
  have q2 := List.perm_cons_erase h2
  have q3 := List.perm_cons_erase h3
  refine mutate_core (m := { kind := .prune, existing := i, updated := U }) (rest := ((t.nodes.erase i).erase l).erase r)
    hI hsub rfl rfl ⟨q, d, hRo, hRn⟩ (by simp [Shape.ids]) ?_ (by simpa [Shape.ids] using hlt) ?_ ?_ ?_
  · intro j hj hc
    simp [Shape.ids] at hj; subst hj
    exact hfresh (hI.perm.mem_iff.2 hc)
  · refine hI.perm.symm.trans (q1.trans ?_)
    simp only [Shape.ids, List.cons_append, List.nil_append]
    exact (q2.trans (q3.cons l)).cons i
  · simp only [Shape.ids]
    exact List.perm_append_comm
  · have e2 := hRo.2.1
    have e3 := hRo.2.2.1
    simp [Tree.mutateNodes, Tree.removeNode, h1, h2, h3, e2, e3, Shape.root]

end Bart
