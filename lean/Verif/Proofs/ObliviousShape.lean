import Verif.Proofs.Oblivious

/-! The invariant of the trees of the oblivious tree sampler: as `TreeInv`, but a decision node may have two children with its own split. -/

set_option linter.unusedSectionVars false

namespace Bart.Oblivious
open Bart Spec
variable {K : Type} [Field K] [LinearOrder K] {n p : Nat} {X : Fin n → Fin p → Fl K}

/-- The training rows that satisfy the conditions. -/
def pathRows (X : Fin n → Fin p → Fl K) (path : List (SplitCondition K p)) : Fin n → Bool := fun r => path.all (fun c => sat c (X r))

/-- No column can be split. -/
def Flat (X : Fin n → Fin p → Fl K) (path : List (SplitCondition K p)) : Prop := ∀ j, isNotConstant (column X (pathRows X path) j) = false

/-- The splits of a decision node and its children: a `(<= v, > v)` pair is added, both parts of which hold for some row, or nothing, if no column can be split. -/
def PairOk (X : Fin n → Fin p → Fl K) (a b c : Split K p) : Prop :=
  (b = a ∧ c = a ∧ ∃ path, a.combined = CombinedCondition.init path ∧ Flat X path) ∨
    ∃ path cl cr, SplitPair cl cr ∧ a.combined = CombinedCondition.init path ∧ b.combined = CombinedCondition.init (path ++ [cl]) ∧
      c.combined = CombinedCondition.init (path ++ [cr]) ∧ ¬ Flat X path ∧ (∃ r, pathRows X (path ++ [cl]) r = true) ∧ ∃ r, pathRows X (path ++ [cr]) r = true

/-- The heap holds the shape, at the given depth. -/
def Struct (X : Fin n → Fin p → Fl K) (h : Heap K n p) : Shape → Nat → Prop
  | .leaf i, d => (h.node i).kind = .leaf ∧ (h.node i).left = none ∧ (h.node i).right = none ∧ (h.node i).depth = d
  | .node i l r, d => (h.node i).kind = .decision ∧ (h.node i).left = some l.root ∧ (h.node i).right = some r.root ∧ (h.node i).depth = d ∧
      PairOk X (h.node i).split (h.node l.root).split (h.node r.root).split ∧ Struct X h l (d + 1) ∧ Struct X h r (d + 1)

/-- The invariant. -/
structure OInv (X : Fin n → Fin p → Fl K) (y : Option (Fin n → K)) (t : Tree K n p) (s : Shape) : Prop where
  struct : Struct X t.heap s 0
  ok : ∀ i ∈ s.ids, ∃ q, NodeOk X y t.heap i q
  top : (t.heap.node s.root).split.combined = CombinedCondition.init []
  perm : t.nodes.Perm s.ids
  nodup : s.ids.Nodup
  lt : ∀ i ∈ s.ids, i < t.heap.nextNode

theorem Struct.congr {h h' : Heap K n p} {s : Shape} : ∀ {d : Nat}, Struct X h s d → (∀ i ∈ s.ids, SameNode (h.node i) (h'.node i)) → Struct X h' s d := by
  induction s with
  | leaf i =>
    intro d hS hs
    have hsi := hs i (by simp [Shape.ids])
    exact ⟨hsi.kind.trans hS.1, hsi.left.trans hS.2.1, hsi.right.trans hS.2.2.1, hsi.depth.trans hS.2.2.2⟩
  | node i l r ihl ihr =>
    intro d hS hs
    obtain ⟨r1, r2, r3, r4, r5, hl, hr⟩ := hS
    have hsi := hs i (by simp [Shape.ids])
    refine ⟨hsi.kind.trans r1, hsi.left.trans r2, hsi.right.trans r3, hsi.depth.trans r4, ?_, ihl hl (fun j hj => hs j (by simp [Shape.ids, hj])),
      ihr hr (fun j hj => hs j (by simp [Shape.ids, hj]))⟩
    rw [hsi.split, (hs l.root (by simp [Shape.ids, l.root_mem])).split, (hs r.root (by simp [Shape.ids, r.root_mem])).split]
    exact r5

theorem Struct.of_nodes_eq {h h' : Heap K n p} {s : Shape} {d : Nat} (hS : Struct X h s d) (hn : ∀ j ∈ s.ids, h'.node j = h.node j) : Struct X h' s d :=
  hS.congr (fun i hi => by rw [hn i hi]; exact SameNode.refl _)

theorem Struct.sub {h : Heap K n p} {t s : Shape} (hs : t.Sub s) : ∀ {d : Nat}, Struct X h s d → ∃ d', Struct X h t d' := by
  induction s with
  | leaf i => intro d hS; simp only [Shape.Sub] at hs; subst hs; exact ⟨d, hS⟩
  | node i l r ihl ihr =>
    intro d hS
    rcases hs with rfl | hs | hs
    · exact ⟨d, hS⟩
    · obtain ⟨_, _, _, _, _, hl, hr⟩ := hS; exact ihl hs hl
    · obtain ⟨_, _, _, _, _, hl, hr⟩ := hS; exact ihr hs hr

theorem Struct.depth_eq {h : Heap K n p} {s : Shape} {d : Nat} (hS : Struct X h s d) : (h.node s.root).depth = d := by
  cases s with
  | leaf i => exact hS.2.2.2
  | node i l r => exact hS.2.2.2.1

theorem Struct.eq_leaf {h : Heap K n p} {s : Shape} {d : Nat} (hS : Struct X h s d) (hk : (h.node s.root).kind = .leaf) : s = .leaf s.root := by
  cases s with
  | leaf i => rfl
  | node i l r => have := hS.1; simp [Shape.root] at hk; rw [this] at hk; cases hk

theorem Struct.leaf_iff {h : Heap K n p} {s : Shape} : ∀ {d : Nat}, Struct X h s d → s.ids.Nodup →
    ∀ i ∈ s.ids, ((h.node i).kind = .leaf ↔ i ∈ s.leaves) ∧ ((h.node i).kind = .decision ↔ i ∈ s.decisions) := by
  induction s with
  | leaf j =>
    intro d hR _ i hi
    simp [Shape.ids] at hi; subst hi
    simp [Shape.leaves, Shape.decisions, hR.1]
  | node j l r ihl ihr =>
    intro d hR hn i hi
    obtain ⟨r1, r2, r3, r4, r5, hl, hr⟩ := hR
    simp only [Shape.ids, List.nodup_cons, List.mem_append, not_or, List.nodup_append] at hn
    obtain ⟨⟨hjl, hjr⟩, hln, hrn, hdis⟩ := hn
    simp only [Shape.ids, List.mem_cons, List.mem_append] at hi
    rcases hi with rfl | hi | hi
    · have n1 : i ∉ l.leaves := fun hc => hjl (l.leaves_subset hc)
      have n2 : i ∉ r.leaves := fun hc => hjr (r.leaves_subset hc)
      simp [Shape.leaves, Shape.decisions, r1, n1, n2]
    · have n2 : i ∉ r.leaves := fun hc => hdis _ hi _ (r.leaves_subset hc) rfl
      have n3 : i ∉ r.decisions := fun hc => hdis _ hi _ (r.decisions_subset hc) rfl
      have n4 : i ≠ j := by rintro rfl; exact hjl hi
      have := ihl hl hln i hi
      simp [Shape.leaves, Shape.decisions, n2, n3, n4, this]
    · have n2 : i ∉ l.leaves := fun hc => hdis _ (l.leaves_subset hc) _ hi rfl
      have n3 : i ∉ l.decisions := fun hc => hdis _ (l.decisions_subset hc) _ hi rfl
      have n4 : i ≠ j := by rintro rfl; exact hjr hi
      have := ihr hr hrn i hi
      simp [Shape.leaves, Shape.decisions, n2, n3, n4, this]

/-- Relinking does nothing to a shape that does not contain the replaced node. -/
theorem Struct.relink_id {h : Heap K n p} {m : TreeMutation} {s : Shape} : ∀ {d : Nat}, Struct X h s d → m.existing ∉ s.ids →
    ∀ j ∈ s.ids, relinkRec m (h.node j) = h.node j := by
  induction s with
  | leaf i =>
    intro d hR _ j hj
    simp [Shape.ids] at hj; subst hj
    simp [relinkRec, hR.2.1, hR.2.2.1]
    cases hnode : h.node j
    have := hR.2.1; have := hR.2.2.1
    simp_all
  | node i l r ihl ihr =>
    intro d hR hm j hj
    obtain ⟨r1, r2, r3, r4, r5, hl, hr⟩ := hR
    simp only [Shape.ids, List.mem_cons, List.mem_append, not_or] at hm hj
    rcases hj with rfl | hj | hj
    · have a1 : l.root ≠ m.existing := by intro e; exact hm.2.1 (e ▸ l.root_mem)
      have a2 : r.root ≠ m.existing := by intro e; exact hm.2.2 (e ▸ r.root_mem)
      cases hnode : h.node j
      rw [hnode] at r2 r3
      simp at r2 r3
      simp [relinkRec, r2, r3, a1, a2]
    · exact ihl hl hm.2.1 j hj
    · exact ihr hr hm.2.2 j hj

theorem Struct.replace {h h' : Heap K n p} {m : TreeMutation} {t s' : Shape} (htr : t.root = m.existing) (hsr : s'.root = m.updated)
    (hsub : ∀ d, Struct X h t d → Struct X h' s' d) (hsplit : ∀ j, (h'.node j).split = (h.node j).split) (hsp : (h.node s'.root).split = (h.node t.root).split) {s : Shape} :
    ∀ {d : Nat}, Struct X h s d → t.Sub s → s.ids.Nodup → (∀ j ∈ s.ids, j ∉ t.ids → h'.node j = relinkRec m (h.node j)) →
    Struct X h' (s.replace m.existing s') d := by
  have hroot : ∀ u : Shape, (h'.node (u.replace m.existing s').root).split = (h.node u.root).split := by
    intro u
    rw [hsplit, Shape.root_replace]
    split
    · next e => rw [hsp, htr, ← e]
    · rfl
  induction s with
  | leaf j =>
    intro d hR ht _ _
    simp only [Shape.Sub] at ht
    subst ht
    simp only [Shape.root] at htr
    simp only [Shape.replace, htr, if_true]
    rw [← htr] at *
    exact hsub _ hR
  | node j l r ihl ihr =>
    intro d hR ht hn hstay
    have hR0 := hR
    obtain ⟨r1, r2, r3, r4, r5, hl, hr⟩ := hR
    simp only [Shape.ids, List.nodup_cons, List.mem_append, not_or, List.nodup_append] at hn
    obtain ⟨⟨hjl, hjr⟩, hln, hrn, hdis⟩ := hn
    rcases ht with rfl | ht | ht
    · simp only [Shape.root] at htr
      simp only [Shape.replace, htr, if_true]
      exact hsub _ hR0
    · have htl := ht.ids_subset
      have him : m.existing ∈ l.ids := htl _ (htr ▸ t.root_mem)
      have hji : j ≠ m.existing := by rintro e; exact hjl (e ▸ him)
      have hnr : m.existing ∉ r.ids := fun hc => hdis _ him _ hc rfl
      have hj := hstay j (by simp [Shape.ids]) (fun hc => hjl (htl _ hc))
      simp only [Shape.replace, hji, if_false, Shape.replace_of_not_mem hnr]
      refine ⟨by rw [hj]; exact r1, ?_, ?_, by rw [hj]; exact r4, ?_, ?_, ?_⟩
      · rw [hj]; simp only [relinkRec, r2, Shape.root_replace, hsr, Option.some.injEq]
        split <;> rfl
      · rw [hj]; simp only [relinkRec, r3, Option.some.injEq]
        have : r.root ≠ m.existing := by intro e; exact hnr (e ▸ r.root_mem)
        simp [this]
      · rw [hsplit j, hroot l, hsplit r.root]; exact r5
      · exact ihl hl ht hln (fun k hk hkt => hstay k (by simp [Shape.ids, hk]) hkt)
      · refine hr.of_nodes_eq (fun k hk => ?_)
        rw [hstay k (by simp [Shape.ids, hk]) (fun hc => hdis _ (htl _ hc) _ hk rfl)]
        exact hr.relink_id hnr k hk
    · have htl := ht.ids_subset
      have him : m.existing ∈ r.ids := htl _ (htr ▸ t.root_mem)
      have hji : j ≠ m.existing := by rintro e; exact hjr (e ▸ him)
      have hnr : m.existing ∉ l.ids := fun hc => hdis _ hc _ him rfl
      have hj := hstay j (by simp [Shape.ids]) (fun hc => hjr (htl _ hc))
      simp only [Shape.replace, hji, if_false, Shape.replace_of_not_mem hnr]
      refine ⟨by rw [hj]; exact r1, ?_, ?_, by rw [hj]; exact r4, ?_, ?_, ?_⟩
      · rw [hj]; simp only [relinkRec, r2, Option.some.injEq]
        have : l.root ≠ m.existing := by intro e; exact hnr (e ▸ l.root_mem)
        simp [this]
      · rw [hj]; simp only [relinkRec, r3, Shape.root_replace, hsr, Option.some.injEq]
        split <;> rfl
      · rw [hsplit j, hroot r, hsplit l.root]; exact r5
      · refine hl.of_nodes_eq (fun k hk => ?_)
        rw [hstay k (by simp [Shape.ids, hk]) (fun hc => hdis _ hk _ (htl _ hc) rfl)]
        exact hl.relink_id hnr k hk
      · exact ihr hr ht hrn (fun k hk hkt => hstay k (by simp [Shape.ids, hk]) hkt)

/-! ### the invariant -/

theorem OInv.nodes_nodup {y : Option (Fin n → K)} {t : Tree K n p} {s : Shape} (hI : OInv X y t s) : t.nodes.Nodup := hI.perm.nodup_iff.2 hI.nodup

theorem OInv.mem_lt {y : Option (Fin n → K)} {t : Tree K n p} {s : Shape} (hI : OInv X y t s) {i : NodeId} (hi : i ∈ t.nodes) : i < t.heap.nextNode :=
  hI.lt i (hI.perm.mem_iff.1 hi)

theorem OInv.nodeOk {y : Option (Fin n → K)} {t : Tree K n p} {s : Shape} (hI : OInv X y t s) {i : NodeId} (hi : i ∈ t.nodes) : ∃ q, NodeOk X y t.heap i q :=
  hI.ok i (hI.perm.mem_iff.1 hi)

theorem OInv.mem_leafNodes {y : Option (Fin n → K)} {t : Tree K n p} {s : Shape} (hI : OInv X y t s) {i : NodeId} : i ∈ t.leafNodes ↔ i ∈ s.leaves := by
  unfold Tree.leafNodes
  simp only [List.mem_filter, decide_eq_true_eq]
  constructor
  · rintro ⟨h1, h2⟩
    have := hI.perm.mem_iff.1 h1
    exact (hI.struct.leaf_iff hI.nodup i this).1.1 h2
  · intro h
    have := s.leaves_subset h
    exact ⟨hI.perm.mem_iff.2 this, (hI.struct.leaf_iff hI.nodup i this).1.2 h⟩

theorem OInv.mem_decisionNodes {y : Option (Fin n → K)} {t : Tree K n p} {s : Shape} (hI : OInv X y t s) {i : NodeId} : i ∈ t.decisionNodes ↔ i ∈ s.decisions := by
  unfold Tree.decisionNodes
  simp only [List.mem_filter, decide_eq_true_eq]
  constructor
  · rintro ⟨h1, h2⟩
    have := hI.perm.mem_iff.1 h1
    exact (hI.struct.leaf_iff hI.nodup i this).2.1 h2
  · intro h
    have := s.decisions_subset h
    exact ⟨hI.perm.mem_iff.2 this, (hI.struct.leaf_iff hI.nodup i this).2.2 h⟩

theorem OInv.leaf_sub {y : Option (Fin n → K)} {t : Tree K n p} {s : Shape} (hI : OInv X y t s) {i : NodeId} (hi : i ∈ t.leafNodes) :
    (Shape.leaf i).Sub s ∧ ∃ d, Struct X t.heap (.leaf i) d := by
  have h1 := hI.mem_leafNodes.1 hi
  obtain ⟨u, hu, hur⟩ := Shape.exists_sub (s.leaves_subset h1)
  obtain ⟨d, hR⟩ := hI.struct.sub hu
  have hk : (t.heap.node i).kind = .leaf := by
    unfold Tree.leafNodes at hi; simp at hi; exact hi.2
  have := hR.eq_leaf (by rw [hur]; exact hk)
  rw [hur] at this
  rw [this] at hu hR
  exact ⟨hu, d, hR⟩

theorem OInv.prunable_sub {y : Option (Fin n → K)} {t : Tree K n p} {s : Shape} (hI : OInv X y t s) {i : NodeId} (hi : i ∈ t.prunableDecisionNodes) :
    ∃ l r, (Shape.node i (.leaf l) (.leaf r)).Sub s ∧ ∃ d, Struct X t.heap (.node i (.leaf l) (.leaf r)) d := by
  unfold Tree.prunableDecisionNodes at hi
  simp only [List.mem_filter] at hi
  obtain ⟨hd, hp⟩ := hi
  have h1 := hI.mem_decisionNodes.1 hd
  obtain ⟨u, hu, hur⟩ := Shape.exists_sub (s.decisions_subset h1)
  obtain ⟨d, hR⟩ := hI.struct.sub hu
  have hk : (t.heap.node i).kind = .decision := by
    unfold Tree.decisionNodes at hd; simp at hd; exact hd.2
  cases u with
  | leaf j =>
    simp only [Shape.root] at hur; subst hur
    have := hR.1; rw [hk] at this; cases this
  | node j l r =>
    simp only [Shape.root] at hur; subst hur
    have hR' := hR
    obtain ⟨r1, r2, r3, r4, r5, hl, hr⟩ := hR
    unfold Heap.isPrunable at hp
    rw [r2, r3] at hp
    simp only [Heap.isLeafPtr, Bool.and_eq_true, decide_eq_true_eq] at hp
    have e1 := hl.eq_leaf hp.1
    have e2 := hr.eq_leaf hp.2
    rw [e1, e2] at hu hR'
    exact ⟨_, _, hu, d, hR'⟩

theorem OInv.ext {y : Option (Fin n → K)} {t t' : Tree K n p} {s : Shape} (hI : OInv X y t s) (he : TreeExt t t') : OInv X y t' s := by
  have hn : ∀ j ∈ s.ids, t'.heap.node j = t.heap.node j := fun j hj => he.heap.node j (hI.lt j hj)
  refine ⟨hI.struct.of_nodes_eq hn, fun i hi => ?_, by rw [hn _ s.root_mem]; exact hI.top, by rw [he.nodes]; exact hI.perm, hI.nodup, fun i hi => (hI.lt i hi).trans_le he.heap.nextNode⟩
  obtain ⟨q, hk⟩ := hI.ok i hi
  exact ⟨q, he.heap.nodeOk (hI.lt i hi) hk⟩

theorem OInv.leafNodes_ext {y : Option (Fin n → K)} {t t' : Tree K n p} {s : Shape} (hI : OInv X y t s) (he : TreeExt t t') : t'.leafNodes = t.leafNodes := by
  unfold Tree.leafNodes
  rw [he.nodes]
  apply List.filter_congr
  intro i hi
  rw [he.heap.node i (hI.mem_lt hi)]

/-- Only the caches of the tree object differ. -/
theorem OInv.of_eq {y : Option (Fin n → K)} {t t' : Tree K n p} {s : Shape} (hI : OInv X y t s) (h1 : t'.heap = t.heap) (h2 : t'.nodes = t.nodes) : OInv X y t' s :=
  ⟨by rw [h1]; exact hI.struct, by rw [h1]; exact hI.ok, by rw [h1]; exact hI.top, by rw [h2]; exact hI.perm, hI.nodup, by rw [h1]; exact hI.lt⟩

/-! ### mutate -/

/-- The old and the new subtree stand at the same place. -/
structure OReady (X : Fin n → Fin p → Fl K) (y : Option (Fin n → K)) (h : Heap K n p) (old new : Shape) : Prop where
  struct : ∃ d, Struct X h old d ∧ Struct X h new d
  ok : ∀ i ∈ new.ids, ∃ q, NodeOk X y h i q
  split : (h.node new.root).split = (h.node old.root).split

theorem OReady.ext {y : Option (Fin n → K)} {h h' : Heap K n p} {old new : Shape} (hr : OReady X y h old new) (he : HeapExt h h') (ho : ∀ i ∈ old.ids, i < h.nextNode)
    (hn : ∀ i ∈ new.ids, i < h.nextNode) : OReady X y h' old new := by
  obtain ⟨⟨d, h1, h2⟩, h3, h4⟩ := hr
  refine ⟨⟨d, h1.of_nodes_eq (fun j hj => he.node j (ho j hj)), h2.of_nodes_eq (fun j hj => he.node j (hn j hj))⟩, fun i hi => ?_, ?_⟩
  · obtain ⟨q, hk⟩ := h3 i hi
    exact ⟨q, he.nodeOk (hn i hi) hk⟩
  · rw [he.node _ (hn _ new.root_mem), he.node _ (ho _ old.root_mem)]
    exact h4

/-- What `mutate` does to the invariant. -/
theorem omutate_core {y : Option (Fin n → K)} {t : Tree K n p} {s old new : Shape}
    {m : TreeMutation} {ns rest : List NodeId} (hI : OInv X y t s) (ho : old.Sub s) (hor : old.root = m.existing)
    (hnr : new.root = m.updated) (hrd : OReady X y t.heap old new) (hnn : new.ids.Nodup)
    (hfresh : ∀ i ∈ new.ids, i ∉ s.ids) (hlt : ∀ i ∈ new.ids, i < t.heap.nextNode)
    (hrest : s.ids.Perm (old.ids ++ rest)) (hns : ns.Perm (new.ids ++ rest))
    (hm : Tree.mutateNodes t.heap t.nodes m = .ok ns) :
    ∃ t', t.mutate m = .ok t' ∧ OInv X y t' (s.replace m.existing new) ∧ t'.nodes = ns ∧
      t'.cacheUpToDate = false ∧ t'.prediction = t.prediction ∧ t'.heap.data = t.heap.data ∧
      t'.heap.nextNode = t.heap.nextNode ∧ t'.heap.nextData = t.heap.nextData ∧
      (∀ i, (t'.heap.node i).value = (t.heap.node i).value ∧ (t'.heap.node i).kind = (t.heap.node i).kind ∧
        (t'.heap.node i).depth = (t.heap.node i).depth ∧ (t'.heap.node i).split = (t.heap.node i).split) ∧
      (∀ j, t'.heap.node j = if j ∈ ns then relinkRec m (t.heap.node j) else t.heap.node j) := by
  have hex : m.existing ∈ s.ids := ho.ids_subset _ (hor ▸ old.root_mem)
  have hrestsub : ∀ j ∈ rest, j ∈ s.ids := fun j hj => hrest.mem_iff.2 (List.mem_append_right _ hj)
  have hrn : rest.Nodup := by
    have := hrest.nodup_iff.1 hI.nodup
    rw [List.nodup_append] at this
    exact this.2.1
  have hnsn : ns.Nodup := by
    rw [hns.nodup_iff, List.nodup_append]
    exact ⟨hnn, hrn, fun a ha b hb e => hfresh a ha (e ▸ hrestsub b hb)⟩
  obtain ⟨⟨d0, hRold, hRnew⟩, hok, hsp⟩ := hrd
  have hmn : m.existing ∉ new.ids := fun hc => hfresh _ hc hex
  have hperm : (s.replace m.existing new).ids.Perm (new.ids ++ rest) := by
    obtain ⟨rest', p1, p2⟩ := Shape.replace_ids (s' := new) ho hor hI.nodup
    have : rest'.Perm rest := by
      have := p1.symm.trans hrest
      exact (List.perm_append_left_iff _).1 this
    exact p2.trans (this.append_left _)
  have hmut : t.mutate m = .ok { t with cacheUpToDate := false, nodes := ns, heap := { t.heap with node := fun j => if j ∈ ns then relinkRec m (t.heap.node j) else t.heap.node j } } := by
    unfold Tree.mutate; rw [hm]; simp only; rw [relink_foldl m ns t.heap hnsn]
  have hsplit : ∀ j, (if j ∈ ns then relinkRec m (t.heap.node j) else t.heap.node j).split = (t.heap.node j).split := by
    intro j; split <;> rfl
  refine ⟨_, hmut, ⟨?_, ?_, ?_, ?_, ?_, ?_⟩, rfl, rfl, rfl, rfl, rfl, rfl, fun i => ?_, fun j => rfl⟩
  · refine Struct.replace (h := t.heap) (t := old) hor hnr ?_ hsplit hsp hI.struct ho hI.nodup ?_
    · intro d hR
      have : d = d0 := hR.depth_eq.symm.trans hRold.depth_eq
      subst this
      refine hRnew.of_nodes_eq (fun j hj => ?_)
      simp only
      split
      · exact hRnew.relink_id hmn j hj
      · rfl
    · intro j hj hjo
      have : j ∈ ns := hns.mem_iff.2 (List.mem_append_right _ (by
        have := hrest.mem_iff.1 hj
        rw [List.mem_append] at this
        exact this.resolve_left hjo))
      simp [this]
  · intro i hi
    have hi' := hperm.mem_iff.1 hi
    rw [List.mem_append] at hi'
    have : ∃ q, NodeOk X y t.heap i q := by
      rcases hi' with h1 | h1
      · exact hok i h1
      · exact hI.ok i (hrestsub i h1)
    obtain ⟨q, hk⟩ := this
    exact ⟨q, hk.of_eq (hsplit i) rfl rfl⟩
  · show (if _ then relinkRec m _ else _ : Node K p).split.combined = _
    rw [hsplit, Shape.root_replace]
    split
    · next e => rw [hsp, hor, ← e]; exact hI.top
    · exact hI.top
  · exact hns.trans hperm.symm
  · rw [hperm.nodup_iff, ← hns.nodup_iff]; exact hnsn
  · intro i hi
    have hi' := hperm.mem_iff.1 hi
    rw [List.mem_append] at hi'
    rcases hi' with h1 | h1
    · exact hlt i h1
    · exact hI.lt i (hrestsub i h1)
  · show (if i ∈ ns then relinkRec m (t.heap.node i) else t.heap.node i).value = _ ∧ (if i ∈ ns then relinkRec m (t.heap.node i) else t.heap.node i).kind = _ ∧
      (if i ∈ ns then relinkRec m (t.heap.node i) else t.heap.node i).depth = _ ∧ (if i ∈ ns then relinkRec m (t.heap.node i) else t.heap.node i).split = _
    split <;> simp [relinkRec]

/-- Growing a leaf. -/
theorem omutate_grow {y : Option (Fin n → K)} {t : Tree K n p} {s : Shape} {i D L R : NodeId}
    (hI : OInv X y t s) (hi : i ∈ t.leafNodes) (hrd : OReady X y t.heap (.leaf i) (.node D (.leaf L) (.leaf R)))
    (hnn : [D, L, R].Nodup) (hfresh : ∀ j ∈ [D, L, R], j ∉ t.nodes) (hlt : ∀ j ∈ [D, L, R], j < t.heap.nextNode) :
    ∃ t', t.mutate { kind := .grow, existing := i, updated := D } = .ok t' ∧
      OInv X y t' (s.replace i (.node D (.leaf L) (.leaf R))) ∧ t'.nodes = t.nodes.erase i ++ [L] ++ [R] ++ [D] ∧
      t'.cacheUpToDate = false ∧ t'.prediction = t.prediction ∧ t'.heap.data = t.heap.data ∧
      t'.heap.nextNode = t.heap.nextNode ∧ t'.heap.nextData = t.heap.nextData ∧
      (∀ i, (t'.heap.node i).value = (t.heap.node i).value ∧ (t'.heap.node i).kind = (t.heap.node i).kind ∧
        (t'.heap.node i).depth = (t.heap.node i).depth ∧ (t'.heap.node i).split = (t.heap.node i).split) ∧
      (∀ j, t'.heap.node j = if j ∈ t'.nodes then relinkRec { kind := .grow, existing := i, updated := D } (t.heap.node j) else t.heap.node j) := by
  obtain ⟨hsub, -⟩ := hI.leaf_sub hi
  have him : i ∈ t.nodes := by unfold Tree.leafNodes at hi; exact (List.mem_filter.1 hi).1
  have hp : t.nodes.Perm (i :: t.nodes.erase i) := List.perm_cons_erase him
  have hrd0 := hrd
  obtain ⟨⟨d, hRo, hRn⟩, -, -⟩ := hrd
  obtain ⟨t', a1, a2, a3, a4⟩ := omutate_core (m := { kind := .grow, existing := i, updated := D }) (rest := t.nodes.erase i) (ns := t.nodes.erase i ++ [L] ++ [R] ++ [D])
    hI hsub rfl rfl hrd0 (by simpa [Shape.ids] using hnn) (by
      intro j hj hc
      exact hfresh j (by simpa [Shape.ids] using hj) (hI.perm.mem_iff.2 hc)) (by simpa [Shape.ids] using hlt) (hI.perm.symm.trans hp) (by
      simp only [Shape.ids]
      refine List.perm_append_comm.trans ?_
      simp only [List.cons_append]
      refine List.Perm.cons D ?_
      rw [List.nil_append, List.append_assoc]
      exact List.perm_append_comm) (by
      have h2 := hRn.2.1
      have h3 := hRn.2.2.1
      simp [Tree.mutateNodes, Tree.removeNode, him, h2, h3, Tree.childOf, Shape.root])
  exact ⟨t', a1, a2, a3, by rw [a3]; exact a4⟩

/-- Pruning a decision node with two leaves. -/
theorem omutate_prune {y : Option (Fin n → K)} {t : Tree K n p} {s : Shape} {i U l r : NodeId}
    (hI : OInv X y t s) (hsub : (Shape.node i (.leaf l) (.leaf r)).Sub s)
    (hrd : OReady X y t.heap (.node i (.leaf l) (.leaf r)) (.leaf U))
    (hfresh : U ∉ t.nodes) (hlt : U < t.heap.nextNode) :
    ∃ t', t.mutate { kind := .prune, existing := i, updated := U } = .ok t' ∧
      OInv X y t' (s.replace i (.leaf U)) ∧ t'.nodes = ((t.nodes.erase i).erase l).erase r ++ [U] ∧
      t'.cacheUpToDate = false ∧ t'.prediction = t.prediction ∧ t'.heap.data = t.heap.data ∧
      t'.heap.nextNode = t.heap.nextNode ∧ t'.heap.nextData = t.heap.nextData ∧
      (∀ i, (t'.heap.node i).value = (t.heap.node i).value ∧ (t'.heap.node i).kind = (t.heap.node i).kind ∧
        (t'.heap.node i).depth = (t.heap.node i).depth ∧ (t'.heap.node i).split = (t.heap.node i).split) ∧
      (∀ j, t'.heap.node j = if j ∈ t'.nodes then relinkRec { kind := .prune, existing := i, updated := U } (t.heap.node j) else t.heap.node j) := by
  have hrd0 := hrd
  obtain ⟨⟨d, hRo, hRn⟩, -, -⟩ := hrd
  obtain ⟨rest', hp1, -⟩ := Shape.replace_ids (s' := .leaf U) hsub rfl hI.nodup
  have hp1 := hI.perm.trans hp1
  have hnd := hp1.nodup_iff.1 hI.nodes_nodup
  simp only [Shape.ids, List.cons_append, List.nil_append] at hp1 hnd
  have h1 : i ∈ t.nodes := hp1.mem_iff.2 (by simp)
  have hil : i ≠ l := by rintro rfl; simp at hnd
  have hir : i ≠ r := by rintro rfl; simp at hnd
  have hlr : l ≠ r := by rintro rfl; simp at hnd
  have h2 : l ∈ t.nodes.erase i := (List.mem_erase_of_ne hil.symm).2 (hp1.mem_iff.2 (by simp))
  have h3 : r ∈ (t.nodes.erase i).erase l :=
    (List.mem_erase_of_ne hlr.symm).2 ((List.mem_erase_of_ne hir.symm).2 (hp1.mem_iff.2 (by simp)))
  have q1 := List.perm_cons_erase h1
  have q2 := List.perm_cons_erase h2
  have q3 := List.perm_cons_erase h3
  obtain ⟨t', a1, a2, a3, a4⟩ := omutate_core (m := { kind := .prune, existing := i, updated := U }) (rest := ((t.nodes.erase i).erase l).erase r)
    (ns := ((t.nodes.erase i).erase l).erase r ++ [U])
    hI hsub rfl rfl hrd0 (by simp [Shape.ids]) (by
      intro j hj hc
      simp [Shape.ids] at hj; subst hj
      exact hfresh (hI.perm.mem_iff.2 hc)) (by simpa [Shape.ids] using hlt) (by
      refine hI.perm.symm.trans (q1.trans ?_)
      simp only [Shape.ids, List.cons_append, List.nil_append]
      exact (q2.trans (q3.cons l)).cons i) (by
      simp only [Shape.ids]
      exact List.perm_append_comm) (by
      have e2 := hRo.2.1
      have e3 := hRo.2.2.1
      simp [Tree.mutateNodes, Tree.removeNode, h1, h2, h3, e2, e3, Shape.root])
  exact ⟨t', a1, a2, a3, by rw [a3]; exact a4⟩

/-! ### update_y -/

theorem onodeUpdateY_ok (y : Option (Fin n → K)) {h0 : Heap K n p} {s : Shape} :
    ∀ {d fuel : Nat} {h : Heap K n p}, Struct X h0 s d → h.node = h0.node → s.height ≤ fuel →
    ∃ h', h.nodeUpdateY y fuel s.root = .ok h' ∧ YUpd y h h' ∧ ∀ i ∈ s.ids, h'.dataOf i = (h.dataOf i).updateY y := by
  have one : ∀ (h : Heap K n p) (i : NodeId), YUpd y h (h.setDataOf i ((h.dataOf i).updateY y)) ∧
      (h.setDataOf i ((h.dataOf i).updateY y)).dataOf i = (h.dataOf i).updateY y := by
    intro h i
    refine ⟨⟨rfl, rfl, rfl, fun k => ?_⟩, by simp [Heap.dataOf, Heap.setDataOf, Heap.setData]⟩
    by_cases hk : k = (h.node i).split.data
    · right; subst hk; simp [Heap.setDataOf, Heap.setData, Heap.dataOf]
    · left; simp [Heap.setDataOf, Heap.setData, hk]
  induction s with
  | leaf i =>
    intro d fuel h hR hn hf
    cases fuel with
    | zero => simp [Shape.height] at hf
    | succ fuel =>
      obtain ⟨u1, u2⟩ := one h i
      refine ⟨_, ?_, u1, by simpa [Shape.ids] using u2⟩
      simp only [Shape.root]
      unfold Heap.nodeUpdateY
      have : ((h.setDataOf i ((h.dataOf i).updateY y)).node i).left = none := by
        simp [Heap.setDataOf, Heap.setData, hn, hR.2.1]
      simp [this]
  | node i l r ihl ihr =>
    intro d fuel h hR hn hf
    obtain ⟨r1, r2, r3, r4, r5, hl, hr⟩ := hR
    cases fuel with
    | zero => simp [Shape.height] at hf
    | succ fuel =>
      simp only [Shape.height] at hf
      obtain ⟨u1, u2⟩ := one h i
      obtain ⟨h2, e2, v1, v2⟩ := ihl (fuel := fuel) (h := h.setDataOf i ((h.dataOf i).updateY y)) hl (u1.node.trans hn) (by omega)
      obtain ⟨h3, e3, w1, w2⟩ := ihr (fuel := fuel) (h := h2) hr (v1.node.trans (u1.node.trans hn)) (by omega)
      have hdat : ∀ {a b : Heap K n p}, YUpd y a b → ∀ k, (b.dataOf k) = b.data (a.node k).split.data := by
        intro a b hab k; simp [Heap.dataOf, hab.node]
      refine ⟨h3, ?_, (u1.trans v1).trans w1, ?_⟩
      · simp only [Shape.root]
        unfold Heap.nodeUpdateY
        have q1 : ((h.setDataOf i ((h.dataOf i).updateY y)).node i).left = some l.root := by
          rw [u1.node, hn, r2]
        have q2 : (h2.node i).right = some r.root := by rw [v1.node, u1.node, hn, r3]
        simp only [q1, e2, q2, e3]
      · intro k hk
        simp only [Shape.ids, List.mem_cons, List.mem_append] at hk
        have uv := u1.trans v1
        rw [hdat (uv.trans w1) k]
        show h3.data (h.node k).split.data = (h.data (h.node k).split.data).updateY y
        rcases hk with rfl | hk | hk
        · exact (v1.trans w1).keep (a := h) (by rw [hdat u1] at u2; exact u2)
        · have := v2 k hk
          rw [hdat v1, u1.node] at this
          refine w1.keep (a := h) ?_
          rw [this]
          show ((h.setDataOf i ((h.dataOf i).updateY y)).data ((h.setDataOf i ((h.dataOf i).updateY y)).node k).split.data).updateY y = _
          rw [u1.node]
          rcases u1.data (h.node k).split.data with e | e <;> rw [e]
          exact Data.updateY_updateY _ _
        · have := w2 k hk
          rw [hdat w1, uv.node] at this
          rw [this]
          show (h2.data (h2.node k).split.data).updateY y = _
          rw [uv.node]
          rcases uv.data (h.node k).split.data with e | e <;> rw [e]
          exact Data.updateY_updateY _ _

theorem oupdateNodes_ok (y : Option (Fin n → K)) {h0 : Heap K n p} {s : Shape} {d fuel : Nat} (hR : Struct X h0 s d) (hf : s.height ≤ fuel) :
    ∀ (ns : List NodeId) {h : Heap K n p}, (∀ i ∈ ns, i ∈ s.ids) → h.node = h0.node →
    ∃ h', Tree.updateNodes y fuel ns h = .ok h' ∧ YUpd y h h' ∧ ∀ i ∈ ns, h'.dataOf i = (h.dataOf i).updateY y := by
  intro ns
  induction ns with
  | nil => intro h _ _; exact ⟨h, rfl, YUpd.refl _ _, by simp⟩
  | cons i ns ih =>
    intro h hns hn
    obtain ⟨u, hu, hur⟩ := Shape.exists_sub (hns i (by simp))
    obtain ⟨d', hRu⟩ := hR.sub hu
    have hfu : u.height ≤ fuel := by
      refine le_trans ?_ hf
      clear hR hf hns hRu hur ih
      induction s with
      | leaf k => simp only [Shape.Sub] at hu; subst hu; exact le_refl _
      | node k l r ihl ihr =>
        rcases hu with rfl | hu | hu
        · exact le_refl _
        · have := ihl hu; simp only [Shape.height]; omega
        · have := ihr hu; simp only [Shape.height]; omega
    obtain ⟨h1, e1, u1, u2⟩ := onodeUpdateY_ok y (h := h) hRu hn hfu
    obtain ⟨h2, e2, v1, v2⟩ := ih (h := h1) (fun k hk => hns k (by simp [hk])) (u1.node.trans hn)
    refine ⟨h2, ?_, u1.trans v1, ?_⟩
    · unfold Tree.updateNodes
      rw [hur] at e1
      rw [e1]; exact e2
    · intro k hk
      have a2 : h2.dataOf k = h2.data (h.node k).split.data := by simp [Heap.dataOf, v1.node, u1.node]
      have a1 : h1.dataOf k = h1.data (h.node k).split.data := by simp [Heap.dataOf, u1.node]
      rw [a2]
      rcases List.mem_cons.1 hk with rfl | hk
      · have := u2 k (hur ▸ u.root_mem)
        rw [a1] at this
        exact v1.keep (a := h) this
      · have := v2 k hk
        rw [a2, a1] at this
        rw [this]
        show _ = (h.data (h.node k).split.data).updateY y
        rcases u1.data (h.node k).split.data with e | e <;> rw [e]
        exact Data.updateY_updateY _ _

/-- `update_y` succeeds and only changes the targets. -/
theorem OInv.updateY {y0 : Option (Fin n → K)} {t : Tree K n p} {s : Shape} (hI : OInv X y0 t s) (y : Option (Fin n → K)) :
    ∃ t', t.updateY y = .ok t' ∧ OInv X y t' s ∧ t'.nodes = t.nodes ∧ t'.cacheUpToDate = false ∧ t'.prediction = t.prediction ∧ YUpd y t.heap t'.heap ∧
      ∀ i ∈ t.nodes, rowsOf (t'.heap.dataOf i) = rowsOf (t.heap.dataOf i) := by
  have hf : s.height ≤ t.heap.nextNode + 1 :=
    le_trans s.height_le (le_trans (ids_length_le hI.nodup hI.lt) (Nat.le_succ _))
  obtain ⟨h', e, u1, u2⟩ := oupdateNodes_ok y hI.struct hf t.nodes (h := t.heap) (fun i hi => hI.perm.mem_iff.1 hi) rfl
  refine ⟨{ t with heap := h', cacheUpToDate := false }, by unfold Tree.updateY; rw [e], ⟨?_, ?_, ?_, hI.perm, hI.nodup, ?_⟩, rfl, rfl, rfl, u1, fun i hi => by simp only [u2 i hi]; rfl⟩
  · exact hI.struct.of_nodes_eq (fun j _ => by rw [u1.node])
  · intro i hi
    obtain ⟨q, hk⟩ := hI.ok i hi
    have := u2 i (hI.perm.mem_iff.2 hi)
    refine ⟨q, by simp only [u1.node, u1.nextData]; exact hk.data_lt, by simp only [u1.node]; exact hk.combined, ?_, ?_, ?_, ?_⟩
    · simp only [this]; exact Data.updateY_inv hk.inv y
    · simp only [this]; exact hk.hX
    · intro r; rw [← hk.rows r]; simp only [this]; rfl
    · simp only [this]; rfl
  · simp only [u1.node]; exact hI.top
  · intro i hi; simp only [u1.nextNode]; exact hI.lt i hi

/-- `set_value`. -/
theorem OInv.setValue {y : Option (Fin n → K)} {t : Tree K n p} {s : Shape} (hI : OInv X y t s) (i : NodeId) (v : K) : OInv X y { t with heap := t.heap.setValue i v } s := by
  have hsame : ∀ j, SameNode (t.heap.node j) ((t.heap.setValue i v).node j) := by
    intro j
    by_cases hj : j = i
    · subst hj; simp [Heap.setValue, Heap.setNode]; exact ⟨rfl, rfl, rfl, rfl, rfl⟩
    · simp [Heap.setValue, Heap.setNode, hj]; exact SameNode.refl _
  refine ⟨hI.struct.congr (fun j _ => hsame j), fun j hj => ?_, by simp only [(hsame s.root).split]; exact hI.top, hI.perm, hI.nodup, hI.lt⟩
  obtain ⟨q, hk⟩ := hI.ok j hj
  exact ⟨q, hk.of_eq (hsame j).split rfl rfl⟩

/-- The invariant of a new tree. -/
theorem OInv.fresh {d0 : Data K n p} (hd : DataInv d0) (hX : d0.X.X = X) (hm : ∀ r, d0.mask r = false) : OInv X d0.y.y (Tree.ofData d0) (.leaf 0) := by
  have hI := fresh_inv hd hX hm
  exact ⟨⟨rfl, rfl, rfl, rfl⟩, hI.repr.nodeOk, rfl, hI.perm, hI.nodup, hI.lt⟩

end Bart.Oblivious
