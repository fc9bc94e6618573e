import Verif.Proofs.Sim

/-! The relation of `Verif/Proofs/Sim.lean` is kept by the operations on trees, the proposer, the likelihood ratios and the samplers. -/

set_option linter.unusedSectionVars false

namespace Bart

@[elab_as_elim]
theorem ERel.elim {α β : Type} {R : α → β → Prop} {motive : Except PyErr α → Except PyErr β → Prop} {x : Except PyErr α} {y : Except PyErr β} (h : ERel R x y)
    (he : ∀ e, motive (.error e) (.error e)) (hok : ∀ a b, R a b → motive (.ok a) (.ok b)) : motive x y := by
  cases h with
  | error e => exact he e
  | ok h => exact hok _ _ h

theorem ERel.mono {α β : Type} {R R' : α → β → Prop} (hR : ∀ a b, R a b → R' a b) {x : Except PyErr α} {y : Except PyErr β} (h : ERel R x y) : ERel R' x y := by
  cases h with
  | error e => exact .error e
  | ok h => exact .ok (hR _ _ h)

theorem ERel.of_eq {α : Type} {x y : Except PyErr α} (h : y = x) : ERel (fun a b => b = a) x y := by
  subst h
  cases y with
  | error e => exact .error e
  | ok a => exact .ok rfl

namespace Sim
variable {K : Type} [Field K] [LinearOrder K] {n p p' : Nat} {γ : Cols p p'} {R : Nat → Nat → Prop}

abbrev Sub (R R' : Nat → Nat → Prop) : Prop := ∀ i j, R i j → R' i j

theorem all2_mono {R R' : Nat → Nat → Prop} (hR : Sub R R') {l l' : List Nat} (h : List.Forall₂ R l l') : List.Forall₂ R' l l' := h.imp (fun {a b} => hR a b)

theorem all2_choice {l l' : List Nat} (h : List.Forall₂ R l l') (u : Nat) : ERel R (choice l u) (choice l' u) := by
  unfold choice
  rw [h.length_eq]
  cases hl : l[u % l'.length]? with
  | none =>
    have : l'[u % l'.length]? = none := by
      rw [List.getElem?_eq_none_iff] at hl ⊢; rwa [h.length_eq] at hl
    rw [this]; exact .error _
  | some a =>
    obtain ⟨h1, h2⟩ := List.getElem?_eq_some_iff.1 hl
    have h3 : u % l'.length < l'.length := by rw [← h.length_eq] at h1 ⊢; exact h1
    rw [List.getElem?_eq_getElem h3]
    refine .ok ?_
    rw [← h2]
    exact (List.forall₂_iff_get.1 h).2 _ h1 h3

theorem all2_filter {l l' : List Nat} (h : List.Forall₂ R l l') {P P' : Nat → Bool} (hP : ∀ i j, R i j → P' j = P i) : List.Forall₂ R (l.filter P) (l'.filter P') := by
  induction h with
  | nil => exact .nil
  | cons h1 h2 ih =>
    rw [List.filter_cons, List.filter_cons, hP _ _ h1]
    split
    · exact .cons h1 ih
    · exact ih

theorem all2_remove {l l' : List Nat} (h : List.Forall₂ R l l') (hr : ∀ {a b c}, R a b → R a c → b = c) (hl : ∀ {a b c}, R a c → R b c → a = b)
    {i i' : Nat} (hi : R i i') : ERel (List.Forall₂ R) (Tree.removeNode l i) (Tree.removeNode l' i') := by
  unfold Tree.removeNode
  have hm : i' ∈ l' ↔ i ∈ l := by
    induction h with
    | nil => simp
    | cons h1 h2 ih =>
      simp only [List.mem_cons, ih]
      exact or_congr_left ⟨fun e => hl hi (e ▸ h1), fun e => hr hi (e ▸ h1)⟩
  by_cases e : i ∈ l
  · rw [if_pos e, if_pos (hm.2 e)]
    refine .ok ?_
    clear hm e
    induction h with
    | nil => exact .nil
    | @cons a b _ _ h1 h2 ih =>
      by_cases e : a = i
      · subst e
        obtain rfl := hr h1 hi
        rw [List.erase_cons_head, List.erase_cons_head]; exact h2
      · have e' : b ≠ i' := fun e' => e (hl h1 (e' ▸ hi))
        rw [List.erase_cons_tail (by simpa using e), List.erase_cons_tail (by simpa using e')]
        exact .cons h1 ih
  · rw [if_neg e, if_neg (fun h => e (hm.1 h))]; exact .error _

/-! ### trees -/

variable (γ) in
structure TRel (R : Nat → Nat → Prop) (t : Bart.Tree K n p) (t' : Bart.Tree K n p') : Prop where
  heap : HeapRel γ R t.heap t'.heap
  nodes : List.Forall₂ R t.nodes t'.nodes
  cache : t'.cacheUpToDate = t.cacheUpToDate
  pred : t'.prediction = t.prediction

variable (γ) in
/-- Related by some extension of `R`. -/
def TRelX (R : Nat → Nat → Prop) (t : Bart.Tree K n p) (t' : Bart.Tree K n p') : Prop := ∃ R', Sub R R' ∧ TRel γ R' t t'

variable {t : Bart.Tree K n p} {t' : Bart.Tree K n p'}

/-- The data used by a tree whose data differ only by constant columns. -/
def idRel (k : Nat) : Nat → Nat → Prop := fun i j => i = j ∧ i < k

theorem tRel_ofData {d : Data K n p} {d' : Data K n p'} (hd : DataRel γ d d') : TRel γ (idRel 1) (Tree.ofData d) (Tree.ofData d') where
  heap := {
    nextData := rfl
    data := fun _ => hd
    le := le_refl _
    right := by rintro a b c ⟨rfl, -⟩ ⟨rfl, -⟩; rfl
    left := by rintro a b c ⟨rfl, -⟩ ⟨rfl, -⟩; rfl
    lt := fun h => h.2
    lt' := by rintro a b ⟨rfl, h⟩; exact h
    node := fun _ => ⟨rfl, rfl, rfl, ⟨rfl, [], rfl, rfl⟩, .none, .none⟩ }
  nodes := .cons ⟨rfl, Nat.zero_lt_one⟩ .nil
  cache := rfl
  pred := rfl

namespace TRel

theorem withHeap (H : TRel γ R t t') {h : Heap K n p} {h' : Heap K n p'} {R' : Nat → Nat → Prop} (hR : Sub R R') (hh : HeapRel γ R' h h') :
    TRel γ R' { t with heap := h } { t' with heap := h' } := ⟨hh, all2_mono hR H.nodes, H.cache, H.pred⟩

theorem leafNodes (H : TRel γ R t t') : List.Forall₂ R t.leafNodes t'.leafNodes :=
  all2_filter H.nodes (fun i j h => by rw [(H.heap.node h).kind])

theorem prunable (H : TRel γ R t t') : List.Forall₂ R t.prunableDecisionNodes t'.prunableDecisionNodes :=
  all2_filter (all2_filter H.nodes (fun i j h => by rw [(H.heap.node h).kind])) (fun i j h => H.heap.isPrunable h)

end TRel

theorem filterSplittable {l l' : List Nat} (hl : List.Forall₂ R l l') : ∀ {h : Heap K n p} {h' : Heap K n p'}, HeapRel γ R h h' →
    List.Forall₂ R (Tree.filterSplittable l h).1 (Tree.filterSplittable l' h').1 ∧ HeapRel γ R (Tree.filterSplittable l h).2 (Tree.filterSplittable l' h').2 := by
  induction hl with
  | nil => intro h h' H; exact ⟨.nil, H⟩
  | cons h1 h2 ih =>
    intro h h' H
    obtain ⟨e, H1⟩ := H.isSplittable h1
    obtain ⟨h3, h4⟩ := ih H1
    refine ⟨?_, h4⟩
    simp only [Tree.filterSplittable, e]
    split
    · exact .cons h1 h3
    · exact h3

namespace TRel

theorem splittableLeafNodes (H : TRel γ R t t') :
    List.Forall₂ R t.splittableLeafNodes.1 t'.splittableLeafNodes.1 ∧ TRel γ R t.splittableLeafNodes.2 t'.splittableLeafNodes.2 := by
  obtain ⟨h1, h2⟩ := filterSplittable H.leafNodes H.heap
  exact ⟨h1, H.withHeap (fun _ _ h => h) h2⟩

theorem updateNodes (y : Option (Fin n → K)) {fuel fuel' : Nat} (hf : fuel ≤ fuel') {l l' : List Nat} (hl : List.Forall₂ R l l') :
    ∀ {h : Heap K n p} {h' : Heap K n p'}, HeapRel γ R h h' →
    Tree.updateNodes y fuel l h = .error .recursionError ∨ ERel (HeapRel γ R) (Tree.updateNodes y fuel l h) (Tree.updateNodes y fuel' l' h') := by
  induction hl with
  | nil => intro h h' H; exact .inr (.ok H)
  | cons h1 h2 ih =>
    intro h h' H
    simp only [Tree.updateNodes]
    rcases HeapRel.nodeUpdateY y fuel hf H h1 with e | e
    · left; rw [e]
    · refine ERel.elim e (fun e => .inr (.error e)) (fun a b H1 => ?_)
      exact ih H1

theorem updateY (H : TRel γ R t t') (y : Option (Fin n → K)) : t.updateY y = .error .recursionError ∨ ERel (TRel γ R) (t.updateY y) (t'.updateY y) := by
  unfold Tree.updateY
  rcases updateNodes y (Nat.succ_le_succ H.heap.le) H.nodes H.heap with e | e
  · left; rw [e]
  · refine ERel.elim e (fun e => .inr (.error e)) (fun a b H1 => .inr (.ok ?_))
    exact ⟨H1, H.nodes, rfl, H.pred⟩

theorem zerosBuf (H : TRel γ R t t') : t'.zerosBuf = t.zerosBuf := by
  unfold Tree.zerosBuf
  have h := H.nodes
  cases e : t.nodes <;> cases e' : t'.nodes <;> rw [e, e'] at h <;> cases h
  · rfl
  · next h1 _ => simp only [List.head?_cons, (H.heap.dataOf h1).X.nObsv]

theorem predictLoop (H : TRel γ R t t') {l l' : List Nat} (hl : List.Forall₂ R l l') : ∀ b, t'.predictLoop l' b = t.predictLoop l b := by
  induction hl with
  | nil => intro b; rfl
  | cons h1 h2 ih =>
    intro b
    simp only [Tree.predictLoop, H.zerosBuf, H.heap.inSample (H.heap.node h1).split, (H.heap.node h1).value, ih]

theorem predict (H : TRel γ R t t') : ERel (fun a b => b.1 = a.1 ∧ TRel γ R a.2 b.2) t.predict t'.predict := by
  unfold Tree.predict
  rw [H.cache, H.pred]
  split
  · exact .ok ⟨rfl, H⟩
  · refine ERel.elim (ERel.of_eq (H.predictLoop H.leafNodes t.prediction)) (fun e => .error e) (fun a b h => ?_)
    subst h
    exact .ok ⟨rfl, H.heap, H.nodes, rfl, rfl⟩

theorem predictX (H : TRel γ R t t') {q : Nat} {X : Fin q → Fin p → Fl K} {X' : Fin q → Fin p' → Fl K} (hX : ∀ r, RowRel γ (X r) (X' r)) : t'.predictX X' = t.predictX X := by
  unfold Tree.predictX
  generalize (fun _ : Fin q => (0 : K)) = z
  have hl := H.leafNodes
  generalize t.leafNodes = l at hl
  generalize t'.leafNodes = l' at hl
  induction hl generalizing z with
  | nil => rfl
  | cons h1 h2 ih =>
    simp only [List.foldl_cons]
    rw [ih]
    congr 1
    funext r
    have e := combRel_condition γ (H.heap.node h1).split.2 (hX r)
    simp only [Heap.outOfSample, e, (H.heap.node h1).value]
    rfl

end TRel

theorem relinkNode {h : Heap K n p} {h' : Heap K n p'} (H : HeapRel γ R h h') {m m' : TreeMutation} (he : R m.existing m'.existing) (hu : R m.updated m'.updated)
    {i j : Nat} (hi : R i j) : HeapRel γ R (Tree.relinkNode h m i) (Tree.relinkNode h' m' j) := by
  unfold Tree.relinkNode
  have H1 : HeapRel γ R (if (h.node i).right = some m.existing then h.setNode i { h.node i with right := some m.updated } else h)
      (if (h'.node j).right = some m'.existing then h'.setNode j { h'.node j with right := some m'.updated } else h') := by
    have e := H.optIff (H.node hi).right he
    by_cases g : (h.node i).right = some m.existing
    · rw [if_pos g, if_pos (e.2 g)]
      exact H.setNode hi { H.node hi with right := .some hu }
    · rw [if_neg g, if_neg (fun h => g (e.1 h))]
      exact H
  revert H1
  generalize (if (h.node i).right = some m.existing then h.setNode i { h.node i with right := some m.updated } else h) = h1
  generalize (if (h'.node j).right = some m'.existing then h'.setNode j { h'.node j with right := some m'.updated } else h') = h1'
  intro H
  have e := H.optIff (H.node hi).left he
  by_cases g : (h1.node i).left = some m.existing
  · simp only [g, e.2 g, if_true]
    exact H.setNode hi { H.node hi with left := .some hu }
  · have g' : ¬ (h1'.node j).left = some m'.existing := fun h => g (e.1 h)
    simp only [g, g', if_false]
    exact H

theorem foldRelink {m m' : TreeMutation} (he : R m.existing m'.existing) (hu : R m.updated m'.updated) {l l' : List Nat} (hl : List.Forall₂ R l l') :
    ∀ {h : Heap K n p} {h' : Heap K n p'}, HeapRel γ R h h' →
    HeapRel γ R (l.foldl (fun h i => Tree.relinkNode h m i) h) (l'.foldl (fun h i => Tree.relinkNode h m' i) h') := by
  induction hl with
  | nil => intro h h' H; exact H
  | cons h1 h2 ih => intro h h' H; exact ih (relinkNode H he hu h1)

/-- Mutations of the same kind, of related nodes. -/
structure MutRel (R : Nat → Nat → Prop) (m m' : TreeMutation) : Prop where
  kind : m'.kind = m.kind
  existing : R m.existing m'.existing
  updated : R m.updated m'.updated

theorem mutateNodes {h : Heap K n p} {h' : Heap K n p'} (H : HeapRel γ R h h') {l l' : List Nat} (hl : List.Forall₂ R l l') {m m' : TreeMutation} (hm : MutRel R m m') :
    ERel (List.Forall₂ R) (Tree.mutateNodes h l m) (Tree.mutateNodes h' l' m') := by
  unfold Tree.mutateNodes
  rw [hm.kind]
  cases m.kind with
  | other => exact .ok hl
  | grow =>
    simp only []
    refine ERel.elim (all2_remove hl H.right H.left hm.existing) (fun e => .error e) (fun l1 l1' h1 => ?_)
    have e1 := (H.node hm.updated).left
    have e2 := (H.node hm.updated).right
    cases g1 : (h.node m.updated).left <;> cases g1' : (h'.node m'.updated).left <;> rw [g1, g1'] at e1 <;> cases e1 <;>
      cases g2 : (h.node m.updated).right <;> cases g2' : (h'.node m'.updated).right <;> rw [g2, g2'] at e2 <;> cases e2
    · exact .error _
    · exact .error _
    · exact .error _
    · next _ _ _ a1 _ _ a2 =>
      refine .ok ?_
      exact List.rel_append (List.rel_append (List.rel_append h1 (.cons a1 .nil)) (.cons a2 .nil)) (.cons hm.updated .nil)
  | prune =>
    simp only []
    refine ERel.elim (all2_remove hl H.right H.left hm.existing) (fun e => .error e) (fun l1 l1' h1 => ?_)
    have e1 := (H.node hm.existing).left
    have e2 := (H.node hm.existing).right
    cases g1 : (h.node m.existing).left <;> cases g1' : (h'.node m'.existing).left <;> rw [g1, g1'] at e1 <;> cases e1 <;>
      cases g2 : (h.node m.existing).right <;> cases g2' : (h'.node m'.existing).right <;> rw [g2, g2'] at e2 <;> cases e2
    · exact .error _
    · exact .error _
    · exact .error _
    · next _ _ _ a1 _ _ a2 =>
      simp only []
      refine ERel.elim (all2_remove h1 H.right H.left a1) (fun e => .error e) (fun l2 l2' h2 => ?_)
      simp only []
      refine ERel.elim (all2_remove h2 H.right H.left a2) (fun e => .error e) (fun l3 l3' h3 => ?_)
      exact .ok (List.rel_append h3 (.cons hm.updated .nil))

theorem TRel.mutate (H : TRel γ R t t') {m m' : TreeMutation} (hm : MutRel R m m') : ERel (TRel γ R) (t.mutate m) (t'.mutate m') := by
  unfold Tree.mutate
  refine ERel.elim (mutateNodes H.heap H.nodes hm) (fun e => .error e) (fun l l' hl => .ok ?_)
  exact ⟨foldRelink hm.existing hm.updated hl H.heap, hl, rfl, H.pred⟩

theorem growMutation {h : Heap K n p} {h' : Heap K n p'} (H : HeapRel γ R h h') {i i' j j' : Nat} (hi : R i i') (hj : R j j') :
    ERel (MutRel R) (Tree.growMutation h i j) (Tree.growMutation h' i' j') := by
  unfold Tree.growMutation
  rw [(H.node hi).kind]
  split
  · exact .error _
  · exact .ok ⟨rfl, hi, hj⟩

theorem pruneMutation {h : Heap K n p} {h' : Heap K n p'} (H : HeapRel γ R h h') {i i' j j' : Nat} (hi : R i i') (hj : R j j') :
    ERel (MutRel R) (Tree.pruneMutation h i j) (Tree.pruneMutation h' i' j') := by
  unfold Tree.pruneMutation
  rw [(H.node hi).kind, H.isPrunable hi]
  split
  · exact .error _
  · exact .ok ⟨rfl, hi, hj⟩

/-! ### proposals -/

theorem choice_map {α β : Type} (f : α → β) (l : List α) (u : Nat) : ERel (fun a b => b = f a) (choice l u) (choice (l.map f) u) := by
  unfold choice
  rw [List.length_map, List.getElem?_map]
  cases l[u % l.length]? with
  | none => exact .error _
  | some a => exact .ok rfl

theorem sampleSplitCondition {h : Heap K n p} {h' : Heap K n p'} (H : HeapRel γ R h h') {i j : Nat} (hi : R i j) (us : List Nat) :
    HeapRel γ R (Tree.sampleSplitCondition h i us).1 (Tree.sampleSplitCondition h' j us).1 ∧
    (Tree.sampleSplitCondition h' j us).2.1 = (Tree.sampleSplitCondition h i us).2.1 ∧
    ERel (fun a b => b = (cond γ a.1, cond γ a.2)) (Tree.sampleSplitCondition h i us).2.2 (Tree.sampleSplitCondition h' j us).2.2 := by
  unfold Tree.sampleSplitCondition
  have h1 := H.dataOf hi
  have H1 := H.setDataOf hi (h1.withX h1.X.splittable.2)
  simp only [h1.X.splittable.1]
  cases us with
  | nil => exact ⟨H1, rfl, .error _⟩
  | cons u us =>
    simp only []
    refine ERel.elim (choice_map γ.at' (h.dataOf i).X.splittable.1 u) (fun e => ⟨H1, rfl, .error e⟩) (fun v v' hv => ?_)
    subst hv
    have h2 := H1.dataOf hi
    simp only []
    refine ERel.elim (h2.X.randomValue v us) (fun e => ⟨H1, rfl, .error e⟩) ?_
    rintro ⟨x, us1, c⟩ ⟨x', us1', c'⟩ ⟨e1, e2, h3⟩
    simp only at e1 e2 h3
    subst e1; subst e2
    exact ⟨H1.setDataOf hi (h2.withX h3), rfl, .ok rfl⟩

theorem sampleSplitNode {h : Heap K n p} {h' : Heap K n p'} (H : HeapRel γ R h h') {i j : Nat} (hi : R i j) (us : List Nat) :
    ∃ R', Sub R R' ∧ HeapRel γ R' (Tree.sampleSplitNode h i us).1 (Tree.sampleSplitNode h' j us).1 ∧
    (Tree.sampleSplitNode h' j us).2.1 = (Tree.sampleSplitNode h i us).2.1 ∧
    ERel R' (Tree.sampleSplitNode h i us).2.2 (Tree.sampleSplitNode h' j us).2.2 := by
  unfold Tree.sampleSplitNode
  obtain ⟨H1, e1, h2⟩ := sampleSplitCondition H hi us
  revert H1 e1 h2
  generalize Tree.sampleSplitCondition h i us = a
  generalize Tree.sampleSplitCondition h' j us = b
  obtain ⟨h1, us1, x⟩ := a
  obtain ⟨h1', us1', x'⟩ := b
  intro H1 e1 h2
  simp only at H1 e1 h2
  subst e1
  refine ERel.elim h2 (fun e => ⟨R, fun _ _ h => h, H1, rfl, .error e⟩) ?_
  rintro ⟨c0, c1⟩ b rfl
  simp only []
  refine ERel.elim (H1.splitNode hi c0 c1) (fun e => ⟨R, fun _ _ h => h, H1, rfl, .error e⟩) ?_
  rintro ⟨d, h2⟩ ⟨d', h2'⟩ ⟨R', hR, H2, hd⟩
  exact ⟨R', hR, H2, rfl, .ok hd⟩

namespace TRel

theorem sampleGrow (H : TRel γ R t t') (us : List Nat) :
    ∃ R', Sub R R' ∧ TRel γ R' (t.sampleGrow us).1 (t'.sampleGrow us).1 ∧ (t'.sampleGrow us).2.1 = (t.sampleGrow us).2.1 ∧
    ERel (MutRel R') (t.sampleGrow us).2.2 (t'.sampleGrow us).2.2 := by
  unfold Tree.sampleGrow
  obtain ⟨h1, H1⟩ := H.splittableLeafNodes
  have hid : Sub R R := fun _ _ h => h
  simp only [h1.length_eq]
  split
  · exact ⟨R, hid, H1, rfl, .error _⟩
  · cases us with
    | nil => exact ⟨R, hid, H1, rfl, .error _⟩
    | cons u us =>
      simp only []
      refine ERel.elim (all2_choice h1 u) (fun e => ⟨R, hid, H1, rfl, .error e⟩) (fun i i' hi => ?_)
      simp only []
      obtain ⟨R', hR, H2, e2, h3⟩ := sampleSplitNode H1.heap hi us
      revert H2 e2 h3
      generalize Tree.sampleSplitNode t.splittableLeafNodes.2.heap i us = a
      generalize Tree.sampleSplitNode t'.splittableLeafNodes.2.heap i' us = b
      obtain ⟨h1, us1, x⟩ := a
      obtain ⟨h1', us1', x'⟩ := b
      intro H2 e2 h3
      simp only at H2 e2 h3
      subst e2
      refine ERel.elim h3 (fun e => ⟨R', hR, H1.withHeap hR H2, rfl, .error e⟩) (fun d d' hd => ?_)
      exact ⟨R', hR, H1.withHeap hR H2, rfl, growMutation H2 (hR _ _ hi) hd⟩

theorem samplePrune (H : TRel γ R t t') (us : List Nat) :
    ∃ R', Sub R R' ∧ TRel γ R' (t.samplePrune us).1 (t'.samplePrune us).1 ∧ (t'.samplePrune us).2.1 = (t.samplePrune us).2.1 ∧
    ERel (MutRel R') (t.samplePrune us).2.2 (t'.samplePrune us).2.2 := by
  unfold Tree.samplePrune
  have h1 := H.prunable
  have hid : Sub R R := fun _ _ h => h
  simp only [h1.length_eq]
  split
  · exact ⟨R, hid, H, rfl, .error _⟩
  · cases us with
    | nil => exact ⟨R, hid, H, rfl, .error _⟩
    | cons u us =>
      simp only []
      refine ERel.elim (all2_choice h1 u) (fun e => ⟨R, hid, H, rfl, .error e⟩) (fun i i' hi => ?_)
      simp only []
      rw [(H.heap.node hi).depth]
      obtain ⟨H1, hl⟩ := H.heap.newLeaf (H.heap.node hi).split (t.heap.node i).depth 0
      have hR : Sub R (HeapRel.ext R t.heap.nextNode t'.heap.nextNode) := fun _ _ h => .inl h
      exact ⟨_, hR, H.withHeap hR H1, trivial, pruneMutation H1 (hR _ _ hi) hl⟩

theorem sampleMethod (H : TRel γ R t t') (m : Method) (us : List Nat) :
    ∃ R', Sub R R' ∧ TRel γ R' (t.sampleMethod m us).1 (t'.sampleMethod m us).1 ∧ (t'.sampleMethod m us).2.1 = (t.sampleMethod m us).2.1 ∧
    ERel (MutRel R') (t.sampleMethod m us).2.2 (t'.sampleMethod m us).2.2 := by
  cases m with
  | grow => exact H.sampleGrow us
  | prune => exact H.samplePrune us

theorem propose (ms : List Method) : ∀ {t : Bart.Tree K n p} {t' : Bart.Tree K n p'} {R : Nat → Nat → Prop}, TRel γ R t t' → ∀ us,
    ERel (fun a b => ∃ R', Sub R R' ∧ MutRel R' a.1 b.1 ∧ TRel γ R' a.2.1 b.2.1 ∧ b.2.2 = a.2.2) (t.propose us ms) (t'.propose us ms) := by
  induction ms with
  | nil => intro t t' R H us; exact .error _
  | cons m ms ih =>
    intro t t' R H us
    simp only [Tree.propose]
    obtain ⟨R', hR, H1, e1, h2⟩ := H.sampleMethod m us
    revert H1 e1 h2
    generalize t.sampleMethod m us = a
    generalize t'.sampleMethod m us = b
    obtain ⟨t1, us1, x⟩ := a
    obtain ⟨t1', us1', x'⟩ := b
    intro H1 e1 h2
    simp only at H1 e1 h2
    subst e1
    have key : ERel (fun a b => ∃ R'', Sub R R'' ∧ MutRel R'' a.1 b.1 ∧ TRel γ R'' a.2.1 b.2.1 ∧ b.2.2 = a.2.2) (t1.propose us1' ms) (t1'.propose us1' ms) :=
      (ih H1 us1').mono (fun a b ⟨R'', h1, h2⟩ => ⟨R'', fun i j h => h1 i j (hR i j h), h2⟩)
    refine ERel.elim h2 (fun e => ?_) (fun mu mu' hmu => ?_)
    · cases e <;> first | exact key | exact .error _
    · exact .ok ⟨R', hR, hmu, H1, rfl⟩

end TRel

/-! ### likelihood ratios -/

section
variable [MathFns K]

theorem logGrowRatio {h : Heap K n p} {h' : Heap K n p'} (H : HeapRel γ R h h') {c c' l l' r r' : Nat} (hc : R c c') (hl : R l l') (hr : R r r') (s : K) (sm : Fl K) :
    ERel (fun a b => b.1 = a.1 ∧ HeapRel γ R a.2 b.2) (Lik.logGrowRatio h c l r s sm) (Lik.logGrowRatio h' c' l' r' s sm) := by
  unfold Lik.logGrowRatio
  simp only [(H.dataOf hc).X.nObsv, (H.dataOf hl).X.nObsv, (H.dataOf hr).X.nObsv, H.splitData hc]
  refine ERel.elim (H.sumYOf (h.node c).split.data) (fun e => .error e) ?_
  rintro ⟨s1, h1⟩ ⟨s1', h1'⟩ ⟨e1, H1, -⟩
  simp only at e1 H1
  subst e1
  simp only [H1.splitData hl]
  refine ERel.elim (H1.sumYOf (h1.node l).split.data) (fun e => .error e) ?_
  rintro ⟨s2, h2⟩ ⟨s2', h2'⟩ ⟨e2, H2, -⟩
  simp only at e2 H2
  subst e2
  simp only [H2.splitData hr]
  refine ERel.elim (H2.sumYOf (h2.node r).split.data) (fun e => .error e) ?_
  rintro ⟨s3, h3⟩ ⟨s3', h3'⟩ ⟨e3, H3, -⟩
  simp only at e3 H3
  subst e3
  exact .ok ⟨rfl, H3⟩

theorem children {h : Heap K n p} {h' : Heap K n p'} (H : HeapRel γ R h h') {i i' : Nat} (hi : R i i') :
    ERel (fun a b => R a.1 b.1 ∧ R a.2 b.2) (Lik.children h i) (Lik.children h' i') := by
  unfold Lik.children
  have e1 := (H.node hi).left
  have e2 := (H.node hi).right
  cases g1 : (h.node i).left <;> cases g1' : (h'.node i').left <;> rw [g1, g1'] at e1 <;> cases e1 <;>
    cases g2 : (h.node i).right <;> cases g2' : (h'.node i').right <;> rw [g2, g2'] at e2 <;> cases e2
  · exact .error _
  · exact .error _
  · exact .error _
  · next _ _ _ a1 _ _ a2 => exact .ok ⟨a1, a2⟩

theorem logLikihoodRatio {h : Heap K n p} {h' : Heap K n p'} (H : HeapRel γ R h h') {mu mu' : TreeMutation} (hm : MutRel R mu mu') (m : Params K) :
    ERel (fun a b => b.1 = a.1 ∧ HeapRel γ R a.2 b.2) (Lik.logLikihoodRatio m h mu) (Lik.logLikihoodRatio m h' mu') := by
  unfold Lik.logLikihoodRatio
  rw [hm.kind]
  cases mu.kind with
  | other => exact .error _
  | grow =>
    simp only []
    refine ERel.elim (children H hm.updated) (fun e => .error e) ?_
    rintro ⟨l, r⟩ ⟨l', r'⟩ ⟨hl, hr⟩
    exact logGrowRatio H hm.existing hl hr _ _
  | prune =>
    simp only []
    refine ERel.elim (children H hm.existing) (fun e => .error e) ?_
    rintro ⟨l, r⟩ ⟨l', r'⟩ ⟨hl, hr⟩
    simp only []
    refine ERel.elim (logGrowRatio H hm.updated hl hr m.sigma (Lik.sigmaM m)) (fun e => .error e) ?_
    rintro ⟨a, h1⟩ ⟨b, h1'⟩ ⟨e1, H1⟩
    simp only at e1 H1
    subst e1
    exact .ok ⟨rfl, H1⟩

theorem nSplittableLeaves (H : TRel γ R t t') : (Lik.nSplittableLeaves t').1 = (Lik.nSplittableLeaves t).1 ∧ TRel γ R (Lik.nSplittableLeaves t).2 (Lik.nSplittableLeaves t').2 :=
  ⟨H.splittableLeafNodes.1.length_eq.symm, H.splittableLeafNodes.2⟩

theorem nPrunable (H : TRel γ R t t') : Lik.nPrunable t' = Lik.nPrunable t := H.prunable.length_eq.symm

theorem logSplitWithinNode {h : Heap K n p} {h' : Heap K n p'} (H : HeapRel γ R h h') {i i' j j' : Nat} (hi : R i i') (hj : R j j') :
    ERel (fun a b => b.1 = a.1 ∧ HeapRel γ R a.2 b.2) (Lik.logSplitWithinNode h i j) (Lik.logSplitWithinNode h' i' j') := by
  unfold Lik.logSplitWithinNode
  have h1 := H.dataOf hi
  have H1 := H.setDataOf hi (h1.withX h1.X.nSplittable.2)
  simp only [h1.X.nSplittable.1, H1.mostRecent hj]
  cases (h.setDataOf i { h.dataOf i with X := (h.dataOf i).X.nSplittable.2 }).mostRecentSplitCondition j with
  | error e => exact .error e
  | ok c =>
    cases c with
    | none => exact .error _
    | some c =>
      have h2 := H1.dataOf hi
      simp only [Except.map, Option.map_some, cond]
      obtain ⟨e, h3⟩ := h2.X.proportion c.splittingVariable c.splittingValue
      simp only [e]
      exact .ok ⟨rfl, H1.setDataOf hi (h2.withX h3)⟩

theorem logSplitWithinTree (H : TRel γ R t t') {mu mu' : TreeMutation} (hm : MutRel R mu mu') :
    ERel (fun a b => b.1 = a.1 ∧ TRel γ R a.2 b.2) (Lik.logSplitWithinTree t mu) (Lik.logSplitWithinTree t' mu') := by
  unfold Lik.logSplitWithinTree
  obtain ⟨e1, H1⟩ := nSplittableLeaves H
  simp only [e1]
  refine ERel.elim (logSplitWithinNode H1.heap hm.existing hm.updated) (fun e => .error e) ?_
  rintro ⟨a, h1⟩ ⟨b, h1'⟩ ⟨e1, H2⟩
  simp only at e1 H2
  subst e1
  exact .ok ⟨rfl, H1.withHeap (fun _ _ h => h) H2⟩

theorem logTransitionRatio (H : TRel γ R t t') {mu mu' : TreeMutation} (hm : MutRel R mu mu') (pg pp : K) :
    ERel (fun a b => b.1 = a.1 ∧ TRel γ R a.2 b.2) (Lik.logTransitionRatio pg pp t mu) (Lik.logTransitionRatio pg pp t' mu') := by
  unfold Lik.logTransitionRatio
  rw [hm.kind]
  cases mu.kind with
  | other => exact .error _
  | grow =>
    simp only [Lik.logGrowTransition, nPrunable H]
    refine ERel.elim (logSplitWithinTree H hm) (fun e => .error e) ?_
    rintro ⟨a, t1⟩ ⟨b, t1'⟩ ⟨e1, H1⟩
    simp only at e1 H1
    subst e1
    simp only []
    cases Lik.pyDiv pp pg with
    | error e => exact .error e
    | ok q => exact .ok ⟨rfl, H1⟩
  | prune =>
    simp only [Lik.logPruneTransition]
    obtain ⟨e1, H1⟩ := nSplittableLeaves H
    simp only [e1]
    refine ERel.elim (growMutation H1.heap hm.updated hm.existing) (fun e => .error e) (fun g g' hg => ?_)
    simp only []
    refine ERel.elim (logSplitWithinNode H1.heap hg.existing hg.updated) (fun e => .error e) ?_
    rintro ⟨a, h1⟩ ⟨b, h1'⟩ ⟨e1, H2⟩
    simp only at e1 H2
    subst e1
    have H3 := H1.withHeap (fun _ _ h => h) H2
    simp only [nPrunable H3]
    cases Lik.pyDiv pg pp with
    | error e => exact .error e
    | ok q => exact .ok ⟨rfl, H3⟩

theorem logTreeRatio (H : TRel γ R t t') {mu mu' : TreeMutation} (hm : MutRel R mu mu') (m : Params K) :
    ERel (fun a b => b.1 = a.1 ∧ TRel γ R a.2 b.2) (Lik.logTreeRatio m t mu) (Lik.logTreeRatio m t' mu') := by
  unfold Lik.logTreeRatio
  rw [hm.kind]
  cases mu.kind with
  | other => exact .error _
  | grow =>
    simp only [Lik.logTreeRatioGrow]
    refine ERel.elim (children H.heap hm.updated) (fun e => .error e) ?_
    rintro ⟨l, r⟩ ⟨l', r'⟩ ⟨hl, hr⟩
    simp only [(H.heap.node hm.existing).depth, (H.heap.node hm.updated).depth, (H.heap.node hl).depth, (H.heap.node hr).depth]
    refine ERel.elim (logSplitWithinTree H hm) (fun e => .error e) ?_
    rintro ⟨a, t1⟩ ⟨b, t1'⟩ ⟨e1, H1⟩
    simp only at e1 H1
    subst e1
    exact .ok ⟨rfl, H1⟩
  | prune =>
    simp only [Lik.logTreeRatioPrune]
    have e1 := (H.heap.node hm.existing).left
    cases g1 : (t.heap.node mu.existing).left <;> cases g1' : (t'.heap.node mu'.existing).left <;> rw [g1, g1'] at e1 <;> cases e1
    · exact .error _
    · next hl =>
      simp only [(H.heap.node hm.existing).depth, (H.heap.node hm.updated).depth, (H.heap.node hl).depth]
      refine ERel.elim (growMutation H.heap hm.updated hm.existing) (fun e => .error e) (fun g g' hg => ?_)
      simp only []
      refine ERel.elim (logSplitWithinNode H.heap hg.existing hg.updated) (fun e => .error e) ?_
      rintro ⟨a, h1⟩ ⟨b, h1'⟩ ⟨e1, H2⟩
      simp only at e1 H2
      subst e1
      exact .ok ⟨rfl, H.withHeap (fun _ _ h => h) H2⟩

theorem logProbabilityRatio (H : TRel γ R t t') {mu mu' : TreeMutation} (hm : MutRel R mu mu') (m : Params K) (pg pp : K) :
    ERel (fun a b => b.1 = a.1 ∧ TRel γ R a.2 b.2) (Lik.logProbabilityRatio m pg pp t mu) (Lik.logProbabilityRatio m pg pp t' mu') := by
  unfold Lik.logProbabilityRatio
  refine ERel.elim (logTransitionRatio H hm pg pp) (fun e => .error e) ?_
  rintro ⟨a, t1⟩ ⟨b, t1'⟩ ⟨e1, H1⟩
  simp only at e1 H1
  subst e1
  simp only []
  refine ERel.elim (logLikihoodRatio H1.heap hm m) (fun e => .error e) ?_
  rintro ⟨a, h1⟩ ⟨b, h1'⟩ ⟨e1, H2⟩
  simp only at e1 H2
  subst e1
  have H3 := H1.withHeap (fun _ _ h => h) H2
  simp only []
  refine ERel.elim (logTreeRatio H3 hm m) (fun e => .error e) ?_
  rintro ⟨a, t1⟩ ⟨b, t1'⟩ ⟨e1, H4⟩
  simp only at e1 H4
  subst e1
  exact .ok ⟨rfl, H4⟩

/-! ### samplers -/

/-- Both steps made a mutation, or neither did. -/
def SameAcc (a b : Option TreeMutation) : Prop := b.isSome = a.isSome

theorem treeSample (H : TRel γ R t t') (m : Params K) (pg pp : K) (r : Rand K) :
    ERel (fun a b => ∃ R', Sub R R' ∧ Option.Rel (MutRel R') a.1 b.1 ∧ TRel γ R' a.2.1 b.2.1 ∧ b.2.2 = a.2.2) (Sampler.treeSample m pg pp t r) (Sampler.treeSample m pg pp t' r) := by
  unfold Sampler.treeSample
  refine ERel.elim (H.propose r.methods r.picks) (fun e => .error e) ?_
  rintro ⟨mu, t1, us, ms⟩ ⟨mu', t1', us', ms'⟩ ⟨R', hR, hm, H1, e1⟩
  simp only [Prod.mk.injEq] at hm H1 e1
  obtain ⟨rfl, rfl⟩ := e1
  simp only []
  refine ERel.elim (logProbabilityRatio H1 hm m pg pp) (fun e => .error e) ?_
  rintro ⟨a, t2⟩ ⟨b, t2'⟩ ⟨e1, H2⟩
  simp only at e1 H2
  subst e1
  simp only []
  cases r.uniforms with
  | nil => exact .error _
  | cons u us =>
    refine .ok ⟨R', hR, ?_, H2, rfl⟩
    simp only []
    split
    · exact .some hm
    · exact .none

theorem treeStep (H : TRel γ R t t') (m : Params K) (pg pp : K) (r : Rand K) :
    ERel (fun a b => SameAcc a.1 b.1 ∧ TRelX γ R a.2.1 b.2.1 ∧ b.2.2 = a.2.2) (Sampler.treeStep m pg pp t r) (Sampler.treeStep m pg pp t' r) := by
  unfold Sampler.treeStep
  refine ERel.elim (treeSample H m pg pp r) (fun e => .error e) ?_
  rintro ⟨mu, t1, r1⟩ ⟨mu', t1', r1'⟩ ⟨R', hR, hm, H1, e1⟩
  simp only at hm H1 e1
  subst e1
  cases hm with
  | none => exact .ok ⟨rfl, ⟨R', hR, H1⟩, rfl⟩
  | some hm =>
    simp only []
    refine ERel.elim (H1.mutate hm) (fun e => .error e) (fun t2 t2' H2 => ?_)
    exact .ok ⟨rfl, ⟨R', hR, H2⟩, rfl⟩

theorem leafStep (H : TRel γ R t t') (m : Params K) {i j : Nat} (hi : R i j) (r : Rand K) :
    ERel (fun a b => TRel γ R a.1 b.1 ∧ b.2 = a.2) (Sampler.leafStep m t i r) (Sampler.leafStep m t' j r) := by
  unfold Sampler.leafStep
  simp only [(H.heap.dataOf hi).X.nObsv, H.heap.splitData hi]
  refine ERel.elim (H.heap.sumYOf (t.heap.node i).split.data) (fun e => .error e) ?_
  rintro ⟨s1, h1⟩ ⟨s1', h1'⟩ ⟨e1, H1, -⟩
  simp only at e1 H1
  subst e1
  simp only []
  cases r.normals with
  | nil => exact .error _
  | cons z zs =>
    simp only []
    cases (Sampler.leafValue m (Fl.ofInt (t.heap.dataOf i).X.nObsv) (.fin s1') (.fin z)).toFinite with
    | error e => exact .error e
    | ok v => exact .ok ⟨H.withHeap (fun _ _ h => h) (H1.setValue hi v), rfl⟩

theorem leafSteps (m : Params K) {l l' : List Nat} (hl : List.Forall₂ R l l') : ∀ {t : Bart.Tree K n p} {t' : Bart.Tree K n p'}, TRel γ R t t' → ∀ (r : Rand K),
    ERel (fun a b => TRel γ R a.1 b.1 ∧ b.2 = a.2) (Sampler.leafSteps m l t r) (Sampler.leafSteps m l' t' r) := by
  induction hl with
  | nil => intro t t' H r; exact .ok ⟨H, rfl⟩
  | cons h1 h2 ih =>
    intro t t' H r
    simp only [Sampler.leafSteps]
    refine ERel.elim (leafStep H m h1 r) (fun e => .error e) ?_
    rintro ⟨t1, r1⟩ ⟨t1', r1'⟩ ⟨H1, e1⟩
    simp only at H1 e1
    subst e1
    exact ih H1 r1'

theorem treeBody (H : TRel γ R t t') (m : Params K) (pg pp : K) (r : Rand K) :
    ERel (fun a b => SameAcc a.1 b.1 ∧ TRelX γ R a.2.1 b.2.1 ∧ b.2.2 = a.2.2) (BModel.treeBody m pg pp t r) (BModel.treeBody m pg pp t' r) := by
  unfold BModel.treeBody
  refine ERel.elim (treeStep H m pg pp r) (fun e => .error e) ?_
  rintro ⟨mu, t1, r1⟩ ⟨mu', t1', r1'⟩ ⟨h1, ⟨R', hR, H1⟩, e1⟩
  simp only at h1 H1 e1
  subst e1
  simp only []
  refine ERel.elim (leafSteps m H1.leafNodes H1 r1') (fun e => .error e) ?_
  rintro ⟨t2, r2⟩ ⟨t2', r2'⟩ ⟨H2, e2⟩
  simp only at H2 e2
  subst e2
  exact .ok ⟨h1, ⟨R', hR, H2⟩, rfl⟩

end
end Sim
end Bart
