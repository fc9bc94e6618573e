import Verif.Props.InitFitProps
import Verif.Props.AcceptProps

/-! Property theorem C102: a split that does not cut at a value of the data (as those of sklearn's trees do not) can never be removed by the sampler. -/

set_option linter.unusedSectionVars false

namespace Bart
open Spec
variable {K : Type} [Field K] [LinearOrder K] {n p : Nat} {X : Fin n → Fin p → Fl K}

/-- Decision node `i` of `t` cuts column `j` at `v`, a value that no row of the node has, and two rows of the node agree in this column. -/
structure OffValue (X : Fin n → Fin p → Fl K) (t : Tree K n p) (i : NodeId) (j : Fin p) (v : Fl K) : Prop where
  decision : i ∈ t.decisionNodes
  rule : rule t.heap i = some (j, v)
  off : ∀ r, t.heap.inSample (t.heap.node i).split r = true → Fl.eq (X r j) v = false
  tie : ∃ r r', r ≠ r' ∧ t.heap.inSample (t.heap.node i).split r = true ∧ t.heap.inSample (t.heap.node i).split r' = true ∧ X r j = X r' j

/-- The same node, with the same rule and the same rows. -/
theorem OffValue.transfer {t t' : Tree K n p} {i : NodeId} {j : Fin p} {v : Fl K} (h : OffValue X t i j v) (h1 : i ∈ t'.decisionNodes) (h2 : Spec.rule t'.heap i = Spec.rule t.heap i)
    (h3 : rowsOf (t'.heap.dataOf i) = rowsOf (t.heap.dataOf i)) : OffValue X t' i j v := by
  have h4 : ∀ r, t'.heap.inSample (t'.heap.node i).split r = t.heap.inSample (t.heap.node i).split r := by
    intro r; rw [inSample_eq, inSample_eq, h3]
  refine ⟨h1, h2.trans h.rule, fun r hr => h.off r (by rw [← h4]; exact hr), ?_⟩
  obtain ⟨r, r', q1, q2, q3, q4⟩ := h.tie
  exact ⟨r, r', q1, by rw [h4]; exact q2, by rw [h4]; exact q3, q4⟩

theorem child_mem {y : Option (Fin n → K)} {t : Tree K n p} {s : Shape} (hI : TreeInv X y t s) {i : NodeId} (hi : i ∈ t.decisionNodes) :
    ∃ l ∈ t.nodes, (t.heap.node i).left = some l := by
  have his : i ∈ s.ids := s.decisions_subset (hI.mem_decisionNodes.1 hi)
  obtain ⟨u, hu, hur⟩ := Shape.exists_sub his
  obtain ⟨q, d, hR⟩ := hI.repr.sub hu
  have hsub := hu.ids_subset
  cases u with
  | leaf k =>
    simp only [Shape.root] at hur; subst hur
    have := hR.1
    unfold Tree.decisionNodes at hi
    rw [List.mem_filter, this] at hi
    simp at hi
  | node k l r =>
    simp only [Shape.root] at hur; subst hur
    obtain ⟨r1, r2, -⟩ := hR
    exact ⟨l.root, hI.perm.mem_iff.2 (hsub _ (by simp only [Shape.ids, List.mem_cons, List.mem_append]; exact Or.inr (Or.inl l.root_mem))), r2⟩

/-- A change of caches keeps it. -/
theorem OffValue.ext {y : Option (Fin n → K)} {t t' : Tree K n p} {s : Shape} (hI : TreeInv X y t s) (he : TreeExt t t') {i : NodeId} {j : Fin p} {v : Fl K} (h : OffValue X t i j v) :
    OffValue X t' i j v := by
  have hin : i ∈ t.nodes := (List.mem_filter.1 h.decision).1
  obtain ⟨l, hl, hil⟩ := child_mem hI h.decision
  have hni := he.heap.node i (hI.mem_lt hin)
  refine h.transfer ?_ ?_ ?_
  · have := h.decision
    unfold Tree.decisionNodes at this ⊢
    rw [List.mem_filter] at this ⊢
    rw [he.nodes, hni]
    exact this
  · unfold Spec.rule
    rw [hni, hil]
    simp only [he.heap.node l (hI.mem_lt hl)]
  · obtain ⟨q, hk⟩ := hI.repr.nodeOk i (hI.perm.mem_iff.1 hin)
    exact he.heap.rowsOf (hI.mem_lt hin) hk

/-- A proposal that is carried out keeps the decision nodes other than the one it is about. -/
theorem OffValue.mutate {y : Option (Fin n → K)} {t t1 t2 : Tree K n p} {s : Shape} {mu : TreeMutation} (hI : TreeInv X y t s) (he : TreeExt t t1) (hp : IsProposal X y t s t1.heap mu)
    (hm : t1.mutate mu = .ok t2) {i : NodeId} {j : Fin p} {v : Fl K} (h : OffValue X t i j v) (hne : mu.existing ≠ i) : OffValue X t2 i j v := by
  have h1 := h.ext hI he
  have hI1 := hI.ext he
  have hin : i ∈ t1.nodes := (List.mem_filter.1 h1.decision).1
  have hkd : (t1.heap.node i).kind = .decision := by simpa using (List.mem_filter.1 h1.decision).2
  have key : i ∈ t2.nodes ∧ t2.heap.data = t1.heap.data ∧ (∀ k, (t2.heap.node k).kind = (t1.heap.node k).kind ∧ (t2.heap.node k).split = (t1.heap.node k).split) ∧
      t2.heap.node i = relinkRec mu (t1.heap.node i) ∧ (t1.heap.node mu.updated).split = (t1.heap.node mu.existing).split := by
    rcases hp with ⟨i0, D, L, R, j0, v0, rfl, hg⟩ | ⟨i0, l, r, U, rfl, hg⟩
    · obtain ⟨t', f1, f2, f3, f4, f5, f6, f7, f8, f9, f10⟩ := mutate_grow hI1 (by rw [he.leafNodes hI]; exact hg.leaf) hg.ready hg.nodup
        (by rw [he.nodes]; exact hg.fresh) hg.lt
      rw [hm] at f1; injection f1 with f1; subst f1
      have hi2 : i ∈ t2.nodes := by
        rw [f3]
        simp only [List.append_assoc, List.mem_append]
        exact Or.inl ((List.mem_erase_of_ne (fun e => hne e.symm)).2 hin)
      exact ⟨hi2, f6, fun k => ⟨(f9 k).2.1, (f9 k).2.2.2⟩, f10 i hi2, hg.split⟩
    · obtain ⟨t', f1, f2, f3, f4, f5, f6, f7, f8, f9, f10⟩ := mutate_prune hI1 hg.sub hg.ready (by rw [he.nodes]; exact hg.fresh) hg.lt
      rw [hm] at f1; injection f1 with f1; subst f1
      obtain ⟨q, d, hRo, -⟩ := hg.ready
      have hkl : (t1.heap.node l).kind = .leaf := hRo.2.2.2.2.2.choose_spec.choose_spec.2.1.1
      have hkr : (t1.heap.node r).kind = .leaf := hRo.2.2.2.2.2.choose_spec.choose_spec.2.2.1
      have hil : i ≠ l := by rintro rfl; rw [hkd] at hkl; cases hkl
      have hir : i ≠ r := by rintro rfl; rw [hkd] at hkr; cases hkr
      have hi2 : i ∈ t2.nodes := by
        rw [f3]
        simp only [List.mem_append]
        exact Or.inl ((List.mem_erase_of_ne hir).2 ((List.mem_erase_of_ne hil).2 ((List.mem_erase_of_ne (fun e => hne e.symm)).2 hin)))
      exact ⟨hi2, f6, fun k => ⟨(f9 k).2.1, (f9 k).2.2.2⟩, f10 i hi2, by rw [hg.leaf]; rfl⟩
  obtain ⟨k1, k2, k3, k4, k5⟩ := key
  obtain ⟨l, hl, hil⟩ := child_mem hI1 h1.decision
  refine h1.transfer ?_ ?_ ?_
  · unfold Tree.decisionNodes
    rw [List.mem_filter, (k3 i).1, hkd]
    exact ⟨k1, by simp⟩
  · unfold Spec.rule
    rw [k4, hil]
    unfold relinkRec
    simp only [hil]
    by_cases hle : some l = some mu.existing
    · injection hle with hle
      simp only [hle, if_true, (k3 _).2, k5]
    · simp only [hle, if_false, (k3 _).2]
  · unfold Heap.dataOf
    rw [k2, (k3 i).2]

/-! ### How such splits come into a tree -/

theorem run_cons {t t' : Tree K n p} {op : TreeOp K n p} : ∀ {ops : List (TreeOp K n p)}, Run t (op :: ops) t' → ∃ t1, Spec.TreeOp.ok t op ∧ t.step op = .ok t1 ∧ Run t1 ops t' := by
  intro ops h
  generalize hl : op :: ops = l at h
  induction h generalizing ops with
  | nil => cases hl
  | @snoc t1 t2 ops0 op0 hr hok hst ih =>
    cases ops0 with
    | nil =>
      simp only [List.nil_append, List.cons.injEq] at hl
      obtain ⟨rfl, rfl⟩ := hl
      have ht : t1 = t := by
        generalize ho : ([] : List (TreeOp K n p)) = o at hr
        cases hr with
        | nil => rfl
        | snoc => simp at ho
      subst ht
      exact ⟨t2, hok, hst, .nil _⟩
    | cons o os =>
      simp only [List.cons_append, List.cons.injEq] at hl
      obtain ⟨rfl, rfl⟩ := hl
      obtain ⟨t3, a1, a2, a3⟩ := ih rfl
      exact ⟨t3, a1, a2, .snoc a3 hok hst⟩

/-- Changing the value of a node keeps it. -/
theorem OffValue.setValue {t : Tree K n p} {i k : NodeId} {j : Fin p} {v : Fl K} {w : K} (ho : OffValue X t i j v) : OffValue X { t with heap := t.heap.setValue k w } i j v := by
  have hs : ∀ q, ((t.heap.setValue k w).node q).kind = (t.heap.node q).kind ∧ ((t.heap.setValue k w).node q).split = (t.heap.node q).split ∧
      ((t.heap.setValue k w).node q).left = (t.heap.node q).left := by
    intro q
    by_cases hq : q = k
    · subst hq; simp [Heap.setValue, Heap.setNode]
    · simp [Heap.setValue, Heap.setNode, hq]
  refine ho.transfer ?_ ?_ ?_
  · have := ho.decision
    unfold Tree.decisionNodes at this ⊢
    rw [List.mem_filter] at this ⊢
    simp only [hs] at this ⊢
    exact this
  · unfold Spec.rule
    simp only [hs]
  · unfold Heap.dataOf
    simp only [hs]
    rfl

/-- A grow makes a decision node with the rule and the rows of the leaf. -/
theorem grow_new (hX : NoNan X) {y : Option (Fin n → K)} {t t' : Tree K n p} {s : Shape} (hI : TreeInv X y t s) {i : NodeId} {j : Fin p} {v : Fl K} (hv : v ≠ .nan) (hi : i ∈ t.nodes)
    (h : t.step (.grow i j v) = .ok t') : ∃ D ∈ t'.decisionNodes, rule t'.heap D = some (j, v) ∧ rowsOf (t'.heap.dataOf D) = rowsOf (t.heap.dataOf i) := by
  obtain ⟨-, -, t1, e1, -, -, hI', n1, -, -, hd, -, same, rel⟩ := grow_step hX hI hv hi h
  obtain ⟨-, -, -, g1, -, -, he, -, ⟨q, d, -, hR⟩, -, -, hrule, hsp, -⟩ := proposeGrow_spec hX hI hv hi e1
  obtain ⟨r1, r2, -⟩ := hR
  simp only [Shape.root] at r2
  obtain ⟨q0, hk⟩ := hI.repr.nodeOk i (hI.perm.mem_iff.1 hi)
  refine ⟨t.heap.nextNode + 2, ?_, ?_, ?_⟩
  · unfold Tree.decisionNodes
    rw [List.mem_filter, (same _).2.1, r1]
    exact ⟨by rw [n1]; simp, by simp⟩
  · have hlt := hI.mem_lt hi
    unfold Spec.rule at hrule ⊢
    rw [rel _ (by rw [n1]; simp)]
    unfold relinkRec
    simp only [r2] at hrule ⊢
    rw [if_neg (by intro hc; injection hc; omega)]
    simp only [(same _).2.2.2]
    exact hrule
  · unfold Heap.dataOf
    rw [hd, (same _).2.2.2, hsp]
    have := he.rowsOf (hI.mem_lt hi) hk
    unfold Heap.dataOf at this
    rw [he.node i (hI.mem_lt hi)] at this
    exact this

/-- A grow keeps the decision nodes. -/
theorem OffValue.grow (hX : NoNan X) {y : Option (Fin n → K)} {t t' : Tree K n p} {s : Shape} (hI : TreeInv X y t s) {k : NodeId} {j0 : Fin p} {v0 : Fl K} (hv : v0 ≠ .nan) (hk : k ∈ t.nodes)
    (h : t.step (.grow k j0 v0) = .ok t') {i : NodeId} {j : Fin p} {v : Fl K} (ho : OffValue X t i j v) : OffValue X t' i j v := by
  obtain ⟨-, hleaf, t1, e1, -, -, hI', n1, -, -, hd, -, same, rel⟩ := grow_step hX hI hv hk h
  obtain ⟨-, -, -, g1, -, -, he, -, -, -, -, -, hsp, -⟩ := proposeGrow_spec hX hI hv hk e1
  have hin : i ∈ t.nodes := (List.mem_filter.1 ho.decision).1
  have hkd : (t.heap.node i).kind = .decision := by simpa using (List.mem_filter.1 ho.decision).2
  have hkl : (t.heap.node k).kind = .leaf := by simpa using (List.mem_filter.1 hleaf).2
  have hik : i ≠ k := by rintro rfl; rw [hkd] at hkl; cases hkl
  have hi2 : i ∈ t'.nodes := by
    rw [n1]
    simp only [List.mem_append]
    exact Or.inl (Or.inl (Or.inl ((List.mem_erase_of_ne hik).2 hin)))
  have hni := he.node i (hI.mem_lt hin)
  obtain ⟨l, hl, hil⟩ := child_mem hI ho.decision
  refine ho.transfer ?_ ?_ ?_
  · unfold Tree.decisionNodes
    rw [List.mem_filter, (same _).2.1, hni, hkd]
    exact ⟨hi2, by simp⟩
  · unfold Spec.rule
    rw [rel i hi2, hni, hil]
    unfold relinkRec
    simp only [hil]
    by_cases hle : some l = some k
    · injection hle with hle
      subst hle
      simp only [if_true, (same _).2.2.2, hsp]
    · simp only [hle, if_false, (same _).2.2.2, he.node l (hI.mem_lt hl)]
  · obtain ⟨q0, hk0⟩ := hI.repr.nodeOk i (hI.perm.mem_iff.1 hin)
    have := he.rowsOf (hI.mem_lt hin) hk0
    unfold Heap.dataOf at this ⊢
    rw [hd, (same _).2.2.2]
    exact this

/-- Growing and setting values keeps it. -/
theorem OffValue.growSet (hX : NoNan X) {t t' : Tree K n p} {ops : List (TreeOp K n p)} (ht : ReachableTree X t) (h : Run t ops t') (hops : ∀ op ∈ ops, IsGrowSet op) {i : NodeId} {j : Fin p}
    {v : Fl K} (ho : OffValue X t i j v) : OffValue X t' i j v := by
  induction h with
  | nil => exact ho
  | @snoc t1 t2 ops op hr hok hst ih =>
    have h1 := ih (fun o h => hops o (by simp [h]))
    obtain ⟨y, s, hI⟩ := reachable_tree_inv hX (Run.reachable hr ht)
    have hop := hops op (by simp)
    cases op with
    | grow k j0 v0 => exact h1.grow hX hI hok.2 hok.1 hst
    | setValue k w =>
      unfold Tree.step at hst
      simp only at hst
      split at hst
      · injection hst with hst
        rw [← hst]
        exact h1.setValue
      · cases hst
    | _ => exact hop.elim

/-- A tree that the initializer makes of the arrays of an sklearn tree with the root split `(j, c)` has this split on all rows. -/
theorem fromInit_off (hX : NoNan X) {a : List (SkNode K p)} {j : Fin p} {c : Fl K} {L R : DTree K p} (hT : IsSkTree a (.node j c L R)) (hoff : ∀ r, Fl.eq (X r j) c = false)
    (htie : ∃ r r', r ≠ r' ∧ X r j = X r' j) {t : Tree K n p} (h : FromInit X (fun t => mapSklearnTree t a) t) : ∃ i, OffValue X t i j c := by
  obtain ⟨t1, t2, ht1, ⟨y, hy⟩, hn, e, e1, e2⟩ := h
  obtain ⟨t', ops, e', hrun, hops, -, ⟨ops', rfl⟩, -⟩ := mapSklearn_run hX ht1 hy hn hT
  simp only at e
  rw [e] at e'; injection e' with e'; subst e'
  obtain ⟨t3, hok, hst, hr3⟩ := run_cons hrun
  obtain ⟨y', s, hI⟩ := reachable_tree_inv hX ht1
  have hrow : ∀ r, rowsOf (t1.heap.dataOf 0) r = true := by
    intro r
    have hr : s.root = 0 := by
      have := hI.perm.mem_iff.2 s.root_mem
      rw [hn] at this
      simpa using this
    rw [← hr, hI.repr.root_ok.1.rows]
    rfl
  obtain ⟨D, hD, hrule, hrows⟩ := grow_new hX hI hok.2 hok.1 hst
  have ht3 : ReachableTree X t3 := Run.reachable (.snoc (.nil t1) hok hst : Run t1 ([] ++ [_]) t3) ht1
  have h3 : OffValue X t3 D j c := by
    obtain ⟨r, r', q1, q2⟩ := htie
    refine ⟨hD, hrule, fun r _ => hoff r, r, r', q1, ?_, ?_, q2⟩ <;> rw [inSample_eq, hrows, hrow]
  have h2 := h3.growSet hX ht3 hr3 (fun o ho => hops o (by simp [ho]))
  refine ⟨D, h2.transfer ?_ (by rw [e1]) (by rw [e1])⟩
  have := h2.decision
  unfold Tree.decisionNodes at this ⊢
  rw [e1, e2]; exact this

/-! ### The ratio of a prune -/

theorem low_add {a b : Fl K} (h : a = .ninf ∨ a = .nan) : Fl.add a b = .ninf ∨ Fl.add a b = .nan := by
  rcases h with rfl | rfl <;> cases b <;> simp [Fl.add]

theorem add_low {a b : Fl K} (h : b = .ninf ∨ b = .nan) : Fl.add a b = .ninf ∨ Fl.add a b = .nan := by
  rcases h with rfl | rfl <;> cases a <;> simp [Fl.add]

theorem sub_low {a b : Fl K} (h : b = .ninf ∨ b = .nan) : Fl.sub a b = .pinf ∨ Fl.sub a b = .nan := by
  rcases h with rfl | rfl <;> cases a <;> simp [Fl.sub, Fl.add, Fl.neg]

theorem low_add_high {a b : Fl K} (h : a = .ninf ∨ a = .nan) (h' : b = .pinf ∨ b = .nan) : Fl.add a b = .nan := by
  rcases h with rfl | rfl <;> rcases h' with rfl | rfl <;> simp [Fl.add]

section
variable [IsStrictOrderedRing K] [MathFns K]

/-- The probability of drawing such a value is 0. -/
theorem withinNode_off (hlog : MathFns.log (0 : K) = .ninf) {rows : Fin n → Bool} {j : Fin p} {v : Fl K} (hoff : ∀ r, rows r = true → Fl.eq (X r j) v = false)
    (htie : ∃ r r', r ≠ r' ∧ rows r = true ∧ rows r' = true ∧ X r j = X r' j) : Lik.withinNode X rows j v = .ninf ∨ Lik.withinNode X rows j v = .nan := by
  obtain ⟨r, r', hne, hr, hr', he⟩ := htie
  have h1 : ¬ (column X rows j).Nodup := by
    intro hnd
    unfold column at hnd
    exact hne (List.inj_on_of_nodup_map hnd (by simpa using hr) (by simpa using hr') he)
  have h2 : (column X rows j).countP (fun x => Fl.eq x v) = 0 := by
    rw [List.countP_eq_zero]
    intro x hx
    obtain ⟨q, hq, rfl⟩ := List.mem_map.1 hx
    simp [hoff q (List.mem_filter.1 hq).2]
  have h3 : 0 < count rows := Finset.card_pos.2 ⟨r, by simpa using hr⟩
  have h4 : ((count rows : Int) : K) ≠ 0 := by
    have : (0 : K) < ((count rows : Int) : K) := by exact_mod_cast h3
    exact this.ne'
  unfold Lik.withinNode freqOf
  rw [if_neg h1, h2]
  refine add_low (Or.inl ?_)
  simp only [Fl.ofInt, Fl.div, if_neg h4, Fl.log]
  simpa using hlog

/-- C102: the log ratio of a prune of such a split is NaN. -/
theorem off_ratio (hX : NoNan X) (hlog : MathFns.log (0 : K) = .ninf) (m : Params K) {y : Fin n → K} {t t1 : Tree K n p} {s : Shape} (hI : TreeInv X (some y) t s) (he : TreeExt t t1)
    {i l r U : NodeId} (hg : PruneProp X (some y) t s t1.heap i l r U) {j : Fin p} {v : Fl K} (h : OffValue X t i j v) {pGrow pPrune : K} (hp : pPrune ≠ 0) :
    ∃ t2, Lik.logProbabilityRatio m pGrow pPrune t1 { kind := .prune, existing := i, updated := U } = .ok (.nan, t2) := by
  have h1 := h.ext hI he
  obtain ⟨t2, e, -⟩ := Lik.ratio_prune hX m hI he hg h1.rule (pGrow := pGrow) hp
  have hw := withinNode_off hlog h1.off h1.tie
  refine ⟨t2, e.trans ?_⟩
  congr 2
  refine low_add_high (low_add ?_) (sub_low (add_low hw))
  exact add_low (low_add (add_low hw))

/-- C102: a step of the tree sampler keeps such splits. -/
theorem OffValue.treeStep (hX : NoNan X) (hlog : MathFns.log (0 : K) = .ninf) {y : Fin n → K} {t t' : Tree K n p} {s : Shape} (hI : TreeInv X (some y) t s) (m : Params K) {pGrow pPrune : K}
    (hp1 : pGrow ≠ 0) (hp2 : pPrune ≠ 0) {r r' : Rand K} {mu : Option TreeMutation} (h : Sampler.treeStep m pGrow pPrune t r = .ok (mu, t', r')) {i : NodeId} {j : Fin p} {v : Fl K}
    (ho : OffValue X t i j v) : OffValue X t' i j v := by
  have hpr := propose_spec hX r.methods hI r.picks
  unfold Sampler.treeStep Sampler.treeSample at h
  cases h1 : t.propose r.picks r.methods with
  | error e => rw [h1] at h; cases h
  | ok q =>
    obtain ⟨mu1, t1, us, ms⟩ := q
    rw [h1] at hpr h
    obtain ⟨x1, hm⟩ := hpr
    obtain ⟨w, t2, e2, x2⟩ := Lik.ratio_ok hX m hI x1 hm hp1 hp2
    simp only [e2] at h
    cases hu : r.uniforms with
    | nil => rw [hu] at h; cases h
    | cons u rest =>
      rw [hu] at h
      simp only at h
      by_cases hlt : Fl.lt (.fin u) w = true
      · simp only [hlt, if_true] at h
        obtain ⟨t3, s3, e3, -⟩ := (hm.ext x2.heap).mutate hI (x1.trans x2)
        rw [e3] at h
        simp only [Except.ok.injEq, Prod.mk.injEq] at h
        obtain ⟨-, rfl, -⟩ := h
        refine ho.mutate hI (x1.trans x2) (hm.ext x2.heap) e3 ?_
        rintro rfl
        rcases hm with ⟨i0, D, L, R, j0, v0, rfl, hg⟩ | ⟨i0, l, r1, U, rfl, hg⟩
        · have a1 := (List.mem_filter.1 ho.decision).2
          have a2 := (List.mem_filter.1 hg.leaf).2
          simp only [decide_eq_true_eq] at a1 a2
          rw [a1] at a2; cases a2
        · obtain ⟨t4, e4⟩ := off_ratio hX hlog m hI x1 hg ho (pGrow := pGrow) hp2
          rw [e2] at e4
          injection e4 with e4; injection e4 with e4 e5
          rw [e4] at hlt
          cases hlt
      · simp only [hlt, if_false, Bool.false_eq_true] at h
        simp only [Except.ok.injEq, Prod.mk.injEq] at h
        obtain ⟨-, rfl, -⟩ := h
        exact ho.ext hI (x1.trans x2)

/-- Everything a sampler does keeps such splits. -/
theorem off_rel (hX : NoNan X) (hlog : MathFns.log (0 : K) = .ninf) : TreeRel X (fun t t' : Tree K n p => ∀ i j v, OffValue X t i j v → OffValue X t' i j v) where
  refl _ _ _ _ h := h
  trans _ _ _ h h' i j v ho := h' i j v (h i j v ho)
  predict := by
    intro t b t' _ h i j v ho
    obtain ⟨e1, e2, -⟩ := predict_cases h
    refine ho.transfer ?_ (by rw [e1]) (by rw [e1])
    have := ho.decision
    unfold Tree.decisionNodes at this ⊢
    rw [e1, e2]; exact this
  updateY := by
    intro t y t' ht h i j v ho
    obtain ⟨y0, s, hI⟩ := reachable_tree_inv hX ht
    obtain ⟨t2, e, -, hn, -, -, hu, hd⟩ := updateY_spec hI y
    rw [h] at e; injection e with e; subst e
    refine ho.transfer ?_ ?_ ?_
    · have := ho.decision
      unfold Tree.decisionNodes at this ⊢
      rw [hn, hu.node]; exact this
    · unfold Spec.rule; rw [hu.node]
    · rw [hd i (List.mem_filter.1 ho.decision).1]; rfl
  treeStep := by
    intro t m pGrow pPrune r mu t' r' ht hz hp1 hp2 h i j v ho
    obtain ⟨y, s, hI⟩ := reachable_tree_inv hX ht
    obtain ⟨z, hz⟩ := hz
    have := hI.target hz; subst this
    exact ho.treeStep hX hlog hI m hp1 hp2 h
  leafStep := by
    intro t m k r t' r' ht hk h i j v ho
    obtain ⟨y, s, hI⟩ := reachable_tree_inv hX ht
    obtain ⟨h', w, x, rfl⟩ := Sampler.leafStep_core hI m hk h
    have hx : TreeExt t { t with heap := h' } := TreeExt.withHeap x
    have ho1 := ho.ext hI hx
    exact ho1.setValue
  copy := by
    intro t ht i j v ho
    obtain ⟨y, s, hI⟩ := reachable_tree_inv hX ht
    exact ho.ext hI (deepCopy_ext t)

/-- C102 is false of the code: a split at a value that does not occur among the rows of its node, two of which agree in the column, is never removed or changed by the sampler, however
long it runs and whatever it draws; every prune of it has log ratio NaN. -/
theorem C102_forever (hX : NoNan X) (hlog : MathFns.log (0 : K) = .ninf) {m m' : BModel K n p} {k : Nat} {pGrow pPrune : K} (hp1 : pGrow ≠ 0) (hp2 : pPrune ≠ 0)
    (hm : ∀ t ∈ m.trees, ReachableTree X t) (h : ModelRun pGrow pPrune m k m') :
    List.Forall₂ (fun t t' => ∀ i j v, OffValue X t i j v → OffValue X t' i j v ∧ ∀ q {y us us' ms ms' mu t1 t2 l}, HasTarget t' y → t'.propose us ms = .ok (mu, t1, us', ms') → mu.existing = i →
      Lik.logProbabilityRatio q pGrow pPrune t1 mu = .ok (l, t2) → l = .nan) m.trees m'.trees := by
  obtain ⟨h1, h2⟩ := (off_rel hX hlog).run hX hp1 hp2 hm h
  clear h hm
  generalize m.trees = ts0 at h2 ⊢
  generalize m'.trees = ts1 at h1 h2 ⊢
  induction h2 with
  | nil => exact .nil
  | @cons t t' ts ts' e _ ih =>
    refine .cons (fun i j v ho => ⟨e i j v ho, ?_⟩) (ih (fun u hu => h1 u (by simp [hu])))
    intro q y us us' ms ms' mu t1 t2 l hy hpr hmu hl
    have ho' := e i j v ho
    obtain ⟨y', s, hI⟩ := reachable_tree_inv hX (h1 t' (by simp))
    have := hI.target hy; subst this
    have hps := propose_spec hX ms hI us
    rw [hpr] at hps
    obtain ⟨x1, hmm⟩ := hps
    rcases hmm with ⟨i0, D, L, R, j0, v0, rfl, hg⟩ | ⟨i0, l0, r1, U, rfl, hg⟩
    · simp only at hmu; subst hmu
      have a1 := (List.mem_filter.1 ho'.decision).2
      have a2 := (List.mem_filter.1 hg.leaf).2
      simp only [decide_eq_true_eq] at a1 a2
      rw [a1] at a2; cases a2
    · simp only at hmu; subst hmu
      obtain ⟨t4, e4⟩ := off_ratio hX hlog q hI x1 hg ho' (pGrow := pGrow) hp2
      rw [hl] at e4
      injection e4 with e4; injection e4

/-- C102 is false of the code, for `fit`: if the trees are initialised from the arrays of an sklearn tree with root split `(j, c)`, where `c` is not a value of column `j` (sklearn cuts half
way between two values) and two rows agree in column `j`, then every tree of every sample has this split, on all rows. -/
theorem C102_refuted [FloorRing K] (hX : NoNan X) (hlog : MathFns.log (0 : K) = .ninf) {a : List (SkNode K p)} {j : Fin p} {c : Fl K} {L R : DTree K p} (hT : IsSkTree a (.node j c L R))
    (hoff : ∀ r, Fl.eq (X r j) c = false) (htie : ∃ r r', r ≠ r' ∧ X r j = X r' j) {s s' : SkModel K p} (hp1 : s.pGrow ≠ 0) (hp2 : s.pPrune ≠ 0) {y : Fin n → K} {rs : Nat → Rand K}
    (h : s.fitWith (some (fun t => mapSklearnTree t a)) X y rs = .ok s') :
    ∃ (cs : Combined K p) (Ms : List (BModel K n p)), s'.samples = some cs ∧ cs.models.length = s.nChains * (storedTimes s.nSamples s.thin).length ∧ Show cs.models Ms ∧
      ∀ M ∈ Ms, M.trees.length = s.nTrees ∧ ∀ t ∈ M.trees, ∃ i ∈ t.decisionNodes, rule t.heap i = some (j, c) := by
  have hinit := mapInitializes hX hT (n := n)
  obtain ⟨cs, Ms, q1, q2, q3, q4⟩ := C101_samples hX hinit hp1 hp2 h
  refine ⟨cs, Ms, q1, q2, q3, fun M hM => ?_⟩
  obtain ⟨⟨d, m, k, e, hR⟩, hl, -⟩ := q4 M hM
  refine ⟨hl, fun t ht => ?_⟩
  obtain ⟨z, -, -, -, hF, -⟩ := constructModelWith_spec hX hinit e
  have hrel := ((off_rel hX hlog).run hX hp1 hp2 (fun t ht => (hF t ht).1) hR).2
  obtain ⟨t0, ht0, h0⟩ : ∃ t0 ∈ m.trees, ∀ i j v, OffValue X t0 i j v → OffValue X t i j v := by
    have hF2 := hrel.flip
    obtain ⟨q, hq, rfl⟩ := List.getElem_of_mem ht
    have hlen := hrel.length_eq
    exact ⟨m.trees[q], List.getElem_mem _, hrel.get (by omega) hq⟩
  obtain ⟨i, hi⟩ := fromInit_off hX hT hoff htie (hF t0 ht0).2
  have := h0 i j c hi
  exact ⟨i, this.decision, this.rule⟩

/-- A leaf without rows (which an initializer can make, the sampler cannot: C24) gets the value NaN. -/
theorem C102_empty_leaf (hX : NoNan X) (m : Params K) {y : Fin n → K} {t : Tree K n p} (ht : ReachableTree X t) (hy : HasTarget t y) {i : NodeId} (hi : i ∈ t.leafNodes)
    (h0 : ∀ r, t.heap.inSample (t.heap.node i).split r = false) (r : Rand K) (hr : r.normals ≠ []) :
    Sampler.leafStep m t i r = .error .nonFinite ∧ ∀ z, Sampler.leafValue m (Fl.ofInt (t.heap.dataOf i).X.nObsv) (.fin (total y (rowsOf (t.heap.dataOf i)))) z = .nan := by
  obtain ⟨y', s, hI⟩ := reachable_tree_inv hX ht
  have := hI.target hy; subst this
  obtain ⟨q, hk⟩ := hI.repr.nodeOk i (hI.perm.mem_iff.1 (List.mem_filter.1 hi).1)
  have hc : count (rowsOf (t.heap.dataOf i)) = 0 := by
    unfold count
    rw [Finset.card_eq_zero, Finset.filter_eq_empty_iff]
    intro r _
    rw [← inSample_eq, h0]; simp
  have ht : total y (rowsOf (t.heap.dataOf i)) = 0 := by
    unfold total
    apply Finset.sum_eq_zero
    intro r hr
    rw [Finset.mem_filter, ← inSample_eq, h0] at hr
    simp at hr
  have hv : ∀ z, Sampler.leafValue m (Fl.ofInt (t.heap.dataOf i).X.nObsv) (.fin (total y (rowsOf (t.heap.dataOf i)))) z = .nan := by
    intro z
    rw [Lik.nObsv_spec hk, hc, ht]
    unfold Sampler.leafValue Sampler.leafPosteriorMean
    have : Fl.div (.fin 0) (Fl.ofInt ((0 : Nat) : Int)) = (.nan : Fl K) := by simp [Fl.ofInt, Fl.div, Fl.infSign]
    simp only [this]
    rfl
  refine ⟨?_, hv⟩
  obtain ⟨h', e1, -⟩ := Lik.sumYOf_spec hk
  unfold Sampler.leafStep
  simp only [e1]
  cases hn : r.normals with
  | nil => exact (hr hn).elim
  | cons z zs =>
    simp only [hv]
    rfl

end

/-! ### What holds -/

/-- C102, what is proved: a split at a value that occurs among the rows of its node, on a column with two different values there (the first row aside, see C01), in a tree at least two leaves of
which can be split, has a prune with a finite log ratio, `log (pGrow / pPrune)` plus a number that does not depend on these two; if it is positive the sampler removes the split for the draw 0. -/
theorem C102_removable_partial {X : Fin n → Fin p → Fl ℝ} (hX : NoNan X) {t t1 : Tree ℝ n p} (ht : ReachableTree X t) {y : Fin n → ℝ} (hy : HasTarget t y) {m : Params ℝ}
    (hs : 0 < m.sigma) (hk : 0 < m.k) (hn : 0 < m.nTrees) (ha : 0 < m.alpha) (ha1 : m.alpha < 1) (hb : 0 ≤ m.beta) {mu : TreeMutation} {us us' : List Nat} {ms ms' : List Method}
    (hp : t.propose us ms = .ok (mu, t1, us', ms')) (hmu : mu.kind = .prune) {j : Fin p} {v : Fl ℝ} (hrule : rule t.heap mu.existing = some (j, v))
    (hv : ∃ r, t.heap.inSample (t.heap.node mu.existing).split r = true ∧ X r j = v)
    (hc : HasTwoValues (column X (t.heap.inSample (t.heap.node mu.existing).split) j).tail) (h2 : 1 < t.splittableLeafNodes.1.length) :
    ∃ c, ∀ pGrow pPrune : ℝ, 0 < pGrow → 0 < pPrune → (∃ t2, Lik.logProbabilityRatio m pGrow pPrune t1 mu = .ok (.fin (Real.log (pGrow / pPrune) + c), t2)) ∧
      (0 < Real.log (pGrow / pPrune) + c → ∃ t', mu.existing ∉ t'.nodes ∧
        ∀ rest zs gs, Sampler.treeStep m pGrow pPrune t ⟨ms, us, 0 :: rest, zs, gs⟩ = .ok (some mu, t', ⟨ms', us', rest, zs, gs⟩)) := by
  obtain ⟨y', s, hI⟩ := reachable_tree_inv hX ht
  have := hI.target hy; subst this
  have hps := propose_spec hX ms hI us
  rw [hp] at hps
  obtain ⟨x1, hmm⟩ := hps
  rcases hmm with ⟨i, D, L, R, j0, v0, rfl, hg⟩ | ⟨i, l, r1, U, rfl, hg⟩
  · cases hmu
  simp only at hrule hv hc
  have hin : i ∈ t.nodes := (List.mem_filter.1 (List.mem_filter.1 hg.prunable).1).1
  have hrows := x1.rows hI hin
  have hrule1 : rule t1.heap i = some (j, v) := by
    have hdec := (List.mem_filter.1 hg.prunable).1
    obtain ⟨l', hl', hil⟩ := child_mem hI hdec
    unfold Spec.rule at hrule ⊢
    rw [hil] at hrule
    rw [x1.heap.node i (hI.mem_lt hin), hil]
    simp only at hrule ⊢
    rw [x1.heap.node l' (hI.mem_lt hl')]
    exact hrule
  have hfun : t.heap.inSample (t.heap.node i).split = rowsOf (t1.heap.dataOf i) := by
    rw [hrows]; rfl
  rw [hfun] at hc hv
  have hnc : isNotConstant (column X (rowsOf (t1.heap.dataOf i)) j) = true := by
    rw [isNotConstant_noNan (by intro x hx; obtain ⟨r, -, hr⟩ := mem_column.1 hx; rw [← hr]; exact hX r j)]
    exact hc
  obtain ⟨w, hw⟩ := Lik.withinNode_fin hX hnc (mem_column.2 hv)
  have hS : 1 < (splitLeavesOf X t).length := by
    have := (Lik.nSplittableLeaves_spec hI).1
    unfold Lik.nSplittableLeaves at this
    simp only at this
    omega
  have hP : 0 < t.prunableDecisionNodes.length := List.length_pos_of_mem hg.prunable
  refine ⟨-Real.log ((splitLeavesOf X t).length - 1) + w + Real.log t.prunableDecisionNodes.length - Lik.likReal m X y (rowsOf (t1.heap.dataOf i)) j v +
    (Real.log (1 - Lik.splitP m (t1.heap.node i).depth) - (2 * Real.log (1 - Lik.splitP m ((t1.heap.node i).depth + 1)) + Real.log (Lik.splitP m (t1.heap.node i).depth) + w)),
    fun pGrow pPrune h1 h3 => ?_⟩
  obtain ⟨t2, e, x2⟩ := Lik.ratio_prune hX m hI x1 hg hrule1 (pGrow := pGrow) h3.ne'
  rw [hw, Lik.transPrune_fin (by positivity) hP hS, Lik.likValue_eq ⟨hs, hk, hn⟩, Lik.treePrune_fin ⟨ha, ha1, hb⟩] at e
  have e' : Lik.logProbabilityRatio m pGrow pPrune t1 { kind := .prune, existing := i, updated := U } = .ok (.fin (Real.log (pGrow / pPrune) +
      (-Real.log ((splitLeavesOf X t).length - 1) + w + Real.log t.prunableDecisionNodes.length - Lik.likReal m X y (rowsOf (t1.heap.dataOf i)) j v +
    (Real.log (1 - Lik.splitP m (t1.heap.node i).depth) - (2 * Real.log (1 - Lik.splitP m ((t1.heap.node i).depth + 1)) + Real.log (Lik.splitP m (t1.heap.node i).depth) + w)))), t2) := by
    refine e.trans ?_
    simp only [Fl.add_fin, Fl.neg, Except.ok.injEq, Prod.mk.injEq, Fl.fin.injEq, and_true]
    ring
  refine ⟨⟨t2, e'⟩, fun hpos => ?_⟩
  have x12 := x1.trans x2
  have hI2 := hI.ext x12
  have hg2 := hg.ext x2.heap
  obtain ⟨t', f1, -, f3, -⟩ := mutate_prune hI2 hg2.sub hg2.ready (by rw [x12.nodes]; exact hg2.fresh) hg2.lt
  refine ⟨t', ?_, ?_⟩
  · simp only
    rw [f3, x12.nodes]
    intro hmem
    simp only [List.mem_append, List.mem_singleton] at hmem
    rcases hmem with hmem | rfl
    · exact (hI.nodes_nodup.not_mem_erase) (List.mem_of_mem_erase (List.mem_of_mem_erase hmem))
    · exact hg.fresh hin
  · intro rest zs gs
    unfold Sampler.treeStep Sampler.treeSample
    simp only [hp, e']
    have : Fl.lt (.fin 0) (.fin (Real.log (pGrow / pPrune) +
      (-Real.log ((splitLeavesOf X t).length - 1) + w + Real.log t.prunableDecisionNodes.length - Lik.likReal m X y (rowsOf (t1.heap.dataOf i)) j v +
    (Real.log (1 - Lik.splitP m (t1.heap.node i).depth) - (2 * Real.log (1 - Lik.splitP m ((t1.heap.node i).depth + 1)) + Real.log (Lik.splitP m (t1.heap.node i).depth) + w))))) = true := by
      simpa [Fl.lt] using hpos
    simp only [this, if_true, f1]

/-- C102: this applies to every split that the sampler has just made, if at least two leaves can then be split. -/
theorem C102_own_splits {X : Fin n → Fin p → Fl ℝ} (hX : NoNan X) {y : Fin n → ℝ} {t t1 t2 t3 : Tree ℝ n p} {mu mu' : TreeMutation} (h : RoundTrip X y t t1 t1 t2 t3 mu mu')
    (h2 : 1 < t2.splittableLeafNodes.1.length) {m : Params ℝ} (hs : 0 < m.sigma) (hk : 0 < m.k) (hn : 0 < m.nTrees) (ha : 0 < m.alpha) (ha1 : m.alpha < 1) (hb : 0 ≤ m.beta) :
    ∃ c, ∀ pGrow pPrune : ℝ, 0 < pGrow → 0 < pPrune → ∃ t4, Lik.logProbabilityRatio m pGrow pPrune t3 mu' = .ok (.fin (Real.log (pGrow / pPrune) + c), t4) := by
  obtain ⟨s, s', i, D, L, R, l, r, U, j, v, hI, x1, rfl, hgp, hI2, x3, rfl, hg2, c1, c2, c3, c4⟩ := h.unfold hX
  obtain ⟨us, ms, us1, ms1, hp⟩ := h.grow
  obtain ⟨us', ms', us1', ms1', hp'⟩ := h.prune
  have hr2 : ReachableTree X t2 := .apply h.reach hp h.applied
  have hdec := (List.mem_filter.1 c4).1
  have hin : D ∈ t2.nodes := (List.mem_filter.1 hdec).1
  have hrow : t2.heap.inSample (t2.heap.node D).split = rowsOf (t1.heap.dataOf i) := by
    rw [← c2, x3.rows hI2 hin]; rfl
  have hrule : rule t2.heap D = some (j, v) := by
    obtain ⟨l', hl', hil⟩ := child_mem hI2 hdec
    unfold Spec.rule at c1 ⊢
    rw [x3.heap.node D (hI2.mem_lt hin), hil] at c1
    rw [hil]
    simp only at c1 ⊢
    rw [x3.heap.node l' (hI2.mem_lt hl')] at c1
    exact c1
  obtain ⟨c, hc⟩ := C102_removable_partial hX hr2 hI2.hasTarget hs hk hn ha ha1 hb hp' rfl (j := j) (v := v) hrule (by rw [hrow]; exact mem_column.1 hgp.vcol)
    (by rw [hrow]; exact (isNotConstant_noNan (by intro x hx; obtain ⟨r, -, hr⟩ := mem_column.1 hx; rw [← hr]; exact hX r j)).1 hgp.splittable) h2
  exact ⟨c, fun pGrow pPrune q1 q2 => (hc pGrow pPrune q1 q2).1⟩

/-- A split in a tree with three leaves that can be split. -/
example : ∃ (t t1 t2 t3 : Tree ℝ 9 1) (mu mu' : TreeMutation), RoundTrip (rampX 9) (fun r => (r.val : ℝ)) t t1 t1 t2 t3 mu mu' ∧ 1 < t2.splittableLeafNodes.1.length := by
  obtain ⟨t, t1, t2, t3, mu, mu', h, h0⟩ := exRoundTrip9 (fun r => (r.val : ℝ))
  exact ⟨t, t1, t2, t3, mu, mu', h, by omega⟩

section ex
attribute [local instance] exFns

/-- Rows 1, 1, 2. -/
def exTie : Fin 3 → Fin 1 → Fl ℚ := fun r _ => if r.val = 2 then .fin 2 else .fin 1

theorem exTie_noNan : NoNan exTie := by
  intro r i
  unfold exTie
  split <;> simp

/-- A case for `C102_empty_leaf`: sklearn's tree with a leaf `x <= 1/2`, mapped onto the rows 1, 2, 3. -/
example : ∃ t, mapSklearnTree exRoot exSkArrays = .ok t ∧ ReachableTree exX t ∧ HasTarget t exY ∧ ∃ i ∈ t.leafNodes, ∀ r, t.heap.inSample (t.heap.node i).split r = false := by
  have hy : HasTarget exRoot exY := by intro i hi; obtain rfl := List.mem_singleton.1 hi; rfl
  obtain ⟨t, ops, h1, h2, -, ⟨s, hI⟩, -⟩ := mapSklearn_run exX_noNan (.fresh exRoot_fresh) hy rfl exSkArrays_tree
  refine ⟨t, h1, h2.reachable (.fresh exRoot_fresh), hI.hasTarget, ?_⟩
  · have : (match mapSklearnTree exRoot exSkArrays with
      | .ok t => decide (∃ i ∈ t.leafNodes, ∀ r, t.heap.inSample (t.heap.node i).split r = false)
      | .error _ => false) = true := by decide +kernel
    rw [h1] at this
    exact of_decide_eq_true this

/-- C102, the example: the cut of the stump is 3/2, between 1 and 2; the fit works, and all trees of all samples still have the split. -/
theorem exTieFit : (match (exSk true).fitWith (some (fun t => mapSklearnTree t exStump)) exTie exY exInitRs with
    | .ok s =>
      match s.samples with
      | some c => decide (c.models.length = 4 ∧ c.models.map (fun x => x.trees.map (fun t => t.nodes.length)) = [[3, 3], [3, 3], [3, 3], [3, 3]])
      | _ => false
    | .error _ => false) = true := by decide +kernel

/-- The hypotheses of `C102_refuted` hold of it. -/
example : NoNan exTie ∧ MathFns.log (0 : ℚ) = .ninf ∧ IsSkTree exStump (.node 0 (.fin (3/2)) (.leaf 10) (.leaf 20)) ∧ (∀ r, Fl.eq (exTie r 0) (.fin (3/2)) = false) ∧
    (∃ r r', r ≠ r' ∧ exTie r 0 = exTie r' 0) ∧ (exSk true).pGrow ≠ 0 ∧ (exSk true).pPrune ≠ 0 ∧
    ∃ s', (exSk true).fitWith (some (fun t => mapSklearnTree t exStump)) exTie exY exInitRs = .ok s' := by
  refine ⟨exTie_noNan, rfl, exStump_tree, by decide +kernel, ⟨0, 1, by decide, rfl⟩, by norm_num [exSk], by norm_num [exSk], ?_⟩
  have := exTieFit
  revert this
  cases (exSk true).fitWith (some (fun t => mapSklearnTree t exStump)) exTie exY exInitRs with
  | error e => intro h; cases h
  | ok s => exact fun _ => ⟨s, rfl⟩

end ex

/-- The logarithm of 0 over the reals is `-inf` too. -/
example : MathFns.log (0 : ℝ) = .ninf := by simp [MathFns.log]

end Bart
