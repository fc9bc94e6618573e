import Verif.Proofs.RefLook

/-! The proposals of the model are those of the reference implementation, for the same draws. -/

set_option linter.unusedSectionVars false

namespace Bart
open Spec Reference
variable {K : Type} [Field K] [LinearOrder K] {n p : Nat}

theorem choice_map_look {α β : Type} (g : α → β) (l : List α) (u : Nat) : choice (l.map g) u = (choice l u).map g := by
  unfold choice
  rw [List.length_map, List.getElem?_map]
  cases l[u % l.length]? <;> rfl

/-- The rejection loop. -/
theorem drawCut_eq {col : List (Fl K)} (hn : ∀ x ∈ col, x ≠ .nan) {m : Fl K} (hm : npMaxList col = .ok m) (us : List Nat) :
    drawCut col us = CovariateMatrix.drawNonMax col m us := by
  obtain ⟨mm, ml⟩ := npMaxList_spec hn hm
  induction us with
  | nil => rfl
  | cons u us ih =>
    unfold drawCut CovariateMatrix.drawNonMax
    cases hc : choice col u with
    | error e => rfl
    | ok v =>
      simp only
      have hv := choice_ok_mem hc
      by_cases hvm : v = m
      · subst hvm
        rw [if_pos (Fl.eq_iff.2 ⟨hn v hv, rfl⟩), if_neg, ih]
        simp only [List.any_eq_true, not_exists, not_and]
        intro x hx hlt
        have := ml x hx
        cases v <;> cases x <;> simp_all [Fl.le, Fl.lt]
        exact absurd hlt (not_lt.2 this)
      · rw [if_neg (fun h => hvm (Fl.eq_iff.1 h).2), if_pos]
        exact List.any_eq_true.2 ⟨m, mm, Fl.lt_of_le_of_ne (ml v hv) hvm⟩

theorem CovariateMatrix.randomSplittableValue_draws {c : CovariateMatrix K n p} (h : CMInv c) (hn : NoNan c.X) {i : Fin p} (hi : i ∈ c.refSplittable) (us : List Nat) :
    (c.randomSplittableValue i us).map (fun q => (q.1, q.2.1)) = drawCut (c.col i) us := by
  obtain ⟨h1, h2, h3⟩ := splittable_spec h
  have hnc : ∀ x ∈ c.col i, x ≠ .nan := by
    intro x hx
    obtain ⟨r, -, hr⟩ := mem_column.1 hx
    rw [← hr]; exact hn r i
  unfold randomSplittableValue
  simp only [h1, hi, if_true]
  have hne : c.col i ≠ [] := by
    intro hnil
    simp [refSplittable, hnil, isNotConstant] at hi
  have hm := maxValueOfColumn_spec h3 i
  rw [h2.col] at hm
  cases e : c.splittable.2.maxValueOfColumn i with
  | error e' =>
    rw [e] at hm
    obtain ⟨m, hm'⟩ := npMaxList_ok hne
    simp only at hm
    rw [hm'] at hm; cases hm
  | ok q =>
    obtain ⟨m, c1⟩ := q
    rw [e] at hm
    obtain ⟨m1, m2, m3⟩ := hm
    obtain ⟨g1, -⟩ := getColumn_spec m3 i
    simp only [g1, m2.col, h2.col]
    rw [drawCut_eq hnc m1]
    cases drawNonMax (c.col i) m us with
    | error e' => rfl
    | ok q => rfl

/-- The conditions a node proposes, draw by draw. -/
theorem sampleSplitCondition_draws {X : Fin n → Fin p → Fl K} (hX : NoNan X) {y : Option (Fin n → K)} {h : Heap K n p} {i : NodeId}
    {path : List (SplitCondition K p)} (hk : NodeOk X y h i path) (u : Nat) (us : List Nat) {j : Fin p}
    (hc : choice (columns X (rowsOf (h.dataOf i))) u = .ok j) :
    match drawCut (column X (rowsOf (h.dataOf i)) j) us with
    | .error e => (Tree.sampleSplitCondition h i (u :: us)).2.2 = .error e
    | .ok (v, us') => (Tree.sampleSplitCondition h i (u :: us)).2 = (us', .ok (leCond j v, gtCond j v)) := by
  obtain ⟨h1, h2, h3⟩ := CovariateMatrix.splittable_spec hk.inv.X
  have hdof := setDataOf_self h i { h.dataOf i with X := (h.dataOf i).X.splittable.2 }
  have hcol : ∀ j, (h.dataOf i).X.splittable.2.col j = column X (rowsOf (h.dataOf i)) j := by
    intro j; rw [h2.col]; exact hk.col j
  have hlist : (h.dataOf i).X.splittable.1 = columns X (rowsOf (h.dataOf i)) := by
    rw [h1, columns_eq hX]
    unfold CovariateMatrix.refSplittable
    apply List.filter_congr
    intro j _
    rw [hk.col j]
  have hj : j ∈ (h.dataOf i).X.splittable.2.refSplittable := by
    have := choice_ok_mem hc
    rw [columns_eq hX] at this
    simpa [CovariateMatrix.refSplittable, hcol] using this
  have hnn : NoNan (h.dataOf i).X.splittable.2.X := by rw [h2.X, hk.hX]; exact hX
  have hd := CovariateMatrix.randomSplittableValue_draws h3 hnn hj us
  rw [hcol] at hd
  unfold Tree.sampleSplitCondition
  simp only [hlist, hc, hdof]
  cases hr : (h.dataOf i).X.splittable.2.randomSplittableValue j us with
  | error e => rw [hr] at hd; rw [← hd]; rfl
  | ok q => obtain ⟨v, us', c⟩ := q; rw [hr] at hd; rw [← hd]; rfl

theorem drawCut_error {col : List (Fl K)} (hcol : col ≠ []) : ∀ {us : List Nat} {e : PyErr}, drawCut col us = .error e → e = .outOfDraws := by
  intro us
  induction us with
  | nil => intro e h; simp [drawCut] at h; exact h.symm
  | cons u us ih =>
    intro e h
    simp only [drawCut] at h
    obtain ⟨c, -, hc⟩ := choice_ok_of_ne_nil hcol u
    rw [hc] at h
    simp only at h
    split at h
    · cases h
    · exact ih h

section look
variable {X : Fin n → Fin p → Fl K} {y : Option (Fin n → K)} {t t' : Tree K n p} {s : Shape}

/-- A node looks the same in an extended heap. -/
theorem lookNode_ext (hI : TreeInv X y t s) (he : HeapExt t.heap t'.heap) {i : NodeId} (hi : i ∈ t.nodes) : lookNode t'.heap i = lookNode t.heap i := by
  have hn : ∀ k ∈ t.nodes, t'.heap.node k = t.heap.node k := fun k hk => he.node k (hI.mem_lt hk)
  have hr : rule t'.heap i = rule t.heap i := by
    unfold Spec.rule
    rw [hn i hi]
    cases hl : (t.heap.node i).left with
    | none => rfl
    | some l =>
      have := (hI.repr.child i (hI.perm.mem_iff.1 hi) l (Or.inl hl)).1
      simp only
      rw [hn l (hI.perm.mem_iff.2 this)]
  unfold lookNode pathOf contentOf
  rw [hr, hn i hi]

theorem look_ext (hI : TreeInv X y t s) (he : TreeExt t t') : look t' = look t := by
  unfold look
  rw [he.nodes]
  exact List.map_congr_left (fun i hi => lookNode_ext hI he.heap hi)

/-- What a node that can be pruned contains. -/
theorem TreeInv.look_decision (hI : TreeInv X y t s) {i : NodeId} (hi : i ∈ t.nodes) (hk : (t.heap.node i).kind = .decision) :
    ∃ j v, rule t.heap i = some (j, v) ∧ lookNode t.heap i = ⟨pathOf t.heap i, .split j v⟩ := by
  obtain ⟨u, hu, rfl⟩ := Shape.exists_sub (hI.perm.mem_iff.1 hi)
  obtain ⟨q, d, hR⟩ := hI.repr.sub hu
  cases u with
  | leaf j => have h1 : (t.heap.node j).kind = .leaf := hR.1; simp only [Shape.root] at hk; rw [h1] at hk; cases hk
  | node j l r =>
    obtain ⟨cl, cr, -, e, -⟩ := hR.rule_eq
    exact ⟨_, _, e, by simp [lookNode, contentOf, Shape.root, hR.1, e]⟩

theorem TreeInv.look_leaf {i : NodeId} (hk : (t.heap.node i).kind = .leaf) : lookNode t.heap i = ⟨pathOf t.heap i, .leaf (t.heap.node i).value⟩ := by
  simp [lookNode, contentOf, hk]

/-- The proposal `mu` in the heap `h` is the change `mv` of the tree. -/
def IsMove (X : Fin n → Fin p → Fl K) (y : Option (Fin n → K)) (t : Tree K n p) (s : Shape) (h : Heap K n p) (mu : TreeMutation) (mv : Move K p) : Prop :=
  (∃ i D L R j v, mu = { kind := .grow, existing := i, updated := D } ∧ GrowProp X y t h i D L R j v ∧ mv = .grow (pathOf t.heap i) j v) ∨
  (∃ i l r U j v, mu = { kind := .prune, existing := i, updated := U } ∧ PruneProp X y t s h i l r U ∧ rule t.heap i = some (j, v) ∧ mv = .prune (pathOf t.heap i) j v)

theorem IsMove.isProposal {h : Heap K n p} {mu : TreeMutation} {mv : Move K p} (hm : IsMove X y t s h mu mv) : IsProposal X y t s h mu := by
  rcases hm with ⟨i, D, L, R, j, v, e, hg, -⟩ | ⟨i, l, r, U, j, v, e, hg, -⟩
  · exact Or.inl ⟨i, D, L, R, j, v, e, hg⟩
  · exact Or.inr ⟨i, l, r, U, e, hg⟩

theorem IsMove.ext {h h' : Heap K n p} {mu : TreeMutation} {mv : Move K p} (hm : IsMove X y t s h mu mv) (he : HeapExt h h') : IsMove X y t s h' mu mv := by
  rcases hm with ⟨i, D, L, R, j, v, e, hg, e'⟩ | ⟨i, l, r, U, j, v, e, hg, e'⟩
  · exact Or.inl ⟨i, D, L, R, j, v, e, hg.ext he, e'⟩
  · exact Or.inr ⟨i, l, r, U, j, v, e, hg.ext he, e'⟩

theorem IsMove.base {h : Heap K n p} {mu : TreeMutation} {mv : Move K p} (hI : TreeInv X y t s) (he : TreeExt t t') (hm : IsMove X y t' s h mu mv) :
    IsMove X y t s h mu mv := by
  rcases hm with ⟨i, D, L, R, j, v, e, hg, e'⟩ | ⟨i, l, r, U, j, v, e, hg, hr, e'⟩
  · have hin : i ∈ t.nodes := by rw [← he.nodes]; exact (List.mem_filter.1 hg.leaf).1
    have hp : pathOf t'.heap i = pathOf t.heap i := congrArg RNode.path (lookNode_ext hI he.heap hin)
    exact Or.inl ⟨i, D, L, R, j, v, e, ⟨by rw [← he.leafNodes hI]; exact hg.leaf, hg.ready, hg.nodup, by rw [← he.nodes]; exact hg.fresh, hg.old, hg.lt, hg.valL, hg.valR,
      hg.rule, hg.split, hg.rowsL, hg.rowsR, hg.splittable, hg.vcol, hg.vmax, fun k hk => he.heap.nextNode.trans (hg.new k hk)⟩, by rw [e', hp]⟩
  · have hpr : i ∈ t.prunableDecisionNodes := by rw [← prunable_congr hI he]; exact hg.prunable
    have hin : i ∈ t.nodes := (List.mem_filter.1 (List.mem_filter.1 hpr).1).1
    have hkd : (t.heap.node i).kind = .decision := by simpa using (List.mem_filter.1 (List.mem_filter.1 hpr).1).2
    have hkd' : (t'.heap.node i).kind = .decision := by rw [he.heap.node i (hI.mem_lt hin)]; exact hkd
    have hp := lookNode_ext hI he.heap hin
    obtain ⟨j', v', hr', hl⟩ := hI.look_decision hin hkd
    obtain ⟨j'', v'', hr'', hl'⟩ := (hI.ext he).look_decision (by rw [he.nodes]; exact hin) hkd'
    rw [hr] at hr''; simp only [Option.some.injEq, Prod.mk.injEq] at hr''
    rw [hl, hl'] at hp
    simp only [RNode.mk.injEq, Content.split.injEq] at hp
    refine Or.inr ⟨i, l, r, U, j, v, e, ⟨hpr, hg.sub, hg.ready, by rw [← he.nodes]; exact hg.fresh, hg.old, hg.lt, hg.leaf, he.heap.nextNode.trans hg.new⟩, ?_, by rw [e', hp.1]⟩
    rw [hr', hr''.1, hr''.2, hp.2.1, hp.2.2]

/-- `uniformly_sample_grow_mutation` for a tree with a leaf that can be split. -/
theorem sampleGrow_ref (hX : NoNan X) {y : Fin n → K} (hI : TreeInv X (some y) t s) (hne : splitLeavesOf X t ≠ []) (us : List Nat) :
    match t.sampleGrow us with
    | (t1, us1, .ok mu) => TreeExt t t1 ∧ ∃ mv, IsMove X (some y) t s t1.heap mu mv ∧ proposeGrow X (look t) us = .ok (mv, us1)
    | (_, _, .error e) => e = .outOfDraws ∧ proposeGrow X (look t) us = .error .outOfDraws := by
  have hx0 := splittableLeaves_ext hI
  have hI0 := hI.ext hx0
  have hlist : t.splittableLeafNodes.1 = splitLeavesOf X t := (splittableLeaves_spec hI).2
  have hrl := look_splittable hX hI
  have hnil : ¬ t.splittableLeafNodes.1.length = 0 := by rw [hlist]; exact fun h => hne (List.length_eq_zero_iff.1 h)
  unfold Tree.sampleGrow
  simp only [hnil, if_false]
  cases us with
  | nil => exact ⟨rfl, rfl⟩
  | cons u us =>
    simp only
    rw [hlist]
    obtain ⟨i, him, hc⟩ := choice_ok_of_ne_nil hne u
    rw [hc]
    simp only
    have hcr : choice ((look t).splittable X) u = .ok (lookNode t.heap i) := by rw [hrl, choice_map_look, hc]; rfl
    obtain ⟨hil, hspl⟩ := mem_splitLeavesOf.1 him
    have hin : i ∈ t.nodes := (List.mem_filter.1 hil).1
    have hrw := hI.rows_eq hX hin
    obtain ⟨q, hk⟩ := hI0.repr.nodeOk i (hI0.perm.mem_iff.1 hin)
    have hrows0 := hx0.rows hI hin
    have hss := sampleSplitCondition_spec hX hk us
    unfold Tree.sampleSplitNode
    cases us with
    | nil => exact ⟨rfl, rfl⟩
    | cons u2 us =>
      have hcne : columns X (rowsOf (t.splittableLeafNodes.2.heap.dataOf i)) ≠ [] := by
        obtain ⟨j, hj⟩ := hspl
        rw [hrows0, columns_eq hX]
        exact List.ne_nil_of_mem (List.mem_filter.2 ⟨List.mem_finRange j, hj⟩)
      obtain ⟨j, hjm, hcj⟩ := choice_ok_of_ne_nil hcne u2
      have hds := sampleSplitCondition_draws hX hk u2 us hcj
      have hcolne : column X (rowsOf (t.splittableLeafNodes.2.heap.dataOf i)) j ≠ [] := by
        intro h0
        rw [columns_eq hX] at hjm
        have := (List.mem_filter.1 hjm).2
        rw [h0] at this
        simp [isNotConstant] at this
      have href : proposeGrow X (look t) (u :: u2 :: us) = match drawCut (column X (rowsOf (t.splittableLeafNodes.2.heap.dataOf i)) j) us with
          | .error e => .error e
          | .ok (v, us') => .ok (.grow (pathOf t.heap i) j v, us') := by
        unfold proposeGrow
        simp only [hcr, hrw]
        rw [hrows0] at hcj ⊢
        simp only [hcj]
        rfl
      rw [href]
      cases hd : drawCut (column X (rowsOf (t.splittableLeafNodes.2.heap.dataOf i)) j) us with
      | error e =>
        have he := drawCut_error hcolne hd
        subst he
        rw [hd] at hds
        simp only at hds
        generalize Tree.sampleSplitCondition t.splittableLeafNodes.2.heap i (u2 :: us) = res at hds
        obtain ⟨h1, us1, res⟩ := res
        simp only at hds
        subst hds
        exact ⟨rfl, rfl⟩
      | ok q =>
        obtain ⟨v, us'⟩ := q
        rw [hd] at hds
        simp only at hds
        generalize Tree.sampleSplitCondition t.splittableLeafNodes.2.heap i (u2 :: us) = res at hss hds
        obtain ⟨h1, us1, res⟩ := res
        simp only [Prod.mk.injEq] at hds
        obtain ⟨rfl, rfl⟩ := hds
        obtain ⟨e1, e2, e3, j', v', hj', -, hns, hvc, hvm⟩ := hss
        have hj1 : j' = j := (congrArg SplitCondition.splittingVariable hj').symm
        have hv1 : v' = v := (congrArg SplitCondition.splittingValue hj').symm
        subst hj1 hv1
        have hvn : v' ≠ .nan := by obtain ⟨r, -, hr⟩ := mem_column.1 hvc; rw [← hr]; exact hX r j'
        have hx1 : TreeExt t.splittableLeafNodes.2 { t.splittableLeafNodes.2 with heap := h1 } := TreeExt.withHeap e1
        have hI1 := hI0.ext hx1
        have hin1 : i ∈ ({ t.splittableLeafNodes.2 with heap := h1 } : Tree K n p).nodes := hin
        have hx01 := hx0.trans hx1
        have hlt0 := hI1.mem_lt hin1
        simp only
        have hil1 : i ∈ ({ t.splittableLeafNodes.2 with heap := h1 } : Tree K n p).leafNodes := by rw [hx01.leafNodes hI]; exact hil
        obtain ⟨m, t2, hp⟩ := proposeGrow_ok (j := j') hX hI1 hvn hil1
        obtain ⟨-, -, rfl, g1, g2, g3, he, hn, hrd, v1, v2, hrule, hsp, path, okp, cr, hpair, okL, okR⟩ := proposeGrow_spec hX hI1 hvn hin1 hp
        unfold Tree.proposeGrow at hp
        simp only at hp
        split at hp
        · cases hp
        · next d h2 hs =>
          rw [hs]
          simp only
          split at hp
          · cases hp
          · next m' hm =>
            simp only [Except.ok.injEq, Prod.mk.injEq] at hp
            obtain ⟨rfl, rfl⟩ := hp
            rw [hm]
            have hx2 : TreeExt t { t.splittableLeafNodes.2 with heap := h2 } := hx01.trans ⟨he, rfl, rfl, rfl⟩
            have hr2 := hx2.rows hI hin
            simp only at hr2 he hn okL okR okp
            refine ⟨hx2, _, Or.inl ⟨i, h1.nextNode + 2, h1.nextNode, h1.nextNode + 1, j', v', rfl, ⟨hil, hrd, by simp, ?_, hlt0.trans_le he.nextNode, ?_, v1, v2, hrule,
              by rw [hsp, he.node i hlt0], ?_, ?_, by rw [hr2, ← hrows0]; exact hns, by rw [hr2, ← hrows0]; exact hvc, by rw [hr2, ← hrows0]; exact hvm, ?_⟩, rfl⟩, rfl⟩
            · intro k hk hkn
              have : k < h1.nextNode := hI1.mem_lt (i := k) hkn
              simp at hk; omega
            · intro k hk
              show k < h2.nextNode
              rw [hn]; simp at hk; omega
            · intro r
              rw [he.rowsOf hlt0 okp, okp.rows, okL.rows]
              simp [sat, leCond, holdsOp]
            · intro r
              rw [he.rowsOf hlt0 okp, okp.rows, okR.rows]
              have := hpair.sat_compl (x := X r) (hX r _)
              simp [this]
              simp [sat, leCond, holdsOp]
            · intro k hk
              have : t.heap.nextNode ≤ h1.nextNode := hx01.heap.nextNode
              simp at hk; omega

/-- `uniformly_sample_prune_mutation` for a tree with a split that can be removed. -/
theorem samplePrune_ref (hI : TreeInv X y t s) (hne : t.prunableDecisionNodes ≠ []) (us : List Nat) :
    match t.samplePrune us with
    | (t1, us1, .ok mu) => TreeExt t t1 ∧ ∃ mv, IsMove X y t s t1.heap mu mv ∧ proposePrune (look t) us = .ok (mv, us1)
    | (_, _, .error e) => e = .outOfDraws ∧ proposePrune (look t) us = .error .outOfDraws := by
  have hsp := samplePrune_spec hI us
  have hnil : ¬ t.prunableDecisionNodes.length = 0 := fun h => hne (List.length_eq_zero_iff.1 h)
  cases us with
  | nil => unfold Tree.samplePrune; simp only [hnil, if_false]; exact ⟨trivial, rfl⟩
  | cons u us =>
    obtain ⟨i, him, hc⟩ := choice_ok_of_ne_nil hne u
    have hin : i ∈ t.nodes := (List.mem_filter.1 (List.mem_filter.1 him).1).1
    have hkd : (t.heap.node i).kind = .decision := by simpa using (List.mem_filter.1 (List.mem_filter.1 him).1).2
    obtain ⟨j, v, hr, hl⟩ := hI.look_decision hin hkd
    have href : proposePrune (look t) (u :: us) = .ok (.prune (pathOf t.heap i) j v, us) := by
      unfold proposePrune
      rw [look_prunable hI]
      simp only [choice_map_look, hc, Except.map, hl]
    have hex : (t.samplePrune (u :: us)).2.1 = us ∧ (∀ mu, (t.samplePrune (u :: us)).2.2 = .ok mu → mu.existing = i) ∧ ∀ e, (t.samplePrune (u :: us)).2.2 = .error e → e = .typeError := by
      unfold Tree.samplePrune
      simp only [hnil, if_false, hc]
      refine ⟨trivial, fun mu hmu => ?_, fun e he => ?_⟩
      · unfold Tree.pruneMutation at hmu
        split at hmu
        · cases hmu
        · injection hmu with hmu; rw [← hmu]
      · unfold Tree.pruneMutation at he
        split at he
        · injection he with he; exact he.symm
        · cases he
    generalize t.samplePrune (u :: us) = res at hsp hex
    obtain ⟨t1, us1, res⟩ := res
    obtain ⟨rfl, hex, hexe⟩ := hex
    cases res with
    | ok mu =>
      obtain ⟨he, i', l, r, U, rfl, hg⟩ := hsp
      have : i' = i := hex _ rfl
      subst this
      exact ⟨he, _, Or.inr ⟨i', l, r, U, j, v, rfl, hg, hr, rfl⟩, href⟩
    | error e =>
      exfalso
      obtain ⟨-, h | h⟩ := hsp
      · exact hne h.2.2
      · have := hexe e rfl
        rw [h.1] at this; cases this

/-- `propose`. -/
theorem propose_ref (hX : NoNan X) {y : Fin n → K} (ms : List Method) : ∀ {t : Tree K n p} (_ : TreeInv X (some y) t s) (us : List Nat),
    match t.propose us ms with
    | .ok (mu, t1, us1, ms1) => TreeExt t t1 ∧ ∃ mv, IsMove X (some y) t s t1.heap mu mv ∧ propose X (look t) us ms = .ok (mv, us1, ms1)
    | .error e => propose X (look t) us ms = .error e := by
  induction ms with
  | nil => intro t _ us; rfl
  | cons m ms ih =>
    intro t hI us
    have skip : ∀ t1, TreeExt t t1 → match t1.propose us ms with
        | .ok (mu, t1, us1, ms1) => TreeExt t t1 ∧ ∃ mv, IsMove X (some y) t s t1.heap mu mv ∧ propose X (look t) us ms = .ok (mv, us1, ms1)
        | .error e => propose X (look t) us ms = .error e := by
      intro t1 he
      have := ih (hI.ext he) us
      rw [look_ext hI he] at this
      generalize t1.propose us ms = q at this
      cases q with
      | error e => exact this
      | ok q =>
        obtain ⟨mu, t2, us1, ms1⟩ := q
        obtain ⟨a, mv, b, c⟩ := this
        exact ⟨he.trans a, mv, b.base hI he, c⟩
    unfold Tree.propose
    cases m with
    | grow =>
      rw [show t.sampleMethod .grow us = t.sampleGrow us from rfl]
      by_cases hne : splitLeavesOf X t = []
      · have hlist : t.splittableLeafNodes.1 = splitLeavesOf X t := (splittableLeaves_spec hI).2
        have hg : t.sampleGrow us = (t.splittableLeafNodes.2, us, .error .noSplittableVariable) := by
          unfold Tree.sampleGrow
          simp [hlist, hne]
        rw [hg]
        have hr : propose X (look t) us (.grow :: ms) = propose X (look t) us ms := by
          conv_lhs => unfold Reference.propose
          rw [look_splittable hX hI, hne]
          simp
        rw [hr]
        exact skip _ (splittableLeaves_ext hI)
      · have hg := sampleGrow_ref hX hI hne us
        have hr : propose X (look t) us (.grow :: ms) = match proposeGrow X (look t) us with
            | .error e => .error e
            | .ok (mv, us') => .ok (mv, us', ms) := by
          conv_lhs => unfold Reference.propose
          rw [look_splittable hX hI]
          simp only [List.map_eq_nil_iff, hne, if_false]
          cases proposeGrow X (look t) us <;> rfl
        rw [hr]
        generalize t.sampleGrow us = q at hg
        obtain ⟨t1, us1, res⟩ := q
        cases res with
        | ok mu =>
          obtain ⟨a, mv, b, c⟩ := hg
          exact ⟨a, mv, b, by simp only [c]⟩
        | error e =>
          obtain ⟨rfl, c⟩ := hg
          simp [c]
    | prune =>
      rw [show t.sampleMethod .prune us = t.samplePrune us from rfl]
      by_cases hne : t.prunableDecisionNodes = []
      · have hg : t.samplePrune us = (t, us, .error .noPrunableNode) := by
          unfold Tree.samplePrune
          simp [hne]
        rw [hg]
        have hr : propose X (look t) us (.prune :: ms) = propose X (look t) us ms := by
          conv_lhs => unfold Reference.propose
          rw [look_prunable hI, hne]
          simp
        rw [hr]
        exact skip _ (TreeExt.refl t)
      · have hg := samplePrune_ref hI hne us
        have hr : propose X (look t) us (.prune :: ms) = match proposePrune (look t) us with
            | .error e => .error e
            | .ok (mv, us') => .ok (mv, us', ms) := by
          conv_lhs => unfold Reference.propose
          rw [look_prunable hI]
          simp only [List.map_eq_nil_iff, hne, if_false]
          cases Reference.proposePrune (look t) us <;> rfl
        rw [hr]
        generalize t.samplePrune us = q at hg
        obtain ⟨t1, us1, res⟩ := q
        cases res with
        | ok mu =>
          obtain ⟨a, mv, b, c⟩ := hg
          exact ⟨a, mv, b, by simp only [c]⟩
        | error e =>
          obtain ⟨rfl, c⟩ := hg
          simp [c]

end look
end Bart
