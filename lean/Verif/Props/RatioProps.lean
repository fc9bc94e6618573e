import Verif.Proofs.RealWitness
import Verif.Props.ProposerProps
import Mathlib.MeasureTheory.Measure.Lebesgue.Basic

/-! Property theorems C28, C29, C31, C32, C33 (acceptance of proposals), over the reals. -/

set_option linter.unusedSectionVars false

namespace Bart
open Spec Lik
variable {n p : Nat} {X : Fin n → Fin p → Fl ℝ}

/-! ### A grow and the prune that undoes it -/

/-- On the reachable tree `t` with target `y` the grow `mu` was proposed (the heap with the proposal being that of `t1`), its ratio computed
(giving `t1'`) and applied (giving `t2`); then the prune `mu'` of the new node was proposed (in `t3`). -/
structure RoundTrip (X : Fin n → Fin p → Fl ℝ) (y : Fin n → ℝ) (t t1 t1' t2 t3 : Tree ℝ n p) (mu mu' : TreeMutation) : Prop where
  reach : ReachableTree X t
  target : HasTarget t y
  grow : ∃ us ms us1 ms1, t.propose us ms = .ok (mu, t1, us1, ms1)
  isGrow : mu.kind = .grow
  ratio : t1' = t1 ∨ ∃ m pGrow pPrune v, pGrow ≠ 0 ∧ pPrune ≠ 0 ∧ logProbabilityRatio m pGrow pPrune t1 mu = .ok (v, t1')
  applied : t1'.mutate mu = .ok t2
  prune : ∃ us ms us1 ms1, t2.propose us ms = .ok (mu', t3, us1, ms1)
  isPrune : mu'.kind = .prune
  undo : mu'.existing = mu.updated

/-- What a round trip looks like inside. -/
theorem RoundTrip.unfold (hX : NoNan X) {y : Fin n → ℝ} {t t1 t1' t2 t3 : Tree ℝ n p} {mu mu' : TreeMutation} (h : RoundTrip X y t t1 t1' t2 t3 mu mu') :
    ∃ s s' i D L R l r U j v, TreeInv X (some y) t s ∧ TreeExt t t1 ∧ mu = ⟨.grow, i, D⟩ ∧ GrowProp X (some y) t t1.heap i D L R j v ∧
      TreeInv X (some y) t2 s' ∧ TreeExt t2 t3 ∧ mu' = ⟨.prune, D, U⟩ ∧ PruneProp X (some y) t2 s' t3.heap D l r U ∧
      rule t3.heap D = some (j, v) ∧ rowsOf (t3.heap.dataOf D) = rowsOf (t1.heap.dataOf i) ∧ (t3.heap.node D).depth = (t1.heap.node i).depth ∧
      D ∈ t2.prunableDecisionNodes := by
  obtain ⟨y0, s, hI⟩ := reachable_tree_inv hX h.reach
  have := hI.target h.target; subst this
  obtain ⟨us, ms, us1, ms1, hp⟩ := h.grow
  have hps := propose_spec hX ms hI us
  rw [hp] at hps
  obtain ⟨x1, hm⟩ := hps
  rcases hm with ⟨i, D, L, R, j, v, rfl, hg⟩ | ⟨i, l, r, U, rfl, hg⟩
  · have x1' : TreeExt t1 t1' := by
      rcases h.ratio with rfl | ⟨m, pg, pp, v, h1, h2, h3⟩
      · exact TreeExt.refl _
      · obtain ⟨t2, e, x⟩ := ratio_grow m hI x1 hg (pPrune := pp) h1
        rw [h3] at e; injection e with e; injection e with e1 e2; subst e2
        exact x
    have hg' := hg.ext x1'.heap
    have x' := x1.trans x1'
    obtain ⟨a1, a2, a3, a4, ⟨s', hI2⟩, a6⟩ := grown_node hI x' hg' h.applied
    obtain ⟨us', ms', us1', ms1', hp'⟩ := h.prune
    have hps' := propose_spec hX ms' hI2 us'
    rw [hp'] at hps'
    obtain ⟨x3, hm'⟩ := hps'
    rcases hm' with ⟨i', D', L', R', j', v', rfl, hg2⟩ | ⟨i', l, r, U, rfl, hg2⟩
    · have := h.isPrune; cases this
    · have hu := h.undo
      simp only at hu; subst hu
      obtain ⟨b1, b2, b3⟩ := grown_node_ext hI x' hg' h.applied x3
      obtain ⟨⟨q, oki⟩, -⟩ := hg.nodeOk
      refine ⟨s, s', i, i', L, R, l, r, U, j, v, hI, x1, rfl, hg, hI2, x3, rfl, hg2, b1, ?_, ?_, a6⟩
      · rw [b2, x1'.heap.rowsOf hg.old oki]
      · rw [b3, x1'.heap.node i hg.old]
  · have := h.isGrow; cases this

/-- The grow of a round trip adds at most one prunable node. -/
theorem RoundTrip.prunable_le (hX : NoNan X) {y : Fin n → ℝ} {t t1 t1' t2 t3 : Tree ℝ n p} {mu mu' : TreeMutation} (h : RoundTrip X y t t1 t1' t2 t3 mu mu') :
    t2.prunableDecisionNodes.length ≤ t.prunableDecisionNodes.length + 1 := by
  obtain ⟨y0, s, hI⟩ := reachable_tree_inv hX h.reach
  have := hI.target h.target; subst this
  obtain ⟨us, ms, us1, ms1, hp⟩ := h.grow
  have hps := propose_spec hX ms hI us
  rw [hp] at hps
  obtain ⟨x1, hm⟩ := hps
  rcases hm with ⟨i, D, L, R, j, v, rfl, hg⟩ | ⟨i, l, r, U, rfl, hg⟩
  · have x1' : TreeExt t1 t1' := by
      rcases h.ratio with rfl | ⟨m, pg, pp, v, h1, h2, h3⟩
      · exact TreeExt.refl _
      · obtain ⟨t2, e, x⟩ := ratio_grow m hI x1 hg (pPrune := pp) h1
        rw [h3] at e; injection e with e; injection e with e1 e2; subst e2
        exact x
    exact grown_prunable_length hI (x1.trans x1') (hg.ext x1'.heap) h.applied
  · have := h.isGrow; cases this

/-- Round trips exist from every leaf that can be cut, on every reachable tree with a target. -/
theorem exists_roundTrip (hX : NoNan X) {t : Tree ℝ n p} (ht : ReachableTree X t) {y : Fin n → ℝ} (hy : HasTarget t y) {i : NodeId} (hi : i ∈ t.leafNodes)
    {j : Fin p} (hj : isNotConstant (column X (rowsOf (t.heap.dataOf i)) j) = true) {a b : Fin n} (ha : rowsOf (t.heap.dataOf i) a = true)
    (hb : rowsOf (t.heap.dataOf i) b = true) (hlt : Fl.lt (X a j) (X b j) = true) :
    ∃ t1 t2 t3 mu mu' L R, RoundTrip X y t t1 t1 t2 t3 mu mu' ∧ ReachableTree X t2 ∧ HasTarget t2 y ∧ L ≠ R ∧
      (∀ k, k ∈ t2.leafNodes ↔ (k ∈ t.leafNodes ∧ k ≠ i) ∨ k = L ∨ k = R) ∧
      (∀ k ∈ t.leafNodes, rowsOf (t2.heap.dataOf k) = rowsOf (t.heap.dataOf k)) ∧
      rowsOf (t2.heap.dataOf L) = (fun r => rowsOf (t.heap.dataOf i) r && Fl.le (X r j) (X a j)) ∧
      rowsOf (t2.heap.dataOf R) = (fun r => rowsOf (t.heap.dataOf i) r && !Fl.le (X r j) (X a j)) := by
  obtain ⟨us, D, L, R, t1, t2, hp, hg, hm, hr, hy2, hD, hne, h1, h2, h3, h4⟩ := exists_grow hX ht hy hi hj ha hb hlt
  obtain ⟨us', U, t3, hp'⟩ := exists_prune hX hr hD
  exact ⟨t1, t2, t3, _, _, L, R, ⟨ht, hy, ⟨_, _, _, _, hp⟩, rfl, Or.inl rfl, hm, ⟨_, _, _, _, hp'⟩, rfl, rfl⟩, hr, hy2, hne, h1, h2, h3, h4⟩

/-- A round trip on a new tree over the rows 0, 1, 2: the grown tree has no splittable leaf. -/
theorem exRoundTrip3 (y : Fin 3 → ℝ) : ∃ t t1 t2 t3 mu mu', RoundTrip (rampX 3) y t t1 t1 t2 t3 mu mu' ∧ ReachableTree (rampX 3) t2 ∧ HasTarget t2 y ∧
    1 < t2.nodes.length ∧ t2.splittableLeafNodes.1 = [] := by
  obtain ⟨t, -, ht, hy, hl, hr⟩ := exists_fresh (rampX 3) y
  have hrow : rowsOf (t.heap.dataOf 0) = fun _ => true := funext hr
  have hc : isNotConstant (column (rampX 3) (rowsOf (t.heap.dataOf 0)) 0) = true := by
    apply ramp_splittable; rw [hrow]; decide
  obtain ⟨t1, t2, t3, mu, mu', L, R, h1, h2, h3, hne, h4, h5, h6, h7⟩ := exists_roundTrip (rampX_noNan 3) ht hy (i := 0) (by rw [hl]; simp) hc
    (a := 0) (b := 1) (hr 0) (hr 1) (by rw [ramp_lt]; decide)
  obtain ⟨y0, s, hI⟩ := reachable_tree_inv (rampX_noNan 3) h2
  refine ⟨t, t1, t2, t3, mu, mu', h1, h2, h3, ?_, ?_⟩
  · have hL : L ∈ t2.nodes := (List.mem_filter.1 ((h4 L).2 (by simp))).1
    have hR : R ∈ t2.nodes := (List.mem_filter.1 ((h4 R).2 (by simp))).1
    rcases hn : t2.nodes with _ | ⟨a, _ | ⟨b, rest⟩⟩
    · rw [hn] at hL; cases hL
    · rw [hn] at hL hR; simp at hL hR; exact absurd (hL.trans hR.symm) hne
    · simp
  · rw [List.eq_nil_iff_forall_not_mem]
    intro k hk
    obtain ⟨hk1, j, hj⟩ := (mem_splittableLeaves hI).1 hk
    have : isNotConstant (column (rampX 3) (rowsOf (t2.heap.dataOf k)) j) = false := by
      apply not_splittable_of_two
      rcases (h4 k).1 hk1 with ⟨h8, h9⟩ | rfl | rfl
      · rw [hl] at h8; simp at h8; exact absurd h8 h9
      · rw [h6, hrow]
        simp only [ramp_le]; decide
      · rw [h7, hrow]
        simp only [ramp_le]; decide
    rw [this] at hj; cases hj

/-- A round trip on a tree with two splittable leaves, over the rows 0, ..., 5. -/
theorem exRoundTrip6 (y : Fin 6 → ℝ) : ∃ t t1 t2 t3 mu mu', RoundTrip (rampX 6) y t t1 t1 t2 t3 mu mu' ∧ 1 < t.splittableLeafNodes.1.length := by
  obtain ⟨t0, -, ht0, hy0, hl, hr⟩ := exists_fresh (rampX 6) y
  have hrow : rowsOf (t0.heap.dataOf 0) = fun _ => true := funext hr
  have hc : isNotConstant (column (rampX 6) (rowsOf (t0.heap.dataOf 0)) 0) = true := by
    apply ramp_splittable; rw [hrow]; decide
  obtain ⟨-, t, -, -, -, L, R, -, h2, h3, hne, h4, h5, h6, h7⟩ := exists_roundTrip (rampX_noNan 6) ht0 hy0 (i := 0) (by rw [hl]; simp) hc
    (a := 2) (b := 3) (hr _) (hr _) (by rw [ramp_lt]; decide)
  have hL : rowsOf (t.heap.dataOf L) = fun r : Fin 6 => decide (r ≤ 2) := by
    rw [h6, hrow]; funext r; rw [ramp_le]; simp
  have hR : rowsOf (t.heap.dataOf R) = fun r : Fin 6 => decide (2 < r) := by
    rw [h7, hrow]; funext r; rw [ramp_le]; revert r; decide
  have sL : isNotConstant (column (rampX 6) (rowsOf (t.heap.dataOf L)) 0) = true := by
    apply ramp_splittable; rw [hL]; decide
  have sR : isNotConstant (column (rampX 6) (rowsOf (t.heap.dataOf R)) 0) = true := by
    apply ramp_splittable; rw [hR]; decide
  obtain ⟨y0, s, hI⟩ := reachable_tree_inv (rampX_noNan 6) h2
  have mL := (mem_splittableLeaves hI).2 ⟨(h4 L).2 (by simp), 0, sL⟩
  have mR := (mem_splittableLeaves hI).2 ⟨(h4 R).2 (by simp), 0, sR⟩
  obtain ⟨t1, t2, t3, mu, mu', -, -, h8, -⟩ := exists_roundTrip (rampX_noNan 6) h2 h3 (i := L) ((h4 L).2 (by simp)) sL
    (a := 0) (b := 1) (by rw [hL]; decide) (by rw [hL]; decide) (by rw [ramp_lt]; decide)
  refine ⟨t, t1, t2, t3, mu, mu', h8, ?_⟩
  rcases hn : t.splittableLeafNodes.1 with _ | ⟨a, _ | ⟨b, rest⟩⟩
  · rw [hn] at mL; cases mL
  · rw [hn] at mL mR; simp at mL mR; exact absurd (mL.trans mR.symm) hne
  · simp

/-- A round trip on a tree with two splittable leaves, over the rows 0, ..., 8; the grown tree has three. -/
theorem exRoundTrip9 (y : Fin 9 → ℝ) : ∃ t t1 t2 t3 mu mu', RoundTrip (rampX 9) y t t1 t1 t2 t3 mu mu' ∧ 2 < t2.splittableLeafNodes.1.length := by
  obtain ⟨t0, -, ht0, hy0, hl, hr⟩ := exists_fresh (rampX 9) y
  have hrow : rowsOf (t0.heap.dataOf 0) = fun _ => true := funext hr
  have hc : isNotConstant (column (rampX 9) (rowsOf (t0.heap.dataOf 0)) 0) = true := by
    apply ramp_splittable; rw [hrow]; decide
  obtain ⟨-, t, -, -, -, L, R, -, h2, h3, hne, h4, h5, h6, h7⟩ := exists_roundTrip (rampX_noNan 9) ht0 hy0 (i := 0) (by rw [hl]; simp) hc
    (a := 2) (b := 3) (hr _) (hr _) (by rw [ramp_lt]; decide)
  have hL : rowsOf (t.heap.dataOf L) = fun r : Fin 9 => decide (r ≤ 2) := by
    rw [h6, hrow]; funext r; rw [ramp_le]; simp
  have hR : rowsOf (t.heap.dataOf R) = fun r : Fin 9 => decide (2 < r) := by
    rw [h7, hrow]; funext r; rw [ramp_le]; revert r; decide
  have sR : isNotConstant (column (rampX 9) (rowsOf (t.heap.dataOf R)) 0) = true := by
    apply ramp_splittable; rw [hR]; decide
  obtain ⟨t1, t2, t3, mu, mu', L', R', h8, h9, -, hne', h10, h11, h12, h13⟩ := exists_roundTrip (rampX_noNan 9) h2 h3 (i := R) ((h4 R).2 (by simp)) sR
    (a := 5) (b := 6) (by rw [hR]; decide) (by rw [hR]; decide) (by rw [ramp_lt]; decide)
  have hL2 : rowsOf (t2.heap.dataOf L) = fun r : Fin 9 => decide (r ≤ 2) := by rw [h11 L ((h4 L).2 (by simp)), hL]
  have hA : rowsOf (t2.heap.dataOf L') = fun r : Fin 9 => decide (2 < r ∧ r ≤ 5) := by
    rw [h12, hR]; funext r; rw [ramp_le]; revert r; decide
  have hB : rowsOf (t2.heap.dataOf R') = fun r : Fin 9 => decide (5 < r) := by
    rw [h13, hR]; funext r; rw [ramp_le]; revert r; decide
  obtain ⟨y0, s, hI⟩ := reachable_tree_inv (rampX_noNan 9) h9
  have mL := (mem_splittableLeaves hI).2 ⟨(h10 L).2 (Or.inl ⟨(h4 L).2 (by simp), hne⟩), 0, by apply ramp_splittable; rw [hL2]; decide⟩
  have mA := (mem_splittableLeaves hI).2 ⟨(h10 L').2 (by simp), 0, by apply ramp_splittable; rw [hA]; decide⟩
  have mB := (mem_splittableLeaves hI).2 ⟨(h10 R').2 (by simp), 0, by apply ramp_splittable; rw [hB]; decide⟩
  have d1 : L ≠ L' := by
    rintro rfl
    rw [hL2] at hA; exact absurd (congrFun hA 0) (by decide)
  have d2 : L ≠ R' := by
    rintro rfl
    rw [hL2] at hB; exact absurd (congrFun hB 0) (by decide)
  refine ⟨t, t1, t2, t3, mu, mu', h8, ?_⟩
  have hnd : [L, L', R'].Nodup := by simp [d1, d2, hne']
  have hsub : [L, L', R'] ⊆ t2.splittableLeafNodes.1 := by
    intro k hk
    simp at hk
    rcases hk with rfl | rfl | rfl
    · exact mL
    · exact mA
    · exact mB
  exact (hnd.subperm hsub).length_le

/-! ### C29 -/

/-- C29: the log likelihood ratio of a grow and that of the prune undoing it are finite and cancel, for every data set, sigma > 0, k > 0 and
positive number of trees. -/
theorem C29_likelihood_cancels (hX : NoNan X) {y : Fin n → ℝ} {t t1 t1' t2 t3 : Tree ℝ n p} {mu mu' : TreeMutation}
    (h : RoundTrip X y t t1 t1' t2 t3 mu mu') {m : Params ℝ} (hs : 0 < m.sigma) (hk : 0 < m.k) (hn : 0 < m.nTrees) :
    ∃ a b h1 h2, logLikihoodRatio m t1.heap mu = .ok (.fin a, h1) ∧ logLikihoodRatio m t3.heap mu' = .ok (.fin b, h2) ∧ a + b = 0 := by
  obtain ⟨s, s', i, D, L, R, l, r, U, j, v, hI, x1, rfl, hg, hI2, x3, rfl, hg2, c1, c2, c3, -⟩ := h.unfold hX
  obtain ⟨h1, e1, -⟩ := likRatio_grow m hg
  obtain ⟨h2, e2, -⟩ := likRatio_prune hX m hg2 c1
  rw [c2] at e2
  rw [likValue_eq ⟨hs, hk, hn⟩] at e1 e2
  exact ⟨_, _, h1, h2, e1, e2, add_neg_cancel _⟩

/-- There are round trips to which C29 applies. -/
example : ∃ t t1 t2 t3 mu mu', RoundTrip (rampX 3) (fun r => r.val) t t1 t1 t2 t3 mu mu' :=
  let ⟨t, t1, t2, t3, mu, mu', h, _⟩ := exRoundTrip3 (fun r => r.val)
  ⟨t, t1, t2, t3, mu, mu', h⟩

/-! ### C31

Full statement: the log transition ratios of a grow and of the prune undoing it add up to 0. It is false (`C31_refuted`): the grow ratio
supposes that the number of prunable nodes becomes one more, the prune ratio that the number of splittable leaves becomes one less. -/

/-- C31, what holds: if two or more leaves of the grown tree are splittable, both ratios are finite and their sum is
`log (P' S / ((P + 1) (S' - 1)))`, where `P`, `S` are the numbers of prunable nodes and of splittable leaves before, `P'`, `S'` after the grow;
it is 0 iff `P' S = (P + 1) (S' - 1)`. If exactly one leaf is splittable, the ratio of the prune is `-inf`, if none is, it is NaN. -/
theorem C31_transition_partial (hX : NoNan X) {y : Fin n → ℝ} {t t1 t1' t2 t3 : Tree ℝ n p} {mu mu' : TreeMutation}
    (h : RoundTrip X y t t1 t1' t2 t3 mu mu') {pGrow pPrune : ℝ} (hg : 0 < pGrow) (hp : 0 < pPrune) :
    ∃ a b ta tb, logTransitionRatio pGrow pPrune t1 mu = .ok (.fin a, ta) ∧ logTransitionRatio pGrow pPrune t3 mu' = .ok (b, tb) ∧
      0 < t.splittableLeafNodes.1.length ∧
      (1 < t2.splittableLeafNodes.1.length → ∃ b', b = .fin b' ∧
        a + b' = Real.log (t2.prunableDecisionNodes.length * t.splittableLeafNodes.1.length /
          ((t.prunableDecisionNodes.length + 1) * (t2.splittableLeafNodes.1.length - 1))) ∧
        (a + b' = 0 ↔ t2.prunableDecisionNodes.length * t.splittableLeafNodes.1.length =
          (t.prunableDecisionNodes.length + 1) * (t2.splittableLeafNodes.1.length - 1))) ∧
      (t2.splittableLeafNodes.1.length = 1 → b = .ninf) ∧ (t2.splittableLeafNodes.1.length = 0 → b = .nan) := by
  obtain ⟨s, s', i, D, L, R, l, r, U, j, v, hI, x1, rfl, hgp, hI2, x3, rfl, hg2, c1, c2, c3, c4⟩ := h.unfold hX
  obtain ⟨w, hw⟩ := withinNode_fin hX hgp.splittable hgp.vcol
  have hS := GrowProp.nsl_pos hI x1 hgp
  have hP2 : 0 < t2.prunableDecisionNodes.length := List.length_pos_of_mem c4
  obtain ⟨ta, e1, -⟩ := transition_grow hI x1 hgp (pPrune := pPrune) hg.ne'
  obtain ⟨tb, e2, -⟩ := transition_prune hX hI2 x3 hg2 c1 (pGrow := pGrow) hp.ne'
  rw [c2, hw] at e2
  rw [hw, transGrow_fin (by positivity) _ hS] at e1
  rw [← (nSplittableLeaves_spec hI).1] at e1 hS
  rw [← (nSplittableLeaves_spec hI2).1] at e2
  unfold nSplittableLeaves at e1 e2 hS
  simp only at e1 e2 hS
  refine ⟨_, _, ta, tb, e1, e2, hS, ?_, ?_, ?_⟩
  · intro hS2
    rw [transPrune_fin (by positivity) hP2 hS2]
    have a1 : (0 : ℝ) < t2.prunableDecisionNodes.length := by exact_mod_cast hP2
    have a2 : (0 : ℝ) < t.splittableLeafNodes.1.length := by exact_mod_cast hS
    have a3 : (0 : ℝ) < (t.prunableDecisionNodes.length : ℝ) + 1 := by positivity
    have a4 : (0 : ℝ) < (t2.splittableLeafNodes.1.length : ℝ) - 1 := by
      have : (1 : ℝ) < t2.splittableLeafNodes.1.length := by exact_mod_cast hS2
      linarith
    have key : Real.log (pPrune / pGrow) - Real.log ((t.prunableDecisionNodes.length : ℝ) + 1) + Real.log t.splittableLeafNodes.1.length - w +
        (Real.log (pGrow / pPrune) - Real.log ((t2.splittableLeafNodes.1.length : ℝ) - 1) + w + Real.log t2.prunableDecisionNodes.length) =
        Real.log (t2.prunableDecisionNodes.length * t.splittableLeafNodes.1.length /
          ((t.prunableDecisionNodes.length + 1) * (t2.splittableLeafNodes.1.length - 1))) := by
      rw [Real.log_div hp.ne' hg.ne', Real.log_div hg.ne' hp.ne', Real.log_div (by positivity) (by positivity),
        Real.log_mul a1.ne' a2.ne', Real.log_mul a3.ne' a4.ne']
      ring
    refine ⟨_, rfl, key, ?_⟩
    rw [key]
    have hpos : (0 : ℝ) < t2.prunableDecisionNodes.length * t.splittableLeafNodes.1.length /
          ((t.prunableDecisionNodes.length + 1) * (t2.splittableLeafNodes.1.length - 1)) := by positivity
    have e : (t2.prunableDecisionNodes.length * t.splittableLeafNodes.1.length =
          (t.prunableDecisionNodes.length + 1) * (t2.splittableLeafNodes.1.length - 1)) ↔
        ((t2.prunableDecisionNodes.length : ℝ) * t.splittableLeafNodes.1.length =
          (t.prunableDecisionNodes.length + 1) * (t2.splittableLeafNodes.1.length - 1)) := by
      have : ((t2.splittableLeafNodes.1.length - 1 : Nat) : ℝ) = (t2.splittableLeafNodes.1.length : ℝ) - 1 := by
        rw [Nat.cast_sub hS2.le]; simp
      rw [← this]
      exact_mod_cast Iff.rfl
    rw [e]
    constructor
    · intro h0
      have := Real.eq_one_of_pos_of_log_eq_zero hpos h0
      rwa [div_eq_one_iff_eq (by positivity)] at this
    · intro h0
      rw [h0, div_self (by positivity), Real.log_one]
  · intro hS2
    rw [hS2]
    exact transPrune_one (by positivity) hP2 w
  · intro hS2
    rw [hS2]
    exact transPrune_zero _

/-- C31 is false: growing the new tree over the rows 0, 1, 2 gives a tree whose prune has transition ratio NaN. -/
theorem C31_refuted (pGrow pPrune : ℝ) (hg : 0 < pGrow) (hp : 0 < pPrune) :
    ∃ t t1 t2 t3 mu mu' a ta tb, RoundTrip (rampX 3) (fun r => (r.val : ℝ)) t t1 t1 t2 t3 mu mu' ∧
      logTransitionRatio pGrow pPrune t1 mu = .ok (.fin a, ta) ∧ logTransitionRatio pGrow pPrune t3 mu' = .ok (.nan, tb) := by
  obtain ⟨t, t1, t2, t3, mu, mu', h, -, -, -, h0⟩ := exRoundTrip3 (fun r => (r.val : ℝ))
  obtain ⟨a, b, ta, tb, e1, e2, -, -, -, e3⟩ := C31_transition_partial (rampX_noNan 3) h hg hp
  rw [e3 (by rw [h0]; rfl)] at e2
  exact ⟨t, t1, t2, t3, mu, mu', a, ta, tb, h, e1, e2⟩

/-! ### C32

Full statement: the log tree prior ratios of a grow and of the prune undoing it add up to 0. It is false (`C32_refuted`): the grow ratio
includes the choice of the leaf, the prune ratio does not. -/

/-- C32, what holds: both ratios are finite and their sum is `-log S`, where `S` is the number of splittable leaves before the grow; it is 0 iff
`S = 1`. -/
theorem C32_tree_prior_partial (hX : NoNan X) {y : Fin n → ℝ} {t t1 t1' t2 t3 : Tree ℝ n p} {mu mu' : TreeMutation}
    (h : RoundTrip X y t t1 t1' t2 t3 mu mu') {m : Params ℝ} (ha : 0 < m.alpha) (ha1 : m.alpha < 1) (hb : 0 ≤ m.beta) :
    ∃ a b ta tb, logTreeRatio m t1 mu = .ok (.fin a, ta) ∧ logTreeRatio m t3 mu' = .ok (.fin b, tb) ∧
      a + b = -Real.log t.splittableLeafNodes.1.length ∧ (a + b = 0 ↔ t.splittableLeafNodes.1.length = 1) := by
  obtain ⟨s, s', i, D, L, R, l, r, U, j, v, hI, x1, rfl, hgp, hI2, x3, rfl, hg2, c1, c2, c3, c4⟩ := h.unfold hX
  obtain ⟨w, hw⟩ := withinNode_fin hX hgp.splittable hgp.vcol
  have hS := GrowProp.nsl_pos hI x1 hgp
  obtain ⟨ta, e1, -⟩ := treeRatio_grow m hI x1 hgp
  obtain ⟨tb, e2, -⟩ := treeRatio_prune hX m hg2 c1
  rw [c2, hw, c3, treePrune_fin ⟨ha, ha1, hb⟩] at e2
  rw [hw, treeGrow_fin ⟨ha, ha1, hb⟩ _ hS] at e1
  rw [← (nSplittableLeaves_spec hI).1] at e1 hS
  unfold nSplittableLeaves at e1 hS
  simp only at e1 hS
  have key := e1
  refine ⟨_, _, ta, tb, e1, e2, by ring, ?_⟩
  have hr : (0 : ℝ) < t.splittableLeafNodes.1.length := by exact_mod_cast hS
  constructor
  · intro h0
    have : Real.log t.splittableLeafNodes.1.length = 0 := by linarith
    have := Real.eq_one_of_pos_of_log_eq_zero hr this
    exact_mod_cast this
  · intro h0
    rw [h0]; simp

/-- C32 is false: there is a round trip over the rows 0, ..., 5 whose tree prior ratios do not cancel, whatever the (proper) prior. -/
theorem C32_refuted {m : Params ℝ} (ha : 0 < m.alpha) (ha1 : m.alpha < 1) (hb : 0 ≤ m.beta) :
    ∃ t t1 t2 t3 mu mu' a b ta tb, RoundTrip (rampX 6) (fun r => (r.val : ℝ)) t t1 t1 t2 t3 mu mu' ∧
      logTreeRatio m t1 mu = .ok (.fin a, ta) ∧ logTreeRatio m t3 mu' = .ok (.fin b, tb) ∧ a + b < 0 := by
  obtain ⟨t, t1, t2, t3, mu, mu', h, h0⟩ := exRoundTrip6 (fun r => (r.val : ℝ))
  obtain ⟨a, b, ta, tb, e1, e2, e3, -⟩ := C32_tree_prior_partial (rampX_noNan 6) h ha ha1 hb
  refine ⟨t, t1, t2, t3, mu, mu', a, b, ta, tb, h, e1, e2, ?_⟩
  rw [e3]
  have : (0 : ℝ) < Real.log t.splittableLeafNodes.1.length := Real.log_pos (by exact_mod_cast h0)
  linarith

end Bart
