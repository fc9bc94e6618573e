import Verif.Proofs.ObliviousRatio
import Verif.Proofs.RealWitness
import Verif.Props.ObliviousProps

/-! Property theorems C122 (acceptance in the oblivious sampler). -/

set_option linter.unusedSectionVars false

namespace Bart
open Spec Lik
variable {K : Type} [Field K] [LinearOrder K] {n p : Nat} {X : Fin n → Fin p → Fl K}

namespace Spec

/-- The last comparison on the way from the root to the node. -/
def lastComparison (t : Tree K n p) (i : NodeId) : Option (SplitCondition K p) := (t.heap.node i).split.combined.conditions.getLast?

/-- A leaf that cannot be split in which no row has the value of the last comparison, and which has no rows or two rows that agree in the column of the last comparison. -/
def Blocked (X : Fin n → Fin p → Fl K) (t : Tree K n p) (i : NodeId) : Prop :=
  i ∈ t.leafNodes ∧ ¬ CanSplit X t i ∧ ∃ c, lastComparison t i = some c ∧ (∀ r, InLeaf t i r → X r c.splittingVariable ≠ c.splittingValue) ∧
    ((∀ r, ¬ InLeaf t i r) ∨ ∃ r r', r ≠ r' ∧ InLeaf t i r ∧ InLeaf t i r' ∧ X r c.splittingVariable = X r' c.splittingVariable)

/-- The step accepts its proposal. -/
def Accepted (res : Except PyErr (Option (List TreeMutation) × Tree K n p × Rand K)) : Prop := ∃ mus t' r', res = .ok (some mus, t', r')

end Spec

open Oblivious

theorem recent_eq {t : Tree K n p} {i : NodeId} : (t.heap.node i).split.combined.mostRecentSplitCondition = lastComparison t i := by
  unfold CombinedCondition.mostRecentSplitCondition lastComparison
  split
  · next h => rw [List.length_eq_zero_iff.1 h]; rfl
  · rfl

theorem column_nodup {rows : Fin n → Bool} {j : Fin p} : (column X rows j).Nodup ↔ ∀ r r', rows r = true → rows r' = true → X r j = X r' j → r = r' := by
  unfold column
  rw [List.nodup_map_iff_inj_on ((List.nodup_finRange n).filter _)]
  simp only [List.mem_filter, List.mem_finRange, true_and]
  exact ⟨fun h r r' h1 h2 h3 => h r h1 r' h2 h3, fun h r h1 r' h2 h3 => h r r' h1 h2 h3⟩

theorem inLeaf_iff {t : Tree K n p} {i : NodeId} (hi : i ∈ t.leafNodes) {r : Fin n} : InLeaf t i r ↔ rowsOf (t.heap.dataOf i) r = true := by
  unfold InLeaf
  exact ⟨fun h => h.2, fun h => ⟨hi, h⟩⟩

theorem blocked_iff {t : Tree K n p} {i : NodeId} : Blocked X t i ↔ i ∈ t.leafNodes ∧ ¬ CanSplit X t i ∧ ∃ c, lastComparison t i = some c ∧ ¬ Counted X (rowsOf (t.heap.dataOf i)) c := by
  unfold Blocked
  refine and_congr_right fun hi => and_congr_right fun _ => exists_congr fun c => and_congr_right fun _ => ?_
  simp only [inLeaf_iff hi]
  unfold Counted
  rw [column_nodup]
  push Not
  refine and_congr_right fun _ => ?_
  constructor
  · rintro (h | ⟨r, r', h1, h2, h3, h4⟩)
    · rintro ⟨r, hr⟩; exact absurd hr (by simpa using h r)
    · exact fun _ => ⟨r, r', h2, h3, h4, h1⟩
  · intro h
    by_cases h0 : ∃ r, rowsOf (t.heap.dataOf i) r = true
    · obtain ⟨r, r', h2, h3, h4, h1⟩ := h h0
      exact .inr ⟨r, r', h1, h2, h3, h4⟩
    · push Not at h0
      exact .inl h0

variable [MathFns K]

/-- What is proposed and how it is rated. -/
theorem Oblivious.step_ratio (hX : NoNan X) {y : Fin n → K} {t : Tree K n p} {s : Shape} (hI : TreeInv X (some y) t s) {m : Params K} {pGrow pPrune : K} {r : Rand K} {us : List K} {u : K}
    (h : ∃ res, treeStep m pGrow pPrune t { r with uniforms := u :: us } = .ok res) :
    ∃ (z : Fl K) (t1 : Tree K n p) (h' : Heap K n p) (mus : List TreeMutation) (me : Method), r.methods.head? = some me ∧ TreeExt t t1 ∧ Move X y t s t1 me mus ∧
      sumRatios m pGrow pPrune mus t1.heap = .ok (z, h') ∧ (∀ mu ∈ mus, ∃ c cd, About X y t1.heap mu c cd) ∧
      ∀ u', Accepted (treeStep m pGrow pPrune t { r with uniforms := u' :: us }) ↔ Fl.lt (.fin u') z = true := by
  obtain ⟨res, h⟩ := h
  have hp := propose_spec hX hI r.picks r.methods
  have hall : ∀ u', match treeStep m pGrow pPrune t { r with uniforms := u' :: us } with
      | .ok _ => True
      | .error e => e = .outOfDraws ∨ (e = .zeroDivision ∧ (pGrow = 0 ∨ pPrune = 0)) ∨
        (e = .attributeError ∧ r.methods.head? = some .grow ∧ ∃ i, t.nodes = [i] ∧ ∀ j, isNotConstant (column X (rowsOf (t.heap.dataOf i)) j) = false) := by
    intro u'
    have := treeStep_spec hX hI m pGrow pPrune { r with uniforms := u' :: us }
    split
    · trivial
    · next e h0 => rw [h0] at this; exact this
  unfold treeStep treeSample at h hall ⊢
  cases e1 : propose t r.picks r.methods with
  | error e => simp only [e1] at h; cases h
  | ok q =>
    obtain ⟨mus, t1, us', ms⟩ := q
    rw [e1] at hp
    obtain ⟨he, me, hms, hmv⟩ := hp
    simp only [e1] at h hall
    have hrated : ∀ mu ∈ mus, ∃ c d l r, Rated X y t1.heap mu c d l r := by
      intro mu hmu
      cases hmv with
      | grow qs a b c =>
        obtain ⟨q, hq, rfl⟩ := List.mem_map.1 hmu
        exact ⟨_, _, _, _, (c q hq).rated hI he.heap⟩
      | prune qs a b c =>
        obtain ⟨q, hq, rfl⟩ := List.mem_map.1 hmu
        exact ⟨_, _, _, _, pruneRated (c q hq)⟩
    have hs := sumRatios_spec m pGrow pPrune mus hrated
    cases e2 : sumRatios m pGrow pPrune mus t1.heap with
    | error e => simp only [e2] at h; cases h
    | ok q2 =>
      obtain ⟨z, h2⟩ := q2
      rw [e2] at hs
      refine ⟨z, t1, h2, mus, me, by rw [hms]; rfl, he, hmv, e2, ?_, ?_⟩
      · intro mu hmu
        obtain ⟨c, d, l, r', hr⟩ := hrated mu hmu
        have := hs.2 mu hmu c d l r' hr
        obtain ⟨cd, hcd⟩ := Option.ne_none_iff_exists'.1 this
        exact ⟨c, cd, d, l, r', hr, hcd⟩
      · intro u'
        have hu := hall u'
        simp only [e2] at hu ⊢
        simp only [e1, e2]
        by_cases hlt : Fl.lt (.fin u') z = true
        · rw [if_pos hlt] at hu ⊢
          simp only [hlt, iff_true]
          simp only at hu ⊢
          have hok : ∃ t', mutateAll mus { t1 with heap := h2 } = .ok t' := by
            have hx2 : TreeExt t { t1 with heap := h2 } := he.trans (TreeExt.withHeap hs.1)
            have hmv2 := hmv.ext (TreeExt.withHeap hs.1)
            cases hmv2 with
            | grow qs a b c =>
              have hn := hI.ext hx2
              obtain ⟨t', h', -⟩ := mutateAll_grow qs (t := { t1 with heap := h2 }) hn.nodes_nodup (by rw [a]; exact hI.nodes_nodup.filter _)
                (fun q hq => by rw [hx2.nodes]; exact (List.mem_filter.1 (c q hq).facts.1).1) b
                (fun k hk hc => by
                  obtain ⟨q, hq, hkq⟩ := List.mem_flatMap.1 hk
                  rw [hx2.nodes] at hc
                  have := (c q hq).facts.2.2.2.2.1 k hkq
                  have := hI.mem_lt hc
                  omega)
                (fun q hq => ⟨(c q hq).facts.2.2.2.2.2.1, (c q hq).facts.2.2.2.2.2.2.1⟩)
              exact ⟨t', h'⟩
            | prune qs a b c =>
              obtain ⟨t', _, h', -⟩ := mutateAll_prune qs (hI.ext hx2) (by rw [a]; exact (hI.nodes_nodup.filter _).filter _) b
                (fun q hq => ⟨(c q hq).sub, (c q hq).ready, by rw [hx2.nodes]; exact (c q hq).fresh, (c q hq).lt⟩)
              exact ⟨t', h'⟩
          obtain ⟨t', ht'⟩ := hok
          rw [ht']
          exact ⟨_, _, _, rfl⟩
        · rw [if_neg hlt]
          constructor
          · intro h0
            obtain ⟨_, _, _, h0⟩ := h0
            cases h0
          · exact fun h0 => absurd h0 hlt

/-! ### C122

Full statement: for each proposal of the oblivious sampler there is a number such that the proposal is accepted exactly when the uniform draw is below it. It is false: on a tree with a blocked leaf
the ratio of every grow is NaN, and no uniform draw is below NaN. -/

/-- C122 is false: with a blocked leaf no grow is ever accepted, whatever is drawn. -/
theorem C122_refuted [IsStrictOrderedRing K] (hz : MathFns.log (0 : K) = .ninf) (hX : NoNan X) {t : Tree K n p} (ht : ReachableTree X t) {y : Fin n → K} (hy : HasTarget t y)
    {i : NodeId} (hi : Blocked X t i) (m : Params K) (pGrow pPrune : K) {r : Rand K} (hg : r.methods.head? = some .grow) :
    ¬ Accepted (Oblivious.treeStep m pGrow pPrune t r) := by
  obtain ⟨y', s, hI⟩ := reachable_tree_inv hX ht
  obtain rfl := hI.target hy
  obtain ⟨i1, i2, c, i3, i4⟩ := blocked_iff.1 hi
  rintro ⟨mus', t', r', h⟩
  have hu : ∃ u us, r.uniforms = u :: us := by
    cases e : r.uniforms with
    | cons u us => exact ⟨u, us, rfl⟩
    | nil =>
      unfold treeStep treeSample at h
      rw [e] at h
      split at h
      · cases h
      · next h0 =>
        split at h0
        · cases h0
        · split at h0
          · cases h0
          · cases h0
      · next h0 =>
        split at h0
        · cases h0
        · split at h0
          · cases h0
          · cases h0
  obtain ⟨u, us, hu⟩ := hu
  have hr : r = { r with uniforms := u :: us } := by rw [← hu]
  rw [hr] at h
  obtain ⟨z, t1, h', mus, me, e1, hx, hmv, e2, hab, hacc⟩ := Oblivious.step_ratio hX hI ⟨_, h⟩
  rw [hg] at e1
  injection e1 with e1
  subst e1
  have hin : i ∈ t.nodes := (List.mem_filter.1 i1).1
  obtain ⟨qq, hk⟩ := hI.repr.nodeOk i (hI.perm.mem_iff.1 hin)
  have hnan : z = .nan := by
    refine sumRatios_nan hz m mus hab e2 ?_
    cases hmv with
    | grow qs a b c' =>
      obtain ⟨q, hq, rfl⟩ := List.mem_map.1 (a ▸ i1 : i ∈ qs.map Quad.i)
      have hd := Built.dup_of hX hI hx.heap (c' q hq) i2
      refine ⟨q.mu, List.mem_map_of_mem hq, q.i, c, ⟨q.D, q.L, q.R, (c' q hq).rated hI hx.heap, ?_⟩, ?_⟩
      · unfold HasRule
        rw [hd.nodeL]
        simp only [leafRec]
        rw [hx.heap.node _ (hI.mem_lt hin), recent_eq]
        exact i3
      · rw [hx.heap.rowsOf (hI.mem_lt hin) hk]
        exact i4
  have := (hacc u).1 ⟨_, _, _, h⟩
  rw [hnan] at this
  cases this

/-- A leaf that cannot be split is blocked if it lies on the right (`>`) of its last comparison and two of its rows agree in the column of this comparison. -/
theorem C122_refuted_right (hX : NoNan X) {t : Tree K n p} (ht : ReachableTree X t) {i : NodeId} (hi : i ∈ t.leafNodes) (hc : ¬ CanSplit X t i) {c : SplitCondition K p}
    (hl : lastComparison t i = some c) (ho : c.operator = .gt) {r r' : Fin n} (hne : r ≠ r') (h1 : InLeaf t i r) (h2 : InLeaf t i r')
    (heq : X r c.splittingVariable = X r' c.splittingVariable) : Blocked X t i := by
  refine ⟨hi, hc, c, hl, ?_, .inr ⟨r, r', hne, h1, h2, heq⟩⟩
  intro a ha he
  obtain ⟨y', s, hI⟩ := reachable_tree_inv hX ht
  obtain ⟨q, hk⟩ := hI.repr.nodeOk i (hI.perm.mem_iff.1 (List.mem_filter.1 hi).1)
  have hrow := (inLeaf_iff hi).1 ha
  rw [hk.rows] at hrow
  have hcq : c ∈ q := by
    unfold lastComparison at hl
    rw [hk.combined] at hl
    exact List.mem_of_getLast? hl
  have := List.all_eq_true.1 hrow c hcq
  unfold sat holdsOp at this
  rw [ho] at this
  rw [he] at this
  have hv : c.splittingValue ≠ .nan := by rw [← he]; exact hX a _
  revert this
  cases c.splittingValue <;> simp [Fl.gt, Fl.lt]

/-- C122, the example: six rows with the values 0, 0, 1, 1, 1, 1 in one column. After the split at 0 the right leaf holds the last four rows; it cannot be split, it lies on the right, and its rows agree. A grow
is rejected even by a very negative draw, which the grow of the root is not. -/
def exXb : Fin 6 → Fin 1 → Fl ℚ := fun r _ => if r.val < 2 then .fin 0 else .fin 1

theorem exXb_noNan : NoNan exXb := by unfold NoNan; decide +kernel

theorem exReachb (ops : List (TreeOp ℚ 6 1)) (P : Tree ℚ 6 1 → Bool) (h : (checkRun (Tree.ofData (exData exXb exYo)) ops).any P = true) :
    ∃ t, ReachableTree exXb t ∧ P t = true := by
  cases e : checkRun (Tree.ofData (exData exXb exYo)) ops with
  | none => rw [e] at h; simp at h
  | some t => rw [e] at h; exact ⟨t, (checkRun_run _ _ _ e).reachable (.fresh ⟨false, _, exData_init _ _, rfl⟩), by simpa using h⟩

section
attribute [local instance] exFns

/-- Is a grow with this uniform draw accepted? -/
def exGrowb (t : Tree ℚ 6 1) (u : ℚ) : Option Bool :=
  match Oblivious.treeStep ⟨1/10, -1, 1/10, 1, 1/10⟩ (1/2) (1/2) t ⟨[.grow], [0, 0, 0, 0, 0, 0], [u], [], []⟩ with
  | .ok (res, _, _) => some res.isSome
  | .error _ => none

example : MathFns.log (0 : ℚ) = .ninf ∧ ∃ t, ReachableTree exXb t ∧ decide ((∀ i ∈ t.nodes, (t.heap.dataOf i).y.y = some exYo) ∧ t.leafNodes = [1, 2] ∧
    leafRows t = [[0, 1], [2, 3, 4, 5]] ∧ (column exXb (rowsOf (t.heap.dataOf 2)) 0).tail = [.fin 1, .fin 1, .fin 1] ∧
    (lastComparison t 2).map (fun c => (c.splittingVariable, c.splittingValue, c.operator)) = some (0, .fin 0, .gt) ∧ exGrowb t (-1000000) = some false ∧ exGrowb (Tree.ofData (exData exXb exYo)) (-1000000) = some true) = true :=
  ⟨by decide +kernel, exReachb [.grow 0 0 (.fin 0)] _ (by decide +kernel)⟩

end

/-- C122 (partial): for good parameters over the reals, and a tree without blocked leaves (for a grow) or all of whose splits that can be undone are at values of rows of their nodes (for a prune),
a step that does not raise accepts exactly the uniform draws below a number. Missing: trees with blocked leaves, for which it is false. -/
theorem C122_number_partial {X : Fin n → Fin p → Fl ℝ} (hX : NoNan X) {t : Tree ℝ n p} (ht : ReachableTree X t) {y : Fin n → ℝ} (hy : HasTarget t y) {m : Params ℝ} (gp : GoodParams m)
    (gpr : GoodPrior m) {pGrow pPrune : ℝ} (h1 : 0 < pGrow) (h2 : 0 < pPrune) {r : Rand ℝ} {u0 : ℝ} {us : List ℝ}
    (hok : ∃ res, Oblivious.treeStep m pGrow pPrune t { r with uniforms := u0 :: us } = .ok res)
    (hg : r.methods.head? = some .grow → ∀ i, ¬ Blocked X t i)
    (hp : r.methods.head? = some .prune → ∀ i ∈ t.prunableDecisionNodes, ∀ j v, rule t.heap i = some (j, v) → ∃ a, t.heap.inSample (t.heap.node i).split a = true ∧ X a j = v) :
    ∃ ρ : ℝ, ∀ u, Accepted (Oblivious.treeStep m pGrow pPrune t { r with uniforms := u :: us }) ↔ u < ρ := by
  obtain ⟨y', s, hI⟩ := reachable_tree_inv hX ht
  obtain rfl := hI.target hy
  obtain ⟨z, t1, h', mus, me, e1, hx, hmv, e2, hab, hacc⟩ := Oblivious.step_ratio hX hI hok
  have hfin : ∃ w : ℝ, z = .fin w := by
    refine sumRatios_fin (y := y) hX gp gpr h1 h2 mus (fun mu hmu => ?_) e2
    obtain ⟨c0, cd, d0, l0, r0, hr0, hrule⟩ := hab mu hmu
    cases hmv with
    | grow qs a b c =>
      obtain ⟨q, hq, rfl⟩ := List.mem_map.1 hmu
      have hl0 : c0 = q.i ∧ d0 = q.D := by
        rcases hr0.mu with e | e
        · simp only [Quad.mu, TreeMutation.mk.injEq, true_and] at e; exact ⟨e.1.symm, e.2.symm⟩
        · simp [Quad.mu] at e
      obtain ⟨rfl, rfl⟩ := hl0
      have hL : l0 = q.L := by
        have := hr0.left
        rw [((c q hq).rated hI hx.heap).left] at this
        injection this with this; exact this.symm
      subst hL
      refine ⟨q.i, cd, ⟨_, _, _, hr0, hrule⟩, ?_⟩
      have hin : q.i ∈ t.nodes := (List.mem_filter.1 (c q hq).facts.1).1
      obtain ⟨qq, hk⟩ := hI.repr.nodeOk q.i (hI.perm.mem_iff.1 hin)
      by_cases hc : CanSplit X t q.i
      · obtain ⟨j, v, hgp⟩ := Built.grow_of hX hI hx.heap (c q hq) hc
        have hr := hgp.rule
        unfold Spec.rule at hr
        rw [hgp.children.1] at hr
        simp only at hr
        have : (t1.heap.node q.L).split.combined.conditions.getLast? = some cd := (recent_eq (t := t1) (i := q.L)).symm.trans hrule
        rw [this] at hr
        simp only [Option.map_some, Option.some.injEq, Prod.mk.injEq] at hr
        obtain ⟨a', ha', hv'⟩ := mem_column.1 hgp.vcol
        exact .inl ⟨a', ha', by rw [hr.1, hr.2]; exact hv'⟩
      · have hd := Built.dup_of hX hI hx.heap (c q hq) hc
        rw [hx.heap.rowsOf (hI.mem_lt hin) hk]
        by_contra hn
        refine hg e1 q.i (blocked_iff.2 ⟨(c q hq).facts.1, hc, cd, ?_, hn⟩)
        unfold HasRule at hrule
        rw [hd.nodeL] at hrule
        simp only [leafRec] at hrule
        rw [hx.heap.node _ (hI.mem_lt hin), recent_eq] at hrule
        exact hrule
    | prune qs a b c =>
      obtain ⟨q, hq, rfl⟩ := List.mem_map.1 hmu
      have hl0 : c0 = q.U ∧ d0 = q.i := by
        rcases hr0.mu with e | e
        · simp [PQuad.mu] at e
        · simp only [PQuad.mu, TreeMutation.mk.injEq, true_and] at e; exact ⟨e.2.symm, e.1.symm⟩
      obtain ⟨rfl, rfl⟩ := hl0
      have hL : l0 = q.l := by
        have := hr0.left
        rw [(pruneRated (c q hq)).left] at this
        injection this with this; exact this.symm
      subst hL
      refine ⟨q.U, cd, ⟨_, _, _, hr0, hrule⟩, .inl ?_⟩
      have hids := (c q hq).sub.ids_subset q.i (by simp [Shape.ids])
      have hidl := (c q hq).sub.ids_subset q.l (by simp [Shape.ids])
      obtain ⟨qq, hk⟩ := hI.repr.nodeOk q.i hids
      have hrow := hx.heap.rowsOf (hI.lt _ hids) hk
      obtain ⟨a', ha1, ha2⟩ := hp e1 q.i (c q hq).prunable cd.splittingVariable cd.splittingValue (by
        have hch := (c q hq).children.1
        rw [hx.heap.node _ (hI.lt _ hids)] at hch
        unfold Spec.rule
        rw [hch]
        simp only
        have : (t.heap.node q.l).split.combined.conditions.getLast? = some cd := by
          refine (recent_eq (t := t) (i := q.l)).symm.trans ?_
          unfold HasRule at hrule
          rw [hx.heap.node _ (hI.lt _ hidl)] at hrule
          exact hrule
        rw [this]; rfl)
      refine ⟨a', ?_, ha2⟩
      have e : rowsOf (t1.heap.dataOf q.U) = rowsOf (t1.heap.dataOf q.i) := by
        unfold Heap.dataOf
        rw [(c q hq).leaf]
        rfl
      rw [e, hrow]
      exact ha1
  obtain ⟨w, rfl⟩ := hfin
  exact ⟨w, fun u => by rw [hacc]; simp [Fl.lt]⟩

/-- C122 (partial): the exact case for grows: a grow that does not raise is accepted for some draw exactly when no leaf is blocked. Missing: as above. -/
theorem C122_exact_partial {X : Fin n → Fin p → Fl ℝ} (hX : NoNan X) {t : Tree ℝ n p} (ht : ReachableTree X t) {y : Fin n → ℝ} (hy : HasTarget t y) {m : Params ℝ} (gp : GoodParams m)
    (gpr : GoodPrior m) {pGrow pPrune : ℝ} (h1 : 0 < pGrow) (h2 : 0 < pPrune) {r : Rand ℝ} {u0 : ℝ} {us : List ℝ} (hm : r.methods.head? = some .grow)
    (hok : ∃ res, Oblivious.treeStep m pGrow pPrune t { r with uniforms := u0 :: us } = .ok res) :
    (∃ u, Accepted (Oblivious.treeStep m pGrow pPrune t { r with uniforms := u :: us })) ↔ ∀ i, ¬ Blocked X t i := by
  constructor
  · rintro ⟨u, hu⟩ i hi
    exact C122_refuted (by simp [MathFns.log]) hX ht hy hi m pGrow pPrune (r := { r with uniforms := u :: us }) hm hu
  · intro hb
    obtain ⟨ρ, hρ⟩ := C122_number_partial hX ht hy gp gpr h1 h2 hok (fun _ => hb) (fun h => by rw [hm] at h; cases h)
    exact ⟨ρ - 1, (hρ _).2 (by linarith)⟩

/-- A prune needs one uniform draw and no others. -/
theorem Oblivious.prune_ok (hX : NoNan X) {t : Tree K n p} (ht : ReachableTree X t) {y : Fin n → K} (hy : HasTarget t y) (m : Params K) {pGrow pPrune : K} (h1 : pGrow ≠ 0) (h2 : pPrune ≠ 0)
    {r : Rand K} {u : K} {us : List K} (hm : r.methods.head? = some .prune) : ∃ res, Oblivious.treeStep m pGrow pPrune t { r with uniforms := u :: us } = .ok res := by
  obtain ⟨y', s, hI⟩ := reachable_tree_inv hX ht
  obtain rfl := hI.target hy
  cases e : Oblivious.treeStep m pGrow pPrune t { r with uniforms := u :: us } with
  | ok res => exact ⟨res, rfl⟩
  | error er =>
    exfalso
    have hs := treeStep_spec hX hI m pGrow pPrune { r with uniforms := u :: us }
    rw [e] at hs
    have hout : er = .outOfDraws := by
      rcases hs with hs | ⟨-, hs | hs⟩ | ⟨-, hg, -⟩
      · exact hs
      · exact absurd hs h1
      · exact absurd hs h2
      · simp only [hm] at hg; cases hg
    subst hout
    obtain ⟨me, ms, hms⟩ : ∃ me ms, r.methods = me :: ms := by
      cases e : r.methods with
      | nil => rw [e] at hm; cases hm
      | cons me ms => exact ⟨me, ms, rfl⟩
    rw [hms] at hm
    injection hm with hm
    subst hm
    obtain ⟨hh, qs, e1, he, a, b, c⟩ := pruneMutations_spec t.prunableDecisionNodes hI (fun _ h => h)
    have hsr := sumRatios_spec m pGrow pPrune (qs.map PQuad.mu) (h := hh) (fun mu hmu => by
      obtain ⟨q, hq, rfl⟩ := List.mem_map.1 hmu
      exact ⟨_, _, _, _, pruneRated (c q hq)⟩)
    unfold treeStep treeSample at e
    simp only [hms, Oblivious.propose, Oblivious.sampleMethod, e1] at e
    cases e2 : sumRatios m pGrow pPrune (qs.map PQuad.mu) hh with
    | error er2 =>
      rw [e2] at hsr
      simp only [e2, Except.error.injEq] at e
      subst e
      rcases hsr with ⟨h0, -⟩ | ⟨h0, -⟩ <;> cases h0
    | ok q2 =>
      obtain ⟨z, h3⟩ := q2
      rw [e2] at hsr
      simp only [e2] at e
      have hx2 : TreeExt t { t with heap := h3 } := TreeExt.withHeap (he.trans hsr.1)
      obtain ⟨t', _, h', -⟩ := mutateAll_prune qs (t := { t with heap := h3 }) (hI.ext hx2) (by rw [a]; exact (hI.nodes_nodup.filter _).filter _) b
        (fun q hq => by
          have hc := (c q hq).ext hsr.1
          exact ⟨hc.sub, hc.ready, hc.fresh, hc.lt⟩)
      by_cases hlt : Fl.lt (.fin u) z = true
      · rw [if_pos hlt] at e
        simp only [h'] at e
        cases e
      · rw [if_neg hlt] at e
        cases e

/-- C122, the example: over the reals, a tree on the rows 0, 1, 2 with one split, and a prune. -/
example : ∃ (t : Tree ℝ 3 1) (y : Fin 3 → ℝ) (m : Params ℝ) (r : Rand ℝ), ReachableTree (rampX 3) t ∧ HasTarget t y ∧ GoodParams m ∧ GoodPrior m ∧ r.methods.head? = some .prune ∧
    t.prunableDecisionNodes ≠ [] ∧ (∃ res, Oblivious.treeStep m (1/2) (1/2) t { r with uniforms := [0] } = .ok res) ∧
    ∀ i ∈ t.prunableDecisionNodes, ∀ j v, rule t.heap i = some (j, v) → ∃ a, t.heap.inSample (t.heap.node i).split a = true ∧ rampX 3 a j = v := by
  obtain ⟨t, hfr, ht, hy, hl, hrows⟩ := exists_fresh (rampX 3) (fun _ => 0)
  obtain ⟨y', s, hI⟩ := reachable_tree_inv (rampX_noNan 3) ht
  obtain rfl := hI.target hy
  have hcount : 3 ≤ count (rowsOf (t.heap.dataOf 0)) := by
    unfold count
    simp [hrows]
  obtain ⟨us, D, L, R, t1, t2, hp, hg, hm, hr2, hy2, hD, hne, h4, h5, h6, h7⟩ := exists_grow (rampX_noNan 3) ht hy (i := 0) (by rw [hl]; simp) (ramp_splittable hcount) (hrows 0) (hrows 2)
    (by rw [ramp_lt]; decide)
  have hx1 : TreeExt t t1 := by
    have := propose_spec (rampX_noNan 3) [.grow] hI us
    rw [hp] at this
    exact this.1
  obtain ⟨g1, g2, g3, g4, -, g6⟩ := grown_node hI hx1 hg hm
  refine ⟨t2, _, ⟨1/10, 1, 1, 1, 1⟩, ⟨[.prune], [], [], [], []⟩, hr2, hy2, ⟨by norm_num, by norm_num, by norm_num⟩, ⟨by norm_num, by norm_num, by norm_num⟩, rfl, List.ne_nil_of_mem hD,
    Oblivious.prune_ok (rampX_noNan 3) hr2 hy2 _ (by norm_num) (by norm_num) rfl, ?_⟩
  intro i hi j v hrule
  obtain ⟨t', f1, -, f3, -⟩ := mutate_grow (hI.ext hx1) (by rw [hx1.leafNodes hI]; exact hg.leaf) hg.ready hg.nodup (by rw [hx1.nodes]; exact hg.fresh) hg.lt
  rw [hm] at f1
  injection f1 with f1
  subst f1
  have hnodes : t.nodes = [0] := by
    obtain ⟨_, d, -, rfl⟩ := hfr
    rfl
  have hin := (List.mem_filter.1 (List.mem_filter.1 hi).1)
  have hiD : i = D := by
    have h8 := hin.1
    rw [f3, hx1.nodes, hnodes] at h8
    have hleaf : i ∉ t2.leafNodes := by
      intro hc
      have a1 := (List.mem_filter.1 hc).2
      have a2 := hin.2
      simp only [decide_eq_true_eq] at a1 a2
      rw [a1] at a2
      cases a2
    rw [h4] at hleaf
    push Not at hleaf
    simp only [List.erase_cons_head, List.nil_append, List.mem_append, List.mem_singleton] at h8
    tauto
  subst hiD
  rw [g1] at hrule
  simp only [Option.some.injEq, Prod.mk.injEq] at hrule
  obtain ⟨rfl, rfl⟩ := hrule
  refine ⟨0, ?_, rfl⟩
  have : rowsOf (t2.heap.dataOf i) 0 = true := by rw [g2, hx1.rows hI (by rw [hnodes]; simp)]; exact hrows 0
  exact this

end Bart
