import Verif.Spec.Equilibrium
import Verif.Props.ProposalProps
import Verif.Props.RecurProps

/-! Property theorem C111 (which distributions of trees a step of the tree sampler leaves unchanged), over the reals. -/

set_option linter.unusedSectionVars false
set_option linter.unusedVariables false

namespace Bart
open Spec Lik
open scoped ENNReal

variable {n p : Nat} {X : Fin n → Fin p → Fl ℝ} {m : Params ℝ} {pGrow pPrune : ℝ} {y : Fin n → ℝ} {N : Nat} {t : Tree ℝ n p} {s : Shape}

/-! ### The kernel of a step -/

theorem accept_measurable (l : Fl ℝ) : MeasurableSet {u : ℝ | 0 ≤ u ∧ u < 1 ∧ Fl.lt (.fin u) l = true} := by
  cases l with
  | nan => simp [Fl.lt]
  | ninf => simp [Fl.lt]
  | pinf =>
    have : {u : ℝ | 0 ≤ u ∧ u < 1 ∧ Fl.lt (.fin u) (.pinf : Fl ℝ) = true} = Set.Ico 0 1 := by ext u; simp [Fl.lt, Set.mem_Ico]
    rw [this]; exact measurableSet_Ico
  | fin x =>
    have : {u : ℝ | 0 ≤ u ∧ u < 1 ∧ Fl.lt (.fin u) (.fin x : Fl ℝ) = true} = Set.Ico 0 (min 1 x) := by
      ext u; simp [Fl.lt, Set.mem_Ico]
    rw [this]; exact measurableSet_Ico

theorem acceptProb_le_one (l : Fl ℝ) : acceptProb l ≤ 1 := by
  cases l <;> simp [acceptProb]

theorem reject_measure (l : Fl ℝ) : MeasureTheory.volume {u : ℝ | 0 ≤ u ∧ u < 1 ∧ Fl.lt (.fin u) l = false} = 1 - ENNReal.ofReal (acceptProb l) := by
  have : {u : ℝ | 0 ≤ u ∧ u < 1 ∧ Fl.lt (.fin u) l = false} = Set.Ico 0 1 \ {u : ℝ | 0 ≤ u ∧ u < 1 ∧ Fl.lt (.fin u) l = true} := by
    ext u
    simp only [Set.mem_setOf_eq, Set.mem_diff, Set.mem_Ico]
    constructor
    · rintro ⟨h1, h2, h3⟩
      exact ⟨⟨h1, h2⟩, by rintro ⟨-, -, h⟩; rw [h3] at h; cases h⟩
    · rintro ⟨⟨h1, h2⟩, h3⟩
      refine ⟨h1, h2, ?_⟩
      cases h : Fl.lt (.fin u) l with
      | false => rfl
      | true => exact absurd ⟨h1, h2, h⟩ h3
  rw [this, MeasureTheory.measure_diff (by rintro u ⟨h1, h2, -⟩; exact ⟨h1, h2⟩) (accept_measurable l).nullMeasurableSet (by rw [acceptProb_measure]; exact ENNReal.ofReal_ne_top),
    acceptProb_measure, Real.volume_Ico]
  simp

/-- Comparisons as triples in the description of a split. -/
def tripled {p : Nat} (d : Reference.At ℝ p) : List (Fin p × Fl ℝ × Op) × Fin p × Fl ℝ := (d.1.map tripleOf, d.2)

theorem tripled_inj : Function.Injective (tripled (p := p)) := by
  have h : Function.Injective (tripleOf (K := ℝ) (p := p)) := by
    rintro ⟨a, b, c⟩ ⟨a', b', c'⟩ e
    simp only [tripleOf, Prod.mk.injEq] at e
    obtain ⟨rfl, rfl, e⟩ := e
    cases c <;> cases c' <;> simp_all
  rintro ⟨a, b⟩ ⟨a', b'⟩ e
  simp only [tripled, Prod.mk.injEq] at e
  rw [List.map_injective_iff.2 h e.1, e.2]

/-- What happens to the splits in a step with given draws. -/
theorem step_iff (hX : NoNan X) (ht : ReachableTree X t) (hI : TreeInv X (some y) t s) (hg : 0 < pGrow) (hp : 0 < pPrune) (us : List Nat) (ms : List Method) (u : ℝ)
    (S : Set (List (Fin p × Fl ℝ × Op) × Fin p × Fl ℝ)) :
    (∃ mu t' r', Sampler.treeStep m pGrow pPrune t ⟨ms, us, [u], [], []⟩ = .ok (mu, t', r') ∧ r'.methods = [] ∧ r'.picks = [] ∧ treeSplits t' = S) ↔
      ∃ mv, Reference.propose X (look t) us ms = .ok (mv, [], []) ∧
        if Fl.lt (.fin u) (Reference.ratio m pGrow pPrune X y (look t) mv) = true then tripled '' ((look t).apply mv).splits = S else treeSplits t = S := by
  have hr := treeStep_ref hX m hI hg.ne' hp.ne' ⟨ms, us, [u], [], []⟩
  constructor
  · rintro ⟨mu, t', r', e, e1, e2, e3⟩
    rw [e] at hr
    simp only at hr
    obtain ⟨y1, s', hI'⟩ := reachable_tree_inv hX (ht.treeStep realFns m ⟨y, hI.hasTarget⟩ hg.ne' hp.ne' e)
    rw [treeSplits_eq hI'] at e3
    unfold Reference.treeStep at hr
    split at hr
    · cases hr
    · next mv us' ms' hmv =>
      simp only at hr
      injection hr with hr; injection hr with h3 h4; injection h4 with h4 h5
      subst h5
      simp only at e1 e2
      subst e1 e2
      refine ⟨mv, hmv, ?_⟩
      rw [← h4] at e3
      split
      · next ha => rw [if_pos ha] at e3; exact e3
      · next ha => rw [if_neg ha] at e3; rw [treeSplits_eq hI]; exact e3
  · rintro ⟨mv, hmv, h⟩
    cases e : Sampler.treeStep m pGrow pPrune t ⟨ms, us, [u], [], []⟩ with
    | error e' =>
      rw [e] at hr
      simp only at hr
      unfold Reference.treeStep at hr
      simp only [hmv] at hr
      cases hr
    | ok q =>
      obtain ⟨mu, t', r'⟩ := q
      rw [e] at hr
      simp only at hr
      obtain ⟨y1, s', hI'⟩ := reachable_tree_inv hX (ht.treeStep realFns m ⟨y, hI.hasTarget⟩ hg.ne' hp.ne' e)
      unfold Reference.treeStep at hr
      simp only [hmv] at hr
      injection hr with hr; injection hr with h3 h4; injection h4 with h4 h5
      refine ⟨mu, t', r', rfl, by rw [← h5], by rw [← h5], ?_⟩
      rw [treeSplits_eq hI', ← h4]
      split
      · next ha => rw [if_pos ha] at h; exact h
      · next ha => rw [if_neg ha] at h; rw [← treeSplits_eq hI]; exact h

/-- A move that can be proposed changes the splits, and different moves change them differently. -/
theorem apply_splits {rt : Reference.RTree ℝ p} (hT : Reference.Tidy rt) {mv : Reference.Move ℝ p} (hm : Reference.IsProposed X rt mv) :
    (∃ path j v, mv = .grow path j v ∧ (path, j, v) ∉ rt.splits ∧ (rt.apply mv).splits = insert (path, j, v) rt.splits) ∨
    (∃ path j v, mv = .prune path j v ∧ (path, j, v) ∈ rt.splits ∧ (rt.apply mv).splits = rt.splits \ {(path, j, v)}) := by
  cases mv with
  | grow path j v =>
    obtain ⟨w, hin, -⟩ := hm
    obtain ⟨e1, e2⟩ := Reference.splits_grow hT (List.mem_filter.1 hin).1 j v
    exact Or.inl ⟨path, j, v, rfl, e1, e2⟩
  | prune path j v =>
    obtain ⟨e1, e2⟩ := Reference.splits_prune hT hm
    exact Or.inr ⟨path, j, v, rfl, e1, e2⟩

theorem apply_ne {rt : Reference.RTree ℝ p} (hT : Reference.Tidy rt) {mv : Reference.Move ℝ p} (hm : Reference.IsProposed X rt mv) : (rt.apply mv).splits ≠ rt.splits := by
  rcases apply_splits hT hm with ⟨path, j, v, -, h1, h2⟩ | ⟨path, j, v, -, h1, h2⟩
  · rw [h2]; intro e; exact h1 (by rw [← e]; exact Set.mem_insert _ _)
  · rw [h2]; intro e; rw [← e] at h1; exact h1.2 rfl

theorem apply_inj {rt : Reference.RTree ℝ p} (hT : Reference.Tidy rt) {mv mv' : Reference.Move ℝ p} (hm : Reference.IsProposed X rt mv) (hm' : Reference.IsProposed X rt mv')
    (e : (rt.apply mv).splits = (rt.apply mv').splits) : mv = mv' := by
  rcases apply_splits hT hm with ⟨path, j, v, rfl, h1, h2⟩ | ⟨path, j, v, rfl, h1, h2⟩ <;> rcases apply_splits hT hm' with ⟨path', j', v', rfl, h1', h2'⟩ | ⟨path', j', v', rfl, h1', h2'⟩
  · rw [h2, h2'] at e
    have : (path, j, v) ∈ insert (path', j', v') rt.splits := by rw [← e]; exact Set.mem_insert _ _
    rcases this with h | h
    · simp only [Prod.mk.injEq] at h; obtain ⟨rfl, rfl, rfl⟩ := h; rfl
    · exact absurd h h1
  · rw [h2, h2'] at e
    have : (path, j, v) ∈ rt.splits \ {(path', j', v')} := by rw [← e]; exact Set.mem_insert _ _
    exact absurd this.1 h1
  · rw [h2, h2'] at e
    have : (path', j', v') ∈ rt.splits \ {(path, j, v)} := by rw [e]; exact Set.mem_insert _ _
    exact absurd this.1 h1'
  · rw [h2, h2'] at e
    by_contra hne
    have h3 : (path, j, v) ≠ (path', j', v') := by
      intro h; simp only [Prod.mk.injEq] at h; obtain ⟨rfl, rfl, rfl⟩ := h; exact hne rfl
    have : (path, j, v) ∈ rt.splits \ {(path', j', v')} := ⟨h1, h3⟩
    rw [← e] at this
    exact this.2 rfl

open Classical in
/-- The measure of the uniform numbers for which a step with given draws leads to the splits `S`. -/
theorem step_volume (hX : NoNan X) (ht : ReachableTree X t) (hI : TreeInv X (some y) t s) (hg : 0 < pGrow) (hp : 0 < pPrune) {us : List Nat} {ms : List Method} {mv : Reference.Move ℝ p}
    (hmv : Reference.propose X (look t) us ms = .ok (mv, [], [])) (S : Set (List (Fin p × Fl ℝ × Op) × Fin p × Fl ℝ)) :
    MeasureTheory.volume {u : ℝ | 0 ≤ u ∧ u < 1 ∧ ∃ mu t' r', Sampler.treeStep m pGrow pPrune t ⟨ms, us, [u], [], []⟩ = .ok (mu, t', r') ∧ r'.methods = [] ∧ r'.picks = [] ∧ treeSplits t' = S} =
      (if tripled '' ((look t).apply mv).splits = S then ENNReal.ofReal (acceptProb (Reference.ratio m pGrow pPrune X y (look t) mv)) else 0) +
        (if treeSplits t = S then 1 - ENNReal.ofReal (acceptProb (Reference.ratio m pGrow pPrune X y (look t) mv)) else 0) := by
  have hne : tripled '' ((look t).apply mv).splits ≠ treeSplits t := by
    rw [treeSplits_eq hI]
    intro e
    exact apply_ne hI.tidy (Reference.propose_mem hmv) (Set.image_injective.2 tripled_inj e)
  have key : ∀ u, (∃ mu t' r', Sampler.treeStep m pGrow pPrune t ⟨ms, us, [u], [], []⟩ = .ok (mu, t', r') ∧ r'.methods = [] ∧ r'.picks = [] ∧ treeSplits t' = S) ↔
      if Fl.lt (.fin u) (Reference.ratio m pGrow pPrune X y (look t) mv) = true then tripled '' ((look t).apply mv).splits = S else treeSplits t = S := by
    intro u
    rw [step_iff hX ht hI hg hp]
    constructor
    · rintro ⟨mv', h1, h2⟩
      rw [hmv] at h1; injection h1 with h1; injection h1 with h1; subst h1
      exact h2
    · intro h; exact ⟨mv, hmv, h⟩
  simp only [key]
  by_cases h1 : tripled '' ((look t).apply mv).splits = S
  · have h2 : treeSplits t ≠ S := by rintro h; exact hne (h1.trans h.symm)
    rw [if_pos h1, if_neg h2, add_zero, ← acceptProb_measure]
    congr 1
    ext u
    simp [h1, h2]
  · rw [if_neg h1, zero_add]
    by_cases h2 : treeSplits t = S
    · rw [if_pos h2, ← reject_measure]
      congr 1
      ext u
      simp [h1, h2]
    · rw [if_neg h2]
      refine (congrArg MeasureTheory.volume (?_ : _ = (∅ : Set ℝ))).trans MeasureTheory.measure_empty
      ext u
      simp [h1, h2]

theorem step_volume_zero (hX : NoNan X) (ht : ReachableTree X t) (hI : TreeInv X (some y) t s) (hg : 0 < pGrow) (hp : 0 < pPrune) {us : List Nat} {ms : List Method}
    (hmv : ∀ mv, Reference.propose X (look t) us ms ≠ .ok (mv, [], [])) (S : Set (List (Fin p × Fl ℝ × Op) × Fin p × Fl ℝ)) :
    MeasureTheory.volume {u : ℝ | 0 ≤ u ∧ u < 1 ∧ ∃ mu t' r', Sampler.treeStep m pGrow pPrune t ⟨ms, us, [u], [], []⟩ = .ok (mu, t', r') ∧ r'.methods = [] ∧ r'.picks = [] ∧ treeSplits t' = S} = 0 := by
  refine (congrArg MeasureTheory.volume (?_ : _ = (∅ : Set ℝ))).trans MeasureTheory.measure_empty
  ext u
  simp only [Set.mem_setOf_eq, Set.mem_empty_iff_false, iff_false, not_and]
  intro _ _
  rw [step_iff hX ht hI hg hp]
  rintro ⟨mv, h, -⟩
  exact hmv mv h

/-- A step leads somewhere with probability 1. -/
theorem stepProb_total (hX : NoNan X) (ht : ReachableTree X t) (hI : TreeInv X (some y) t s) (hN : Divides N t) (hg : 0 < pGrow) (hp : 0 < pPrune) (h1 : pGrow + pPrune = 1)
    (hne : t.splittableLeafNodes.1 ≠ [] ∨ t.prunableDecisionNodes ≠ []) : ∑' S, stepProb m N pGrow pPrune t S = 1 := by
  classical
  have htot := C110_total hX ht hI.hasTarget hN hg hp h1 hne
  unfold proposalProb at htot
  rw [ENNReal.toReal_eq_one_iff] at htot
  rw [← htot]
  unfold stepProb drawsProb
  rw [ENNReal.tsum_comm]
  refine tsum_congr fun ms => ?_
  rw [ENNReal.tsum_mul_left]
  congr 1
  rw [ENNReal.tsum_comm, prob]
  refine tsum_congr fun us => ?_
  rw [ENNReal.tsum_mul_left]
  by_cases h : Proposes t (us.map Fin.val) ms
  · rw [if_pos h]
    obtain ⟨mv, hmv⟩ := (proposes_iff hX hI _ _).1 h
    simp only [step_volume hX ht hI hg hp hmv]
    rw [ENNReal.tsum_add, tsum_eq_single (tripled '' ((look t).apply mv).splits) (fun S hS => if_neg (Ne.symm hS)), if_pos rfl,
      tsum_eq_single (treeSplits t) (fun S hS => if_neg (Ne.symm hS)), if_pos rfl, add_tsub_cancel_of_le, mul_one]
    exact ENNReal.ofReal_le_one.2 (acceptProb_le_one _)
  · rw [if_neg h]
    have : ∀ mv, Reference.propose X (look t) (us.map Fin.val) ms ≠ .ok (mv, [], []) := fun mv e => h ((proposes_iff hX hI _ _).2 ⟨mv, e⟩)
    simp only [step_volume_zero hX ht hI hg hp this]
    simp

/-- A move is made with the probability of proposing it times that of accepting it. -/
theorem stepProb_move (hX : NoNan X) (ht : ReachableTree X t) (hI : TreeInv X (some y) t s) (hg : 0 < pGrow) (hp : 0 < pPrune) {mv : Reference.Move ℝ p}
    (hm : Reference.IsProposed X (look t) mv) :
    stepProb m N pGrow pPrune t (tripled '' ((look t).apply mv).splits) =
      drawsProb N (ENNReal.ofReal pGrow) (ENNReal.ofReal pPrune) (fun us ms => Reference.propose X (look t) us ms = .ok (mv, [], [])) *
        ENNReal.ofReal (acceptProb (Reference.ratio m pGrow pPrune X y (look t) mv)) := by
  classical
  unfold stepProb drawsProb
  rw [← ENNReal.tsum_mul_right]
  refine tsum_congr fun ms => ?_
  rw [mul_assoc]
  congr 1
  rw [prob, ← ENNReal.tsum_mul_right]
  refine tsum_congr fun us => ?_
  by_cases h : Reference.propose X (look t) (us.map Fin.val) ms = .ok (mv, [], [])
  · rw [if_pos h, step_volume hX ht hI hg hp h, if_pos rfl, if_neg, add_zero]
    rw [treeSplits_eq hI]
    intro e
    exact apply_ne hI.tidy hm (Set.image_injective.2 tripled_inj e).symm
  · rw [if_neg h, zero_mul]
    by_cases h' : ∃ mv', Reference.propose X (look t) (us.map Fin.val) ms = .ok (mv', [], [])
    · obtain ⟨mv', h'⟩ := h'
      rw [step_volume hX ht hI hg hp h', if_neg, if_neg]
      · simp
      · rw [treeSplits_eq hI]
        intro e
        exact apply_ne hI.tidy hm (Set.image_injective.2 tripled_inj e).symm
      · intro e
        have := apply_inj hI.tidy (Reference.propose_mem h') hm (Set.image_injective.2 tripled_inj e)
        subst this
        exact h h'
    · rw [step_volume_zero hX ht hI hg hp (fun mv' e => h' ⟨mv', e⟩), mul_zero]

/-- Every proposal has positive probability. -/
theorem propose_pos (hX : NoNan X) (hI : TreeInv X (some y) t s) (hN : Divides N t) (hg : 0 < pGrow) (hp : 0 < pPrune) (h1 : pGrow + pPrune = 1) {us us' : List Nat} {ms ms' : List Method}
    {mu : TreeMutation} {t1 : Tree ℝ n p} (h : t.propose us ms = .ok (mu, t1, us', ms')) :
    ∃ mv, TreeExt t t1 ∧ IsMove X (some y) t s t1.heap mu mv ∧ Reference.IsProposed X (look t) mv ∧
      drawsProb N (ENNReal.ofReal pGrow) (ENNReal.ofReal pPrune) (fun us ms => Reference.propose X (look t) us ms = .ok (mv, [], [])) ≠ 0 := by
  have hr := propose_ref hX ms hI us
  rw [h] at hr
  obtain ⟨x1, mv, hm, e⟩ := hr
  refine ⟨mv, x1, hm, Reference.propose_mem e, fun h0 => ?_⟩
  rcases hm with ⟨i, D, L, R, j, v, rfl, hgp, rfl⟩ | ⟨i, l, r, U, j, v, rfl, hpp, hrule, rfl⟩
  · have hin : i ∈ t.nodes := (List.mem_filter.1 hgp.leaf).1
    have hrows := x1.rows hI hin
    have hs := hgp.splittable
    have hv := hgp.vcol
    have hmx := hgp.vmax
    rw [hrows] at hs hv hmx
    have hi : i ∈ splitLeavesOf X t := mem_splitLeavesOf.2 ⟨hgp.leaf, j, hs⟩
    have hj : j ∈ Reference.columns X (rowsOf (t.heap.dataOf i)) := by rw [columns_eq hX]; exact List.mem_filter.2 ⟨List.mem_finRange _, hs⟩
    have hpr := grow_probability hX hI hN hg hp h1 hi hj hv hmx
    obtain ⟨-, hq0, hq1⟩ := cutProb_real hv hmx
    have hS : (0 : ℝ) < (splitLeavesOf X t).length := by exact_mod_cast List.length_pos_of_mem hi
    have hC : (0 : ℝ) < (Reference.columns X (rowsOf (t.heap.dataOf i))).length := by exact_mod_cast List.length_pos_of_mem hj
    have hsh : 0 < shareOf X (rowsOf (t.heap.dataOf i)) j v := by
      obtain ⟨r, hr, rfl⟩ := mem_column.1 hv
      unfold shareOf
      have a1 : 0 < count (rowsOf (t.heap.dataOf i)) := Finset.card_pos.2 ⟨r, by simpa using hr⟩
      have a2 : 0 < count (fun r' => rowsOf (t.heap.dataOf i) r' && decide (X r' j = X r j)) := Finset.card_pos.2 ⟨r, by simpa using hr⟩
      positivity
    have hw : 0 < (if t.prunableDecisionNodes = [] then 1 else pGrow) := by split <;> [exact one_pos; exact hg]
    have hq : 0 < 1 - shareOfLargest X (rowsOf (t.heap.dataOf i)) j := by linarith
    have : 0 < proposalProb N pGrow pPrune (ProposesGrow t i j v) := by rw [hpr]; positivity
    unfold proposalProb at this
    rw [drawsProb_congr (proposesGrow_iff hX hI hin), h0] at this
    simp at this
  · have hi := hpp.prunable
    have hpr := prune_probability hX hI hN hg hp h1 hi
    have hS : (0 : ℝ) < t.prunableDecisionNodes.length := by exact_mod_cast List.length_pos_of_mem hi
    have hw : 0 < (if splitLeavesOf X t = [] then 1 else pPrune) := by split <;> [exact one_pos; exact hp]
    have : 0 < proposalProb N pGrow pPrune (ProposesPrune t i) := by rw [hpr]; positivity
    unfold proposalProb at this
    rw [drawsProb_congr (proposesPrune_iff hX hI (prunables_sub hi) hrule), h0] at this
    simp at this

/-! ### Steps never lead back -/

/-- A step of the tree sampler can lead from the splits `S` to the splits `S'`. -/
def CanStep (X : Fin n → Fin p → Fl ℝ) (y : Fin n → ℝ) (m : Params ℝ) (pGrow pPrune : ℝ) (S S' : Set (List (Fin p × Fl ℝ × Op) × Fin p × Fl ℝ)) : Prop :=
  ∃ t t', ReachableTree X t ∧ HasTarget t y ∧ FixedStep m pGrow pPrune y t t' ∧ treeSplits t = S ∧ treeSplits t' = S'

theorem chain_of_reflTransGen {α : Type} {R : α → α → Prop} {a b : α} (h : Relation.ReflTransGen R a b) : ∃ (k : ℕ) (f : ℕ → α), f 0 = a ∧ f k = b ∧ ∀ i < k, R (f i) (f (i + 1)) := by
  induction h with
  | refl => exact ⟨0, fun _ => a, rfl, rfl, fun i hi => absurd hi (Nat.not_lt_zero i)⟩
  | @tail b c _ hbc ih =>
    obtain ⟨k, f, h0, hk, hR⟩ := ih
    refine ⟨k + 1, fun i => if i ≤ k then f i else c, by simp [h0], by simp, fun i hi => ?_⟩
    rcases Nat.lt_succ_iff_lt_or_eq.1 hi with h | rfl
    · simp only [h.le, if_true, Nat.succ_le_iff.2 h]
      exact hR i h
    · simp only [le_refl, if_true, Nat.not_succ_le_self, if_false]
      rw [hk]; exact hbc

/-- The number of splits that can be removed, by the splits alone. -/
noncomputable def levelOf (X : Fin n → Fin p → Fl ℝ) (S : Set (List (Fin p × Fl ℝ × Op) × Fin p × Fl ℝ)) : ℕ := by
  classical exact if h : ∃ t, ReachableTree X t ∧ treeSplits t = S then (look h.choose).prunable.length else 0

theorem levelOf_eq (hX : NoNan X) (ht : ReachableTree X t) : levelOf X (treeSplits t) = (look t).prunable.length := by
  classical
  unfold levelOf
  have h : ∃ t', ReachableTree X t' ∧ treeSplits t' = treeSplits t := ⟨t, ht, rfl⟩
  rw [dif_pos h]
  obtain ⟨_, _, hI⟩ := reachable_tree_inv hX ht
  obtain ⟨_, _, hI'⟩ := reachable_tree_inv hX h.choose_spec.1
  exact Reference.prunable_length_eq hI.tidy hI'.tidy (by rw [look_splits_eq, look_splits_eq, h.choose_spec.2])

theorem canStep_acyclic (hX : NoNan X) (h1 : GoodParams m) (h2 : GoodPrior m) (hg : 0 < pGrow) (hp : 0 < pPrune) {S S' : Set (List (Fin p × Fl ℝ × Op) × Fin p × Fl ℝ)}
    (h : CanStep X y m pGrow pPrune S S') (hb : Relation.ReflTransGen (CanStep X y m pGrow pPrune) S' S) : S' = S := by
  obtain ⟨k, f, h0, hk, hR⟩ := chain_of_reflTransGen hb
  let f' : ℕ → Set (List (Fin p × Fl ℝ × Op) × Fin p × Fl ℝ) := fun i => if i ≤ k then f i else S'
  have hR' : ∀ i < k + 1, CanStep X y m pGrow pPrune (f' i) (f' (i + 1)) := by
    intro i hi
    rcases Nat.lt_succ_iff_lt_or_eq.1 hi with h' | rfl
    · simp only [f', h'.le, if_true, Nat.succ_le_iff.2 h']
      exact hR i h'
    · simp only [f', le_refl, if_true, Nat.not_succ_le_self, if_false]
      rw [hk]; exact h
  let F : Set (List (Fin p × Fl ℝ × Op) × Fin p × Fl ℝ) → Set (Reference.At ℝ p) := fun S => (fun d => (d.1.map ofTriple, d.2)) '' S
  have key := walk_no_return (f := fun i => F (f' i)) (l := fun i => levelOf X (f' i)) (m := k + 1) (gain := Reference.gain m pGrow pPrune X y) log_mono
    (fun i hi => by
      obtain ⟨t, t', ht, hy, hs, e1, e2⟩ := hR' i hi
      obtain ⟨ht', -, -, -, hw, -⟩ := fixedStep_walk hX h1 h2 hg hp ht hy hs
      rw [look_splits_eq, look_splits_eq, ← levelOf_eq hX ht, ← levelOf_eq hX ht', e1, e2] at hw
      exact hw)
    (by simp [f', h0]) (by simp [f', h0]) k (Nat.lt_succ_self k)
  simp only [f', le_refl, if_true, Nat.not_succ_le_self, if_false] at key
  rw [hk] at key
  obtain ⟨t, t', ht, hy, hs, e1, e2⟩ := h
  obtain ⟨ht', -⟩ := fixedStep_walk hX h1 h2 hg hp ht hy hs
  obtain ⟨_, _, hI⟩ := reachable_tree_inv hX ht
  obtain ⟨_, _, hI'⟩ := reachable_tree_inv hX ht'
  rw [← e1, ← e2] at key ⊢
  simp only [F] at key
  rw [← look_splits_eq, ← look_splits_eq] at key
  rw [treeSplits_eq hI, treeSplits_eq hI', key]

theorem canStep_of_stepProb {S : Set (List (Fin p × Fl ℝ × Op) × Fin p × Fl ℝ)} (ht : ReachableTree X t) (hy : HasTarget t y) (h : stepProb m N pGrow pPrune t S ≠ 0) :
    CanStep X y m pGrow pPrune (treeSplits t) S := by
  unfold stepProb at h
  obtain ⟨ms, h⟩ := not_forall.1 (mt ENNReal.tsum_eq_zero.2 h)
  obtain ⟨us, h⟩ := not_forall.1 (mt ENNReal.tsum_eq_zero.2 (right_ne_zero_of_mul h))
  obtain ⟨u, hu0, -, mu, t', r', e, -, -, e3⟩ := MeasureTheory.nonempty_of_measure_ne_zero (right_ne_zero_of_mul h)
  exact ⟨t, t', ht, hy, .tree (by simpa using hu0) e, rfl, e3⟩

/-! ### C111

Full statement: at a fixed target and noise level a step of the tree sampler leaves the posterior distribution of the tree unchanged. It is false (`C111_refuted`). -/

/-- A step leads to some tree with probability 1. -/
theorem C111_total (hX : NoNan X) (ht : ReachableTree X t) (hy : HasTarget t y) (hN : Divides N t) (hg : 0 < pGrow) (hp : 0 < pPrune) (h1 : pGrow + pPrune = 1)
    (hne : t.splittableLeafNodes.1 ≠ [] ∨ t.prunableDecisionNodes ≠ []) : ∑' S, stepProb m N pGrow pPrune t S = 1 := by
  obtain ⟨y0, s, hI⟩ := reachable_tree_inv hX ht
  have := hI.target hy; subst this
  exact stepProb_total hX ht hI hN hg hp h1 hne

/-- A split is made in a step with the probability of its proposal times the probability of its acceptance. -/
theorem C111_grow (hX : NoNan X) (ht : ReachableTree X t) (hy : HasTarget t y) (hg : 0 < pGrow) (hp : 0 < pPrune) {us us' : List Nat} {ms ms' : List Method} {i D : NodeId}
    {t1 t2 : Tree ℝ n p} {j : Fin p} {v : Fl ℝ} {l : Fl ℝ} (h : t.propose us ms = .ok (⟨.grow, i, D⟩, t1, us', ms')) (hr : rule t1.heap D = some (j, v))
    (hl : logProbabilityRatio m pGrow pPrune t1 ⟨.grow, i, D⟩ = .ok (l, t2)) :
    stepProb m N pGrow pPrune t (insert ((t.heap.node i).split.combined.conditions.map (fun c => (c.splittingVariable, c.splittingValue, c.operator)), j, v) (treeSplits t)) =
      drawsProb N (ENNReal.ofReal pGrow) (ENNReal.ofReal pPrune) (ProposesGrow t i j v) * ENNReal.ofReal (acceptProb l) := by
  obtain ⟨y0, s, hI⟩ := reachable_tree_inv hX ht
  have := hI.target hy; subst this
  have href := propose_ref hX ms hI us
  rw [h] at href
  obtain ⟨x1, mv, hm, e⟩ := href
  obtain ⟨t9, e9, -⟩ := hm.ratio hX m hI x1 hg.ne' hp.ne'
  rw [hl] at e9; injection e9 with e9; injection e9 with e9 e9'; subst e9
  rcases hm with ⟨i', D', L, R, j', v', e1, hgp, rfl⟩ | ⟨i', l, r, U, j', v', e1, -⟩
  · injection e1 with _ e1 e2; subst e1 e2
    have hin : i ∈ t.nodes := (List.mem_filter.1 hgp.leaf).1
    have := hgp.rule
    rw [hr] at this
    simp only [Option.some.injEq, Prod.mk.injEq] at this
    obtain ⟨rfl, rfl⟩ := this
    have hpm := Reference.propose_mem e
    rw [drawsProb_congr (proposesGrow_iff hX hI hin), ← stepProb_move hX ht hI hg hp hpm]
    congr 1
    rcases apply_splits hI.tidy hpm with ⟨path, j', v', e1, -, h2⟩ | ⟨path, j', v', e1, -⟩
    · injection e1 with e1 e2 e3; subst e1 e2 e3
      rw [h2, Set.image_insert_eq, treeSplits_eq hI]
      congr 2
      have g := hI.goodConds hin
      unfold pathOf
      rw [List.map_map]
      apply List.map_congr_left
      intro c hc
      rcases (g c hc).1 with h | h <;> simp [tripleOf, condOf, h]
    · cases e1
  · injection e1 with e1; cases e1

/-- A split is removed in a step with the probability of the proposal times the probability of its acceptance. -/
theorem C111_prune (hX : NoNan X) (ht : ReachableTree X t) (hy : HasTarget t y) (hg : 0 < pGrow) (hp : 0 < pPrune) {us us' : List Nat} {ms ms' : List Method} {i U : NodeId}
    {t1 t2 : Tree ℝ n p} {j : Fin p} {v : Fl ℝ} {l : Fl ℝ} (h : t.propose us ms = .ok (⟨.prune, i, U⟩, t1, us', ms')) (hr : rule t.heap i = some (j, v))
    (hl : logProbabilityRatio m pGrow pPrune t1 ⟨.prune, i, U⟩ = .ok (l, t2)) :
    stepProb m N pGrow pPrune t (treeSplits t \ {((t.heap.node i).split.combined.conditions.map (fun c => (c.splittingVariable, c.splittingValue, c.operator)), j, v)}) =
      drawsProb N (ENNReal.ofReal pGrow) (ENNReal.ofReal pPrune) (ProposesPrune t i) * ENNReal.ofReal (acceptProb l) := by
  obtain ⟨y0, s, hI⟩ := reachable_tree_inv hX ht
  have := hI.target hy; subst this
  have href := propose_ref hX ms hI us
  rw [h] at href
  obtain ⟨x1, mv, hm, e⟩ := href
  obtain ⟨t9, e9, -⟩ := hm.ratio hX m hI x1 hg.ne' hp.ne'
  rw [hl] at e9; injection e9 with e9; injection e9 with e9 e9'; subst e9
  rcases hm with ⟨i', D', L, R, j', v', e1, -⟩ | ⟨i', l, r, U', j', v', e1, hpp, hr', rfl⟩
  · injection e1 with e1; cases e1
  · injection e1 with _ e1 e2; subst e1 e2
    have hin : i ∈ t.nodes := prunables_sub hpp.prunable
    rw [hr] at hr'
    simp only [Option.some.injEq, Prod.mk.injEq] at hr'
    obtain ⟨rfl, rfl⟩ := hr'
    have hpm := Reference.propose_mem e
    rw [drawsProb_congr (proposesPrune_iff hX hI hin hr), ← stepProb_move hX ht hI hg hp hpm]
    congr 1
    rcases apply_splits hI.tidy hpm with ⟨path, j', v', e1, -⟩ | ⟨path, j', v', e1, -, h2⟩
    · cases e1
    · injection e1 with e1 e2 e3; subst e1 e2 e3
      rw [h2, Set.image_diff tripled_inj, Set.image_singleton, treeSplits_eq hI]
      congr 3
      have g := hI.goodConds hin
      unfold pathOf
      rw [List.map_map]
      apply List.map_congr_left
      intro c hc
      rcases (g c hc).1 with h | h <;> simp [tripleOf, condOf, h]

theorem acceptProb_zero {l : Fl ℝ} : ENNReal.ofReal (acceptProb l) = 0 ↔ Fl.lt (.fin 0) l = false := by
  rw [ENNReal.ofReal_eq_zero]
  cases l with
  | nan => simp [acceptProb, Fl.lt]
  | ninf => simp [acceptProb, Fl.lt]
  | pinf => simp [acceptProb, Fl.lt]
  | fin x => simp [acceptProb, Fl.lt]

/-- If the distribution of the splits is unchanged, no tree with positive probability is ever changed. -/
theorem unchanged_stays (hX : NoNan X) (h1 : GoodParams m) (h2 : GoodPrior m) (hg : 0 < pGrow) (hp : 0 < pPrune) (hs : pGrow + pPrune = 1) {w : Tree ℝ n p → ℝ≥0∞} (hw : RandomTree X y N w)
    (hu : Stationary m N pGrow pPrune w) {t0 : Tree ℝ n p} (h0 : w t0 ≠ 0) {S0 : Set (List (Fin p × Fl ℝ × Op) × Fin p × Fl ℝ)} (hS : S0 ≠ treeSplits t0) :
    stepProb m N pGrow pPrune t0 S0 = 0 := by
  classical
  by_contra hne
  have hstep := canStep_of_stepProb (hw.reach t0 h0) (hw.target t0 h0) hne
  let D : Set (Set (List (Fin p × Fl ℝ × Op) × Fin p × Fl ℝ)) := {S | Relation.ReflTransGen (CanStep X y m pGrow pPrune) S0 S}
  have hS0 : S0 ∈ D := Relation.ReflTransGen.refl
  have ht0 : treeSplits t0 ∉ D := fun h => hS (canStep_acyclic hX h1 h2 hg hp hstep h)
  let B := ∑' t, if treeSplits t ∈ D then w t else 0
  have hB : B ≤ 1 := by
    rw [← hw.total]
    refine ENNReal.tsum_le_tsum fun t => ?_
    split <;> simp
  have hsum : ∑' t, w t * ∑' S : D, stepProb m N pGrow pPrune t S = B := by
    simp only [← ENNReal.tsum_mul_left]
    rw [ENNReal.tsum_comm]
    have : ∀ S : D, ∑' t, w t * stepProb m N pGrow pPrune t S = ∑' t, if treeSplits t = S then w t else 0 := fun S => by rw [hu S.1]
    simp only [this]
    rw [ENNReal.tsum_comm]
    refine tsum_congr fun t => ?_
    by_cases hD : treeSplits t ∈ D
    · rw [if_pos hD, tsum_eq_single (⟨_, hD⟩ : D) (fun S hS => if_neg fun h => hS (Subtype.ext h.symm)), if_pos rfl]
    · rw [if_neg hD, ENNReal.tsum_eq_zero]
      rintro ⟨S, hS⟩
      exact if_neg fun h => hD (by rw [h]; exact hS)
  have hge : ∑' t, ((if treeSplits t ∈ D then w t else 0) + if t = t0 then w t0 * stepProb m N pGrow pPrune t0 S0 else 0) ≤ ∑' t, w t * ∑' S : D, stepProb m N pGrow pPrune t S := by
    refine ENNReal.tsum_le_tsum fun t => ?_
    by_cases hwt : w t = 0
    · have : t ≠ t0 := by rintro rfl; exact h0 hwt
      simp [hwt, this]
    by_cases hD : treeSplits t ∈ D
    · have : t ≠ t0 := by rintro rfl; exact ht0 hD
      rw [if_pos hD, if_neg this, add_zero]
      have htot := C111_total (m := m) hX (hw.reach t hwt) (hw.target t hwt) (hw.divides t hwt) hg hp hs (hw.moves t hwt)
      rw [← tsum_subtype_eq_of_support_subset (s := D)] at htot
      · rw [htot, mul_one]
      · intro S hS
        exact Relation.ReflTransGen.tail hD (canStep_of_stepProb (hw.reach t hwt) (hw.target t hwt) hS)
    · rw [if_neg hD, zero_add]
      split
      · next h =>
        subst h
        exact mul_le_mul_right (ENNReal.le_tsum (⟨S0, hS0⟩ : D)) _
      · exact zero_le
  rw [ENNReal.tsum_add, tsum_eq_single t0 (fun t ht => if_neg ht), if_pos rfl, hsum] at hge
  have hfin : B ≠ ⊤ := ne_top_of_le_ne_top ENNReal.one_ne_top hB
  have : w t0 * stepProb m N pGrow pPrune t0 S0 = 0 := by
    by_contra hpos
    exact absurd hge (not_le.2 (ENNReal.lt_add_right hfin hpos))
  exact (mul_ne_zero h0 hne) this

/-- The distributions of a random tree that a step of the tree sampler leaves unchanged are exactly those under which no tree with positive probability has a proposal with positive log ratio; then
steps do not change the splits at all. -/
theorem C111_unchanged (hX : NoNan X) (h1 : GoodParams m) (h2 : GoodPrior m) (hg : 0 < pGrow) (hp : 0 < pPrune) (hs : pGrow + pPrune = 1) {w : Tree ℝ n p → ℝ≥0∞} (hw : RandomTree X y N w) :
    (Stationary m N pGrow pPrune w ↔ ∀ t, w t ≠ 0 → ∀ us ms mu t1 us' ms' l t2, t.propose us ms = .ok (mu, t1, us', ms') → logProbabilityRatio m pGrow pPrune t1 mu = .ok (l, t2) →
      Fl.lt (.fin 0) l = false) ∧
    (Stationary m N pGrow pPrune w ↔ ∀ t, w t ≠ 0 → stepProb m N pGrow pPrune t (treeSplits t) = 1) := by
  classical
  have total : ∀ t, w t ≠ 0 → ∑' S, stepProb m N pGrow pPrune t S = 1 := fun t h =>
    C111_total hX (hw.reach t h) (hw.target t h) (hw.divides t h) hg hp hs (hw.moves t h)
  have stay : (∀ t, w t ≠ 0 → ∀ S, S ≠ treeSplits t → stepProb m N pGrow pPrune t S = 0) → ∀ t, w t ≠ 0 → stepProb m N pGrow pPrune t (treeSplits t) = 1 := by
    intro h t ht
    rw [← total t ht, tsum_eq_single (treeSplits t) (fun S hS => h t ht S hS)]
  have back : (∀ t, w t ≠ 0 → stepProb m N pGrow pPrune t (treeSplits t) = 1) → Stationary m N pGrow pPrune w := by
    intro h S
    refine tsum_congr fun t => ?_
    by_cases hwt : w t = 0
    · simp [hwt]
    split
    · next e => rw [← e, h t hwt, mul_one]
    · next e =>
      have h3 := total t hwt
      have h4 : stepProb m N pGrow pPrune t (treeSplits t) + stepProb m N pGrow pPrune t S ≤ 1 := by
        rw [← h3, ← Finset.sum_pair e]
        exact ENNReal.sum_le_tsum _
      rw [h t hwt] at h4
      have : stepProb m N pGrow pPrune t S = 0 := by
        by_contra hpos
        exact absurd h4 (not_le.2 (ENNReal.lt_add_right ENNReal.one_ne_top hpos))
      rw [this, mul_zero]
  refine ⟨⟨?_, ?_⟩, ⟨fun hu => stay fun t ht S hS => unchanged_stays hX h1 h2 hg hp hs hw hu ht hS, back⟩⟩
  · intro hu t hwt us ms mu t1 us' ms' l t2 hpr hl
    obtain ⟨y0, s, hI⟩ := reachable_tree_inv hX (hw.reach t hwt)
    have := hI.target (hw.target t hwt); subst this
    obtain ⟨mv, x1, hm, hpm, hpos⟩ := propose_pos hX hI (hw.divides t hwt) hg hp hs hpr
    obtain ⟨t9, e9, -⟩ := hm.ratio hX m hI x1 hg.ne' hp.ne'
    rw [hl] at e9; injection e9 with e9; injection e9 with e9 e9'; subst e9
    have h0 := unchanged_stays hX h1 h2 hg hp hs hw hu hwt (S0 := tripled '' ((look t).apply mv).splits) (by
      rw [treeSplits_eq hI]
      intro e
      exact apply_ne hI.tidy hpm (Set.image_injective.2 tripled_inj e))
    rw [stepProb_move hX (hw.reach t hwt) hI hg hp hpm] at h0
    exact acceptProb_zero.1 ((mul_eq_zero.1 h0).resolve_left hpos)
  · intro h
    refine back (stay fun t hwt S hS => ?_)
    obtain ⟨y0, s, hI⟩ := reachable_tree_inv hX (hw.reach t hwt)
    have := hI.target (hw.target t hwt); subst this
    unfold stepProb
    rw [ENNReal.tsum_eq_zero]
    intro ms
    refine mul_eq_zero_of_right _ (ENNReal.tsum_eq_zero.2 fun us => mul_eq_zero_of_right _ ?_)
    have href := propose_ref hX ms hI (us.map Fin.val)
    cases e : t.propose (us.map Fin.val) ms with
    | error e' =>
      rw [e] at href
      exact step_volume_zero hX (hw.reach t hwt) hI hg hp (fun mv h => by rw [href] at h; cases h) S
    | ok q =>
      obtain ⟨mu, t1, us', ms'⟩ := q
      rw [e] at href
      obtain ⟨x1, mv, hm, e'⟩ := href
      obtain ⟨t9, e9, -⟩ := hm.ratio hX m hI x1 hg.ne' hp.ne'
      have h0 := acceptProb_zero.2 (h t hwt _ _ _ _ _ _ _ _ e e9)
      by_cases hex : us' = [] ∧ ms' = []
      · obtain ⟨rfl, rfl⟩ := hex
        rw [step_volume hX (hw.reach t hwt) hI hg hp e', h0, if_neg (Ne.symm hS)]
        simp
      · refine step_volume_zero hX (hw.reach t hwt) hI hg hp (fun mv' h' => ?_) S
        rw [e'] at h'; injection h' with h'; injection h' with _ h'; injection h' with h3 h4
        exact hex ⟨h3, h4⟩

/-- A tree without splits is a single leaf with all rows. -/
theorem single_leaf (hX : NoNan X) (hI : TreeInv X (some y) t s) (h : treeSplits t = ∅) :
    ∃ i ∈ t.leafNodes, pathOf t.heap i = [] ∧ (∀ r, rowsOf (t.heap.dataOf i) r = true) ∧ t.prunableDecisionNodes = [] := by
  have hd : t.decisionNodes = [] := by
    rw [List.eq_nil_iff_forall_not_mem]
    intro i hi
    obtain ⟨j, v, hr, -⟩ := hI.look_decision (List.mem_filter.1 hi).1 (by simpa using (List.mem_filter.1 hi).2)
    have : ((t.heap.node i).split.combined.conditions.map (fun c => (c.splittingVariable, c.splittingValue, c.operator)), j, v) ∈ treeSplits t := ⟨i, hi, rfl, hr⟩
    rw [h] at this
    exact this
  have hin : s.root ∈ t.nodes := hI.perm.mem_iff.2 s.root_mem
  have hpath : pathOf t.heap s.root = [] := by
    unfold pathOf
    rw [hI.repr.root_path.1]; rfl
  refine ⟨s.root, List.mem_filter.2 ⟨hin, ?_⟩, hpath, fun r => ?_, by unfold Tree.prunableDecisionNodes; rw [hd]; rfl⟩
  · cases hk : (t.heap.node s.root).kind with
    | leaf => simp [hk]
    | decision =>
      have : s.root ∈ t.decisionNodes := List.mem_filter.2 ⟨hin, by simp [hk]⟩
      rw [hd] at this; cases this
  · rw [← hI.rows_eq hX hin]
    unfold Reference.RNode.rows Reference.RNode.reaches
    have : (lookNode t.heap s.root).path = [] := hpath
    rw [this]; rfl

/-- The property is false, whatever the (proper) parameters and the target: for the training rows 0, 1, 2 and suitable proposal probabilities no distribution under which the tree without splits has
positive probability (as it has under the posterior) is left unchanged by a step; there are such distributions. -/
theorem C111_refuted (h1 : GoodParams m) (h2 : GoodPrior m) (y : Fin 3 → ℝ) :
    ∃ pGrow pPrune : ℝ, 0 < pGrow ∧ 0 < pPrune ∧ pGrow + pPrune = 1 ∧
      (∀ N w, RandomTree (rampX 3) y N w → ∀ t, w t ≠ 0 → treeSplits t = ∅ → ¬ Stationary m N pGrow pPrune w) ∧
      ∃ N w t, RandomTree (rampX 3) y N w ∧ w t ≠ 0 ∧ treeSplits t = ∅ := by
  classical
  let c := Reference.gain m 1 1 (rampX 3) y ([], 0, rampX 3 0 0)
  let e := Real.exp (1 - c)
  have he : 0 < e := Real.exp_pos _
  have hsplit : isNotConstant (column (rampX 3) (fun _ => true) 0) = true := by apply ramp_splittable; decide
  refine ⟨1 / (1 + e), e / (1 + e), by positivity, by positivity, by rw [← add_div, div_self (by positivity)], ?_, ?_⟩
  · intro N w hw t hwt hsp hu
    have hg : 0 < 1 / (1 + e) := by positivity
    have hp : 0 < e / (1 + e) := by positivity
    have hs : 1 / (1 + e) + e / (1 + e) = 1 := by rw [← add_div, div_self (by positivity)]
    obtain ⟨y0, s, hI⟩ := reachable_tree_inv (rampX_noNan 3) (hw.reach t hwt)
    have := hI.target (hw.target t hwt); subst this
    obtain ⟨i, hi, hpath, hrows, hpr⟩ := single_leaf (rampX_noNan 3) hI hsp
    have hrow : rowsOf (t.heap.dataOf i) = fun _ => true := funext hrows
    obtain ⟨us, D, L, R, t1, t2, hpp, hgp, -⟩ := exists_grow (rampX_noNan 3) (hw.reach t hwt) (hw.target t hwt) hi (j := 0) (by rw [hrow]; exact hsplit)
      (a := 0) (b := 1) (hrows _) (hrows _) (by rw [ramp_lt]; decide)
    have href := propose_ref (rampX_noNan 3) [.grow] hI us
    rw [hpp] at href
    obtain ⟨x1, mv, hm, e1⟩ := href
    obtain ⟨t9, e9, -⟩ := hm.ratio (rampX_noNan 3) m hI x1 hg.ne' hp.ne'
    have hneg := (C111_unchanged (rampX_noNan 3) h1 h2 hg hp hs hw).1.1 hu t hwt _ _ _ _ _ _ _ _ hpp e9
    have hmv : mv = .grow [] 0 (rampX 3 0 0) := by
      rcases hm with ⟨i', D', L', R', j', v', e2, hgp', rfl⟩ | ⟨i', l, r, U, j', v', e2, -⟩
      · injection e2 with _ e2 e3; subst e2 e3
        have := hgp'.rule
        rw [hgp.rule] at this
        simp only [Option.some.injEq, Prod.mk.injEq] at this
        obtain ⟨rfl, rfl⟩ := this
        rw [hpath]
      · injection e2 with e2; cases e2
    subst hmv
    obtain ⟨w0, hin, hj, hv, -⟩ := Reference.propose_mem e1
    obtain ⟨w', hw'⟩ := withinNode_fin (rampX_noNan 3) (by rw [columns_eq (rampX_noNan 3)] at hj; exact (List.mem_filter.1 hj).2) hv
    rw [withinNode_eq (rampX_noNan 3)] at hw'
    rw [Reference.ratio_grow_eq h1 h2 hg hp hw' (List.length_pos_of_mem hin), look_prunable hI, hpr] at hneg
    have hq : e / (1 + e) / (1 / (1 + e)) = e := by field_simp
    have hgain : Reference.gain m (1 / (1 + e)) (e / (1 + e)) (rampX 3) y ([], 0, rampX 3 0 0) = 1 := by
      have hc : c = Reference.gain m 1 1 (rampX 3) y ([], 0, rampX 3 0 0) := rfl
      unfold Reference.gain at hc ⊢
      rw [hq, Real.log_exp]
      rw [div_one, Real.log_one] at hc
      linarith
    rw [hgain] at hneg
    simp [Fl.lt] at hneg
  · obtain ⟨t, hf, ht, hy, hl, hr⟩ := exists_fresh (rampX 3) y
    obtain ⟨N, hN⟩ := exists_divides t
    obtain ⟨y0, s, hI⟩ := reachable_tree_inv (rampX_noNan 3) ht
    have hrow : rowsOf (t.heap.dataOf 0) = fun _ => true := funext hr
    have hne : t.splittableLeafNodes.1 ≠ [] := List.ne_nil_of_mem ((mem_splittableLeaves hI).2 ⟨(by rw [hl]; simp : (0 : NodeId) ∈ t.leafNodes), 0, by rw [hrow]; exact hsplit⟩)
    refine ⟨N, fun t' => if t' = t then 1 else 0, t, ⟨by rw [tsum_ite_eq], ?_, ?_, ?_, ?_⟩, by simp, ?_⟩
    · intro t' h; obtain rfl : t' = t := by by_contra hc; exact h (if_neg hc)
      exact ht
    · intro t' h; obtain rfl : t' = t := by by_contra hc; exact h (if_neg hc)
      exact hy
    · intro t' h; obtain rfl : t' = t := by by_contra hc; exact h (if_neg hc)
      exact hN
    · intro t' h; obtain rfl : t' = t := by by_contra hc; exact h (if_neg hc)
      exact Or.inl hne
    · obtain ⟨-, h1, -⟩ := fresh_tree_inv hf
      have hd : t.decisionNodes = [] := by
        rw [List.eq_nil_iff_forall_not_mem]
        intro i hi
        obtain ⟨hi1, hi2⟩ := List.mem_filter.1 hi
        rw [h1] at hi1
        obtain rfl : i = 0 := by simpa using hi1
        have h0 : 0 ∈ t.leafNodes := by rw [hl]; simp
        have := (List.mem_filter.1 h0).2
        simp only [decide_eq_true_eq] at this hi2
        rw [this] at hi2; cases hi2
      ext d
      simp [treeSplits, hd]

/-- There are also distributions that are left unchanged: with other proposal probabilities no split of the rows 0, 1, 2 has a positive log ratio. -/
example (h1 : GoodParams m) (h2 : GoodPrior m) (y : Fin 3 → ℝ) :
    ∃ pGrow pPrune : ℝ, 0 < pGrow ∧ 0 < pPrune ∧ pGrow + pPrune = 1 ∧ ∃ N w t, RandomTree (rampX 3) y N w ∧ w t ≠ 0 ∧ treeSplits t = ∅ ∧ Stationary m N pGrow pPrune w := by
  classical
  let c : Fin 3 → ℝ := fun r => Reference.gain m 1 1 (rampX 3) y ([], 0, rampX 3 r 0)
  let C := max (c 0) (max (c 1) (c 2))
  have hC : ∀ r, c r ≤ C := by
    intro r
    fin_cases r
    · exact le_max_left _ _
    · exact (le_max_left _ _).trans (le_max_right _ _)
    · exact (le_max_right _ _).trans (le_max_right _ _)
  let e := Real.exp (-C)
  have he : 0 < e := Real.exp_pos _
  obtain ⟨-, -, -, -, -, -, N, w0, t, hw, hwt, hsp⟩ := C111_refuted h1 h2 y
  have hg : 0 < 1 / (1 + e) := by positivity
  have hp : 0 < e / (1 + e) := by positivity
  have hs : 1 / (1 + e) + e / (1 + e) = 1 := by rw [← add_div, div_self (by positivity)]
  have hw' : RandomTree (rampX 3) y N (fun t' => if t' = t then 1 else 0) := by
    have key : ∀ t', (if t' = t then (1 : ℝ≥0∞) else 0) ≠ 0 → t' = t := by intro t' h; by_contra hc; exact h (if_neg hc)
    exact ⟨by rw [tsum_ite_eq], fun t' h => by rw [key t' h]; exact hw.reach t hwt, fun t' h => by rw [key t' h]; exact hw.target t hwt, fun t' h => by rw [key t' h]; exact hw.divides t hwt,
      fun t' h => by rw [key t' h]; exact hw.moves t hwt⟩
  refine ⟨1 / (1 + e), e / (1 + e), hg, hp, hs, N, _, t, hw', by simp, hsp, ?_⟩
  refine (C111_unchanged (rampX_noNan 3) h1 h2 hg hp hs hw').1.2 fun t' h us ms mu t1 us' ms' l t2 hpp hl => ?_
  obtain rfl : t' = t := by by_contra hc; exact h (if_neg hc)
  obtain ⟨y0, s, hI⟩ := reachable_tree_inv (rampX_noNan 3) (hw.reach t' hwt)
  have := hI.target (hw.target t' hwt); subst this
  obtain ⟨i, hi, hpath, hrows, hpr⟩ := single_leaf (rampX_noNan 3) hI hsp
  have href := propose_ref (rampX_noNan 3) ms hI us
  rw [hpp] at href
  obtain ⟨x1, mv, hm, e1⟩ := href
  obtain ⟨t9, e9, -⟩ := hm.ratio (rampX_noNan 3) m hI x1 hg.ne' hp.ne'
  rw [hl] at e9; injection e9 with e9; injection e9 with e9 e9'; subst e9
  cases mv with
  | prune path j v =>
    have : (⟨path, .split j v⟩ : Reference.RNode ℝ 1) ∈ (look t').prunable := Reference.propose_mem e1
    rw [look_prunable hI, hpr] at this
    cases this
  | grow path j v =>
    obtain ⟨w0, hin, hj, hv, -⟩ := Reference.propose_mem e1
    have hpth : path = [] := by
      have h3 := (List.mem_filter.1 hin).1
      obtain ⟨k, hk, e2⟩ := List.mem_map.1 h3
      have hs1 : s = .leaf s.root := by
        cases s with
        | leaf k => rfl
        | node k a b =>
          have h4 : (t'.heap.node k).kind = .decision := hI.repr.1
          have h5 : k ∈ t'.nodes := hI.perm.mem_iff.2 (by simp [Shape.ids])
          obtain ⟨j, v, hr, -⟩ := hI.look_decision h5 h4
          have : ((t'.heap.node k).split.combined.conditions.map (fun c => (c.splittingVariable, c.splittingValue, c.operator)), j, v) ∈ treeSplits t' :=
            ⟨k, List.mem_filter.2 ⟨h5, by simp [h4]⟩, rfl, hr⟩
          rw [hsp] at this; cases this
      have hk1 : ∀ k ∈ t'.nodes, k = s.root := by
        intro k hk
        have := hI.perm.mem_iff.1 hk
        rw [hs1] at this
        simpa [Shape.ids] using this
      have hki : k = i := (hk1 k hk).trans (hk1 i (List.mem_filter.1 hi).1).symm
      subst hki
      have : (lookNode t'.heap k).path = path := by rw [e2]
      rw [← this]; exact hpath
    subst hpth
    obtain rfl : j = 0 := Subsingleton.elim _ _
    obtain ⟨r, -, rfl⟩ := mem_column.1 hv
    obtain ⟨w', hw'⟩ := withinNode_fin (rampX_noNan 3) (by rw [columns_eq (rampX_noNan 3)] at hj; exact (List.mem_filter.1 hj).2) hv
    rw [withinNode_eq (rampX_noNan 3)] at hw'
    rw [Reference.ratio_grow_eq h1 h2 hg hp hw' (List.length_pos_of_mem hin), look_prunable hI, hpr]
    have hq : e / (1 + e) / (1 / (1 + e)) = e := by field_simp
    have hgain : Reference.gain m (1 / (1 + e)) (e / (1 + e)) (rampX 3) y ([], 0, rampX 3 r 0) = c r - C := by
      have hc : c r = Reference.gain m 1 1 (rampX 3) y ([], 0, rampX 3 r 0) := rfl
      rw [hc]
      unfold Reference.gain
      rw [hq, Real.log_exp, div_one, Real.log_one]
      ring
    rw [hgain]
    simp [Fl.lt, hC r]

/-- The hypotheses of `C111_grow` and `C111_prune` are met by the first split of the rows 0, 1, 2 and its removal. -/
example (y : Fin 3 → ℝ) (hg : 0 < pGrow) (hp : 0 < pPrune) :
    ∃ (t t1 t2 t3 t4 t5 : Tree ℝ 3 1) (us us' : List Nat) (ms ms' : List Method) (us1 us1' : List Nat) (ms1 ms1' : List Method) (i D U : NodeId) (j : Fin 1) (v l l' : Fl ℝ),
      ReachableTree (rampX 3) t ∧ HasTarget t y ∧ t.propose us ms = .ok (⟨.grow, i, D⟩, t1, us1, ms1) ∧ rule t1.heap D = some (j, v) ∧
      logProbabilityRatio m pGrow pPrune t1 ⟨.grow, i, D⟩ = .ok (l, t4) ∧
      ReachableTree (rampX 3) t2 ∧ HasTarget t2 y ∧ t2.propose us' ms' = .ok (⟨.prune, D, U⟩, t3, us1', ms1') ∧ rule t2.heap D = some (j, v) ∧
      logProbabilityRatio m pGrow pPrune t3 ⟨.prune, D, U⟩ = .ok (l', t5) := by
  obtain ⟨t, t1, t2, t3, mu, mu', h, hr2, hy2, -⟩ := exRoundTrip3 y
  obtain ⟨us, ms, us1, ms1, hpr⟩ := h.grow
  obtain ⟨us', ms', us1', ms1', hpr'⟩ := h.prune
  obtain ⟨s, s', i, D, L, R, l, r, U, j, v, hI, x1, rfl, hgp, hI2, x3, rfl, hg2, hr3, -, -, hD⟩ := h.unfold (rampX_noNan 3)
  have href := propose_ref (rampX_noNan 3) ms hI us
  rw [hpr] at href
  obtain ⟨-, mv, hm, -⟩ := href
  obtain ⟨t4, e4, -⟩ := hm.ratio (rampX_noNan 3) m hI x1 hg.ne' hp.ne'
  have href' := propose_ref (rampX_noNan 3) ms' hI2 us'
  rw [hpr'] at href'
  obtain ⟨-, mv', hm', -⟩ := href'
  obtain ⟨t5, e5, -⟩ := hm'.ratio (rampX_noNan 3) m hI2 x3 hg.ne' hp.ne'
  have hrule : rule t2.heap D = some (j, v) := by
    have hin := prunables_sub hD
    have hkd : (t2.heap.node D).kind = .decision := by simpa using (List.mem_filter.1 (List.mem_filter.1 hD).1).2
    obtain ⟨j', v', e1, e2⟩ := hI2.look_decision hin hkd
    obtain ⟨j'', v'', e3, e4⟩ := (hI2.ext x3).look_decision (by rw [x3.nodes]; exact hin) (by rw [x3.heap.node D (hI2.mem_lt hin)]; exact hkd)
    rw [lookNode_ext hI2 x3.heap hin, e2] at e4
    injection e4 with _ e4; injection e4 with e5 e6; subst e5 e6
    rw [e1, ← e3, hr3]
  exact ⟨t, t1, t2, t3, t4, t5, us, us', ms, ms', us1, us1', ms1, ms1', i, D, U, j, v, _, _, h.reach, h.target, hpr, hgp.rule, e4, hr2, hy2, hpr', hrule, e5⟩

end Bart
