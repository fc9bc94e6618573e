import Verif.Props.RatioProps
import Verif.Proofs.Frozen
import Mathlib.MeasureTheory.Measure.Lebesgue.Basic

/-! Property theorems C28, C33, C68 (acceptance of proposals), over the reals. -/

set_option linter.unusedSectionVars false

namespace Bart
open Spec Lik Sampler
variable {n p : Nat} {X : Fin n → Fin p → Fl ℝ}

/-! ### C28

Full statement: a proposal with log ratio `l` is accepted with probability `min 1 (exp l)`. It is false (`C28_refuted`): the sampler compares a
uniform draw with the log ratio itself. -/

/-- The Metropolis-Hastings acceptance probability of a log ratio (0 if it is NaN). -/
noncomputable def metropolis : Fl ℝ → ℝ
  | .nan => 0
  | .ninf => 0
  | .pinf => 1
  | .fin x => min 1 (Real.exp x)

/-- The probability with which the sampler accepts. -/
noncomputable def acceptProb : Fl ℝ → ℝ
  | .nan => 0
  | .ninf => 0
  | .pinf => 1
  | .fin x => min 1 (max 0 x)

theorem acceptProb_measure (l : Fl ℝ) : MeasureTheory.volume {u : ℝ | 0 ≤ u ∧ u < 1 ∧ Fl.lt (.fin u) l = true} = ENNReal.ofReal (acceptProb l) := by
  cases l with
  | nan =>
    have : {u : ℝ | 0 ≤ u ∧ u < 1 ∧ Fl.lt (.fin u) (.nan : Fl ℝ) = true} = ∅ := by ext u; simp [Fl.lt]
    rw [this]; simp [acceptProb]
  | ninf =>
    have : {u : ℝ | 0 ≤ u ∧ u < 1 ∧ Fl.lt (.fin u) (.ninf : Fl ℝ) = true} = ∅ := by ext u; simp [Fl.lt]
    rw [this]; simp [acceptProb]
  | pinf =>
    have : {u : ℝ | 0 ≤ u ∧ u < 1 ∧ Fl.lt (.fin u) (.pinf : Fl ℝ) = true} = Set.Ico 0 1 := by ext u; simp [Fl.lt, Set.mem_Ico]
    rw [this, Real.volume_Ico]; simp [acceptProb]
  | fin x =>
    have : {u : ℝ | 0 ≤ u ∧ u < 1 ∧ Fl.lt (.fin u) (.fin x : Fl ℝ) = true} = Set.Ico 0 (min 1 x) := by
      ext u; simp [Fl.lt, Set.mem_Ico]
    rw [this, Real.volume_Ico, sub_zero]
    unfold acceptProb
    simp only
    by_cases hx : 0 ≤ x
    · rw [max_eq_right hx]
    · push Not at hx
      rw [max_eq_left hx.le, min_eq_right (by linarith), ENNReal.ofReal_of_nonpos (by linarith)]
      simp

theorem acceptProb_eq_iff (x : ℝ) : acceptProb (.fin x) = metropolis (.fin x) ↔ 1 ≤ x := by
  unfold acceptProb metropolis
  simp only
  have he := Real.add_one_le_exp x
  have hp := Real.exp_pos x
  constructor
  · intro h
    by_contra hx
    push Not at hx
    have h1 : min 1 (max 0 x) = max 0 x := min_eq_right (max_le (by norm_num) hx.le)
    have h2 : max 0 x < min 1 (Real.exp x) := by
      refine lt_min (max_lt (by norm_num) hx) (max_lt hp (by linarith))
    rw [h1] at h
    linarith
  · intro hx
    rw [min_eq_left (le_max_of_le_right hx), min_eq_left (by linarith)]

theorem acceptProb_le_metropolis (l : Fl ℝ) : acceptProb l ≤ metropolis l := by
  cases l with
  | fin x =>
    unfold acceptProb metropolis
    simp only
    have he := Real.add_one_le_exp x
    have hp := Real.exp_pos x
    exact le_min (min_le_left _ _) ((min_le_right _ _).trans (max_le hp.le (by linarith)))
  | _ => exact le_refl _

/-- C28, what holds: on any tree, if the proposal `mu` has log ratio `l`, the set of the uniform draws in `[0, 1)` on which it is accepted has
measure `min 1 (max 0 l)` (0 if `l` is NaN or `-inf`, 1 if it is `+inf`). This is at most the Metropolis-Hastings probability; for finite `l`
it is equal to it iff `1 ≤ l`. -/
theorem C28_acceptance_partial {t t1 t2 : Tree ℝ n p} {m : Params ℝ} {pGrow pPrune : ℝ} {r : Rand ℝ} {mu : TreeMutation} {us : List Nat} {ms : List Method}
    {l : Fl ℝ} (hp : t.propose r.picks r.methods = .ok (mu, t1, us, ms)) (hl : logProbabilityRatio m pGrow pPrune t1 mu = .ok (l, t2)) :
    (∀ u, ∃ d r', treeSample m pGrow pPrune t { r with uniforms := u :: r.uniforms } = .ok (d, t2, r') ∧ (d = some mu ∨ d = none)) ∧
    MeasureTheory.volume {u : ℝ | 0 ≤ u ∧ u < 1 ∧ ∃ r', treeSample m pGrow pPrune t { r with uniforms := u :: r.uniforms } = .ok (some mu, t2, r')} =
      ENNReal.ofReal (acceptProb l) ∧
    acceptProb l ≤ metropolis l ∧ ∀ x, l = .fin x → (acceptProb l = metropolis l ↔ 1 ≤ x) := by
  have key : ∀ u, treeSample m pGrow pPrune t { r with uniforms := u :: r.uniforms } =
      .ok (if Fl.lt (.fin u) l then some mu else none, t2, { r with methods := ms, picks := us, uniforms := r.uniforms }) := by
    intro u
    unfold treeSample
    simp only [hp, hl]
  refine ⟨fun u => ?_, ?_, acceptProb_le_metropolis l, ?_⟩
  · refine ⟨_, _, key u, ?_⟩
    split
    · exact Or.inl rfl
    · exact Or.inr rfl
  · rw [← acceptProb_measure]
    congr 1
    ext u
    simp only [Set.mem_setOf_eq, key]
    constructor
    · rintro ⟨h1, h2, r', h3⟩
      refine ⟨h1, h2, ?_⟩
      by_contra hc
      rw [if_neg hc] at h3
      simp at h3
    · rintro ⟨h1, h2, h3⟩
      exact ⟨h1, h2, _, by rw [if_pos h3]⟩
  · rintro x rfl
    exact acceptProb_eq_iff x

/-- The log ratio of a grow is a finite number, `log (pPrune / pGrow)` plus a number that does not depend on these two. -/
theorem grow_ratio_fin (hX : NoNan X) {y : Fin n → ℝ} {t t1 : Tree ℝ n p} {s : Shape} (hI : TreeInv X (some y) t s) (x1 : TreeExt t t1)
    {i D L R : NodeId} {j : Fin p} {v : Fl ℝ} (hg : GrowProp X (some y) t t1.heap i D L R j v) {m : Params ℝ} (hm : GoodParams m) (hm' : GoodPrior m) :
    ∃ c, ∀ pGrow pPrune : ℝ, 0 < pGrow → 0 < pPrune →
      ∃ t2, logProbabilityRatio m pGrow pPrune t1 ⟨.grow, i, D⟩ = .ok (.fin (Real.log (pPrune / pGrow) + c), t2) := by
  obtain ⟨w, hw⟩ := withinNode_fin hX hg.splittable hg.vcol
  have hS := GrowProp.nsl_pos hI x1 hg
  refine ⟨-Real.log ((t.prunableDecisionNodes.length : ℝ) + 1) + Real.log (splitLeavesOf X t).length - w +
    likReal m X y (rowsOf (t1.heap.dataOf i)) j v + (2 * Real.log (1 - splitP m ((t1.heap.node i).depth + 1)) + Real.log (splitP m (t1.heap.node i).depth) +
      (-Real.log (splitLeavesOf X t).length + w) - Real.log (1 - splitP m (t1.heap.node i).depth)), fun pGrow pPrune h1 h2 => ?_⟩
  obtain ⟨t2, e, -⟩ := ratio_grow m hI x1 hg (pPrune := pPrune) h1.ne'
  rw [hw, transGrow_fin (by positivity) _ hS, likValue_eq hm, treeGrow_fin hm' _ hS] at e
  refine ⟨t2, e.trans ?_⟩
  simp only [Fl.add_fin, Except.ok.injEq, Prod.mk.injEq, Fl.fin.injEq, and_true]
  ring

/-- C28 is false, whatever the (proper) parameters: there are move probabilities and a proposal with log ratio 0 that is accepted by no uniform
draw, while a Metropolis-Hastings step would accept it with probability 1. -/
theorem C28_refuted {m : Params ℝ} (hs : 0 < m.sigma) (hk : 0 < m.k) (hn : 0 < m.nTrees) (ha : 0 < m.alpha) (ha1 : m.alpha < 1) (hb : 0 ≤ m.beta) :
    ∃ (t t1 t2 : Tree ℝ 3 1) (mu : TreeMutation) (us us' : List Nat) (ms ms' : List Method) (pGrow pPrune : ℝ), ReachableTree (rampX 3) t ∧
      0 < pGrow ∧ 0 < pPrune ∧ pGrow + pPrune = 1 ∧ t.propose us ms = .ok (mu, t1, us', ms') ∧
      logProbabilityRatio m pGrow pPrune t1 mu = .ok (.fin 0, t2) ∧ metropolis (.fin 0) = 1 ∧
      ∀ u rest, 0 ≤ u → ∃ r', treeSample m pGrow pPrune t ⟨ms, us, u :: rest, [], []⟩ = .ok (none, t2, r') := by
  obtain ⟨t, t1, t2, t3, mu, mu', h, -⟩ := exRoundTrip3 (fun r => (r.val : ℝ))
  obtain ⟨us, ms, us', ms', hp⟩ := h.grow
  obtain ⟨s, s', i, D, L, R, l, r, U, j, v, hI, x1, rfl, hg, -⟩ := h.unfold (rampX_noNan 3)
  obtain ⟨c, hc⟩ := grow_ratio_fin (rampX_noNan 3) hI x1 hg ⟨hs, hk, hn⟩ ⟨ha, ha1, hb⟩
  have he := Real.exp_pos (-c)
  obtain ⟨t9, e9⟩ := hc (1 / (1 + Real.exp (-c))) (Real.exp (-c) / (1 + Real.exp (-c))) (by positivity) (by positivity)
  have hq : Real.exp (-c) / (1 + Real.exp (-c)) / (1 / (1 + Real.exp (-c))) = Real.exp (-c) := by field_simp
  rw [hq, Real.log_exp, neg_add_cancel] at e9
  refine ⟨t, t1, t9, _, us, us', ms, ms', 1 / (1 + Real.exp (-c)), Real.exp (-c) / (1 + Real.exp (-c)), h.reach, by positivity, by positivity, ?_, hp, e9,
    by simp [metropolis], ?_⟩
  · rw [← add_div, div_self (by positivity)]
  · intro u rest hu
    refine ⟨⟨ms', us', rest, [], []⟩, ?_⟩
    unfold treeSample
    simp only [hp, e9]
    have : Fl.lt (.fin u) (.fin 0 : Fl ℝ) = false := by simp [Fl.lt, hu]
    rw [this]
    rfl

/-! ### C33

Full statement: from every reachable tree with more than one node some sequence of random draws changes the structure of the tree. It is false
(`C33_refuted`): a tree none of whose leaves can be split is kept forever. -/

/-- One step of the work on a tree during sampling: a step of the tree sampler with any parameters, a step of the leaf sampler, a new target, a
prediction. -/
inductive SamplerStep : Tree ℝ n p → Tree ℝ n p → Prop where
  | tree {t t' m pGrow pPrune r mu r'} : pGrow ≠ 0 → pPrune ≠ 0 → treeStep m pGrow pPrune t r = .ok (mu, t', r') → SamplerStep t t'
  | leaf {t t' m i r r'} : i ∈ t.leafNodes → leafStep m t i r = .ok (t', r') → SamplerStep t t'
  | updateY {t t'} {y : Fin n → ℝ} : t.updateY (some y) = .ok t' → SamplerStep t t'
  | predict {t t' b} : t.predict = .ok (b, t') → SamplerStep t t'

/-- The same nodes with the same kind, depth, children and rules. -/
structure SameStructure (t t' : Tree ℝ n p) : Prop where
  nodes : t'.nodes = t.nodes
  kind : ∀ i ∈ t.nodes, (t'.heap.node i).kind = (t.heap.node i).kind
  depth : ∀ i ∈ t.nodes, (t'.heap.node i).depth = (t.heap.node i).depth
  left : ∀ i ∈ t.nodes, (t'.heap.node i).left = (t.heap.node i).left
  right : ∀ i ∈ t.nodes, (t'.heap.node i).right = (t.heap.node i).right
  conds : ∀ i ∈ t.nodes, (t'.heap.node i).split.combined = (t.heap.node i).split.combined

theorem SameStructure.ofShape {t t' : Tree ℝ n p} (h : SameShape t t') : SameStructure t t' :=
  ⟨h.nodes, fun i hi => (h.node i hi).kind, fun i hi => (h.node i hi).depth, fun i hi => (h.node i hi).left, fun i hi => (h.node i hi).right,
    fun i hi => by rw [(h.node i hi).split]⟩

theorem samplerStep_keeps (hX : NoNan X) {t t' : Tree ℝ n p} (ht : ReachableTree X t) (hy : ∃ y, HasTarget t y) (h : SamplerStep t t') :
    ReachableTree X t' ∧ (∃ y, HasTarget t' y) ∧ Keeps X t t' := by
  obtain ⟨y, hy⟩ := hy
  obtain ⟨y0, s, hI⟩ := reachable_tree_inv hX ht
  have := hI.target hy; subst this
  cases h with
  | @tree m pg pp r mu r' h1 h2 h3 =>
    refine ⟨ht.treeStep realFns m ⟨y, hy⟩ h1 h2 h3, ⟨y, ?_⟩, fun hf => ?_⟩
    · have := treeStep_core hX hI m h1 h2 r
      rw [h3] at this
      obtain ⟨s', hI'⟩ := this.inv hI
      exact hI'.hasTarget
    · exact SameShape.ofExt hI (frozen_treeStep hX hI hf m h2 h3).2
  | @leaf m i r r' h1 h2 =>
    have hs : SameShape t t' := leafSteps_shape (is := [i]) (r := r) (r' := r') hX m ht (by simpa using h1) (by unfold leafSteps; rw [h2]; rfl)
    refine ⟨ht.leafStep realFns m h1 h2, ⟨y, ?_⟩, fun _ => hs⟩
    obtain ⟨h', v, x, rfl⟩ := leafStep_core hI m h1 h2
    intro k hk
    have hk' : k ∈ t.nodes := hk
    obtain ⟨q, hq⟩ := hI.repr.nodeOk k (hI.perm.mem_iff.1 hk')
    have hsp := (hs.node k hk').split
    have e1 := x.node k (hI.mem_lt hk')
    have e2 : ({ t with heap := h'.setValue i v } : Tree ℝ n p).heap.dataOf k = h'.dataOf k := by
      unfold Heap.dataOf
      rw [hsp, ← e1]
      rfl
    rw [e2]
    exact (hI.ext (TreeExt.withHeap x)).hasTarget k hk'
  | @updateY y' h1 =>
    refine ⟨ht.op (op := .updateY (some y')) trivial h1, ?_, fun _ => updateY_shape hX ht h1⟩
    obtain ⟨t2, e, hI', -⟩ := updateY_spec hI (some y')
    rw [h1] at e; injection e with e; subst e
    exact ⟨y', hI'.hasTarget⟩
  | @predict b h1 =>
    refine ⟨predict_reach ht h1, ⟨y, ?_⟩, fun _ => predict_shape h1⟩
    obtain ⟨e1, e2, -⟩ := predict_cases h1
    intro k hk
    rw [e1]
    exact hy k (by rw [← e2]; exact hk)

/-- A tree without a splittable leaf is kept by the sampler: whatever draws, parameters and targets follow, it remains the same tree; every single
step of the tree sampler rejects. -/
theorem C33_frozen (hX : NoNan X) {t t' : Tree ℝ n p} (ht : ReachableTree X t) {y : Fin n → ℝ} (hy : HasTarget t y) (h0 : t.splittableLeafNodes.1 = [])
    (h : Relation.ReflTransGen SamplerStep t t') :
    SameStructure t t' ∧ ∀ m pGrow pPrune r mu t'' r', pGrow ≠ 0 → pPrune ≠ 0 → treeStep m pGrow pPrune t' r = .ok (mu, t'', r') → mu = none := by
  obtain ⟨y0, s, hI⟩ := reachable_tree_inv hX ht
  have hf : ∀ k, ¬ SplittableLeaf X t k := by
    intro k hk
    have := (mem_splittableLeaves hI).2 hk
    rw [h0] at this; cases this
  have key : ReachableTree X t' ∧ (∃ y, HasTarget t' y) ∧ SameShape t t' := by
    induction h with
    | refl => exact ⟨ht, ⟨y, hy⟩, SameShape.refl t⟩
    | tail _ hs ih =>
      obtain ⟨r1, r2, r3⟩ := ih
      obtain ⟨q1, q2, q3⟩ := samplerStep_keeps hX r1 r2 hs
      obtain ⟨y1, s1, hI1⟩ := reachable_tree_inv hX r1
      exact ⟨q1, q2, r3.trans (q3 (fun k => r3.frozen hI hI1 hf k))⟩
  obtain ⟨r1, ⟨y1, r2⟩, r3⟩ := key
  refine ⟨.ofShape r3, fun m pGrow pPrune r mu t'' r' hp1 hp2 hstep => ?_⟩
  obtain ⟨y2, s1, hI1⟩ := reachable_tree_inv hX r1
  have := hI1.target r2; subst this
  exact (frozen_treeStep hX hI1 (fun k => r3.frozen hI hI1 hf k) m hp2 hstep).1

/-- The same for whole models: in any number of Gibbs sweeps with any draws, the trees without splittable leaf stay as they are. -/
theorem C33_frozen_model (hX : NoNan X) {m m' : BModel ℝ n p} {k : Nat} {pGrow pPrune : ℝ} (hp1 : pGrow ≠ 0) (hp2 : pPrune ≠ 0)
    (hm : ReachableModel X m) (h : ModelRun pGrow pPrune m k m') :
    List.Forall₂ (fun t t' => t.splittableLeafNodes.1 = [] → SameStructure t t') m.trees m'.trees := by
  obtain ⟨y0, g, q, m0, k0, hg, hq, hf, hr⟩ := hm
  have hts := model_trees_reachable hX ⟨y0, g, q, m0, k0, hg, hq, hf, hr⟩
  obtain ⟨-, h2⟩ := run_keeps hX hp1 hp2 hts h
  have key : List.Forall₂ (fun t t' => ReachableTree X t ∧ Keeps X t t') m.trees m'.trees := by
    clear h hf hr
    generalize m.trees = l at *
    generalize m'.trees = l' at *
    induction h2 with
    | nil => exact .nil
    | cons h _ ih => exact .cons ⟨hts _ (by simp), h⟩ (ih (fun t ht => hts t (by simp [ht])))
  refine key.imp ?_
  rintro t t' ⟨ht, hk⟩ h0
  obtain ⟨y1, s, hI⟩ := reachable_tree_inv hX ht
  refine .ofShape (hk fun k hk => ?_)
  have := (mem_splittableLeaves hI).2 hk
  rw [h0] at this; cases this

/-- C33 is false: there is a reachable tree with three nodes that the sampler keeps forever. -/
theorem C33_refuted : ∃ t : Tree ℝ 3 1, ReachableTree (rampX 3) t ∧ (∃ y, HasTarget t y) ∧ 1 < t.nodes.length ∧
    ∀ t', Relation.ReflTransGen SamplerStep t t' → SameStructure t t' := by
  obtain ⟨t, t1, t2, t3, mu, mu', h, h1, h2, h3, h4⟩ := exRoundTrip3 (fun r => (r.val : ℝ))
  exact ⟨t2, h1, ⟨_, h2⟩, h3, fun t' h' => (C33_frozen (rampX_noNan 3) h1 h2 h4 h').1⟩

/-- C33, what holds: a proposal changes the tree for some uniform draw in `[0, 1)` iff its log ratio is positive. -/
theorem C33_leave_partial (hX : NoNan X) {t t1 t2 : Tree ℝ n p} (ht : ReachableTree X t) {y : Fin n → ℝ} (hy : HasTarget t y) {m : Params ℝ}
    {pGrow pPrune : ℝ} (hp1 : pGrow ≠ 0) (hp2 : pPrune ≠ 0) {r : Rand ℝ} {mu : TreeMutation} {us : List Nat} {ms : List Method}
    {l : Fl ℝ} (hp : t.propose r.picks r.methods = .ok (mu, t1, us, ms)) (hl : logProbabilityRatio m pGrow pPrune t1 mu = .ok (l, t2)) :
    (∃ u t' r', 0 ≤ u ∧ u < 1 ∧ treeStep m pGrow pPrune t { r with uniforms := u :: r.uniforms } = .ok (some mu, t', r') ∧ ¬ SameStructure t t') ↔
      Fl.lt (.fin 0) l = true := by
  obtain ⟨y0, s, hI⟩ := reachable_tree_inv hX ht
  have := hI.target hy; subst this
  have hps := propose_spec hX r.methods hI r.picks
  rw [hp] at hps
  obtain ⟨x1, hm⟩ := hps
  have key : ∀ u, treeSample m pGrow pPrune t { r with uniforms := u :: r.uniforms } =
      .ok (if Fl.lt (.fin u) l then some mu else none, t2, { r with methods := ms, picks := us, uniforms := r.uniforms }) := by
    intro u
    unfold treeSample
    simp only [hp, hl]
  constructor
  · rintro ⟨u, t', r', h0, h1, h2, -⟩
    unfold treeStep at h2
    rw [key u] at h2
    by_cases hc : Fl.lt (.fin u) l = true
    · cases l with
      | fin x => simp [Fl.lt] at hc ⊢; linarith
      | _ => first | exact hc | rfl
    · rw [if_neg hc] at h2
      simp at h2
  · intro h0
    have x2 : TreeExt t1 t2 ∧ ∃ t' , t2.mutate mu = .ok t' ∧ mu.updated ∈ t'.nodes ∧ mu.updated ∉ t.nodes := by
      rcases hm with ⟨i, D, L, R, j, v, rfl, hg⟩ | ⟨i, l', r', U, rfl, hg⟩
      · obtain ⟨t9, e, x⟩ := ratio_grow m hI x1 hg (pPrune := pPrune) hp1
        rw [hl] at e; injection e with e; injection e with e1 e2; subst e2
        have hg' := hg.ext x.heap
        have x' := x1.trans x
        obtain ⟨t', f1, f2, f3, -⟩ := mutate_grow (hI.ext x') (by rw [x'.leafNodes hI]; exact hg'.leaf) hg'.ready hg'.nodup
          (by rw [x'.nodes]; exact hg'.fresh) hg'.lt
        exact ⟨x, t', f1, by rw [f3]; simp, hg.fresh D (by simp)⟩
      · obtain ⟨j, v, -, hrule, -⟩ := Lik.PruneProp.cut hX hg
        obtain ⟨t9, e, x⟩ := ratio_prune hX m hI x1 hg hrule (pGrow := pGrow) hp2
        rw [hl] at e; injection e with e; injection e with e1 e2; subst e2
        have hg' := hg.ext x.heap
        have x' := x1.trans x
        obtain ⟨t', f1, f2, f3, -⟩ := mutate_prune (hI.ext x') hg'.sub hg'.ready (by rw [x'.nodes]; exact hg'.fresh) hg'.lt
        exact ⟨x, t', f1, by rw [f3]; simp, hg.fresh⟩
    obtain ⟨x2, t', e, h3, h4⟩ := x2
    refine ⟨0, t', { r with methods := ms, picks := us, uniforms := r.uniforms }, le_refl _, by norm_num, ?_,
      fun hs => h4 (by rw [← hs.nodes]; exact h3)⟩
    unfold treeStep
    rw [key 0, if_pos h0]
    simp only [e]

theorem bad_add {a : Fl ℝ} (h : a = .nan ∨ a = .ninf) (b : Fl ℝ) : Fl.add a b = .nan ∨ Fl.add a b = .ninf := by
  rcases h with rfl | rfl <;> cases b <;> simp [Fl.add]

/-- If exactly one leaf can be split, every prune has log ratio `-inf` or NaN and is rejected, whatever the parameters. -/
theorem C33_no_prune (hX : NoNan X) {t t1 t2 : Tree ℝ n p} (ht : ReachableTree X t) {y : Fin n → ℝ} (hy : HasTarget t y) {m : Params ℝ}
    {pGrow pPrune : ℝ} (hp1 : 0 < pGrow) (hp2 : 0 < pPrune) {us us' : List Nat} {ms ms' : List Method} {mu : TreeMutation} {l : Fl ℝ}
    (hp : t.propose us ms = .ok (mu, t1, us', ms')) (hk : mu.kind = .prune) (h1 : t.splittableLeafNodes.1.length = 1)
    (hl : logProbabilityRatio m pGrow pPrune t1 mu = .ok (l, t2)) : (l = .nan ∨ l = .ninf) ∧ acceptProb l = 0 := by
  obtain ⟨y0, s, hI⟩ := reachable_tree_inv hX ht
  have := hI.target hy; subst this
  have hps := propose_spec hX ms hI us
  rw [hp] at hps
  obtain ⟨x1, hm1⟩ := hps
  rcases hm1 with ⟨i, D, L, R, j, v, rfl, hg⟩ | ⟨i, l', r', U, rfl, hg⟩
  · cases hk
  · obtain ⟨j, v, -, hrule, -⟩ := Lik.PruneProp.cut hX hg
    obtain ⟨t9, e, x⟩ := ratio_prune hX m hI x1 hg hrule (pGrow := pGrow) hp2.ne'
    rw [hl] at e; injection e with e; injection e with e1 e2; subst e2
    rw [← (nSplittableLeaves_spec hI).1] at e1
    unfold nSplittableLeaves at e1
    simp only [h1] at e1
    have hP : 0 < t.prunableDecisionNodes.length := List.length_pos_of_mem hg.prunable
    have hq : (0 : ℝ) < pGrow / pPrune := by positivity
    have : l = .nan ∨ l = .ninf := by
      rw [e1]
      apply bad_add; apply bad_add
      unfold transPruneValue
      rw [if_pos rfl]
      rw [Fl.log_fin hq, ofInt_log (by exact_mod_cast hP)]
      generalize withinNode X (rowsOf (t1.heap.dataOf i)) j v = w
      cases w <;> simp [Fl.add, Fl.neg, Fl.sub]
    refine ⟨this, ?_⟩
    rcases this with rfl | rfl <;> rfl

/-! ### C68

Full statement: `log_probability_ratio` of a grow plus that of the prune undoing it is 0. It is false (`C68_refuted`); the likelihoods cancel (C29),
the transition and prior terms do not. -/

/-- C68, what holds: if two or more leaves of the grown tree are splittable, both ratios are finite and their sum is `log (P' / ((P + 1) (S' - 1)))`
(`P` prunable nodes before; `P'` prunable nodes, `S'` splittable leaves after the grow); it is 0 iff `P' = (P + 1) (S' - 1)`, and
never positive. In particular it does not depend on the data, the parameters or the move probabilities. -/
theorem C68_total_ratio_partial (hX : NoNan X) {y : Fin n → ℝ} {t t1 t1' t2 t3 : Tree ℝ n p} {mu mu' : TreeMutation}
    (h : RoundTrip X y t t1 t1' t2 t3 mu mu') {m : Params ℝ} (hm : GoodParams m) (hm' : GoodPrior m) {pGrow pPrune : ℝ} (hg : 0 < pGrow) (hp : 0 < pPrune)
    (hS2 : 1 < t2.splittableLeafNodes.1.length) :
    ∃ a b ta tb, logProbabilityRatio m pGrow pPrune t1 mu = .ok (.fin a, ta) ∧ logProbabilityRatio m pGrow pPrune t3 mu' = .ok (.fin b, tb) ∧
      a + b = Real.log (t2.prunableDecisionNodes.length / ((t.prunableDecisionNodes.length + 1) * (t2.splittableLeafNodes.1.length - 1))) ∧
      (a + b = 0 ↔ t2.prunableDecisionNodes.length = (t.prunableDecisionNodes.length + 1) * (t2.splittableLeafNodes.1.length - 1)) ∧ a + b ≤ 0 := by
  obtain ⟨s, s', i, D, L, R, l, r, U, j, v, hI, x1, rfl, hgp, hI2, x3, rfl, hg2, c1, c2, c3, c4⟩ := h.unfold hX
  obtain ⟨w, hw⟩ := withinNode_fin hX hgp.splittable hgp.vcol
  have hS := GrowProp.nsl_pos hI x1 hgp
  have hP2 : 0 < t2.prunableDecisionNodes.length := List.length_pos_of_mem c4
  obtain ⟨ta, e1, -⟩ := ratio_grow m hI x1 hgp (pPrune := pPrune) hg.ne'
  obtain ⟨tb, e2, -⟩ := ratio_prune hX m hI2 x3 hg2 c1 (pGrow := pGrow) hp.ne'
  rw [← (nSplittableLeaves_spec hI2).1] at e2
  unfold nSplittableLeaves at e2
  simp only at e2
  rw [c2, hw, c3, transPrune_fin (by positivity) hP2 hS2, likValue_eq hm, treePrune_fin hm'] at e2
  rw [hw, transGrow_fin (by positivity) _ hS, likValue_eq hm, treeGrow_fin hm' _ hS] at e1
  have a1 : (0 : ℝ) < t2.prunableDecisionNodes.length := by exact_mod_cast hP2
  have a3 : (0 : ℝ) < (t.prunableDecisionNodes.length : ℝ) + 1 := by positivity
  have a4 : (0 : ℝ) < (t2.splittableLeafNodes.1.length : ℝ) - 1 := by
    have : (1 : ℝ) < t2.splittableLeafNodes.1.length := by exact_mod_cast hS2
    linarith
  have key := Real.log_div hp.ne' hg.ne'
  have key2 := Real.log_div hg.ne' hp.ne'
  have key3 : Real.log ((t2.prunableDecisionNodes.length : ℝ) / ((t.prunableDecisionNodes.length + 1) * (t2.splittableLeafNodes.1.length - 1))) =
      Real.log t2.prunableDecisionNodes.length - Real.log ((t.prunableDecisionNodes.length : ℝ) + 1) - Real.log ((t2.splittableLeafNodes.1.length : ℝ) - 1) := by
    rw [Real.log_div (by positivity) (by positivity), Real.log_mul a3.ne' a4.ne']; ring
  have hle : Real.log ((t2.prunableDecisionNodes.length : ℝ) / ((t.prunableDecisionNodes.length + 1) * (t2.splittableLeafNodes.1.length - 1))) ≤ 0 := by
    apply Real.log_nonpos (by positivity)
    rw [div_le_one (by positivity)]
    have b1 : (t2.prunableDecisionNodes.length : ℝ) ≤ (t.prunableDecisionNodes.length : ℝ) + 1 := by exact_mod_cast h.prunable_le hX
    have b2 : (1 : ℝ) ≤ (t2.splittableLeafNodes.1.length : ℝ) - 1 := by
      have : (2 : ℝ) ≤ t2.splittableLeafNodes.1.length := by exact_mod_cast hS2
      linarith
    nlinarith
  refine ⟨_, _, ta, tb, e1, e2, ?_, ?_, ?_⟩
  · rw [key3, key, key2]; ring
  rotate_left
  · refine le_of_eq_of_le ?_ hle
    rw [key3, key, key2]; ring
  · have hpos : (0 : ℝ) < t2.prunableDecisionNodes.length / ((t.prunableDecisionNodes.length + 1) * (t2.splittableLeafNodes.1.length - 1)) := by positivity
    have e : (t2.prunableDecisionNodes.length = (t.prunableDecisionNodes.length + 1) * (t2.splittableLeafNodes.1.length - 1)) ↔
        ((t2.prunableDecisionNodes.length : ℝ) = (t.prunableDecisionNodes.length + 1) * (t2.splittableLeafNodes.1.length - 1)) := by
      have : ((t2.splittableLeafNodes.1.length - 1 : Nat) : ℝ) = (t2.splittableLeafNodes.1.length : ℝ) - 1 := by
        rw [Nat.cast_sub hS2.le]; simp
      rw [← this]
      exact_mod_cast Iff.rfl
    have hsum : ∀ z, z = Real.log ((t2.prunableDecisionNodes.length : ℝ) / ((t.prunableDecisionNodes.length + 1) * (t2.splittableLeafNodes.1.length - 1))) →
        (z = 0 ↔ ((t2.prunableDecisionNodes.length : ℝ) = (t.prunableDecisionNodes.length + 1) * (t2.splittableLeafNodes.1.length - 1))) := by
      rintro z rfl
      constructor
      · intro h0
        have := Real.eq_one_of_pos_of_log_eq_zero hpos h0
        rwa [div_eq_one_iff_eq (by positivity)] at this
      · intro h0
        rw [h0, div_self (by positivity), Real.log_one]
    rw [e]
    apply hsum
    rw [key3, key, key2]; ring

/-- C68 is false: for every proper setting of the parameters there is a round trip whose ratios are finite and do not cancel. -/
theorem C68_refuted {m : Params ℝ} (hm : GoodParams m) (hm' : GoodPrior m) {pGrow pPrune : ℝ} (hg : 0 < pGrow) (hp : 0 < pPrune) :
    ∃ t t1 t2 t3 mu mu' a b ta tb, RoundTrip (rampX 9) (fun r => (r.val : ℝ)) t t1 t1 t2 t3 mu mu' ∧
      logProbabilityRatio m pGrow pPrune t1 mu = .ok (.fin a, ta) ∧ logProbabilityRatio m pGrow pPrune t3 mu' = .ok (.fin b, tb) ∧ a + b < 0 := by
  obtain ⟨t, t1, t2, t3, mu, mu', h, h0⟩ := exRoundTrip9 (fun r => (r.val : ℝ))
  obtain ⟨a, b, ta, tb, e1, e2, e3, e4, e5⟩ := C68_total_ratio_partial (rampX_noNan 9) h hm hm' hg hp (by omega)
  refine ⟨t, t1, t2, t3, mu, mu', a, b, ta, tb, h, e1, e2, lt_of_le_of_ne e5 fun h1 => ?_⟩
  have h2 := e4.1 h1
  have h3 := h.prunable_le (rampX_noNan 9)
  rw [h2] at h3
  have : (t.prunableDecisionNodes.length + 1) * 2 ≤ (t.prunableDecisionNodes.length + 1) * (t2.splittableLeafNodes.1.length - 1) :=
    Nat.mul_le_mul_left _ (by omega)
  omega

/-- There are proper parameters. -/
example : GoodParams (⟨0.95, 2, 2, 200, 1⟩ : Params ℝ) ∧ GoodPrior (⟨0.95, 2, 2, 200, 1⟩ : Params ℝ) :=
  ⟨⟨by norm_num, by norm_num, by norm_num⟩, ⟨by norm_num, by norm_num, by norm_num⟩⟩

end Bart
