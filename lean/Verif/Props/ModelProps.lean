import Verif.Proofs.ModelInv

/-! Property theorems C24, C38, C39, C42, C45 (the model and its Gibbs sweeps). -/

set_option linter.unusedSectionVars false

namespace Bart
open Spec
variable {K : Type} [Field K] [LinearOrder K] {n p : Nat} {N : Prop}

/-! ### a concrete model, used in the examples -/

/-- A rational stand-in for the functions of numpy (theorems below hold for every implementation). -/
@[reducible] def exFns : MathFns ℚ where
  log x := if x = 0 then .ninf else if x < 0 then .nan else .fin (x - 1)
  sqrt x := if x < 0 then .nan else .fin x
  pow x b := if x < 0 then .nan else if b < 0 then .fin (1 / x) else .fin x

attribute [local instance] exFns

/-- Two trees on the rows 1, 2, 3 with target 0, 1, 2. -/
def exModel0 : Except PyErr (BModel ℚ 3 1) := BModel.construct (exData exX exY) ⟨1, 1, 1/10, 1⟩ 2 (1/2) 1 2

def exRand : Rand ℚ := ⟨[.grow, .grow], [0, 0, 0, 0, 0, 1], [0, 1/2], [1, 2, -1, 1], [2]⟩

/-- One sweep of the example. -/
def exSweep : Except PyErr (List (Option TreeMutation) × BModel ℚ 3 1 × Rand ℚ) :=
  match exModel0 with
  | .ok m => m.sweep (1/2) (1/2) exRand
  | .error e => .error e

/-- The example: a reachable model in which both trees have been grown. -/
theorem exReachModel (P : BModel ℚ 3 1 → Bool) (h : (match exSweep with | .ok (_, m, _) => P m | .error _ => false) = true) :
    ∃ m, ReachableModel exX m ∧ P m = true := by
  unfold exSweep at h
  split at h
  · next mus m r e =>
    split at e
    · next m0 e0 =>
      exact ⟨m, ⟨exY, 1/2, 1/2, m0, 1, by norm_num, by norm_num, ⟨false, _, _, _, _, _, _, exData_init _ _, e0⟩,
        ModelRun.sweep (ModelRun.nil m0) e⟩, h⟩
    · cases e
  · cases h

/-- The new model is reachable too. -/
theorem exReachModel0 (P : BModel ℚ 3 1 → Bool) (h : (match exModel0 with | .ok m => P m | .error _ => false) = true) :
    ∃ m, ReachableModel exX m ∧ P m = true := by
  split at h
  · next m e =>
    exact ⟨m, ⟨exY, 1/2, 1/2, m, 0, by norm_num, by norm_num, ⟨false, _, _, _, _, _, _, exData_init _ _, e⟩, ModelRun.nil m⟩, h⟩
  · cases h

/-! ### C24 -/

section C24
variable [MathFns K]

theorem Spec.ReachableModel.inv {X : Fin n → Fin p → Fl K} (hX : NoNan X) (hn : 0 < n) {m : BModel K n p} (h : ReachableModel X m) :
    ∃ y, ModelInv True X y m := by
  obtain ⟨y0, pg, pp, m0, k, h1, h2, h3, h4⟩ := h
  obtain ⟨y, -, hI, -⟩ := reachable_model_inv hX (fun _ => hn) h1 h2 h3 h4
  exact ⟨y, hI⟩

/-- C24: every node of every tree of a model that the sampler has worked on holds a training row (so `n_obsv` is not 0). -/
theorem C24_no_empty_node {X : Fin n → Fin p → Fl K} (hX : NoNan X) (hn : 0 < n) {m : BModel K n p} (h : ReachableModel X m)
    {t : Tree K n p} (ht : t ∈ m.trees) {i : NodeId} (hi : i ∈ t.nodes) :
    (∃ r, t.heap.inSample (t.heap.node i).split r = true) ∧ 0 < (t.heap.dataOf i).X.nObsv := by
  obtain ⟨y, hI⟩ := h.inv hX hn
  obtain ⟨y', fl, hG, -⟩ := hI.fitted t ht
  obtain ⟨r, hr⟩ := hG.ne trivial i hi
  obtain ⟨s, hT⟩ := hG.inv
  obtain ⟨q, hk⟩ := hT.repr.nodeOk i (hT.perm.mem_iff.1 hi)
  refine ⟨⟨r, hr⟩, ?_⟩
  rw [Lik.nObsv_spec hk]
  have : 0 < count (rowsOf (t.heap.dataOf i)) := Finset.card_pos.2 ⟨r, by simpa using hr⟩
  exact_mod_cast this

/-- C24 inside a sweep: also the tree that results from a tree step, on which the leaf sampler works, has no empty node. -/
theorem C24_during_sweep {X : Fin n → Fin p → Fl K} (hX : NoNan X) (hn : 0 < n) {m : BModel K n p} (h : ReachableModel X m)
    {t : Tree K n p} (ht : t ∈ m.trees) (y pred : Fin n → K) {pred1 : Fin n → K} {t1 : Tree K n p} (h1 : BModel.refreshBegin y pred t = .ok (pred1, t1))
    (ps : Params K) {pGrow pPrune : K} (hp1 : pGrow ≠ 0) (hp2 : pPrune ≠ 0) {r r' : Rand K} {mu : Option TreeMutation} {t2 : Tree K n p}
    (h2 : Sampler.treeStep ps pGrow pPrune t1 r = .ok (mu, t2, r')) : NoEmptyNode t2 := by
  obtain ⟨y', hI⟩ := h.inv hX hn
  obtain ⟨t1', e, hH, -⟩ := BModel.refreshBegin_spec hX y pred (hI.fitted t ht)
  rw [h1] at e; injection e with e; injection e with e1 e2; subst e1 e2
  obtain ⟨fl, hG, -⟩ := hH
  have := Sampler.treeStep_spec hX hG ps hp1 hp2 r
  rw [h2] at this
  exact this.2.ne trivial

end C24

example : ∃ m, ReachableModel exX m ∧ decide (m.trees.map (fun t => t.nodes) = [[1, 2, 3], [1, 2, 3]]) = true :=
  exReachModel _ (by decide +kernel)

/-! ### C38 -/

/-- The consumer of `refreshed_trees` works on the tree by legal calls and does not set leaf values after a prediction
(the samplers never call `predict`). -/
def ActsByCalls {S α : Type} (body : Tree K n p → S → Except PyErr (α × Tree K n p × S)) : Prop :=
  ∀ t s a t' s', body t s = .ok (a, t', s') →
    ∃ ops, Run t ops t' ∧ (ops.foldl CacheFlags.step ⟨true, true, false, false⟩).stale = false

theorem run_good {X : Fin n → Fin p → Fl K} (hX : NoNan X) {t t' : Tree K n p} {ops : List (TreeOp K n p)} (hr : Run t ops t') {y : Option (Fin n → K)}
    {fl : CacheFlags} (h : Good False X y t fl) : ∃ y', Good False X y' t' (ops.foldl CacheFlags.step fl) := by
  induction hr with
  | nil => exact ⟨y, h⟩
  | snoc _ hok hst ih =>
    obtain ⟨y1, ⟨s, hI⟩, hP, -⟩ := ih
    obtain ⟨s3, hI3⟩ := step_inv hX hI hok hst
    rw [List.foldl_append]
    exact ⟨_, ⟨s3, hI3⟩, hP.step hX hI hok hst, False.elim, False.elim⟩

theorem foldFlags_congr (ops : List (TreeOp K n p)) : ∀ (a b : CacheFlags), a.predicted = b.predicted → a.fresh = b.fresh → a.stale = b.stale →
    (ops.foldl CacheFlags.step a).predicted = (ops.foldl CacheFlags.step b).predicted ∧
    (ops.foldl CacheFlags.step a).stale = (ops.foldl CacheFlags.step b).stale := by
  induction ops with
  | nil => intro a b h1 h2 h3; exact ⟨h1, h3⟩
  | cons op ops ih =>
    intro a b h1 h2 h3
    simp only [List.foldl_cons]
    apply ih <;> cases op <;> simp [CacheFlags.step, h1, h2, h3]

theorem foldFlags_predicted (ops : List (TreeOp K n p)) : ∀ (a : CacheFlags), a.predicted = true → (ops.foldl CacheFlags.step a).predicted = true := by
  induction ops with
  | nil => intro a h; exact h
  | cons op ops ih =>
    intro a h
    apply ih
    cases op <;> simp [CacheFlags.step, h]

theorem ActsByCalls.keeps {S α : Type} {X : Fin n → Fin p → Fl K} (hX : NoNan X) {body : Tree K n p → S → Except PyErr (α × Tree K n p × S)}
    (h : ActsByCalls body) : BModel.KeepsFitted False X body := by
  intro y t s a t' s' ⟨fl, hG, hp, hf, hs⟩ e
  obtain ⟨ops, hr, hst⟩ := h t s a t' s' e
  obtain ⟨y', hG'⟩ := run_good hX hr hG
  exact ⟨y', _, hG', Or.inl (foldFlags_predicted ops fl hp),
    Or.inl ((foldFlags_congr ops fl ⟨true, true, false, false⟩ hp hf hs).2.trans hst)⟩

theorem Handed.target {X : Fin n → Fin p → Fl K} {y : Fin n → K} {t : Tree K n p} (h : Handed N X y t) : HasTarget t y := by
  obtain ⟨fl, ⟨⟨s, hI⟩, -, -⟩, -⟩ := h
  intro i hi
  obtain ⟨q, hk⟩ := hI.repr.nodeOk i (hI.perm.mem_iff.1 hi)
  exact hk.y

theorem loop_targets {S α : Type} {X : Fin n → Fin p → Fl K} (hX : NoNan X) (y : Fin n → K)
    {body : Tree K n p → S → Except PyErr (α × Tree K n p × S)} (hb : BModel.KeepsFitted N X body) {ts : List (Tree K n p)}
    (hF : ∀ t ∈ ts, Fitted N X t) {pred : Fin n → K} (hpred : ∀ r, pred r = sumValue ts r) {s s' : S} {log : List (α × Tree K n p)}
    {pred' : Fin n → K} {ts' : List (Tree K n p)} (h : BModel.refreshLoop y (BModel.recording body) ts pred s = .ok (log, pred', ts', s')) :
    ts'.length = ts.length ∧ log.length = ts.length ∧ (∀ r, pred' r = sumValue ts' r) ∧
    ∀ (k : Nat) (t : Tree K n p) (g : α × Tree K n p), ts[k]? = some t → log[k]? = some g →
      SameTree t g.2 ∧ HasTarget g.2 (fun r => y r - (sumValue (ts'.take k) r + sumValue (ts.drop (k + 1)) r)) := by
  obtain ⟨h1, h2, h3, h4⟩ := BModel.refreshLoop_spec hX y hb.recording ts hF pred s h
  refine ⟨h2, h3, fun r => by rw [h4, hpred]; ring, fun k t g hk hg => ?_⟩
  obtain ⟨g1, g2⟩ := BModel.refreshLoop_targets hX y hb ts hF pred s h k t g hk hg
  refine ⟨g1, ?_⟩
  have := g2.target
  have e : (fun r => y r - (pred r - sumValue (List.take (k + 1) ts) r + sumValue (List.take k ts') r)) =
      fun r => y r - (sumValue (ts'.take k) r + sumValue (ts.drop (k + 1)) r) := by
    funext r
    rw [hpred, BModel.sumValue_take_drop ts (k + 1) r]
    ring
  rw [e] at this
  exact this

/-- C38 for any consumer: in `refreshed_trees` the `k`-th tree is handed out with its structure and values unchanged and with the target
`y` minus the sum of the new values of the trees before it and the old values of the trees after it. `ts` are trees with up-to-date
predictions (`Fitted`, which holds in every reachable model), `pred` the running prediction. -/
theorem C38_residual_targets_any_consumer {S α : Type} {X : Fin n → Fin p → Fl K} (hX : NoNan X) (y : Fin n → K)
    {body : Tree K n p → S → Except PyErr (α × Tree K n p × S)} (hb : ActsByCalls body) {ts : List (Tree K n p)}
    (hF : ∀ t ∈ ts, Fitted False X t) {pred : Fin n → K} (hpred : ∀ r, pred r = sumValue ts r) {s s' : S} {log : List (α × Tree K n p)}
    {pred' : Fin n → K} {ts' : List (Tree K n p)} (h : BModel.refreshLoop y (BModel.recording body) ts pred s = .ok (log, pred', ts', s')) :
    ts'.length = ts.length ∧ log.length = ts.length ∧ (∀ r, pred' r = sumValue ts' r) ∧
    ∀ (k : Nat) (t : Tree K n p) (g : α × Tree K n p), ts[k]? = some t → log[k]? = some g →
      SameTree t g.2 ∧ HasTarget g.2 (fun r => y r - (sumValue (ts'.take k) r + sumValue (ts.drop (k + 1)) r)) :=
  loop_targets hX y (hb.keeps hX) hF hpred h

section C38
variable [MathFns K]

/-- C38 for the sampler: in a sweep over a reachable model the trees handed to the tree sampler (recorded in `log`, with the outcome)
have the target `y` minus the values of all other trees, those before it as they are after the sweep. -/
theorem C38_residual_targets {X : Fin n → Fin p → Fl K} (hX : NoNan X) (hn : 0 < n) {m m' : BModel K n p} (hm : ReachableModel X m)
    {pGrow pPrune : K} (hp1 : pGrow ≠ 0) (hp2 : pPrune ≠ 0) {r r' : Rand K} {mus : List (Option TreeMutation)}
    (h : m.sweepTrees pGrow pPrune r = .ok (mus, m', r')) :
    ∃ y f m1 log, m.data.y.y = some y ∧ m.startPrediction = .ok (f, m1) ∧ List.Forall₂ SameTree m.trees m1.trees ∧
      BModel.refreshLoop y (BModel.recording (BModel.treeBody m.params pGrow pPrune)) m1.trees f r = .ok (log, m'.prediction.getD 0, m'.trees, r') ∧
      log.map Prod.fst = mus ∧ log.length = m.trees.length ∧ m'.trees.length = m.trees.length ∧
      ∀ (k : Nat) (t : Tree K n p) (g : Option TreeMutation × Tree K n p), m.trees[k]? = some t → log[k]? = some g →
        (g.2.nodes = t.nodes ∧ g.2.heap.node = t.heap.node) ∧
        HasTarget g.2 (fun r => y r - (sumValue (m'.trees.take k) r + sumValue (m.trees.drop (k + 1)) r)) := by
  obtain ⟨y, hI⟩ := hm.inv hX hn
  have hstart : ∃ f m1, m.startPrediction = .ok (f, m1) ∧ ModelInv True X y m1 ∧ (∀ r, f r = sumValue m1.trees r) ∧
      List.Forall₂ SameTree m.trees m1.trees := by
    unfold BModel.startPrediction
    cases hp : m.prediction with
    | some f => exact ⟨f, m, rfl, hI, hI.pred f hp, List.forall₂_same.2 (fun t _ => ⟨rfl, rfl, fun _ _ => rfl⟩)⟩
    | none =>
      obtain ⟨m1, e, h1, h2, h3, -⟩ := hI.predict hX
      exact ⟨_, m1, e, h1, fun r => (h2 r).symm, h3⟩
  obtain ⟨f, m1, e1, hI1, hf, hsame⟩ := hstart
  unfold BModel.sweepTrees at h
  simp only [hI.target, e1] at h
  rw [BModel.refreshLoop_recording] at h
  cases e2 : BModel.refreshLoop y (BModel.recording (BModel.treeBody m.params pGrow pPrune)) m1.trees f r with
  | error e => rw [e2] at h; cases h
  | ok q =>
    obtain ⟨log, pred', ts', s'⟩ := q
    rw [e2] at h
    simp only [Except.ok.injEq, Prod.mk.injEq] at h
    obtain ⟨rfl, rfl, rfl⟩ := h
    obtain ⟨g1, g2, g3, g4⟩ := loop_targets hX y (BModel.treeBody_keeps hX m.params hp1 hp2) hI1.fitted hf e2
    have hlen : m1.trees.length = m.trees.length := hsame.length_eq.symm
    refine ⟨y, f, m1, log, hI.target, e1, hsame, e2, rfl, g2.trans hlen, g1.trans hlen, ?_⟩
    intro k t g hk hg
    obtain ⟨hkl, rfl⟩ := List.getElem?_eq_some_iff.1 hk
    have hk1 : k < m1.trees.length := by omega
    obtain ⟨a1, a2⟩ := g4 k m1.trees[k] g (List.getElem?_eq_getElem hk1) hg
    have hsk : SameTree m.trees[k] m1.trees[k] := by
      have := List.forall₂_iff_get.1 hsame
      exact this.2 k hkl hk1
    have hdrop : ∀ r, sumValue (m1.trees.drop (k + 1)) r = sumValue (m.trees.drop (k + 1)) r := by
      intro r
      have : List.Forall₂ SameTree (m.trees.drop (k + 1)) (m1.trees.drop (k + 1)) := List.forall₂_drop (k + 1) hsame
      generalize m.trees.drop (k + 1) = l1 at this
      generalize m1.trees.drop (k + 1) = l2 at this
      induction this with
      | nil => rfl
      | cons h1 _ ih => rw [BModel.sumValue_cons, BModel.sumValue_cons, ih, h1.rowValue]
    refine ⟨⟨a1.nodes.trans hsk.nodes, a1.node.trans hsk.node⟩, ?_⟩
    simp only [← hdrop]
    exact a2

end C38

example : ∃ m, ReachableModel exX m ∧ decide ((match m.sweepTrees (1/2) (1/2) exRand with
    | .ok (mus, _, _) => mus.map (fun mu => mu.map (fun x => x.kind)) | .error _ => []) = [some .grow, some .grow]) = true :=
  exReachModel0 _ (by decide +kernel)

/-! ### C39 -/

section C39
variable [MathFns K]

/-- C39: for every reachable model `predict()` is for each training row the sum of the values of the leaves containing it, `residuals()` is the
normalised target minus it, and the running prediction, once it exists, is the same. -/
theorem C39_running_prediction {X : Fin n → Fin p → Fl K} (hX : NoNan X) (hn : 0 < n) {m : BModel K n p} (hm : ReachableModel X m) :
    ∃ y m' m'', m.data.y.y = some y ∧ m.predict = .ok (sumValue m.trees, m') ∧ m.residuals = .ok (fun r => y r - sumValue m.trees r, m'') ∧
      (∀ f, m.prediction = some f → f = sumValue m.trees) ∧
      ∀ t ∈ m.trees, ∀ r, ∃ i ∈ t.leafNodes, t.heap.inSample (t.heap.node i).split r = true ∧ rowValue t r = (t.heap.node i).value ∧
        ∀ j ∈ t.leafNodes, t.heap.inSample (t.heap.node j).split r = true → j = i := by
  obtain ⟨y, hI⟩ := hm.inv hX hn
  obtain ⟨m', e1, -⟩ := hI.predict hX
  obtain ⟨m'', e2, -⟩ := hI.residuals hX
  refine ⟨y, m', m'', hI.target, e1, e2, fun f hf => funext (hI.pred f hf), fun t ht r => ?_⟩
  obtain ⟨y', fl, hG, -⟩ := hI.fitted t ht
  obtain ⟨s, hT⟩ := hG.inv
  obtain ⟨i, i1, i2, i3, i4⟩ := hT.leaf_of_row (hX r)
  exact ⟨i, i1, i3, rowValue_of_leaf ⟨i, i1, i3⟩ (fun k hk hr => by rw [i4 k hk hr]), fun j hj hr => i4 j hj hr⟩

/-- C39: after a sweep the running prediction exists. -/
theorem C39_prediction_exists {X : Fin n → Fin p → Fl K} (hX : NoNan X) (hn : 0 < n) {m m' : BModel K n p} (hm : ReachableModel X m)
    {pGrow pPrune : K} (hp1 : pGrow ≠ 0) (hp2 : pPrune ≠ 0) {r r' : Rand K} {mus : List (Option TreeMutation)}
    (h : m.sweep pGrow pPrune r = .ok (mus, m', r')) : m'.prediction = some (sumValue m'.trees) := by
  obtain ⟨y, hI⟩ := hm.inv hX hn
  have := hI.sweep hX hp1 hp2 r
  rw [h] at this
  obtain ⟨h1, -, h2, -⟩ := this
  obtain ⟨f, hf⟩ := Option.ne_none_iff_exists'.1 h2
  rw [hf, show f = sumValue m'.trees from funext (h1.pred f hf)]

end C39

example : ∃ m, ReachableModel exX m ∧ (match m.predict with | .ok (f, _) => decide (f 0 ≠ f 2) | .error _ => false) = true :=
  exReachModel _ (by decide +kernel)

/-! ### C42

Full statement: after construction each tree is a single leaf with value 0 whose target is `y / n_trees`. -/

/-- C42, the part that holds: every tree is a single leaf with value 0. -/
theorem C42_initial_trees_partial {X : Fin n → Fin p → Fl K} {y0 : Fin n → K} {m : BModel K n p} (h : FreshModel X y0 m) :
    m.trees.length = m.nTrees ∧ ∀ t ∈ m.trees, ∃ i, t.nodes = [i] ∧ t.leafNodes = [i] ∧ (t.heap.node i).value = 0 ∧
      ∀ r, t.heap.inSample (t.heap.node i).split r = true := by
  obtain ⟨nz, d, sigma, nT, al, be, kk, hd, hc⟩ := h
  obtain ⟨m', y, t, e, hy, hI, -, -, -, -, -, -, -, ht, hG, h0, h1, h2⟩ := construct_inv (N := False) False.elim hd sigma nT al be kk
  rw [hc] at e; injection e with e; subst e
  refine ⟨hI.len, fun t' ht' => ?_⟩
  rw [ht] at ht'
  obtain ⟨-, rfl⟩ := List.mem_replicate.1 ht'
  obtain ⟨i, hi, hr⟩ := hG.pred.root rfl
  obtain ⟨s, hT⟩ := hG.inv
  have hl : t'.leafNodes = [i] := by
    have hne := hT.leafNodes_ne_nil
    unfold Tree.leafNodes at hne ⊢
    rw [hi] at hne ⊢
    simp only [List.filter_cons, List.filter_nil] at hne ⊢
    by_cases hk : decide ((t'.heap.node i).kind = NodeKind.leaf) = true
    · rw [if_pos hk]
    · rw [if_neg hk] at hne; exact absurd rfl hne
  exact ⟨i, hi, hl, h2 i, hr⟩

/-- C42 is false for every dataset: the target of every node of every tree of a new model is `None`. -/
theorem C42_refuted {X : Fin n → Fin p → Fl K} {y0 : Fin n → K} {m : BModel K n p} (h : FreshModel X y0 m) :
    ∀ t ∈ m.trees, ∀ i ∈ t.nodes, (t.heap.dataOf i).y.y = none := by
  obtain ⟨nz, d, sigma, nT, al, be, kk, hd, hc⟩ := h
  obtain ⟨m', y, t, e, hy, hI, -, -, -, -, -, -, -, ht, hG, h0, h1, h2⟩ := construct_inv (N := False) False.elim hd sigma nT al be kk
  rw [hc] at e; injection e with e; subst e
  intro t' ht' i hi
  rw [ht] at ht'
  obtain ⟨-, rfl⟩ := List.mem_replicate.1 ht'
  obtain ⟨s, hT⟩ := hG.inv
  obtain ⟨q, hk⟩ := hT.repr.nodeOk i (hT.perm.mem_iff.1 hi)
  exact hk.y

example : ∃ m, FreshModel exX exY m ∧ m.trees.length = 2 := by
  cases e : exModel0 with
  | error er => exact absurd e (by intro h; have : (match exModel0 with | .ok _ => true | .error _ => false) = true := by decide +kernel
                                   rw [h] at this; cases this)
  | ok m => exact ⟨m, ⟨false, _, _, _, _, _, _, exData_init _ _, e⟩, by
      have := (C42_initial_trees_partial (X := exX) (y0 := exY) (m := m) ⟨false, _, _, _, _, _, _, exData_init _ _, e⟩).1
      rw [this]
      have h2 : (match exModel0 with | .ok m => m.nTrees | .error _ => 0) = 2 := by decide +kernel
      rw [e] at h2; exact h2⟩

/-! ### C45 -/

section C45
variable [MathFns K] [IsStrictOrderedRing K]

/-- C45: the recorded acceptance of a sweep over `n_trees > 0` trees is the number of accepted mutations divided by `n_trees`; it lies in [0, 1]. -/
theorem C45_acceptance {X : Fin n → Fin p → Fl K} (hX : NoNan X) (hn : 0 < n) {m m' : BModel K n p} (hm : ReachableModel X m) (ht : 0 < m.nTrees)
    {pGrow pPrune : K} (hp1 : pGrow ≠ 0) (hp2 : pPrune ≠ 0) {r r' : Rand K} {mus : List (Option TreeMutation)}
    (h : m.sweep pGrow pPrune r = .ok (mus, m', r')) :
    ∃ a : K, BModel.acceptance mus = some a ∧ a = (mus.filter (·.isSome)).length / (m.nTrees : K) ∧ 0 ≤ a ∧ a ≤ 1 := by
  obtain ⟨y, hI⟩ := hm.inv hX hn
  have := hI.sweep hX hp1 hp2 r
  rw [h] at this
  obtain ⟨-, hlen, -⟩ := this
  have hne : mus ≠ [] := by intro h0; rw [h0] at hlen; simp at hlen; omega
  refine ⟨_, by unfold BModel.acceptance; rw [if_neg hne], by rw [List.countP_eq_length_filter, hlen], by positivity, ?_⟩
  rw [hlen]
  have h1 : (0 : K) < (m.nTrees : K) := by exact_mod_cast ht
  rw [div_le_one h1]
  have : mus.countP Option.isSome ≤ m.nTrees := by rw [← hlen]; exact List.countP_le_length
  exact_mod_cast this

end C45

example : (match exSweep with | .ok (mus, m, _) => decide (BModel.acceptance (K := ℚ) mus = some 1 ∧ m.nTrees = 2) | .error _ => false) = true := by
  decide +kernel

end Bart
