import Verif.Proofs.ObliviousFit
import Verif.Props.ObliviousProps
import Verif.Props.RunnerProps

/-! Fits with the oblivious tree sampler: C123 - C126. -/

set_option linter.unusedSectionVars false

namespace Bart
open Spec
variable {K : Type} [Field K] [LinearOrder K] {n p : Nat} {X : Fin n → Fin p → Fl K}

namespace Spec

/-- The leaf `i` of the tree `t` contains the row `x`: the comparisons on the way to `i` hold for `x`. -/
def LeafHas (t : Tree K n p) (x : Fin p → Fl K) (i : NodeId) : Prop := i ∈ t.leafNodes ∧ Heap.outOfSample (t.heap.node i).split x = true

/-- Of all leaves that contain the row `x`, the leaf `i` is the last one in the list of leaves. -/
def LastLeaf (t : Tree K n p) (x : Fin p → Fl K) (i : NodeId) : Prop :=
  ∃ before after, t.leafNodes = before ++ i :: after ∧ LeafHas t x i ∧ ∀ k ∈ after, ¬ LeafHas t x k

/-- All leaves have the depth `d`, and there are as many nodes as in the complete binary tree of that depth. -/
def Complete (t : Tree K n p) (d : Nat) : Prop :=
  (∀ i ∈ t.leafNodes, (t.heap.node i).depth = d) ∧ t.leafNodes.length = 2 ^ d ∧ t.nodes.length = 2 ^ (d + 1) - 1

end Spec

namespace Oblivious

/-! ### what a sample shows of the state it was taken in -/

/-- The leaves of a tree can be read off the attributes of its nodes. -/
theorem leaves_view {t t' : Tree K n p} (h : t'.nodes.map (nodeView t'.heap) = t.nodes.map (nodeView t.heap)) :
    t'.leafNodes.map (nodeView t'.heap) = t.leafNodes.map (nodeView t.heap) := by
  have key : ∀ u : Tree K n p, u.leafNodes.map (nodeView u.heap) = (u.nodes.map (nodeView u.heap)).filter (fun v => v.kind = .leaf) := by
    intro u
    unfold Tree.leafNodes
    rw [List.filter_map]
    rfl
  rw [key, key, h]

theorem Perfect.size : ∀ {e : Nat} {s : Shape}, Perfect e s → s.ids.length + 1 = 2 ^ (e + 1) := by
  intro e
  induction e with
  | zero =>
    intro s h
    cases s with
    | leaf i => rfl
    | node i l r => exact h.elim
  | succ e ih =>
    intro s h
    cases s with
    | leaf i => exact h.elim
    | node i l r =>
      have h1 := ih h.1
      have h2 := ih h.2
      simp only [Shape.ids, List.length_cons, List.length_append]
      rw [pow_succ]
      omega

theorem OTree.complete {y : Option (Fin n → K)} {t : Tree K n p} {s : Shape} {d : Nat} (hT : OTree X y t s d) : Complete t d := by
  refine ⟨hT.level, hT.leaves, ?_⟩
  have := hT.perfect.size
  rw [← hT.inv.perm.length_eq] at this
  omega

theorem Complete.view {t t' : Tree K n p} (h : t'.nodes.map (nodeView t'.heap) = t.nodes.map (nodeView t.heap)) {d : Nat} (hc : Complete t d) : Complete t' d := by
  have h1 := leaves_view h
  obtain ⟨c1, c2, c3⟩ := hc
  refine ⟨fun i hi => ?_, ?_, ?_⟩
  · have : nodeView t'.heap i ∈ t.leafNodes.map (nodeView t.heap) := h1 ▸ List.mem_map_of_mem hi
    obtain ⟨j, hj, e⟩ := List.mem_map.1 this
    rw [← c1 j hj]
    exact (congrArg NodeView.depth e).symm
  · have := congrArg List.length h1
    simpa [c2] using this
  · have := congrArg List.length h
    simpa [c3] using this

theorem leafHas_view {t t' : Tree K n p} (h : t'.nodes.map (nodeView t'.heap) = t.nodes.map (nodeView t.heap)) {x : Fin p → Fl K} (hc : ∃ i, LeafHas t x i) : ∃ i, LeafHas t' x i := by
  have h1 := leaves_view h
  obtain ⟨i, hi, e⟩ := hc
  have : nodeView t.heap i ∈ t'.leafNodes.map (nodeView t'.heap) := h1 ▸ List.mem_map_of_mem hi
  obtain ⟨j, hj, e'⟩ := List.mem_map.1 this
  refine ⟨j, hj, ?_⟩
  have e2 : (t'.heap.node j).split.combined = (t.heap.node i).split.combined := congrArg NodeView.condition e'
  unfold Heap.outOfSample at e ⊢
  rw [e2]; exact e

theorem lastValue_last (h : Heap K n p) (P : NodeId → Bool) : ∀ (ls : List NodeId) (b : K), (∃ i ∈ ls, P i = true) →
    ∃ before i after, ls = before ++ i :: after ∧ P i = true ∧ (∀ k ∈ after, P k = false) ∧ lastValue h P ls b = (h.node i).value := by
  intro ls
  induction ls with
  | nil => intro b h; simp at h
  | cons a ls ih =>
    intro b hex
    by_cases hls : ∃ i ∈ ls, P i = true
    · obtain ⟨l1, i, l2, e, h1, h2, h3⟩ := ih (if P a then (h.node a).value else b) hls
      exact ⟨a :: l1, i, l2, by rw [e]; rfl, h1, h2, h3⟩
    · obtain ⟨i, hi, hp⟩ := hex
      have : i = a := by
        rcases List.mem_cons.1 hi with h | h
        · exact h
        · exact absurd ⟨i, h, hp⟩ hls
      subst this
      have hno : ∀ k ∈ ls, P k = false := fun k hk => by
        cases e : P k with
        | false => rfl
        | true => exact absurd ⟨k, hk, e⟩ hls
      refine ⟨[], i, ls, rfl, hp, hno, ?_⟩
      unfold lastValue
      rw [List.foldl_cons, hp]
      have : ∀ (l : List NodeId) (v : K), (∀ k ∈ l, P k = false) → l.foldl (fun v i => if P i then (h.node i).value else v) v = v := by
        intro l
        induction l with
        | nil => intro v _; rfl
        | cons c l ih => intro v hv; rw [List.foldl_cons, hv c (by simp)]; exact ih _ (fun k hk => hv k (by simp [hk]))
      exact this _ _ hno

/-- A tree predicts the value of the last leaf that contains the row. -/
theorem predictX_lastLeaf {q : Nat} (t : Tree K n p) (Z : Fin q → Fin p → Fl K) (r : Fin q) (hc : ∃ i, LeafHas t (Z r) i) :
    ∃ i, LastLeaf t (Z r) i ∧ t.predictX Z r = (t.heap.node i).value := by
  rw [predictX_last]
  obtain ⟨i0, h1, h2⟩ := hc
  obtain ⟨l1, i, l2, e, h3, h4, h5⟩ := lastValue_last t.heap (fun i => Heap.outOfSample (t.heap.node i).split (Z r)) t.leafNodes 0 ⟨i0, h1, h2⟩
  exact ⟨i, ⟨l1, l2, e, ⟨by rw [e]; simp, h3⟩, fun k hk h => by have := h4 k hk; rw [h.2] at this; cases this⟩, h5⟩

/-- The trees of a sample are those of the model it was taken from. -/
theorem taken_trees {m' M : BModel K n p} {x : StoredModel K} (h : storedContent m' x = liveContent M) :
    List.Forall₂ (fun (t' t : Tree K n p) => t'.nodes.map (nodeView t'.heap) = t.nodes.map (nodeView t.heap)) (m'.storedTrees x) M.trees := by
  unfold storedContent liveContent at h
  unfold BModel.storedTrees
  have h2 : (List.zipWith (fun (t : Tree K n p) ids => t.stored ids) m'.trees x.trees).map (fun t => t.nodes.map (nodeView t.heap)) = M.trees.map (fun t => t.nodes.map (nodeView t.heap)) := by
    rw [← h, List.map_zipWith]; rfl
  generalize List.zipWith (fun (t : Tree K n p) ids => t.stored ids) m'.trees x.trees = l at h2
  generalize M.trees = l' at h2
  clear h
  induction l generalizing l' with
  | nil =>
    cases l' with
    | nil => exact .nil
    | cons => simp at h2
  | cons a l ih =>
    cases l' with
    | nil => simp at h2
    | cons b l' =>
      rw [List.map_cons, List.map_cons, List.cons.injEq] at h2
      exact .cons h2.1 (ih _ h2.2)

theorem TakenFrom.tree {m' M : BModel K n p} {x : StoredModel K} (h : TakenFrom X m' x M) {t' : Tree K n p} (ht : t' ∈ m'.storedTrees x) :
    ∃ t y s d, OTree X y t s d ∧ t'.nodes.map (nodeView t'.heap) = t.nodes.map (nodeView t.heap) := by
  have hf := taken_trees h.2.1
  have hO := h.1.trees
  generalize m'.storedTrees x = l at hf ht
  generalize M.trees = l' at hf hO
  clear h
  induction hf with
  | nil => cases ht
  | @cons a b l l' e _ ih =>
    rcases List.mem_cons.1 ht with rfl | ht
    · obtain ⟨y, s, d, hT⟩ := (hO b (by simp)).tree
      exact ⟨b, y, s, d, hT, e⟩
    · exact ih ht (fun u hu => hO u (by simp [hu]))

/-! ### chains and fits -/

section
variable [IsStrictOrderedRing K] [MathFns K] [FloorRing K]

/-- The errors of a chain with a model that was built: the draws are used up; a number that is not finite; a probability of 0; negative parameters of the prior of sigma;
no column with two values after the first row; or `thin = 0`. -/
def ChainError (s : SkModel K p) (X : Fin n → Fin p → Fl K) (e : PyErr) : Prop :=
  e = .outOfDraws ∨ e = .nonFinite ∨ (e = .zeroDivision ∧ (s.pGrow = 0 ∨ s.pPrune = 0 ∨ s.thin = 0)) ∨ (e = .valueError ∧ (s.sigmaA < 0 ∨ s.sigmaB < 0)) ∨
    (e = .attributeError ∧ ∀ j, ¬ HasTwoValues (column X (fun _ => true) j).tail)

/-- One chain. -/
theorem chain_spec (hX : ∀ r, GoodRow (X r)) (s : SkModel K p) {y : Fin n → K} {d : Data K n p} {m : BModel K n p} (hm : s.constructModel X y = .ok (d, m)) (r : Rand K) :
    match runChain s X y r with
    | .error e => ChainError s X e
    | .ok o => ∃ ch m', o = ⟨n, m', ch⟩ ∧ OModel X m' ∧ (s.storePredictions = true → ch.predictions = ch.model.map (fun x => m'.storedPredictX x X)) ∧ (∀ x ∈ ch.model, ∃ M, TakenFrom X m' x M) ∧
        ch.model.length = (storedTimes s.nSamples s.thin).length ∧ ch.acceptance.length = (if s.storeAcceptance then ch.model.length else 0) ∧
        ch.predictions.length = (if s.storePredictions then ch.model.length else 0) := by
  obtain ⟨-, -, -, hf, -, -, -, -, -, ha, hb, -⟩ := constructModel_spec hm
  have h := (OModel.fresh hX hf).samples hX s.sampleParams s.nSamples s.nBurn r
  unfold runChain
  simp only [hm]
  cases e : samples s.sampleParams s.nSamples s.nBurn m r with
  | error er =>
    rw [e] at h
    simp only [SweepError, StepError, ha, hb, SkModel.sampleParams] at h
    unfold ChainError
    have hcol : (∀ j, isNotConstant (column X (fun _ => true) j) = false) → ∀ j, ¬ HasTwoValues (column X (fun _ => true) j).tail := by
      intro hc j hj
      have := (isNotConstant_noNan (l := column X (fun _ => true) j) (by
        intro x hx
        obtain ⟨r, -, hr⟩ := mem_column.1 hx
        rw [← hr]; exact (hX r j).1)).2 hj
      rw [hc j] at this; cases this
    show ChainError s X er
    unfold ChainError
    tauto
  | ok q =>
    obtain ⟨ch, m', r'⟩ := q
    rw [e] at h
    exact ⟨ch, m', rfl, h.1, h.2.2.1, h.2.2.2.1, h.2.2.2.2.1, h.2.2.2.2.2.1, h.2.2.2.2.2.2⟩

theorem chains_spec {s : SkModel K p} {y : Fin n → K} : ∀ {rs : List (Rand K)} {os : List (ChainOut K p)}, runChains s X y rs = .ok os →
    List.Forall₂ (fun r o => runChain s X y r = .ok o) rs os := by
  intro rs
  induction rs with
  | nil => intro os h; injection h with h; subst h; exact .nil
  | cons r rs ih =>
    intro os h
    unfold runChains at h
    split at h
    · cases h
    · next o e =>
      split at h
      · cases h
      · next os' e' => injection h with h; subst h; exact .cons e (ih e')

theorem fit_result {s s' : SkModel K p} {y : Fin n → K} {rs : Nat → Rand K} (h : fit s X y rs = .ok s') :
    ∃ d m os c, s.constructModel X y = .ok (d, m) ∧ List.Forall₂ (fun r o => runChain s X y r = .ok o) ((List.range s.nChains).map rs) os ∧ combineChains os = .ok c ∧
      s' = { s with data := some ⟨n, d⟩, model := some ⟨n, m⟩, samples := some c, extract := some os } := by
  unfold fit at h
  split at h
  · cases h
  · next d m e =>
    split at h
    · cases h
    · next os e1 =>
      split at h
      · cases h
      · next c e2 => injection h with h; exact ⟨d, m, os, c, e, chains_spec e1, e2, h.symm⟩

/-- Each sample of a fit was taken from a state of the sampler. -/
theorem fit_sample (hX : ∀ r, GoodRow (X r)) {s s' : SkModel K p} {y : Fin n → K} {rs : Nat → Rand K} (h : fit s X y rs = .ok s') {c : Combined K p} (hc : s'.samples = some c) {x : Sample K p}
    (hx : x ∈ c.models) : ∃ (m' M : BModel K n p) (st : StoredModel K), x = ⟨n, m', st⟩ ∧ TakenFrom X m' st M := by
  obtain ⟨d, m, os, c', e1, e2, e3, rfl⟩ := fit_result h
  simp only [Option.some.injEq] at hc
  subst hc
  obtain ⟨c1, -⟩ := C51_combine e3
  rw [c1] at hx
  obtain ⟨o, ho, hx1⟩ := List.mem_flatMap.1 hx
  clear hx
  obtain ⟨st, hst, rfl⟩ := List.mem_map.1 hx1
  obtain ⟨r, -, hr⟩ : ∃ r ∈ (List.range s.nChains).map rs, runChain s X y r = .ok o := by
    clear e3 c1 h hst hx1
    generalize (List.range s.nChains).map rs = rl at e2
    induction e2 with
    | nil => cases ho
    | cons e _ ih =>
      rcases List.mem_cons.1 ho with rfl | ho
      · exact ⟨_, by simp, e⟩
      · obtain ⟨r, hr, e⟩ := ih ho; exact ⟨r, by simp [hr], e⟩
  have h1 := chain_spec hX s e1 r
  rw [hr] at h1
  obtain ⟨ch, m', rfl, -, -, h2, -⟩ := h1
  obtain ⟨M, hM⟩ := h2 st hst
  exact ⟨m', M, st, rfl, hM⟩

/-! ### C123 -/

/-- C123: with stored predictions, `predict()` after a fit with the oblivious tree sampler is the same as `predict(X_train)`. -/
theorem C123_in_sample (hX : ∀ r, GoodRow (X r)) {s s' : SkModel K p} (hst : s.storePredictions = true) {y : Fin n → K} {rs : Nat → Rand K} (h : fit s X y rs = .ok s') :
    s'.predict none = s'.predict (some ⟨n, X⟩) := by
  obtain ⟨d, m, os, c, e1, e2, e3, rfl⟩ := fit_result h
  obtain ⟨c1, -, c3, -⟩ := C51_combine e3
  have key : c.predictions = c.models.map (fun x => List.ofFn (x.predictX X)) := by
    rw [c1, c3]
    clear e3 c1 c3 h
    generalize (List.range s.nChains).map rs = rl at e2
    induction e2 with
    | nil => rfl
    | @cons r o _ _ e _ ih =>
      simp only [List.flatMap_cons, List.map_append]
      congr 1
      have h1 := chain_spec hX s e1 r
      rw [e] at h1
      obtain ⟨ch, m', rfl, -, h2, -⟩ := h1
      simp only [h2 hst, List.map_map]
      rfl
  unfold SkModel.predict SkModel.outOfSamplePredict
  simp only [hst, key, if_true]

/-- C123: and the prediction is an array with one entry for each training row if anything is sampled. -/
theorem C123_ok (hX : ∀ r, GoodRow (X r)) {s s' : SkModel K p} (hst : s.storePredictions = true) {y : Fin n → K} {rs : Nat → Rand K} (h : fit s X y rs = .ok s') (hns : 0 < s.nSamples) :
    ∃ f : Fin n → K, s'.predict none = .ok (List.ofFn f) := by
  rw [C123_in_sample hX hst h]
  obtain ⟨d, m, os, c, e1, e2, e3, rfl⟩ := fit_result h
  obtain ⟨-, -, hd, -⟩ := constructModel_spec e1
  have hne : c.models ≠ [] := by
    obtain ⟨-, -, -, l1, -⟩ := C51_combine e3
    intro h0
    rw [h0] at l1
    clear h
    generalize (List.range s.nChains).map rs = rl at e2
    cases os with
    | nil => unfold combineChains at e3; cases e3
    | cons o os =>
      cases e2 with
      | @cons r _ _ _ e _ =>
        have h1 := chain_spec hX s e1 r
        rw [e] at h1
        obtain ⟨ch, m', rfl, -, -, -, h2, -⟩ := h1
        have : 0 ∈ storedTimes s.nSamples s.thin := by
          unfold storedTimes
          classical
          simp only [List.mem_filter, List.mem_range, decide_eq_true_eq]
          exact ⟨hns, 0, by simp⟩
        have := List.length_pos_of_mem this
        simp only [List.length_nil, List.map_cons, List.sum_cons] at l1
        omega
  obtain ⟨lo, hi, ⟨r1, h1⟩, ⟨r2, h2⟩, h3, -⟩ := convertData_spec hd
  obtain ⟨f, hf, -⟩ := C48_predict hd (s := { s with data := some ⟨n, d⟩, model := some ⟨n, m⟩, samples := some c, extract := some os }) rfl rfl hne
    (lo := lo) (hi := hi) ⟨⟨r1, h1⟩, by rintro _ ⟨r, rfl⟩; exact (h3 r).1⟩ ⟨⟨r2, h2⟩, by rintro _ ⟨r, rfl⟩; exact (h3 r).2⟩ X
  exact ⟨f, hf⟩

/-! ### C124

Full statement: in every tree of every stored sample, each row is in exactly one leaf. It is false (`C124_refuted` below). -/

/-- C124, the part that holds: each row is in some leaf, and the tree predicts the value of the last leaf that contains it. -/
theorem C124_some_leaf_partial (hX : ∀ r, GoodRow (X r)) {s s' : SkModel K p} {y : Fin n → K} {rs : Nat → Rand K} (h : fit s X y rs = .ok s') {c : Combined K p} (hc : s'.samples = some c)
    {x : Sample K p} (hx : x ∈ c.models) {t : Tree K x.n p} (ht : t ∈ x.trees) {q : Nat} (Z : Fin q → Fin p → Fl K) (r : Fin q) (hZ : GoodRow (Z r)) :
    ∃ i, LastLeaf t (Z r) i ∧ t.predictX Z r = (t.heap.node i).value := by
  obtain ⟨m', M, st, rfl, hM⟩ := fit_sample hX h hc hx
  obtain ⟨t0, y0, s0, d0, hT, hv⟩ := hM.tree ht
  exact predictX_lastLeaf t Z r (leafHas_view hv (by obtain ⟨i, h1, h2⟩ := hT.inv.cover hZ; exact ⟨i, h1, h2⟩))

/-- The leaf at a position of the list of leaves, read off the attributes of the nodes. -/
theorem leaf_view {t t' : Tree K n p} (h : t'.nodes.map (nodeView t'.heap) = t.nodes.map (nodeView t.heap)) {a : Nat} {i : NodeId} (ha : t'.leafNodes[a]? = some i) :
    ∃ i', t.leafNodes[a]? = some i' ∧ (t.heap.node i').split.combined = (t'.heap.node i).split.combined := by
  have h1 := congrArg (fun l => l[a]?) (leaves_view h)
  simp only [List.getElem?_map, ha, Option.map_some] at h1
  cases e : t.leafNodes[a]? with
  | none => rw [e] at h1; cases h1
  | some i' =>
    rw [e] at h1
    simp only [Option.map_some, Option.some.injEq] at h1
    exact ⟨i', rfl, (congrArg NodeView.condition h1).symm⟩

/-- C124, the part that holds: two leaves with a row in common contain the same rows, and the training rows in them do not differ in any column, apart from the first of them. -/
theorem C124_overlap_partial (hX : ∀ r, GoodRow (X r)) {s s' : SkModel K p} {y : Fin n → K} {rs : Nat → Rand K} (h : fit s X y rs = .ok s') {c : Combined K p} (hc : s'.samples = some c)
    {x : Sample K p} (hx : x ∈ c.models) {t : Tree K x.n p} (ht : t ∈ x.trees) {z : Fin p → Fl K} (hz : GoodRow z) {a b : Nat} {i k : NodeId} (hab : a ≠ b)
    (ha : t.leafNodes[a]? = some i) (hb : t.leafNodes[b]? = some k) (h1 : LeafHas t z i) (h2 : LeafHas t z k) :
    (∀ z', LeafHas t z' i ↔ LeafHas t z' k) ∧ ∀ j, ¬ HasTwoValues (column X (fun r => Heap.outOfSample (t.heap.node i).split (X r)) j).tail := by
  obtain ⟨m', M, st, rfl, hM⟩ := fit_sample hX h hc hx
  obtain ⟨t0, y0, s0, d0, hT, hv⟩ := hM.tree ht
  obtain ⟨i', hi', ei⟩ := leaf_view hv ha
  obtain ⟨k', hk', ek⟩ := leaf_view hv hb
  have hne : i' ≠ k' := by
    rintro rfl
    exact hab ((List.getElem?_inj (List.getElem?_eq_some_iff.1 hi').1 (hT.inv.nodes_nodup.filter _)).1 (hi'.trans hk'.symm))
  have hmi := List.mem_of_getElem? hi'
  have hmk := List.mem_of_getElem? hk'
  have h1' := h1.2
  have h2' := h2.2
  unfold Heap.outOfSample at h1' h2'
  rw [← ei] at h1'
  rw [← ek] at h2'
  obtain ⟨e, hf⟩ := hT.inv.overlap hz hmi hmk h1' h2'
  obtain ⟨q, hq, hf⟩ := hf hne
  refine ⟨fun z' => ?_, fun j hj => ?_⟩
  · unfold LeafHas Heap.outOfSample
    rw [← ei, ← ek, e]
    exact ⟨fun h => ⟨List.mem_of_getElem? hb, h.2⟩, fun h => ⟨List.mem_of_getElem? ha, h.2⟩⟩
  · have hrows : (fun r => Heap.outOfSample (t.heap.node i).split (X r)) = pathRows X q := by
      funext r
      have := hT.inv.outOfSample_iff (hX r) (List.mem_filter.1 hmi).1 hq
      unfold Heap.outOfSample at this ⊢
      rw [ei] at this
      rw [Bool.eq_iff_iff, this]
      simp [pathRows]
    rw [hrows] at hj
    have := (isNotConstant_noNan (l := column X (pathRows X q) j) (by
      intro v hv
      obtain ⟨r, -, hr⟩ := mem_column.1 hv
      rw [← hr]; exact (hX r j).1)).2 hj
    rw [hf j] at this; cases this

/-- C124, the part that holds: every leaf of every tree contains a training row. -/
theorem C124_training_row_partial (hX : ∀ r, GoodRow (X r)) {s s' : SkModel K p} {y : Fin n → K} {rs : Nat → Rand K} (h : fit s X y rs = .ok s') (hn : 0 < n) {c : Combined K p} (hc : s'.samples = some c)
    {x : Sample K p} (hx : x ∈ c.models) {t : Tree K x.n p} (ht : t ∈ x.trees) {i : NodeId} (hi : i ∈ t.leafNodes) : ∃ r, LeafHas t (X r) i := by
  obtain ⟨m', M, st, rfl, hM⟩ := fit_sample hX h hc hx
  obtain ⟨t0, y0, s0, d0, hT, hv⟩ := hM.tree ht
  obtain ⟨a, ha⟩ := List.getElem?_of_mem hi
  obtain ⟨i', hi', ei⟩ := leaf_view hv ha
  have hm := (List.mem_filter.1 (List.mem_of_getElem? hi')).1
  obtain ⟨r, hr⟩ := hT.inv.nonempty hn hm
  rw [← hT.inv.rows_outOfSample (hX r) hm] at hr
  refine ⟨r, hi, ?_⟩
  unfold Heap.outOfSample at hr ⊢
  rw [← ei]; exact hr

/-! ### C125 -/

/-- C125: every tree of every stored sample is complete: all leaves have the same depth `d`, there are `2 ^ d` leaves and `2 ^ (d + 1) - 1` nodes. -/
theorem C125_complete (hX : ∀ r, GoodRow (X r)) {s s' : SkModel K p} {y : Fin n → K} {rs : Nat → Rand K} (h : fit s X y rs = .ok s') {c : Combined K p} (hc : s'.samples = some c)
    {x : Sample K p} (hx : x ∈ c.models) {t : Tree K x.n p} (ht : t ∈ x.trees) : ∃ d, Complete t d := by
  obtain ⟨m', M, st, rfl, hM⟩ := fit_sample hX h hc hx
  obtain ⟨t0, y0, s0, d0, hT, hv⟩ := hM.tree ht
  exact ⟨d0, Complete.view hv hT.complete⟩

/-! ### C126 -/

/-- C126: the exceptions of a fit after the model has been built. -/
theorem C126_errors (hX : ∀ r, GoodRow (X r)) {s : SkModel K p} {y : Fin n → K} {rs : Nat → Rand K} {e : PyErr} (h : fit s X y rs = .error e) :
    s.constructModel X y = .error e ∨ (e = .indexError ∧ s.nChains = 0) ∨ ChainError s X e := by
  unfold fit at h
  split at h
  · next e' e1 => injection h with h; subst h; exact .inl e1
  · next d m e1 =>
    have hchains : ∀ (rl : List (Rand K)) {e' : PyErr}, runChains s X y rl = .error e' → ChainError s X e' := by
      intro rl
      induction rl with
      | nil => intro e' h; cases h
      | cons r rl ih =>
        intro e' h
        have h1 := chain_spec hX s e1 r
        unfold runChains at h
        cases e2 : runChain s X y r with
        | error e3 => rw [e2] at h h1; injection h with h; subst h; exact h1
        | ok o =>
          rw [e2] at h
          simp only at h
          cases e4 : runChains s X y rl with
          | error e5 => rw [e4] at h; injection h with h; subst h; exact ih e4
          | ok os => rw [e4] at h; cases h
    split at h
    · next e' e2 => injection h with h; subst h; exact .inr (.inr (hchains _ e2))
    · next os e2 =>
      have hall := chains_spec e2
      by_cases hne : os = []
      · subst hne
        have hlen := hall.length_eq
        simp at hlen
        simp only [combineChains, Except.error.injEq] at h
        exact .inr (.inl ⟨h.symm, hlen⟩)
      · have hf : ∀ o ∈ os, o.n = n ∧ o.chain.model.length = (storedTimes s.nSamples s.thin).length ∧ o.chain.acceptance.length = (if s.storeAcceptance then o.chain.model.length else 0) ∧
            o.chain.predictions.length = (if s.storePredictions then o.chain.model.length else 0) := by
          clear hne h e2
          generalize (List.range s.nChains).map rs = rl at hall
          induction hall with
          | nil => simp
          | @cons r o' _ _ e _ ih =>
            intro o ho
            rcases List.mem_cons.1 ho with rfl | ho
            · have h1 := chain_spec hX s e1 r
              rw [e] at h1
              obtain ⟨ch, m', rfl, -, -, -, h2, h3, h4⟩ := h1
              exact ⟨rfl, h2, h3, h4⟩
            · exact ih o ho
        obtain ⟨c, hc, -⟩ := combine_ok hne hf
        rw [hc] at h; cases h

end

/-! ### examples -/

section ex
attribute [local instance] exFns

/-- The rows 0, 1, 2, 3 with the target 0, 0, 1, 1. -/
def exXf : Fin 4 → Fin 1 → Fl ℚ := fun r _ => .fin r.val
def exYf : Fin 4 → ℚ := fun r => if r.val < 2 then 0 else 1

/-- One tree, one chain, a burn-in of one sweep and three samples. -/
def exSkf : SkModel ℚ 1 := ⟨1, 1, 1, 1, 3, 1, 1, 9/10, 1, true, true, 1/2, 1/2, none, none, none, none⟩

/-- Draws with four grow steps and the number 1/2 for each acceptance. -/
def exRf : Rand ℚ := ⟨[.grow, .grow, .grow, .grow], [0, 0, 0, 0, 0, 0, 0, 0, 0, 0, 0, 0], [1/2, 1/2, 1/2, 1/2],
  [1, 2, 3, 4, 5, 6, 7, 8, 9, 1, 2, 3, 4, 5, 6, 7, 8, 9, 10], [10, 10, 10, 10]⟩

/-- The fit of the example. -/
def exFitf : Except PyErr (SkModel ℚ 1) := fit exSkf exXf exYf (fun _ => exRf)

theorem exXf_good : ∀ r, GoodRow (exXf r) := fun r j => ⟨by simp [exXf], by simp [exXf]⟩

/-- The depths of the leaves and the rows 0, 1, 2, 3 in them. -/
def exLeaves {m : Nat} (t : Tree ℚ m 1) : List (Nat × List (Fin 4)) :=
  t.leafNodes.map (fun i => ((t.heap.node i).depth, (List.finRange 4).filter (fun r => Heap.outOfSample (t.heap.node i).split (exXf r))))

/-- C123, C125, the example: three samples. In the second the leaf with row 0 and in the third all four leaves have been doubled; there are more leaves than rows. `predict()` and `predict(X)` are equal,
and differ from row to row. -/
example : (match exFitf with
    | .ok s =>
      match s.samples, s.predict none, s.predict (some ⟨4, exXf⟩) with
      | some c, .ok f, .ok g => decide (f = g ∧ f.length = 4 ∧ f[0]? ≠ f[1]? ∧ f[1]? ≠ f[2]? ∧ c.models.map (fun x => x.trees.map exLeaves) =
          [[[(1, [0]), (1, [1, 2, 3])]], [[(2, [0]), (2, [0]), (2, [1]), (2, [2, 3])]],
            [[(3, [0]), (3, [0]), (3, [0]), (3, [0]), (3, [1]), (3, [1]), (3, [2, 3]), (3, [2, 3])]]])
      | _, _, _ => false
    | .error _ => false) = true := by
  decide +kernel

/-- Two leaves with different values that contain row 0. -/
def exOverlap {m : Nat} (t : Tree ℚ m 1) : Bool :=
  t.leafNodes.any (fun i => t.leafNodes.any (fun k => decide (Heap.outOfSample (t.heap.node i).split (exXf 0) = true ∧ Heap.outOfSample (t.heap.node k).split (exXf 0) = true ∧
    (t.heap.node i).value ≠ (t.heap.node k).value)))

/-- C124 is false: after a fit with the oblivious tree sampler, a training row can be in several leaves of a tree, and these have different values. -/
theorem C124_refuted : ∃ (s' : SkModel ℚ 1) (c : Combined ℚ 1), (∀ r, GoodRow (exXf r)) ∧ fit exSkf exXf exYf (fun _ => exRf) = .ok s' ∧ s'.samples = some c ∧
    ∃ x ∈ c.models, ∃ t ∈ x.trees, ∃ i k, LeafHas t (exXf 0) i ∧ LeafHas t (exXf 0) k ∧ i ≠ k ∧ (t.heap.node i).value ≠ (t.heap.node k).value := by
  have h : (match exFitf with
      | .ok s =>
        match s.samples with
        | some c => c.models.any (fun x => x.trees.any exOverlap)
        | none => false
      | .error _ => false) = true := by decide +kernel
  cases e : exFitf with
  | error er => rw [e] at h; cases h
  | ok s' =>
    rw [e] at h
    simp only at h
    cases e2 : s'.samples with
    | none => rw [e2] at h; cases h
    | some c =>
      rw [e2] at h
      simp only at h
      obtain ⟨x, hx, h⟩ := List.any_eq_true.1 h
      obtain ⟨t, ht, h⟩ := List.any_eq_true.1 h
      obtain ⟨i, hi, h⟩ := List.any_eq_true.1 h
      obtain ⟨k, hk, h⟩ := List.any_eq_true.1 h
      obtain ⟨h1, h2, h3⟩ := of_decide_eq_true h
      exact ⟨s', c, exXf_good, e, e2, x, hx, t, ht, i, k, ⟨hi, h1⟩, ⟨hk, h2⟩, by rintro rfl; exact h3 rfl, h3⟩

/-- C126, the example: with a constant column a grow step raises AttributeError, with `thin = 0` the fit raises ZeroDivisionError, with no chains IndexError, with a negative rate ValueError. -/
example : (match fit exSkf (fun _ _ => .fin 1) exYf (fun _ => exRf) with | .error e => decide (e = .attributeError) | .ok _ => false) = true ∧
    (match fit { exSkf with thin := 0 } exXf exYf (fun _ => exRf) with | .error e => decide (e = .zeroDivision) | .ok _ => false) = true ∧
    (match fit { exSkf with nChains := 0 } exXf exYf (fun _ => exRf) with | .error e => decide (e = .indexError) | .ok _ => false) = true ∧
    (match fit { exSkf with sigmaB := -10 } exXf exYf (fun _ => exRf) with | .error e => decide (e = .valueError) | .ok _ => false) = true ∧
    (match fit exSkf exXf (fun _ => 1) (fun _ => exRf), exSkf.constructModel exXf (fun _ => 1) with | .error e, .error e' => decide (e = e') | _, _ => false) = true := by
  decide +kernel

end ex

end Oblivious
end Bart
