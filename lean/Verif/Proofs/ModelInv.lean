import Verif.Spec.ModelHistory
import Verif.Proofs.ForestLemmas

/-! The invariant of a model. -/

set_option linter.unusedSectionVars false

namespace Bart
open Spec
variable {K : Type} [Field K] [LinearOrder K] {n p : Nat} {N : Prop}

/-- Invariant of a model over `X` with (normalised) target `y`. -/
structure ModelInv (N : Prop) (X : Fin n → Fin p → Fl K) (y : Fin n → K) (m : BModel K n p) : Prop where
  target : m.data.y.y = some y
  obs : m.data.X.nObsv = (n : Int)
  fitted : ∀ t ∈ m.trees, Fitted N X t
  len : m.trees.length = m.nTrees
  pred : ∀ f, m.prediction = some f → ∀ r, f r = sumValue m.trees r

/-- A new model. -/
theorem construct_inv {X : Fin n → Fin p → Fl K} (hn : N → 0 < n) {y0 : Fin n → K} {normalize : Bool} {d : Data K n p}
    (hd : Data.init X y0 none normalize none none none none = .ok d) (sigma : Sigma K) (nTrees : Nat) (alpha beta k : K) :
    ∃ m y t, BModel.construct d sigma nTrees alpha beta k = .ok m ∧ d.y.y = some y ∧ ModelInv N X y m ∧ m.data = d ∧ m.sigma = sigma ∧
      m.nTrees = nTrees ∧ m.alpha = alpha ∧ m.beta = beta ∧ m.k = k ∧ m.prediction = none ∧ m.trees = List.replicate nTrees t ∧
      Good N X none t ⟨false, false, false, false⟩ ∧ t.nodes = [0] ∧ (∀ r, rowValue t r = 0) ∧ (∀ i, (t.heap.node i).value = 0) := by
  have hfr : Fresh X y0 (Tree.ofData d) := ⟨normalize, d, hd, rfl⟩
  obtain ⟨⟨y', hI⟩, h1, h2, h3, h4⟩ := fresh_tree_inv hfr
  have hy : d.y.y = some y' := by
    obtain ⟨q, hk⟩ := hI.repr.nodeOk 0 (by simp [Shape.ids])
    have := hk.y
    simpa [Heap.dataOf, Tree.ofData] using this
  have hobs : d.X.nObsv = (n : Int) := by
    obtain ⟨q, hk⟩ := hI.repr.nodeOk 0 (by simp [Shape.ids])
    have hc := Lik.nObsv_spec hk
    have : count (rowsOf ((Tree.ofData d).heap.dataOf 0)) = n := by unfold count; simp [h4]
    rw [this] at hc
    exact hc
  have hG : Good N X (some y') (Tree.ofData d) ⟨false, false, false, false⟩ :=
    ⟨⟨_, hI⟩, ⟨h2, by simp, fun _ => ⟨h3, rfl⟩, fun _ => ⟨0, h1, h4⟩, by simp⟩, by
      intro hN i hi; rw [h1] at hi; simp at hi; subst hi; exact ⟨⟨0, hn hN⟩, h4 _⟩, by
      intro hN i hi; rw [h1] at hi; simp at hi; subst hi
      have : ((Tree.ofData d).heap.node 0).split.combined.conditions = [] := by rw [hI.repr.2.2.2.2.combined]; rfl
      rw [this]; simp⟩
  obtain ⟨t1, e1, hG1, v1, n1, d1, r1⟩ := hG.updateY (some (fun r => y' r / (nTrees : K)))
  obtain ⟨t2, e2, hG2, v2, n2, d2, r2⟩ := hG1.updateY none
  have hval : ∀ i, (t2.heap.node i).value = 0 := by
    intro i; rw [d2, d1]; rfl
  have hrv : ∀ r, rowValue t2 r = 0 := by
    intro r
    unfold rowValue
    split
    · exact hval _
    · rfl
  refine ⟨{ data := d, alpha := alpha, beta := beta, k := k, nTrees := nTrees, sigma := sigma, trees := List.replicate nTrees t2, prediction := none },
    y', t2, ?_, hy, ⟨hy, hobs, ?_, by simp, by simp⟩, rfl, rfl, rfl, rfl, rfl, rfl, rfl, rfl, hG2, ?_, hrv, hval⟩
  · unfold BModel.construct BModel.initTree
    simp only [hy, e1, e2]
  · intro t ht
    obtain ⟨-, rfl⟩ := List.mem_replicate.1 ht
    exact ⟨_, _, hG2, Or.inr rfl, Or.inl rfl⟩
  · rw [n2, n1, h1]

namespace ModelInv
variable {X : Fin n → Fin p → Fl K} {y : Fin n → K} {m : BModel K n p}

theorem predict (hX : NoNan X) (h : ModelInv N X y m) : ∃ m', m.predict = .ok (sumValue m.trees, m') ∧ ModelInv N X y m' ∧
    (∀ r, sumValue m'.trees r = sumValue m.trees r) ∧ List.Forall₂ SameTree m.trees m'.trees ∧
    m' = { m with trees := m'.trees } := by
  obtain ⟨ts, e, h1, h2, h3, h4⟩ := BModel.predictTrees_spec hX m.trees h.fitted
  refine ⟨{ m with trees := ts }, ?_, ⟨h.target, h.obs, h1, h2.trans h.len, fun f hf r => ?_⟩, h4, h3, rfl⟩
  · unfold BModel.predict; rw [e]
  · rw [h.pred f hf r]; exact (h4 r).symm

theorem residuals (hX : NoNan X) (h : ModelInv N X y m) : ∃ m', m.residuals = .ok (fun r => y r - sumValue m.trees r, m') ∧ ModelInv N X y m' ∧
    (∀ r, sumValue m'.trees r = sumValue m.trees r) ∧ List.Forall₂ SameTree m.trees m'.trees ∧
    m' = { m with trees := m'.trees } := by
  obtain ⟨m', e, h1, h2⟩ := h.predict hX
  refine ⟨m', ?_, h1, h2⟩
  unfold BModel.residuals
  simp only [e, h.target]

variable [MathFns K]

/-- What a successful sweep of the trees gives. -/
theorem sweepTrees (hX : NoNan X) (h : ModelInv N X y m) {pGrow pPrune : K} (hp1 : pGrow ≠ 0) (hp2 : pPrune ≠ 0) (r : Rand K) :
    match m.sweepTrees pGrow pPrune r with
    | .error e => e = .outOfDraws ∨ e = .nonFinite
    | .ok (mus, m', _) => ModelInv N X y m' ∧ mus.length = m.nTrees ∧ m'.prediction ≠ none ∧
        m' = { m with trees := m'.trees, prediction := m'.prediction } := by
  have hstart : ∃ f m1, m.startPrediction = .ok (f, m1) ∧ ModelInv N X y m1 ∧
      (∀ r, f r = sumValue m1.trees r) ∧ m1 = { m with trees := m1.trees } := by
    unfold BModel.startPrediction
    cases hp : m.prediction with
    | some f => exact ⟨f, m, rfl, h, h.pred f hp, by rw [← hp]⟩
    | none =>
      obtain ⟨m1, e, h1, h2, -, h3⟩ := h.predict hX
      exact ⟨_, m1, e, h1, fun r => (h2 r).symm, by rw [hp] at h3; exact h3⟩
  obtain ⟨f, m1, e1, hI1, hf, hm1⟩ := hstart
  unfold BModel.sweepTrees
  simp only [h.target, e1]
  cases e2 : BModel.refreshLoop y (BModel.treeBody m.params pGrow pPrune) m1.trees f r with
  | error er =>
    exact BModel.refreshLoop_error hX y (P := fun e => e = .outOfDraws ∨ e = .nonFinite) (fun y t s ht => by
      have := BModel.treeBody_spec hX m.params hp1 hp2 ht s
      generalize BModel.treeBody m.params pGrow pPrune t s = q at this
      cases q with
      | error e => exact this
      | ok q => exact this.fitted) m1.trees hI1.fitted f r e2
  | ok q =>
    obtain ⟨mus, f1, ts, r1⟩ := q
    obtain ⟨g1, g2, g3, g4⟩ := BModel.refreshLoop_spec hX y (BModel.treeBody_keeps hX m.params hp1 hp2) m1.trees hI1.fitted f r e2
    have hlen : m1.trees.length = m.nTrees := by rw [hI1.len, hm1]
    refine ⟨⟨hI1.target, hI1.obs, g1, ?_, ?_⟩, by rw [g3, hlen], by simp, ?_⟩
    · simp only; rw [g2]; exact hI1.len
    · intro f' hf' r
      simp only [Option.some.injEq] at hf'
      subst hf'
      rw [g4, hf r]; simp
    · simp only; rw [hm1]

theorem sigmaStep (hX : NoNan X) (h : ModelInv N X y m) (r : Rand K) :
    match m.sigmaStep r with
    | .error e => e = .outOfDraws ∨ e = .nonFinite ∨ e = .valueError
    | .ok (m', _) => ModelInv N X y m' ∧ List.Forall₂ SameTree m.trees m'.trees ∧ m' = { m with trees := m'.trees, sigma := m'.sigma } ∧
        ∃ v, m'.sigma = { m.sigma with current := v } := by
  obtain ⟨m1, e, h1, h2, h3, h4⟩ := h.residuals hX
  unfold BModel.sigmaStep
  simp only [e]
  by_cases hneg : m.sigmaShape < 0 ∨ m.sigmaRate (fun r => y r - sumValue m.trees r) < 0
  · simp only [if_pos hneg]
    exact Or.inr (Or.inr trivial)
  · simp only [if_neg hneg]
    cases r.gammas with
    | nil => exact Or.inl rfl
    | cons g gs =>
      simp only
      cases hpow : (MathFns.pow g (-(1/2) : K)) with
      | fin v =>
        simp only [Fl.toFinite]
        refine ⟨⟨h1.target, h1.obs, h1.fitted, h1.len, h1.pred⟩, h3, ?_, v, by rw [h4]⟩
        rw [h4]
      | nan => exact Or.inr (Or.inl rfl)
      | pinf => exact Or.inr (Or.inl rfl)
      | ninf => exact Or.inr (Or.inl rfl)

theorem sweep (hX : NoNan X) (h : ModelInv N X y m) {pGrow pPrune : K} (hp1 : pGrow ≠ 0) (hp2 : pPrune ≠ 0) (r : Rand K) :
    match m.sweep pGrow pPrune r with
    | .error e => e = .outOfDraws ∨ e = .nonFinite ∨ e = .valueError
    | .ok (mus, m', _) => ModelInv N X y m' ∧ mus.length = m.nTrees ∧ m'.prediction ≠ none ∧ m'.data = m.data ∧ m'.alpha = m.alpha ∧
        m'.beta = m.beta ∧ m'.k = m.k ∧ m'.nTrees = m.nTrees ∧ ∃ v, m'.sigma = { m.sigma with current := v } := by
  have h1 := h.sweepTrees hX hp1 hp2 r
  unfold BModel.sweep
  cases e1 : m.sweepTrees pGrow pPrune r with
  | error er =>
    rw [e1] at h1
    rcases h1 with h | h
    · exact Or.inl h
    · exact Or.inr (Or.inl h)
  | ok q =>
    obtain ⟨mus, m1, r1⟩ := q
    rw [e1] at h1
    obtain ⟨a1, a2, a3, a4⟩ := h1
    have h2 := a1.sigmaStep hX r1
    simp only
    generalize m1.sigmaStep r1 = q at h2
    cases q with
    | error er => exact h2
    | ok q =>
      obtain ⟨m2, r2⟩ := q
      obtain ⟨b1, b2, b3, v, b4⟩ := h2
      refine ⟨b1, a2, ?_, ?_, ?_, ?_, ?_, ?_, v, ?_⟩
      · rw [b3]; exact a3
      · rw [b3, a4]
      · rw [b3, a4]
      · rw [b3, a4]
      · rw [b3, a4]
      · rw [b3, a4]
      · rw [b4, a4]

end ModelInv

theorem Good.rowValue_ext {X : Fin n → Fin p → Fl K} {y : Option (Fin n → K)} {t t' : Tree K n p} {fl : CacheFlags} (hG : Good N X y t fl) (he : TreeExt t t')
    (r : Fin n) : rowValue t' r = rowValue t r := by
  obtain ⟨⟨s, hI⟩, -, -⟩ := hG
  have hl : t'.leafNodes = t.leafNodes := by
    unfold Tree.leafNodes
    rw [he.nodes]
    refine List.filter_congr (fun i hi => ?_)
    rw [he.heap.node i (hI.mem_lt hi)]
  have hn : ∀ i ∈ t.leafNodes, i ∈ t.nodes := fun i hi => (List.mem_filter.1 hi).1
  unfold rowValue
  rw [hl]
  have key : ∀ l : List NodeId, (∀ i ∈ l, i ∈ t.nodes) → (match l.find? (fun i => rowsOf (t'.heap.dataOf i) r) with
      | some i => (t'.heap.node i).value
      | none => 0) = (match l.find? (fun i => rowsOf (t.heap.dataOf i) r) with
      | some i => (t.heap.node i).value
      | none => 0) := by
    intro l
    induction l with
    | nil => intro _; rfl
    | cons i l ih =>
      intro h
      have hi := h i (by simp)
      simp only [List.find?_cons, he.rows hI hi]
      cases rowsOf (t.heap.dataOf i) r with
      | true => simp only [he.heap.node i (hI.mem_lt hi)]
      | false => exact ih (fun j hj => h j (by simp [hj]))
  exact key _ hn

/-- Storing a copy of the model keeps everything. -/
theorem ModelInv.copy {X : Fin n → Fin p → Fl K} {y : Fin n → K} {m : BModel K n p} (h : ModelInv N X y m) : ModelInv N X y m.deepCopy.2 := by
  refine ⟨h.target, h.obs, ?_, by show (m.trees.map _).length = _; rw [List.length_map]; exact h.len, ?_⟩
  · intro t ht
    obtain ⟨t0, ht0, rfl⟩ := List.mem_map.1 ht
    obtain ⟨y', fl, hG, h1, h2⟩ := h.fitted t0 ht0
    exact ⟨y', fl, hG.ext (deepCopy_ext t0), h1, h2⟩
  · intro f hf r
    rw [h.pred f hf r]
    show _ = sumValue (m.trees.map _) r
    unfold sumValue
    rw [List.map_map]
    congr 1
    refine List.map_congr_left (fun t ht => ?_)
    obtain ⟨y', fl, hG, -, -⟩ := h.fitted t ht
    exact (hG.rowValue_ext (deepCopy_ext t) r).symm

variable [MathFns K]

/-- What a run keeps. -/
theorem modelRun_inv {X : Fin n → Fin p → Fl K} (hX : NoNan X) {y : Fin n → K} {m0 m : BModel K n p} {pGrow pPrune : K} {k : Nat}
    (hp1 : pGrow ≠ 0) (hp2 : pPrune ≠ 0) (hI : ModelInv N X y m0) (hr : ModelRun pGrow pPrune m0 k m) :
    ModelInv N X y m ∧ m.data = m0.data ∧ m.alpha = m0.alpha ∧ m.beta = m0.beta ∧ m.k = m0.k ∧ m.nTrees = m0.nTrees ∧
      ∃ v, m.sigma = { m0.sigma with current := v } := by
  induction hr with
  | nil => exact ⟨hI, rfl, rfl, rfl, rfl, rfl, _, rfl⟩
  | @sweep k m1 r mus m2 r2 _ hs ih =>
    obtain ⟨i1, i2, i3, i4, i5, i6, v, i7⟩ := ih
    have := i1.sweep hX hp1 hp2 r
    rw [hs] at this
    obtain ⟨j1, j2, j3, j4, j5, j6, j7, j8, v', j9⟩ := this
    exact ⟨j1, j4.trans i2, j5.trans i3, j6.trans i4, j7.trans i5, j8.trans i6, v', by rw [j9, i7]⟩
  | @predict k m1 f m2 _ hs ih =>
    obtain ⟨i1, i2, i3, i4, i5, i6, v, i7⟩ := ih
    obtain ⟨m3, e3, j1, j2, -, j3⟩ := i1.predict hX
    rw [hs] at e3; injection e3 with e3; injection e3 with e3 e4; subst e4
    refine ⟨j1, ?_⟩
    rw [j3]
    exact ⟨i2, i3, i4, i5, i6, v, i7⟩
  | @residuals k m1 f m2 _ hs ih =>
    obtain ⟨i1, i2, i3, i4, i5, i6, v, i7⟩ := ih
    obtain ⟨m3, e3, j1, j2, -, j3⟩ := i1.residuals hX
    rw [hs] at e3; injection e3 with e3; injection e3 with e3 e4; subst e4
    refine ⟨j1, ?_⟩
    rw [j3]
    exact ⟨i2, i3, i4, i5, i6, v, i7⟩
  | copy _ ih =>
    obtain ⟨i1, i2⟩ := ih
    exact ⟨i1.copy, i2⟩

/-- Everything the constructor fixes. -/
theorem reachable_model_inv {X : Fin n → Fin p → Fl K} (hX : NoNan X) (hn : N → 0 < n) {y0 : Fin n → K} {m0 m : BModel K n p} {pGrow pPrune : K} {k : Nat}
    (hp1 : pGrow ≠ 0) (hp2 : pPrune ≠ 0) (h0 : FreshModel X y0 m0) (hr : ModelRun pGrow pPrune m0 k m) :
    ∃ y, m0.data.y.y = some y ∧ ModelInv N X y m ∧ m.data = m0.data ∧ m.alpha = m0.alpha ∧ m.beta = m0.beta ∧ m.k = m0.k ∧ m.nTrees = m0.nTrees ∧
      ∃ v, m.sigma = { m0.sigma with current := v } := by
  obtain ⟨nz, d, sigma, nT, al, be, kk, hd, hc⟩ := h0
  obtain ⟨m', y, t, e, hy, hI, e1, e2, -⟩ := construct_inv hn hd sigma nT al be kk
  rw [hc] at e; injection e with e; subst e
  refine ⟨y, hI.target, ?_⟩
  exact modelRun_inv hX hp1 hp2 hI hr

end Bart
