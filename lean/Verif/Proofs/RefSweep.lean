import Verif.Proofs.RefStep
import Verif.Proofs.ModelInv
import Verif.Proofs.SimRun

/-! The sweeps of the model are the sweeps of the reference implementation. -/

set_option linter.unusedSectionVars false

namespace Bart
open Spec Reference
variable {K : Type} [Field K] [LinearOrder K] {n p : Nat} {N : Prop} {X : Fin n → Fin p → Fl K}

/-! ### values -/

section value
variable {y : Option (Fin n → K)} {t : Tree K n p} {s : Shape}

theorem TreeInv.look_value_find (hI : TreeInv X y t s) {x : Fin p → Fl K} (hx : ∀ j, x j ≠ .nan) :
    (look t).value x = match t.leafNodes.find? (fun i => (t.heap.node i).split.combined.conditions.all (fun c => sat c x)) with
      | some i => (t.heap.node i).value
      | none => 0 := by
  have e : t.nodes.find? (fun i => (lookNode t.heap i).isLeaf && (lookNode t.heap i).reaches x) =
      t.leafNodes.find? (fun i => (t.heap.node i).split.combined.conditions.all (fun c => sat c x)) := by
    unfold Tree.leafNodes
    rw [List.find?_filter]
    have hsub : ∀ l : List NodeId, (∀ i ∈ l, i ∈ t.nodes) → l.find? (fun i => (lookNode t.heap i).isLeaf && (lookNode t.heap i).reaches x) =
        l.find? (fun i => decide (decide ((t.heap.node i).kind = .leaf) = true ∧ (t.heap.node i).split.combined.conditions.all (fun c => sat c x) = true)) := by
      intro l
      induction l with
      | nil => intro _; rfl
      | cons i l ih =>
        intro hl
        have hi := hl i (by simp)
        rw [List.find?_cons, List.find?_cons, ih (fun k hk => hl k (by simp [hk])), hI.isLeaf_eq hi, hI.reaches hi hx]
        by_cases h1 : (t.heap.node i).kind = .leaf <;> by_cases h2 : (t.heap.node i).split.combined.conditions.all (fun c => sat c x) = true <;> simp [h1, h2]
    exact hsub t.nodes (fun _ h => h)
  unfold RTree.value look
  rw [List.find?_map]
  simp only [Function.comp_def, e]
  cases hf : t.leafNodes.find? (fun i => (t.heap.node i).split.combined.conditions.all (fun c => sat c x)) with
  | none => rfl
  | some i =>
    have hm := List.mem_of_find?_eq_some hf
    have hk : (t.heap.node i).kind = .leaf := by simpa using (List.mem_filter.1 hm).2
    simp [lookNode, contentOf, hk]

/-- The value of a training row. -/
theorem TreeInv.look_value (hX : NoNan X) (hI : TreeInv X y t s) (r : Fin n) : (look t).value (X r) = rowValue t r := by
  rw [hI.look_value_find (hX r)]
  obtain ⟨i, i1, -, i3, i4⟩ := hI.leaf_of_row (r := r) (hX r)
  unfold rowValue
  have : t.leafNodes.find? (fun i => (t.heap.node i).split.combined.conditions.all (fun c => sat c (X r))) = t.leafNodes.find? (fun i => rowsOf (t.heap.dataOf i) r) := by
    have hsub : ∀ l : List NodeId, (∀ i ∈ l, i ∈ t.leafNodes) → l.find? (fun i => (t.heap.node i).split.combined.conditions.all (fun c => sat c (X r))) =
        l.find? (fun i => rowsOf (t.heap.dataOf i) r) := by
      intro l
      induction l with
      | nil => intro _; rfl
      | cons i l ih =>
        intro hl
        have hi := (List.mem_filter.1 (hl i (by simp))).1
        rw [List.find?_cons, List.find?_cons, ih (fun k hk => hl k (by simp [hk])), ← hI.rows_eq hX hi, ← hI.reaches hi (hX r)]
        rfl
    exact hsub _ (fun _ h => h)
  rw [this]
  cases t.leafNodes.find? (fun i => rowsOf (t.heap.dataOf i) r) <;> rfl

/-- The value of a new row. -/
theorem TreeInv.look_predictX (hI : TreeInv X y t s) {q : Nat} (Z : Fin q → Fin p → Fl K) (r : Fin q) (hx : GoodRow (Z r)) : (look t).value (Z r) = t.predictX Z r := by
  rw [hI.look_value_find (fun j => (hx j).1)]
  obtain ⟨i, i1, -, i3, i4⟩ := hI.leaf_of_newRow hx
  have hmem : ∀ j ∈ t.leafNodes, j ∈ t.nodes := fun j hj => (List.mem_filter.1 hj).1
  have hv : t.predictX Z r = (t.heap.node i).value := by
    unfold Tree.predictX
    exact predictX_fold t.heap Z r _ _ _ (fun j hj hjr => by rw [i4 j hj hjr]) (Or.inl ⟨i, i1, i3⟩)
  rw [hv]
  cases hf : t.leafNodes.find? (fun i => (t.heap.node i).split.combined.conditions.all (fun c => sat c (Z r))) with
  | none =>
    rw [List.find?_eq_none] at hf
    exact absurd ((hI.outOfSample_iff hx (hmem i i1)).1 i3) (hf i i1)
  | some k =>
    have hk := List.find?_some hf
    have hm := List.mem_of_find?_eq_some hf
    rw [i4 k hm ((hI.outOfSample_iff hx (hmem k hm)).2 hk)]

end value

theorem SameTree.look {t t' : Tree K n p} (h : SameTree t t') : look t' = look t := by
  unfold Bart.look
  rw [h.nodes]
  apply List.map_congr_left
  intro i _
  simp [lookNode, pathOf, contentOf, rule, h.node]

theorem Fitted.inv {t : Tree K n p} (h : Fitted N X t) : ∃ y s, TreeInv X y t s := by
  obtain ⟨y, fl, hG, -⟩ := h
  obtain ⟨s, hI⟩ := hG.inv
  exact ⟨y, s, hI⟩

theorem Fitted.look_value (hX : NoNan X) {t : Tree K n p} (h : Fitted N X t) (r : Fin n) : (Bart.look t).value (X r) = rowValue t r := by
  obtain ⟨y, s, hI⟩ := h.inv
  exact hI.look_value hX r

theorem forest_cons (t : RTree K p) (ts : List (RTree K p)) (x : Fin p → Fl K) : forest (t :: ts) x = t.value x + forest ts x := by simp [forest]
theorem forest_append (ts us : List (RTree K p)) (x : Fin p → Fl K) : forest (ts ++ us) x = forest ts x + forest us x := by simp [forest]

theorem forest_look (hX : NoNan X) {ts : List (Tree K n p)} (h : ∀ t ∈ ts, Fitted N X t) (r : Fin n) : forest (ts.map look) (X r) = sumValue ts r := by
  induction ts with
  | nil => simp [forest, sumValue]
  | cons t ts ih =>
    rw [List.map_cons, forest_cons, BModel.sumValue_cons, ih (fun t ht => h t (by simp [ht])), (h t (by simp)).look_value hX]

theorem forest_predictX (ts : List (Tree K n p)) (h : ∀ t ∈ ts, Fitted N X t) {q : Nat} (Z : Fin q → Fin p → Fl K) (r : Fin q) (hx : GoodRow (Z r)) :
    forest (ts.map look) (Z r) = (ts.map (fun t => t.predictX Z r)).sum := by
  unfold forest
  rw [List.map_map]
  congr 1
  apply List.map_congr_left
  intro t ht
  obtain ⟨y, s, hI⟩ := (h t ht).inv
  exact hI.look_predictX Z r hx

theorem look_forall₂ {ts ts' : List (Tree K n p)} (h : List.Forall₂ SameTree ts ts') : ts'.map look = ts.map look := by
  induction h with
  | nil => rfl
  | cons h _ ih => rw [List.map_cons, List.map_cons, h.look, ih]

/-! ### a sweep -/

section sweep
variable [IsStrictOrderedRing K] [MathFns K] {y : Fin n → K}

theorem refreshLoop_ref (hX : NoNan X) (m : Params K) {pGrow pPrune : K} (hp1 : pGrow ≠ 0) (hp2 : pPrune ≠ 0) (ts : List (Tree K n p)) :
    ∀ (_ : ∀ t ∈ ts, Fitted N X t) (done : List (RTree K p)) (pred : Fin n → K) (_ : ∀ i, pred i = forest (done ++ ts.map look) (X i)) (r : Rand K),
    match BModel.refreshLoop y (BModel.treeBody m pGrow pPrune) ts pred r with
    | .error e => Reference.sweepTrees m pGrow pPrune X y done (ts.map look) r = .error e
    | .ok (mus, _, ts', r') => Reference.sweepTrees m pGrow pPrune X y done (ts.map look) r = .ok (mus.map Option.isSome, done ++ ts'.map look, r') := by
  induction ts with
  | nil =>
    intro _ done pred _ r
    simp [BModel.refreshLoop, Reference.sweepTrees]
  | cons t ts ih =>
    intro hF done pred hpred r
    have hFt := hF t (by simp)
    obtain ⟨t1, e1, hH, hs1⟩ := BModel.refreshBegin_spec hX y pred hFt
    have htgt : (fun r => y r - (pred r - rowValue t r)) = fun i => y i - forest (done ++ ts.map look) (X i) := by
      funext i
      rw [hpred i, ← hFt.look_value hX i, forest_append, forest_append, List.map_cons, forest_cons]
      ring
    rw [htgt] at hH
    have hbody := treeBody_ref hX m hp1 hp2 hH r
    have hspec := BModel.treeBody_spec hX m hp1 hp2 hH r
    rw [hs1.look] at hbody
    simp only [BModel.refreshLoop, List.map_cons, Reference.sweepTrees, e1]
    cases e2 : BModel.treeBody m pGrow pPrune t1 r with
    | error e => rw [e2] at hbody; simp only at hbody ⊢; rw [hbody]
    | ok q =>
      obtain ⟨mu, t2, r1⟩ := q
      rw [e2] at hbody hspec
      simp only at hbody hspec ⊢
      rw [hbody]
      simp only
      obtain ⟨t3, e3, hF3, hs3⟩ := BModel.refreshEnd_spec hX (fun r => pred r - rowValue t r) hspec.fitted
      rw [e3]
      simp only
      have hpred' : ∀ i, pred i - rowValue t i + rowValue t2 i = forest ((done ++ [look t2]) ++ ts.map look) (X i) := by
        intro i
        rw [hpred i, ← hFt.look_value hX i, ← hspec.fitted.look_value hX i]
        simp only [forest_append, List.map_cons, forest_cons, forest]
        simp; ring
      have hrec := ih (fun t ht => hF t (by simp [ht])) (done ++ [look t2]) _ hpred' r1
      cases e4 : BModel.refreshLoop y (BModel.treeBody m pGrow pPrune) ts (fun i => pred i - rowValue t i + rowValue t2 i) r1 with
      | error e => rw [e4] at hrec; simp only at hrec ⊢; rw [hrec]
      | ok q =>
        obtain ⟨mus, pred3, ts1, r2⟩ := q
        rw [e4] at hrec
        simp only at hrec ⊢
        rw [hrec]
        simp [hs3.look]

/-- A model as the reference implementation sees it. -/
def lookModel (m : BModel K n p) : State K p := ⟨m.trees.map look, m.sigma.current⟩

/-- The settings of a model. -/
def settingsOf (m : BModel K n p) (pGrow pPrune : K) : Reference.Settings K := ⟨m.nTrees, m.alpha, m.beta, m.k, m.sigma.alpha, m.sigma.beta, pGrow, pPrune⟩

theorem sweepTrees_ref (hX : NoNan X) {m : BModel K n p} (h : ModelInv N X y m) {pGrow pPrune : K} (hp1 : pGrow ≠ 0) (hp2 : pPrune ≠ 0) (r : Rand K) :
    match m.sweepTrees pGrow pPrune r with
    | .error e => Reference.sweepTrees m.params pGrow pPrune X y [] (m.trees.map look) r = .error e
    | .ok (mus, m', r') => Reference.sweepTrees m.params pGrow pPrune X y [] (m.trees.map look) r = .ok (mus.map Option.isSome, m'.trees.map look, r') := by
  have hstart : ∃ f m1, m.startPrediction = .ok (f, m1) ∧ ModelInv N X y m1 ∧
      (∀ r, f r = sumValue m1.trees r) ∧ m1.trees.map look = m.trees.map look := by
    unfold BModel.startPrediction
    cases hp : m.prediction with
    | some f => exact ⟨f, m, rfl, h, h.pred f hp, rfl⟩
    | none =>
      obtain ⟨m1, e, h1, h2, h3, -⟩ := h.predict hX
      exact ⟨_, m1, e, h1, fun r => (h2 r).symm, look_forall₂ h3⟩
  obtain ⟨f, m1, e1, hI1, hf, hl⟩ := hstart
  unfold BModel.sweepTrees
  simp only [h.target, e1]
  rw [← hl]
  have h1 := refreshLoop_ref hX m.params hp1 hp2 (y := y) m1.trees hI1.fitted [] f (fun i => by rw [hf i, List.nil_append, forest_look hX hI1.fitted]) r
  cases e2 : BModel.refreshLoop y (BModel.treeBody m.params pGrow pPrune) m1.trees f r with
  | error e => rw [e2] at h1; exact h1
  | ok q =>
    obtain ⟨mus, f1, ts, r1⟩ := q
    rw [e2] at h1
    simpa using h1

theorem sigmaStep_ref (hX : NoNan X) {m : BModel K n p} (h : ModelInv N X y m) (pGrow pPrune : K) (r : Rand K) :
    match m.sigmaStep r with
    | .error e => Reference.sigmaStep (settingsOf m pGrow pPrune) X y (m.trees.map look) r.gammas = .error e
    | .ok (m', r') => Reference.sigmaStep (settingsOf m pGrow pPrune) X y (m.trees.map look) r.gammas = .ok (m'.sigma.current, r'.gammas) ∧ m'.trees.map look = m.trees.map look ∧
        r' = { r with gammas := r'.gammas } ∧ settingsOf m' pGrow pPrune = settingsOf m pGrow pPrune := by
  obtain ⟨m1, e, h1, h2, h3, h4⟩ := h.residuals hX
  have hs : ∀ i, y i - forest (m.trees.map look) (X i) = y i - sumValue m.trees i := fun i => by rw [forest_look hX h.fitted]
  unfold BModel.sigmaStep Reference.sigmaStep
  simp only [e, hs]
  have hsh : m.sigmaShape = (settingsOf m pGrow pPrune).sigmaA + (n : K) / 2 := by unfold BModel.sigmaShape; rw [h.obs]; simp [settingsOf]
  have hrt : m.sigmaRate (fun r => y r - sumValue m.trees r) = (settingsOf m pGrow pPrune).sigmaB + (1/2) * ∑ i, (y i - sumValue m.trees i) * (y i - sumValue m.trees i) := rfl
  rw [hsh, hrt]
  by_cases hc : (settingsOf m pGrow pPrune).sigmaA + (n : K) / 2 < 0 ∨ (settingsOf m pGrow pPrune).sigmaB + (1/2) * ∑ i, (y i - sumValue m.trees i) * (y i - sumValue m.trees i) < 0
  · simp only [if_pos hc]
  · simp only [if_neg hc]
    cases hg : r.gammas with
    | nil => rfl
    | cons g gs =>
      simp only
      cases hv : (MathFns.pow g (-(1/2) : K)).toFinite with
      | error e => rfl
      | ok v =>
        refine ⟨rfl, look_forall₂ h3, rfl, ?_⟩
        rw [h4]; rfl

theorem sweep_ref (hX : NoNan X) {m : BModel K n p} (h : ModelInv N X y m) {pGrow pPrune : K} (hp1 : pGrow ≠ 0) (hp2 : pPrune ≠ 0) (r : Rand K) :
    match m.sweep pGrow pPrune r with
    | .error e => Reference.sweep (settingsOf m pGrow pPrune) X y (lookModel m) r = .error e
    | .ok (mus, m', r') => Reference.sweep (settingsOf m pGrow pPrune) X y (lookModel m) r = .ok (mus.map Option.isSome, lookModel m', r') ∧
        settingsOf m' pGrow pPrune = settingsOf m pGrow pPrune := by
  have h1 := sweepTrees_ref hX h hp1 hp2 r
  have h2 := h.sweepTrees hX hp1 hp2 r
  unfold BModel.sweep Reference.sweep
  have hp : (settingsOf m pGrow pPrune).params (lookModel m).sigma = m.params := rfl
  rw [hp]
  simp only [show (settingsOf m pGrow pPrune).pGrow = pGrow from rfl, show (settingsOf m pGrow pPrune).pPrune = pPrune from rfl, show (lookModel m).trees = m.trees.map look from rfl]
  cases e1 : m.sweepTrees pGrow pPrune r with
  | error e => rw [e1] at h1; simp only at h1 ⊢; rw [h1]
  | ok q =>
    obtain ⟨mus, m1, r1⟩ := q
    rw [e1] at h1 h2
    obtain ⟨hI1, -, -, hm1⟩ := h2
    simp only at h1 ⊢
    rw [h1]
    have hset : settingsOf m1 pGrow pPrune = settingsOf m pGrow pPrune := by rw [hm1]; rfl
    have h3 := sigmaStep_ref hX hI1 pGrow pPrune r1
    rw [hset] at h3
    simp only
    cases e2 : m1.sigmaStep r1 with
    | error e => rw [e2] at h3; simp only at h3 ⊢; rw [h3]
    | ok q =>
      obtain ⟨m2, r2⟩ := q
      rw [e2] at h3
      obtain ⟨a1, a2, a3, a4⟩ := h3
      simp only
      rw [a1]
      refine ⟨?_, a4⟩
      simp only [lookModel, a2]
      rw [← a3]

/-- Any number of sweeps. -/
theorem sweeps_ref [FloorRing K] (hX : NoNan X) {pGrow pPrune : K} (hp1 : pGrow ≠ 0) (hp2 : pPrune ≠ 0) (k : Nat) : ∀ {m : BModel K n p} (_ : ModelInv N X y m) (r : Rand K),
    match Sim.sweeps pGrow pPrune k m r with
    | .error e => Reference.sweeps (settingsOf m pGrow pPrune) X y k (lookModel m) r = .error e
    | .ok (m', r') => ∃ l, Reference.sweeps (settingsOf m pGrow pPrune) X y k (lookModel m) r = .ok (l, lookModel m', r') ∧ l.length = k ∧
        ∀ i P r0 mus M rM, i < k → Sim.sweeps pGrow pPrune i m r = .ok (P, r0) → P.sweep pGrow pPrune r0 = .ok (mus, M, rM) → l[i]? = some (mus.map Option.isSome, lookModel M) := by
  induction k with
  | zero => intro m _ r; exact ⟨[], rfl, rfl, fun i _ _ _ _ _ hi => absurd hi (by omega)⟩
  | succ k ih =>
    intro m h r
    have h1 := sweep_ref hX h hp1 hp2 r
    have h2 := h.sweep hX hp1 hp2 r
    rw [Sim.sweeps_head]
    simp only [Reference.sweeps]
    cases e : m.sweep pGrow pPrune r with
    | error er => rw [e] at h1; simp only at h1 ⊢; rw [h1]
    | ok q =>
      obtain ⟨mus, m1, r1⟩ := q
      rw [e] at h1 h2
      obtain ⟨h1, hset⟩ := h1
      obtain ⟨hI1, -⟩ := h2
      simp only at h1 ⊢
      rw [h1]
      have hrec := ih hI1 r1
      rw [hset] at hrec
      simp only
      cases e2 : Sim.sweeps pGrow pPrune k m1 r1 with
      | error er => rw [e2] at hrec; simp only at hrec ⊢; rw [hrec]
      | ok q =>
        obtain ⟨m2, r2⟩ := q
        rw [e2] at hrec
        obtain ⟨l, a1, a2, a3⟩ := hrec
        simp only
        rw [a1]
        refine ⟨_, rfl, by simp [a2], ?_⟩
        intro i P r0 mus' M rM hi e3 e4
        cases i with
        | zero =>
          simp only [Sim.sweeps, Except.ok.injEq, Prod.mk.injEq] at e3
          obtain ⟨rfl, rfl⟩ := e3
          rw [e] at e4
          simp only [Except.ok.injEq, Prod.mk.injEq] at e4
          obtain ⟨rfl, rfl, rfl⟩ := e4
          rfl
        | succ i =>
          rw [Sim.sweeps_head, e] at e3
          simpa using a3 i P r0 mus' M rM (by omega) e3 e4

end sweep
end Bart
