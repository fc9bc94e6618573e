import Verif.Proofs.LayerStep
import Verif.Proofs.RefSweep

/-! A sweep with the oblivious tree sampler is a sweep of the reference implementation. -/

set_option linter.unusedSectionVars false

namespace Bart.Oblivious
open Bart Spec Reference
variable {K : Type} [Field K] [LinearOrder K] {n p : Nat} {X : Fin n → Fin p → Fl K}

theorem Shows.of_node {t t' : Tree K n p} {T : Layers.LTree K p} (hS : Shows t T) (hlt : ∀ i ∈ t.nodes, i < t.heap.nextNode) (hN : t'.nodes = t.nodes) (h1 : t'.heap.node = t.heap.node)
    (h2 : t'.heap.nextNode = t.heap.nextNode) : Shows t' T := by
  refine ⟨hS.1.congr hlt hN (by rw [h2]) (fun k _ => by rw [h1]; exact SameNode.refl _), ?_⟩
  have : t'.leafNodes = t.leafNodes := by unfold Tree.leafNodes; rw [hN, h1]
  rw [this, h1]; exact hS.2

theorem Shows.ext {t t' : Tree K n p} {T : Layers.LTree K p} (hS : Shows t T) (hlt : ∀ i ∈ t.nodes, i < t.heap.nextNode) (he : TreeExt t t') : Shows t' T := by
  refine ⟨hS.1.ext hlt he, ?_⟩
  have hl : t'.leafNodes = t.leafNodes := by
    unfold Tree.leafNodes; rw [he.nodes]
    apply List.filter_congr
    intro i hi
    rw [he.heap.node i (hlt i hi)]
  rw [hl, ← hS.2]
  apply List.map_congr_left
  intro i hi
  rw [he.heap.node i (hlt i (List.mem_filter.1 hi).1)]

section
variable [MathFns K]

/-- The leaf steps over a part of the leaves. -/
theorem leafSteps_ref (hX : NoNan X) {y : Fin n → K} (m : Params K) {layers : List (List (Layers.Rule K p))} (is : List NodeId) :
    ∀ {t : Tree K n p} (_ : OMid X y t) (_ : View t layers) (_ : ∀ i ∈ is, i ∈ t.leafNodes) (_ : is.Nodup) (r : Rand K),
    match Sampler.leafSteps m is t r with
    | .error e => Layers.leafValues m X y (is.map (pathOf t.heap)) r.normals = .error e
    | .ok (t', r') => Layers.leafValues m X y (is.map (pathOf t.heap)) r.normals = .ok (is.map (fun i => (t'.heap.node i).value), r'.normals) ∧ r' = { r with normals := r'.normals } ∧
        View t' layers ∧ t'.leafNodes = t.leafNodes ∧ ∀ k ∈ t.leafNodes, k ∉ is → (t'.heap.node k).value = (t.heap.node k).value := by
  induction is with
  | nil => intro t _ hv _ _ r; exact ⟨rfl, rfl, hv, rfl, fun k _ _ => rfl⟩
  | cons i is ih =>
    intro t hM hv hmem hnd r
    obtain ⟨s, d, hT⟩ := hM.tree
    have hi := hmem i (by simp)
    have hin := (List.mem_filter.1 hi).1
    rw [List.nodup_cons] at hnd
    obtain ⟨q, hok⟩ := hT.inv.nodeOk hin
    obtain ⟨h', e1, x1⟩ := Lik.sumYOf_spec hok
    have hst := oleafStep_spec hM m hi r
    unfold Sampler.leafSteps
    unfold Sampler.leafStep at hst ⊢
    rw [List.map_cons]
    simp only [e1, Lik.nObsv_spec hok, hT.inv.rows_on hX hin] at hst ⊢
    cases hz : r.normals with
    | nil => rfl
    | cons z zs =>
      rw [hz] at hst
      simp only [Layers.leafValues] at hst ⊢
      cases hval : (Sampler.leafValue m (Fl.ofInt (count (Layers.rowsOn X (pathOf t.heap i)))) (.fin (total y (Layers.rowsOn X (pathOf t.heap i)))) (.fin z)).toFinite with
      | error e => rfl
      | ok v =>
        rw [hval] at hst
        simp only at hst ⊢
        obtain ⟨hM1, -, hl1⟩ := hst
        have hsame : ∀ j, (h'.setValue i v).node j = (if j = i then { h'.node j with value := v } else h'.node j) := by
          intro j
          by_cases hj : j = i
          · subst hj; simp [Heap.setValue, Heap.setNode]
          · simp [Heap.setValue, Heap.setNode, hj]
        have hlt : ∀ k ∈ t.nodes, k < t.heap.nextNode := fun k hk => hT.inv.mem_lt hk
        have hsn : ∀ k < t.heap.nextNode, SameNode (t.heap.node k) ((h'.setValue i v).node k) := by
          intro k hk
          rw [hsame, x1.node k hk]
          split <;> exact ⟨rfl, rfl, rfl, rfl, rfl⟩
        have hv1 : View ({ t with heap := h'.setValue i v } : Tree K n p) layers := hv.congr hlt rfl x1.nextNode hsn
        have hpath : is.map (pathOf t.heap) = is.map (pathOf (h'.setValue i v)) := by
          apply List.map_congr_left
          intro k hk
          unfold pathOf
          rw [(hsn k (hlt k (List.mem_filter.1 (hmem k (by simp [hk]))).1)).split]
        have h2 := ih hM1 hv1 (fun k hk => by rw [hl1]; exact hmem k (by simp [hk])) hnd.2 { r with normals := zs }
        rw [hpath]
        simp only at h2
        cases e2 : Sampler.leafSteps m is { t with heap := h'.setValue i v } { r with normals := zs } with
        | error er =>
          rw [e2] at h2
          simp only at h2 ⊢
          rw [h2]
        | ok q2 =>
          obtain ⟨t2, r2⟩ := q2
          rw [e2] at h2
          obtain ⟨a1, a2, a3, a4, a5⟩ := h2
          simp only at a1 ⊢
          rw [a1]
          refine ⟨?_, a2, a3, a4.trans hl1, fun k hk hki => ?_⟩
          · simp only [List.map_cons]
            rw [a5 i (by rw [hl1]; exact hi) hnd.1]
            simp only [hsame, if_true]
          · rw [a5 k (by rw [hl1]; exact hk) (fun h => hki (by simp [h]))]
            rw [hsame, if_neg (fun h => hki (by simp [h])), x1.node k (hlt k (List.mem_filter.1 hk).1)]

/-- What a sweep does to one tree. -/
theorem treeBody_ref (hX : NoNan X) {y : Fin n → K} {t : Tree K n p} (hM : OMid X y t) {T : Layers.LTree K p} (hS : Shows t T) (m : Params K) {pGrow pPrune : K} (hp1 : pGrow ≠ 0)
    (hp2 : pPrune ≠ 0) (r : Rand K) :
    match treeBody m pGrow pPrune t r with
    | .error e => Layers.treeBody m pGrow pPrune X y T r = .error e
    | .ok (mu, t', r') => ∃ T', Layers.treeBody m pGrow pPrune X y T r = .ok (mu.isSome, T', r') ∧ Shows t' T' ∧ OMid X y t' := by
  obtain ⟨s, d, hT⟩ := hM.tree
  have h1 := treeStep_ref hX hT hS.1 m hp1 hp2 r
  unfold treeBody Layers.treeBody
  cases e : treeStep m pGrow pPrune t r with
  | error er => rw [e] at h1; simp only at h1 ⊢; rw [h1]
  | ok q =>
    obtain ⟨mu, t1, r1⟩ := q
    rw [e] at h1
    obtain ⟨layers, a1, a2⟩ := h1
    have hM1 := (otreeStep_mid hX hM m pGrow pPrune r e).1
    obtain ⟨s1, d1, hT1⟩ := hM1.tree
    have hnd : t1.leafNodes.Nodup := (hT1.inv.perm.nodup_iff.2 hT1.inv.nodup).filter _
    have h2 := leafSteps_ref hX m t1.leafNodes hM1 a2 (fun _ h => h) hnd r1
    have h3 := oleafSteps_spec m t1.leafNodes hM1 (fun _ h => h) r1
    rw [a2.leaves hT1] at h2
    simp only
    rw [a1]
    simp only
    cases e2 : Sampler.leafSteps m t1.leafNodes t1 r1 with
    | error er => rw [e2] at h2; simp only at h2 ⊢; rw [h2]
    | ok q2 =>
      obtain ⟨t2, r2⟩ := q2
      rw [e2] at h2 h3
      obtain ⟨b1, b2, b3, b4, -⟩ := h2
      simp only
      rw [b1]
      refine ⟨_, by simp only; rw [← b2], ⟨b3, ?_⟩, h3.1⟩
      rw [b4]

end

/-! ### all trees -/

theorem layer_forest_append (a b : List (Layers.LTree K p)) (x : Fin p → Fl K) : Layers.forest (a ++ b) x = Layers.forest a x + Layers.forest b x := by
  simp [Layers.forest]

theorem layer_forest_cons (t : Layers.LTree K p) (b : List (Layers.LTree K p)) (x : Fin p → Fl K) : Layers.forest (t :: b) x = t.value x + Layers.forest b x := by
  simp [Layers.forest]

theorem OLive.value {t : Tree K n p} (hL : OLive X t) {T : Layers.LTree K p} (hS : Shows t T) {q : Nat} (Z : Fin q → Fin p → Fl K) (r : Fin q) (hx : GoodRow (Z r)) :
    T.value (Z r) = t.predictX Z r := by
  obtain ⟨y, s, d, hT⟩ := hL.tree
  exact hS.value hT Z r hx

theorem forest_shows {ts : List (Tree K n p)} {Ts : List (Layers.LTree K p)} (h : List.Forall₂ Shows ts Ts) (hL : ∀ t ∈ ts, OLive X t) {q : Nat} (Z : Fin q → Fin p → Fl K) (r : Fin q)
    (hx : GoodRow (Z r)) : Layers.forest Ts (Z r) = (ts.map (fun t => t.predictX Z r)).sum := by
  induction h with
  | nil => rfl
  | cons hd _ ih =>
    rw [layer_forest_cons, List.map_cons, List.sum_cons, ih (fun t ht => hL t (by simp [ht])), (hL _ (by simp)).value hd Z r hx]

section
variable [MathFns K]

theorem refreshLoop_ref (hX : ∀ r, GoodRow (X r)) (y : Fin n → K) (m : Params K) {pGrow pPrune : K} (hp1 : pGrow ≠ 0) (hp2 : pPrune ≠ 0) {ts : List (Tree K n p)} {Ts : List (Layers.LTree K p)}
    (h : List.Forall₂ Shows ts Ts) : (∀ t ∈ ts, OLive X t) → ∀ (done : List (Layers.LTree K p)) (pred : Fin n → K) (_ : ∀ i, pred i = Layers.forest (done ++ Ts) (X i)) (r : Rand K),
    match BModel.refreshLoop y (treeBody m pGrow pPrune) ts pred r with
    | .error e => Layers.sweepTrees m pGrow pPrune X y done Ts r = .error e
    | .ok (mus, f, ts', r') => ∃ Ts', Layers.sweepTrees m pGrow pPrune X y done Ts r = .ok (mus.map Option.isSome, done ++ Ts', r') ∧ List.Forall₂ Shows ts' Ts' ∧
        ∀ i, f i = Layers.forest (done ++ Ts') (X i) := by
  have hX' : NoNan X := fun r v => (hX r v).1
  induction h with
  | nil => intro _ done pred hp r; exact ⟨[], by simp [Layers.sweepTrees], .nil, hp⟩
  | @cons t T ts Ts hd _ ih =>
    intro hL done pred hp r
    obtain ⟨t1, e1, hM1, -, n1, n2, n3⟩ := (hL t (by simp)).begin hX y pred
    have hS1 : Shows t1 T := hd.of_node (fun i hi => (hL t (by simp)).mem_lt hi) n1 n2 n3
    have hval : ∀ i, T.value (X i) = t.predictX X i := fun i => (hL t (by simp)).value hd X i (hX i)
    have hres : (fun i => y i - (pred i - t.predictX X i)) = fun i => y i - Layers.forest (done ++ Ts) (X i) := by
      funext i
      rw [hp i, layer_forest_append, layer_forest_append, layer_forest_cons, hval i]
      ring
    rw [hres] at hM1
    have h2 := treeBody_ref hX' hM1 hS1 m hp1 hp2 r
    unfold BModel.refreshLoop Layers.sweepTrees
    simp only [e1]
    cases e2 : treeBody m pGrow pPrune t1 r with
    | error er => rw [e2] at h2; simp only at h2 ⊢; rw [h2]
    | ok q =>
      obtain ⟨mu, t2, r2⟩ := q
      rw [e2] at h2
      obtain ⟨T2, a1, hS2, hM2⟩ := h2
      obtain ⟨t3, e3, hL3, h31, h32⟩ := hM2.finish hX (fun r => pred r - t.predictX X r)
      obtain ⟨s2, d2, hT2⟩ := hM2.tree
      have hval2 : ∀ i, T2.value (X i) = t2.predictX X i := fun i => hS2.value hT2 X i (hX i)
      have hS3 : Shows t3 T2 := hS2.of_node (fun i hi => hT2.inv.mem_lt hi) h32 (by rw [h31]) (by rw [h31])
      simp only [e3]
      rw [a1]
      simp only
      have h4 := ih (fun t ht => hL t (by simp [ht])) (done ++ [T2]) (fun r => pred r - t.predictX X r + t2.predictX X r) (fun i => by
        rw [hp i, layer_forest_append, layer_forest_append, layer_forest_append, layer_forest_cons, layer_forest_cons, hval i, hval2 i]
        simp [Layers.forest]
        ring) r2
      cases e4 : BModel.refreshLoop y (treeBody m pGrow pPrune) ts (fun r => pred r - t.predictX X r + t2.predictX X r) r2 with
      | error er => rw [e4] at h4; simp only at h4 ⊢; rw [h4]
      | ok q4 =>
        obtain ⟨mus, f, ts', r4⟩ := q4
        rw [e4] at h4
        obtain ⟨Ts', b1, b2, b3⟩ := h4
        simp only
        rw [b1]
        refine ⟨T2 :: Ts', by simp, .cons hS3 b2, fun i => ?_⟩
        rw [b3 i, List.append_assoc]; rfl

end

/-! ### the model -/

/-- The model shows this state of the reference implementation. -/
structure LModel (X : Fin n → Fin p → Fl K) (y : Fin n → K) (c : Reference.Settings K) (m : BModel K n p) (st : Layers.State K p) : Prop where
  model : OModel X m
  target : m.data.y.y = some y
  obs : m.data.X.nObsv = (n : Int)
  pred : ∀ f, m.prediction = some f → ∀ i, f i = Layers.forest st.trees (X i)
  trees : List.Forall₂ Shows m.trees st.trees
  sigma : m.sigma.current = st.sigma
  settings : settingsOf m c.pGrow c.pPrune = c

theorem LModel.predictX {y : Fin n → K} {c : Reference.Settings K} {m : BModel K n p} {st : Layers.State K p} (h : LModel X y c m st) {q : Nat} (Z : Fin q → Fin p → Fl K) (r : Fin q)
    (hx : GoodRow (Z r)) : m.predictX Z r = Layers.forest st.trees (Z r) :=
  (forest_shows h.trees h.model.trees Z r hx).symm

theorem predictTrees_shows (hX : ∀ r, GoodRow (X r)) {ts : List (Tree K n p)} {Ts : List (Layers.LTree K p)} (h : List.Forall₂ Shows ts Ts) : (∀ t ∈ ts, OLive X t) →
    ∀ {f ts'}, BModel.predictTrees ts = .ok (f, ts') → List.Forall₂ Shows ts' Ts := by
  induction h with
  | nil => intro _ f ts' e; cases e; exact .nil
  | @cons t T ts Ts hd _ ih =>
    intro hL f ts' e
    obtain ⟨t', e1, h1, h2, -, -⟩ := (hL t (by simp)).predict hX
    unfold BModel.predictTrees at e
    rw [e1] at e
    simp only at e
    cases e2 : BModel.predictTrees ts with
    | error er => rw [e2] at e; cases e
    | ok q =>
      obtain ⟨g, ts1⟩ := q
      rw [e2] at e
      cases e
      exact .cons (hd.of_node (fun i hi => (hL t (by simp)).mem_lt hi) h2 (by rw [h1]) (by rw [h1])) (ih (fun t ht => hL t (by simp [ht])) e2)

theorem LModel.predict (hX : ∀ r, GoodRow (X r)) {y : Fin n → K} {c : Reference.Settings K} {m : BModel K n p} {st : Layers.State K p} (h : LModel X y c m st) :
    ∃ m', m.predict = .ok (fun i => Layers.forest st.trees (X i), m') ∧ LModel X y c m' st ∧ Kept m m' ∧ m'.sigma = m.sigma := by
  obtain ⟨m', e, h1, h2, h3, h4⟩ := h.model.predict hX
  have hf : m.predictX X = fun i => Layers.forest st.trees (X i) := funext (fun i => h.predictX X i (hX i))
  refine ⟨m', by rw [e, hf], ?_, ⟨h2, h3, by rw [h4], by rw [h4]⟩, h4⟩
  unfold BModel.predict at e
  cases e2 : BModel.predictTrees m.trees with
  | error er => rw [e2] at e; cases e
  | ok q =>
    obtain ⟨g, ts1⟩ := q
    rw [e2] at e
    cases e
    exact ⟨h1, h.target, h.obs, h.pred, predictTrees_shows hX h.trees h.model.trees e2, h.sigma, h.settings⟩

theorem LModel.copy [MathFns K] {y : Fin n → K} {c : Reference.Settings K} {m : BModel K n p} {st : Layers.State K p} (h : LModel X y c m st) : LModel X y c m.deepCopy.2 st := by
  refine ⟨h.model.copy.1, h.target, h.obs, h.pred, ?_, h.sigma, h.settings⟩
  have hd : m.deepCopy.2.trees = m.trees.map (fun t => t.deepCopy.2) := rfl
  rw [hd, List.forall₂_map_left_iff]
  have := h.model.trees
  revert this
  have ht := h.trees
  revert ht
  generalize m.trees = l
  generalize st.trees = l'
  intro ht
  induction ht with
  | nil => intro _; exact .nil
  | cons hd _ ih => intro hL; exact .cons (hd.ext (fun i hi => (hL _ (by simp)).mem_lt hi) (deepCopy_ext _)) (ih (fun t ht => hL t (by simp [ht])))

section
variable [IsStrictOrderedRing K] [MathFns K]

theorem sweep_ref (hX : ∀ r, GoodRow (X r)) {y : Fin n → K} {c : Reference.Settings K} (hp1 : c.pGrow ≠ 0) (hp2 : c.pPrune ≠ 0) {m : BModel K n p} {st : Layers.State K p}
    (h : LModel X y c m st) (r : Rand K) :
    match Oblivious.sweep m c.pGrow c.pPrune r with
    | .error e => Layers.sweep c X y st r = .error e
    | .ok (mus, m', r') => ∃ st', Layers.sweep c X y st r = .ok (mus.map Option.isSome, st', r') ∧ LModel X y c m' st' ∧ Kept m m' := by
  have hkeep := h.model.sweep hX c.pGrow c.pPrune r
  have hstart : ∃ f m1, m.startPrediction = .ok (f, m1) ∧ LModel X y c m1 st ∧ ∀ i, f i = Layers.forest st.trees (X i) := by
    unfold BModel.startPrediction
    cases hp : m.prediction with
    | some f => exact ⟨f, m, rfl, h, h.pred f hp⟩
    | none => obtain ⟨m1, e, h1, -⟩ := h.predict hX; exact ⟨_, m1, e, h1, fun _ => rfl⟩
  obtain ⟨f, m1, e1, hM1, hf⟩ := hstart
  have hpar : c.params st.sigma = m.params := by
    rw [← h.sigma]
    have := h.settings
    unfold settingsOf at this
    unfold Settings.params BModel.params
    rw [← this]
  have hloop := refreshLoop_ref hX y m.params hp1 hp2 hM1.trees hM1.model.trees [] f hf r
  unfold Layers.sweep
  rw [hpar]
  unfold Oblivious.sweep sweepTrees at hkeep ⊢
  simp only [h.target, e1] at hkeep ⊢
  cases e2 : BModel.refreshLoop y (treeBody m.params c.pGrow c.pPrune) m1.trees f r with
  | error er => rw [e2] at hloop; simp only at hloop ⊢; rw [hloop]
  | ok q =>
    obtain ⟨mus, f1, ts, r1⟩ := q
    have hlive := refreshLoop_live (body := treeBody m.params c.pGrow c.pPrune) (Err := StepError X c.pGrow c.pPrune) hX y
      (fun {z t s e} hz h => by have := otreeBody_spec (fun r v => (hX r v).1) hz m.params c.pGrow c.pPrune s; rw [h] at this; exact this)
      (fun {z t t' s s' a} hz h => by have := otreeBody_spec (fun r v => (hX r v).1) hz m.params c.pGrow c.pPrune s; rw [h] at this; exact this) hM1.model.trees f r
    rw [e2] at hloop hkeep hlive
    obtain ⟨Ts, a1, a2, a3⟩ := hloop
    rw [a1]
    simp only [List.nil_append] at hkeep a3 ⊢
    have hM2 : LModel X y c { m1 with trees := ts, prediction := some f1 } ⟨Ts, st.sigma⟩ :=
      ⟨⟨hM1.model.target, hM1.model.rows, hlive.1⟩, hM1.target, hM1.obs, fun g hg => by cases hg; exact a3, a2, hM1.sigma, hM1.settings⟩
    generalize ({ m1 with trees := ts, prediction := some f1 } : BModel K n p) = m2 at hM2 hkeep ⊢
    obtain ⟨m3, e3, hM3, -, hs3⟩ := hM2.predict hX
    unfold BModel.sigmaStep BModel.residuals at hkeep ⊢
    unfold Layers.sigmaStep
    have hsh : m2.sigmaShape = c.sigmaA + (n : K) / 2 := by
      unfold BModel.sigmaShape; rw [hM2.obs, ← hM2.settings]; simp [settingsOf]
    have hrt : m2.sigmaRate (fun r => y r - Layers.forest Ts (X r)) = c.sigmaB + (1/2) * ∑ i, (y i - Layers.forest Ts (X i)) * (y i - Layers.forest Ts (X i)) := by
      unfold BModel.sigmaRate; rw [← hM2.settings]; simp [settingsOf]
    simp only [e3, hM2.target, hsh, hrt] at hkeep ⊢
    by_cases hc : c.sigmaA + (n : K) / 2 < 0 ∨ c.sigmaB + (1/2) * ∑ i, (y i - Layers.forest Ts (X i)) * (y i - Layers.forest Ts (X i)) < 0
    · simp only [if_pos hc]
    · simp only [if_neg hc] at hkeep ⊢
      cases hg : r1.gammas with
      | nil => rfl
      | cons g gs =>
        rw [hg] at hkeep
        simp only at hkeep ⊢
        cases hv : (MathFns.pow g (-(1/2) : K)).toFinite with
        | error e => rfl
        | ok v =>
          rw [hv] at hkeep
          exact ⟨⟨Ts, v⟩, rfl, ⟨hkeep.1, hM3.target, hM3.obs, hM3.pred, hM3.trees, rfl, hM3.settings⟩, hkeep.2⟩

end

end Bart.Oblivious
