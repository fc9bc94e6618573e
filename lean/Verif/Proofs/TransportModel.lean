import Verif.Proofs.TransportSampler

/-! The change of `Verif/Proofs/Transport.lean` commutes with the sweeps of the model, with the copies that are stored and with `fit`. -/

set_option linter.unusedSectionVars false

namespace Bart.Trans
variable {K : Type} [Field K] [LinearOrder K] {n p : Nat} (T : Trans K p)

def sigma (s : Sigma K) : Sigma K := { s with scalingFactor := T.scale s.scalingFactor }
def model (m : BModel K n p) : BModel K n p := { m with data := T.data m.data, sigma := T.sigma m.sigma, trees := m.trees.map T.tree }
def sigmaRef : SigmaRef K → SigmaRef K
  | .own s => .own (T.sigma s)
  | .live => .live
def stored (s : StoredModel K) : StoredModel K := { s with sigma := T.sigmaRef s.sigma }
def chain (c : Chain K n) : Chain K n := { c with model := c.model.map T.stored }
def sample (s : Sample K p) : Sample K p := ⟨s.n, T.model s.live, T.stored s.stored⟩
def out (o : ChainOut K p) : ChainOut K p := ⟨o.n, T.model o.live, T.chain o.chain⟩

theorem model_params (m : BModel K n p) : (T.model m).params = m.params := rfl

theorem model_construct (d : Data K n p) (s : Sigma K) (k : Nat) (a b c : K) :
    BModel.construct (T.data d) (T.sigma s) k a b c = (BModel.construct d s k a b c).map T.model := by
  unfold BModel.construct BModel.initTree
  have h : (T.data d).y.y = d.y.y := rfl
  rw [h]
  cases d.y.y with
  | none => rfl
  | some y =>
    simp only [tree_ofData, tree_updateY]
    cases (Tree.ofData d).updateY (some fun r => y r / (k : K)) with
    | error e => rfl
    | ok t1 =>
      simp only [Except.map, tree_updateY]
      cases t1.updateY none with
      | error e => rfl
      | ok t2 => simp only [Except.map, model, List.map_replicate]

theorem predictTrees_map (l : List (Tree K n p)) :
    BModel.predictTrees (l.map T.tree) = (BModel.predictTrees l).map (fun x => (x.1, x.2.map T.tree)) := by
  induction l with
  | nil => rfl
  | cons t l ih =>
    simp only [List.map_cons, BModel.predictTrees, tree_predict, ih]
    rcases t.predict with e | ⟨b, t1⟩
    · rfl
    · cases b with
      | none => rfl
      | wrong k => rfl
      | sized f => simp only [Except.map]; cases BModel.predictTrees l <;> rfl

theorem model_predict (m : BModel K n p) : (T.model m).predict = m.predict.map (fun x => (x.1, T.model x.2)) := by
  unfold BModel.predict
  have h : (T.model m).trees = m.trees.map T.tree := rfl
  rw [h, predictTrees_map]
  cases BModel.predictTrees m.trees <;> rfl

theorem model_residuals (m : BModel K n p) : (T.model m).residuals = m.residuals.map (fun x => (x.1, T.model x.2)) := by
  unfold BModel.residuals
  rw [model_predict]
  have h : (T.model m).data.y.y = m.data.y.y := rfl
  rw [h]
  cases m.predict with
  | error e => rfl
  | ok x => cases m.data.y.y <;> rfl

theorem model_startPrediction (m : BModel K n p) : (T.model m).startPrediction = m.startPrediction.map (fun x => (x.1, T.model x.2)) := by
  unfold BModel.startPrediction
  have h : (T.model m).prediction = m.prediction := rfl
  rw [h]
  cases m.prediction with
  | none => exact model_predict T m
  | some f => rfl

theorem refreshBegin_map (y pred : Fin n → K) (t : Tree K n p) :
    BModel.refreshBegin y pred (T.tree t) = (BModel.refreshBegin y pred t).map (fun x => (x.1, T.tree x.2)) := by
  unfold BModel.refreshBegin
  rw [tree_predict]
  rcases t.predict with e | ⟨b, t1⟩
  · rfl
  · cases b with
    | none => rfl
    | wrong k => rfl
    | sized f =>
      simp only [Except.map, tree_updateY]
      cases t1.updateY (some fun r => y r - (pred r - f r)) <;> rfl

theorem refreshEnd_map (pred : Fin n → K) (t : Tree K n p) :
    BModel.refreshEnd pred (T.tree t) = (BModel.refreshEnd pred t).map (fun x => (x.1, T.tree x.2)) := by
  unfold BModel.refreshEnd
  rw [tree_predict]
  rcases t.predict with e | ⟨b, t1⟩
  · rfl
  · cases b <;> rfl

theorem refreshLoop_map {S α : Type} (y : Fin n → K) (body : Tree K n p → S → Except PyErr (α × Tree K n p × S))
    (hb : ∀ t s, body (T.tree t) s = (body t s).map (fun x => (x.1, T.tree x.2.1, x.2.2))) (l : List (Tree K n p)) (pred : Fin n → K) (s : S) :
    BModel.refreshLoop y body (l.map T.tree) pred s = (BModel.refreshLoop y body l pred s).map (fun x => (x.1, x.2.1, x.2.2.1.map T.tree, x.2.2.2)) := by
  induction l generalizing pred s with
  | nil => rfl
  | cons t l ih =>
    simp only [List.map_cons, BModel.refreshLoop, refreshBegin_map]
    rcases BModel.refreshBegin y pred t with e | ⟨pred1, t1⟩
    · rfl
    · simp only [Except.map, hb]
      rcases body t1 s with e | ⟨a, t2, s1⟩
      · rfl
      · simp only [Except.map, refreshEnd_map]
        rcases BModel.refreshEnd pred1 t2 with e | ⟨pred2, t3⟩
        · rfl
        · simp only [Except.map, ih]
          rcases BModel.refreshLoop y body l pred2 s1 with e | ⟨as, pred3, ts, s2⟩ <;> rfl

variable [MathFns K]

theorem treeBody_map (m : Params K) (pg pp : K) (t : Tree K n p) (r : Rand K) :
    BModel.treeBody m pg pp (T.tree t) r = (BModel.treeBody m pg pp t r).map (fun x => (x.1, T.tree x.2.1, x.2.2)) := by
  unfold BModel.treeBody
  rw [tree_treeStep]
  rcases Sampler.treeStep m pg pp t r with e | ⟨mu, t1, r1⟩
  · rfl
  · simp only [Except.map, tree_leafSteps, tree_leafNodes]
    cases Sampler.leafSteps m t1.leafNodes t1 r1 <;> rfl

theorem model_sigmaStep (m : BModel K n p) (r : Rand K) : (T.model m).sigmaStep r = (m.sigmaStep r).map (fun x => (T.model x.1, x.2)) := by
  unfold BModel.sigmaStep
  rw [model_residuals]
  have h1 : (T.model m).sigmaShape = m.sigmaShape := rfl
  have h2 : ∀ res, (T.model m).sigmaRate res = m.sigmaRate res := fun _ => rfl
  rcases m.residuals with e | ⟨res, m1⟩
  · rfl
  · simp only [Except.map, h1, h2]
    split
    · rfl
    · cases r.gammas with
      | nil => rfl
      | cons g gs => simp only []; cases (MathFns.pow g (-(1 / 2) : K)).toFinite <;> rfl

theorem model_sweep (m : BModel K n p) (pg pp : K) (r : Rand K) : (T.model m).sweep pg pp r = (m.sweep pg pp r).map (fun x => (x.1, T.model x.2.1, x.2.2)) := by
  have h1 : (T.model m).sweepTrees pg pp r = (m.sweepTrees pg pp r).map (fun x => (x.1, T.model x.2.1, x.2.2)) := by
    unfold BModel.sweepTrees
    have h : (T.model m).data.y.y = m.data.y.y := rfl
    rw [h]
    cases m.data.y.y with
    | none => rfl
    | some y =>
      simp only [model_startPrediction, model_params]
      rcases m.startPrediction with e | ⟨f, m1⟩
      · rfl
      · have h3 : (T.model m1).trees = m1.trees.map T.tree := rfl
        simp only [Except.map, h3, refreshLoop_map T y _ (treeBody_map T m.params pg pp)]
        cases BModel.refreshLoop y (BModel.treeBody m.params pg pp) m1.trees f r <;> rfl
  unfold BModel.sweep
  rw [h1]
  rcases m.sweepTrees pg pp r with e | ⟨mus, m1, r1⟩
  · rfl
  · simp only [Except.map, model_sigmaStep]
    cases m1.sigmaStep r1 <;> rfl

/-! ### stored copies -/

theorem heap_deepCopyNode (h : Heap K n p) (i : Nat) : (T.heap h).deepCopyNode i = ((h.deepCopyNode i).1, T.heap (h.deepCopyNode i).2) := by
  unfold Heap.deepCopyNode
  have e : ((T.heap h).node i).kind = (h.node i).kind := rfl
  simp only [e]
  cases (h.node i).kind with
  | leaf => exact heap_allocNode T h { kind := .leaf, depth := (h.node i).depth, split := (h.node i).split, left := none, right := none, value := (h.node i).value }
  | decision =>
    exact heap_allocNode T h { kind := .decision, depth := (h.node i).depth, split := (h.node i).split, left := (h.node i).left, right := (h.node i).right, value := 0 }

theorem heap_copyNodes (l : List Nat) (h : Heap K n p) : Tree.copyNodes l (T.heap h) = ((Tree.copyNodes l h).1, T.heap (Tree.copyNodes l h).2) := by
  induction l generalizing h with
  | nil => rfl
  | cons i l ih => simp only [Tree.copyNodes, heap_deepCopyNode, ih]

theorem tree_deepCopy (t : Tree K n p) : (T.tree t).deepCopy = (t.deepCopy.1, T.tree t.deepCopy.2) := by
  unfold Tree.deepCopy
  have h : (T.tree t).heap = T.heap t.heap := rfl
  have h3 : (T.tree t).nodes = t.nodes := rfl
  simp only [h, h3, heap_copyNodes]; rfl

theorem model_deepCopy (m : BModel K n p) : (T.model m).deepCopy = (T.stored m.deepCopy.1, T.model m.deepCopy.2) := by
  unfold BModel.deepCopy
  have h : (T.model m).trees = m.trees.map T.tree := rfl
  simp only [h, List.length_map, List.map_map, Function.comp_def, tree_deepCopy]
  simp [model, stored, sigmaRef]

theorem tree_stored (t : Tree K n p) (ids : List Nat) : (T.tree t).stored ids = T.tree (t.stored ids) := rfl

theorem model_storedTrees (m : BModel K n p) (s : StoredModel K) : (T.model m).storedTrees (T.stored s) = (m.storedTrees s).map T.tree := by
  unfold BModel.storedTrees
  have h : (T.model m).trees = m.trees.map T.tree := rfl
  have h2 : (T.stored s).trees = s.trees := rfl
  rw [h, h2, List.zipWith_map_left, List.map_zipWith]
  simp only [tree_stored]

theorem model_storedPredictX {q : Nat} (m : BModel K n p) (s : StoredModel K) (X : Fin q → Fin p → Fl K) :
    (T.model m).storedPredictX (T.stored s) (T.mat X) = m.storedPredictX s X := by
  funext r
  unfold BModel.storedPredictX
  rw [model_storedTrees, List.map_map]
  simp only [Function.comp_def, tree_predictX]

theorem sample_predictX {q : Nat} (s : Sample K p) (X : Fin q → Fin p → Fl K) : (T.sample s).predictX (T.mat X) = s.predictX X :=
  model_storedPredictX T s.live s.stored X

variable [FloorRing K]

theorem model_burn (c : SampleParams K) (k : Nat) (m : BModel K n p) (r : Rand K) : BModel.burn c k (T.model m) r = (BModel.burn c k m r).map (fun x => (T.model x.1, x.2)) := by
  induction k generalizing m r with
  | zero => rfl
  | succ k ih =>
    simp only [BModel.burn, model_sweep]
    rcases m.sweep c.pGrow c.pPrune r with e | ⟨mus, m1, r1⟩
    · rfl
    · exact ih m1 r1

theorem model_recordPrediction (c : SampleParams K) (m : BModel K n p) :
    BModel.recordPrediction c (T.model m) = (BModel.recordPrediction c m).map (fun x => (x.1, T.model x.2)) := by
  unfold BModel.recordPrediction
  split
  · rw [model_predict]
    cases m.predict <;> rfl
  · rfl

theorem model_sampleLoop (c : SampleParams K) (ti : K) (k ss : Nat) (m : BModel K n p) (r : Rand K) :
    BModel.sampleLoop c ti k ss (T.model m) r = (BModel.sampleLoop c ti k ss m r).map (fun x => (T.chain x.1, T.model x.2.1, x.2.2)) := by
  induction k generalizing ss m r with
  | zero => rfl
  | succ k ih =>
    simp only [BModel.sampleLoop, model_sweep]
    rcases m.sweep c.pGrow c.pPrune r with e | ⟨mus, m1, r1⟩
    · rfl
    · simp only [Except.map]
      split
      · rw [model_recordPrediction]
        rcases BModel.recordPrediction c m1 with e | ⟨fs, m2⟩
        · rfl
        · simp only [Except.map, model_deepCopy, ih]
          rcases BModel.sampleLoop c ti k (ss + 1) m2.deepCopy.2 r1 with e | ⟨ch, m3, r3⟩ <;> rfl
      · exact ih (ss + 1) m1 r1

theorem model_samples (c : SampleParams K) (k b : Nat) (m : BModel K n p) (r : Rand K) :
    (T.model m).samples c k b r = (m.samples c k b r).map (fun x => (T.chain x.1, T.model x.2.1, x.2.2)) := by
  unfold BModel.samples
  rw [model_burn]
  rcases BModel.burn c b m r with e | ⟨m1, r1⟩
  · rfl
  · simp only [Except.map]
    split
    · rfl
    · exact model_sampleLoop T c _ k 0 m1 r1

/-! ### `fit` -/

/-- What the change does to the combined samples. -/
def combined (c : Combined K p) : Combined K p := { c with models := c.models.map T.sample }

theorem combineChains_map (l : List (ChainOut K p)) : combineChains (l.map T.out) = (combineChains l).map T.combined := by
  unfold combineChains
  cases l with
  | nil => rfl
  | cons o l =>
    have h1 : ((o :: l).map T.out).map ChainOut.predictions = (o :: l).map ChainOut.predictions := by
      rw [List.map_map]; rfl
    have h2 : ((o :: l).map T.out).map (fun o => o.chain.acceptance) = (o :: l).map (fun o => o.chain.acceptance) := by
      rw [List.map_map]; rfl
    have h3 : (((o :: l).map T.out).map ChainOut.models).flatten = (((o :: l).map ChainOut.models).flatten).map T.sample := by
      rw [List.map_map, List.map_flatten, List.map_map]
      congr 2
      funext o
      simp only [Function.comp_def, ChainOut.models, out, chain, List.map_map]
      rfl
    rw [List.map_cons] at h1 h2 h3 ⊢
    simp only [h1, h2, h3]
    cases concatRows ((o :: l).map ChainOut.predictions) <;> rfl

variable (s : SkModel K p)

/-- Data sets whose `Data` objects correspond give corresponding chains. -/
structure DataMap (X : Fin n → Fin p → Fl K) (y y' : Fin n → K) : Prop where
  init : ∀ m k ys, Target.init y' m k true ys = (Target.init y m k true ys).map T.tgt
  scale : ∀ d : Data K n p, SkModel.convertData X y = .ok d → (T.data d).y.normalizingScale = d.y.normalizingScale.map T.scale

theorem convertData_map {X : Fin n → Fin p → Fl K} {y y' : Fin n → K} (h : T.DataMap X y y') :
    SkModel.convertData (T.mat X) y' = (SkModel.convertData X y).map T.data := data_init T X y none none none none none y' h.init

theorem constructModel_map {X : Fin n → Fin p → Fl K} {y y' : Fin n → K} (h : T.DataMap X y y') :
    s.constructModel (T.mat X) y' = (s.constructModel X y).map (fun x => (T.data x.1, T.model x.2)) := by
  unfold SkModel.constructModel
  rw [convertData_map T h]
  split
  · rfl
  · cases hd : SkModel.convertData X y with
    | error e => rfl
    | ok d =>
      simp only [Except.map, h.scale d hd]
      cases d.y.normalizingScale with
      | error e => rfl
      | ok c =>
        have e : ({ alpha := s.sigmaA, beta := s.sigmaB, current := 1, scalingFactor := T.scale c } : Sigma K) =
          T.sigma { alpha := s.sigmaA, beta := s.sigmaB, current := 1, scalingFactor := c } := rfl
        simp only [Except.map, e, model_construct]
        cases BModel.construct d { alpha := s.sigmaA, beta := s.sigmaB, current := 1, scalingFactor := c } s.nTrees s.alpha s.beta 2 <;> rfl

theorem runChain_map {X : Fin n → Fin p → Fl K} {y y' : Fin n → K} (h : T.DataMap X y y') (r : Rand K) :
    s.runChain (T.mat X) y' r = (s.runChain X y r).map T.out := by
  unfold SkModel.runChain
  rw [constructModel_map T s h]
  rcases s.constructModel X y with e | ⟨d, m⟩
  · rfl
  · simp only [Except.map, model_samples]
    cases m.samples s.sampleParams s.nSamples s.nBurn r <;> rfl

theorem runChains_map {X : Fin n → Fin p → Fl K} {y y' : Fin n → K} (h : T.DataMap X y y') (rs : List (Rand K)) :
    s.runChains (T.mat X) y' rs = (s.runChains X y rs).map (List.map T.out) := by
  induction rs with
  | nil => rfl
  | cons r rs ih =>
    simp only [SkModel.runChains, runChain_map T s h, ih]
    cases s.runChain X y r with
    | error e => rfl
    | ok o => simp only [Except.map]; cases s.runChains X y rs <;> rfl

/-- What the change does to a fitted estimator. -/
def fitted (s : SkModel K p) : SkModel K p :=
  { s with data := s.data.map (fun d => ⟨d.1, T.data d.2⟩), model := s.model.map (fun m => ⟨m.1, T.model m.2⟩), samples := s.samples.map T.combined
           extract := s.extract.map (List.map T.out) }

theorem fit_map {X : Fin n → Fin p → Fl K} {y y' : Fin n → K} (h : T.DataMap X y y') (rs : Nat → Rand K) :
    s.fit (T.mat X) y' rs = (s.fit X y rs).map T.fitted := by
  unfold SkModel.fit
  rw [constructModel_map T s h]
  rcases s.constructModel X y with e | ⟨d, m⟩
  · rfl
  · simp only [Except.map, runChains_map T s h]
    cases s.runChains X y ((List.range s.nChains).map rs) with
    | error e => rfl
    | ok os =>
      simp only [Except.map, combineChains_map]
      cases combineChains os <;> rfl

end Bart.Trans
