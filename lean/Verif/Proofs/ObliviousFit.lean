import Verif.Model.ObliviousFit
import Verif.Proofs.ObliviousPredict
import Verif.Props.SklearnProps

/-! A fit with the oblivious tree sampler: what holds of all trees, and what becomes of the stored samples. -/

set_option linter.unusedSectionVars false

namespace Bart
variable {K : Type} [Field K] [LinearOrder K] {n p : Nat}

theorem Untouched.refl (t : Tree K n p) : Untouched t t := ⟨le_refl _, fun _ _ _ => rfl, fun _ _ h => h⟩

theorem Untouched.trans {a b c : Tree K n p} (h : Untouched a b) (h' : Untouched b c) : Untouched a c :=
  ⟨h.next.trans h'.next, fun i hi hn => (h'.node i (hi.trans_le h.next) (h.out i hi hn)).trans (h.node i hi hn), fun i hi hn => h'.out i (hi.trans_le h.next) (h.out i hi hn)⟩

theorem Untouched.of_eq {t t' : Tree K n p} (h1 : t'.heap = t.heap) (h2 : t'.nodes = t.nodes) : Untouched t t' :=
  ⟨by rw [h1], fun i _ _ => by rw [h1], fun i _ hn => by rw [h2]; exact hn⟩

end Bart

namespace Bart.Oblivious
open Bart Spec
variable {K : Type} [Field K] [LinearOrder K] {n p : Nat} {X : Fin n → Fin p → Fl K}

/-! ### one tree -/

/-- A tree of the model between two steps. -/
structure OLive (X : Fin n → Fin p → Fl K) (t : Tree K n p) : Prop where
  tree : ∃ y s d, OTree X y t s d
  cached : t.cacheUpToDate = true → t.prediction = .sized (t.predictX X)
  buf : (∃ f, t.prediction = .sized f) ∨ (t.prediction = .none ∧ ∃ y i, TreeInv X y t (.leaf i) ∧ ∀ r, rowsOf (t.heap.dataOf i) r = true)

/-- A tree of the model while its target is the partial residual: the cached prediction does not count. -/
structure OMid (X : Fin n → Fin p → Fl K) (y : Fin n → K) (t : Tree K n p) : Prop where
  tree : ∃ s d, OTree X (some y) t s d
  cache : t.cacheUpToDate = false
  buf : ∃ f, t.prediction = .sized f

theorem OTree.of_eq {y : Option (Fin n → K)} {t t' : Tree K n p} {s : Shape} {d : Nat} (hT : OTree X y t s d) (h1 : t'.heap = t.heap) (h2 : t'.nodes = t.nodes) : OTree X y t' s d := by
  have hl : t'.leafNodes = t.leafNodes := by unfold Tree.leafNodes; rw [h1, h2]
  exact ⟨hT.inv.of_eq h1 h2, by rw [hl, h1]; exact hT.level, by rw [h1, h2]; exact hT.ruled⟩

theorem predictX_of_eq {q : Nat} {t t' : Tree K n p} (h1 : t'.heap = t.heap) (h2 : t'.nodes = t.nodes) (Z : Fin q → Fin p → Fl K) : t'.predictX Z = t.predictX Z := by
  unfold Tree.predictX Tree.leafNodes; rw [h1, h2]

theorem OLive.mem_lt {t : Tree K n p} (hL : OLive X t) {i : NodeId} (hi : i ∈ t.nodes) : i < t.heap.nextNode := by
  obtain ⟨y, s, d, hT⟩ := hL.tree; exact hT.inv.mem_lt hi

theorem OLive.ext {t t' : Tree K n p} (hL : OLive X t) (he : TreeExt t t') : OLive X t' := by
  have hpx : t'.predictX X = t.predictX X := by
    refine predictX_view t t' ?_ X
    rw [he.nodes]
    exact List.map_congr_left (fun i hi => nodeView_ext he.heap (hL.mem_lt hi))
  obtain ⟨⟨y, s, d, hT⟩, hc, hb⟩ := hL
  refine ⟨⟨y, s, d, hT.ext he⟩, fun h => by rw [he.pred, hpx]; exact hc (he.cache ▸ h), ?_⟩
  rcases hb with ⟨f, hf⟩ | ⟨h1, y', i, hI, hr⟩
  · exact .inl ⟨f, by rw [he.pred]; exact hf⟩
  · refine .inr ⟨by rw [he.pred]; exact h1, y', i, hI.ext he, fun r => ?_⟩
    rw [he.rows hI (hI.perm.mem_iff.2 (by simp [Shape.ids]))]
    exact hr r

/-- `predict()` of a tree of the model is what it predicts for the training rows. -/
theorem OLive.predict (hX : ∀ r, GoodRow (X r)) {t : Tree K n p} (hL : OLive X t) :
    ∃ t', t.predict = .ok (.sized (t.predictX X), t') ∧ t'.heap = t.heap ∧ t'.nodes = t.nodes ∧ t'.prediction = .sized (t.predictX X) ∧ OLive X t' := by
  have hlive : ∀ t' : Tree K n p, t'.heap = t.heap → t'.nodes = t.nodes → t'.prediction = .sized (t.predictX X) → OLive X t' := by
    intro t' h1 h2 h3
    obtain ⟨y, s, d, hT⟩ := hL.tree
    exact ⟨⟨y, s, d, hT.of_eq h1 h2⟩, fun _ => by rw [h3, predictX_of_eq h1 h2], .inl ⟨_, h3⟩⟩
  cases hc : t.cacheUpToDate with
  | true =>
    have := hL.cached hc
    refine ⟨t, ?_, rfl, rfl, this, hL⟩
    unfold Tree.predict
    rw [hc, if_pos rfl, this]
  | false =>
    obtain ⟨y, s, d, hT⟩ := hL.tree
    rcases hL.buf with ⟨f, hf⟩ | ⟨h1, y', i, hI, hr⟩
    · exact ⟨_, hT.inv.predict_sized hX hc hf, rfl, rfl, rfl, hlive _ rfl rfl rfl⟩
    · have hn : t.nodes = [i] := by
        have := hI.perm; simp only [Shape.ids] at this
        exact List.perm_singleton.1 this
      have hcount : count (rowsOf (t.heap.dataOf i)) = n := by simp [count, hr]
      have e := hI.predict_none hc h1 hn
      rw [if_pos hcount] at e
      have hT' : OTree X y { t with prediction := .sized (fun _ => 0) } s d := hT.of_eq rfl rfl
      have e' := hT'.inv.predict_sized hX hc rfl
      exact ⟨_, e.trans e', rfl, rfl, rfl, hlive _ rfl rfl rfl⟩

theorem OTree.target {y0 : Option (Fin n → K)} {t : Tree K n p} {s : Shape} {d : Nat} (hT : OTree X y0 t s d) (y : Option (Fin n → K)) :
    ∃ t', t.updateY y = .ok t' ∧ OTree X y t' s d ∧ t'.nodes = t.nodes ∧ t'.cacheUpToDate = false ∧ t'.prediction = t.prediction ∧ Untouched t t' ∧
      t'.heap.node = t.heap.node ∧ t'.heap.nextNode = t.heap.nextNode := by
  obtain ⟨t', e, hI, h1, h2, h3, hu, -⟩ := hT.inv.updateY y
  have hl : t'.leafNodes = t.leafNodes := by unfold Tree.leafNodes; rw [h1, hu.node]
  refine ⟨t', e, ⟨hI, by rw [hl, hu.node]; exact hT.level, by rw [h1, hu.node]; exact hT.ruled⟩, h1, h2, h3, ?_, hu.node, hu.nextNode⟩
  exact ⟨by rw [hu.nextNode], fun i _ _ => by rw [hu.node], fun i _ hn => by rw [h1]; exact hn⟩

/-- bartpy/model.py:75-76 on a tree of the model. -/
theorem OLive.begin (hX : ∀ r, GoodRow (X r)) {t : Tree K n p} (hL : OLive X t) (y pred : Fin n → K) :
    ∃ t', BModel.refreshBegin y pred t = .ok (fun r => pred r - t.predictX X r, t') ∧ OMid X (fun r => y r - (pred r - t.predictX X r)) t' ∧ Untouched t t' ∧ t'.nodes = t.nodes ∧
      t'.heap.node = t.heap.node ∧ t'.heap.nextNode = t.heap.nextNode := by
  obtain ⟨t1, e, h1, h2, h3, hL1⟩ := hL.predict hX
  obtain ⟨y0, s, d, hT⟩ := hL1.tree
  obtain ⟨t2, e2, hT2, h4, h5, h6, hu, h7, h8⟩ := hT.target (some (fun r => y r - (pred r - t.predictX X r)))
  refine ⟨t2, ?_, ⟨⟨s, d, hT2⟩, h5, ⟨_, h6.trans h3⟩⟩, (Untouched.of_eq h1 h2).trans hu, h4.trans h2, by rw [h7, h1], by rw [h8, h1]⟩
  unfold BModel.refreshBegin
  simp only [e, e2]

/-- bartpy/model.py:78 on a tree of the model. -/
theorem OMid.finish (hX : ∀ r, GoodRow (X r)) {y : Fin n → K} {t : Tree K n p} (hM : OMid X y t) (pred : Fin n → K) :
    ∃ t', BModel.refreshEnd pred t = .ok (fun r => pred r + t.predictX X r, t') ∧ OLive X t' ∧ t'.heap = t.heap ∧ t'.nodes = t.nodes := by
  obtain ⟨s, d, hT⟩ := hM.tree
  have hL : OLive X t := ⟨⟨_, s, d, hT⟩, fun h => (by rw [hM.cache] at h; cases h), .inl hM.buf⟩
  obtain ⟨t', e, h1, h2, -, hL'⟩ := hL.predict hX
  refine ⟨t', ?_, hL', h1, h2⟩
  unfold BModel.refreshEnd
  simp only [e]

section
variable [MathFns K]

theorem oleafStep_spec {y : Fin n → K} {t : Tree K n p} (hM : OMid X y t) (m : Params K) {i : NodeId} (hi : i ∈ t.leafNodes) (r : Rand K) :
    match Sampler.leafStep m t i r with
    | .error e => e = .outOfDraws ∨ e = .nonFinite
    | .ok (t', _) => OMid X y t' ∧ Untouched t t' ∧ t'.leafNodes = t.leafNodes := by
  obtain ⟨s, d, hT⟩ := hM.tree
  have hin := (List.mem_filter.1 hi).1
  obtain ⟨q, hk⟩ := hT.inv.nodeOk hin
  obtain ⟨h', e1, x1⟩ := Lik.sumYOf_spec hk
  unfold Sampler.leafStep
  simp only [e1]
  cases hz : r.normals with
  | nil => exact Or.inl rfl
  | cons z zs =>
    simp only [Lik.nObsv_spec hk]
    cases hv : (Sampler.leafValue m (Fl.ofInt (count (rowsOf (t.heap.dataOf i)))) (.fin (total y (rowsOf (t.heap.dataOf i)))) (.fin z)) with
    | fin v =>
      simp only [Fl.toFinite]
      have hx : TreeExt t { t with heap := h' } := TreeExt.withHeap x1
      have hT1 := hT.ext hx
      have hsame : ∀ j, (h'.setValue i v).node j = (if j = i then { h'.node j with value := v } else h'.node j) := by
        intro j
        by_cases hj : j = i
        · subst hj; simp [Heap.setValue, Heap.setNode]
        · simp [Heap.setValue, Heap.setNode, hj]
      have hk : ∀ j, ((h'.setValue i v).node j).kind = (h'.node j).kind := fun j => by rw [hsame]; split <;> rfl
      have hl : ({ t with heap := h'.setValue i v } : Tree K n p).leafNodes = ({ t with heap := h' } : Tree K n p).leafNodes := by
        unfold Tree.leafNodes
        simp only [hk]
      have hl1 := hT.inv.leafNodes_ext hx
      refine ⟨⟨⟨s, d, ⟨hT1.inv.setValue i v, ?_, ?_⟩⟩, hM.cache, hM.buf⟩, ⟨x1.nextNode, ?_, fun k _ hkn => hkn⟩, hl.trans hl1⟩
      · intro j hj
        rw [hl] at hj
        have := hT1.level j hj
        simp only at this ⊢
        rw [hsame]
        split <;> exact this
      · intro j hj hjr
        have := hT1.ruled j hj hjr
        simp only at this ⊢
        rw [hsame]
        split <;> exact this
      · intro k hk hkn
        have hki : k ≠ i := fun e => hkn (e ▸ hin)
        simp only
        rw [hsame, if_neg hki, x1.node k hk]
    | nan => exact Or.inr rfl
    | pinf => exact Or.inr rfl
    | ninf => exact Or.inr rfl

theorem oleafSteps_spec {y : Fin n → K} (m : Params K) : ∀ (is : List NodeId) {t : Tree K n p}, OMid X y t → (∀ i ∈ is, i ∈ t.leafNodes) → ∀ r : Rand K,
    match Sampler.leafSteps m is t r with
    | .error e => e = .outOfDraws ∨ e = .nonFinite
    | .ok (t', _) => OMid X y t' ∧ Untouched t t' := by
  intro is
  induction is with
  | nil => intro t hM _ r; exact ⟨hM, .refl _⟩
  | cons i is ih =>
    intro t hM hi r
    have h1 := oleafStep_spec hM m (hi i (by simp)) r
    unfold Sampler.leafSteps
    cases e : Sampler.leafStep m t i r with
    | error er => rw [e] at h1; exact h1
    | ok q =>
      obtain ⟨t1, r1⟩ := q
      rw [e] at h1
      obtain ⟨hM1, hu1, hl1⟩ := h1
      have h2 := ih hM1 (fun k hk => by rw [hl1]; exact hi k (by simp [hk])) r1
      simp only
      cases e2 : Sampler.leafSteps m is t1 r1 with
      | error er => rw [e2] at h2; exact h2
      | ok q2 =>
        obtain ⟨t2, r2⟩ := q2
        rw [e2] at h2
        exact ⟨h2.1, hu1.trans h2.2⟩

/-- The errors of a step: the draws are used up; a probability of 0; a leaf value that is not a number; or a grow step on a matrix whose columns are all constant. -/
def StepError (X : Fin n → Fin p → Fl K) (pGrow pPrune : K) (e : PyErr) : Prop :=
  e = .outOfDraws ∨ e = .nonFinite ∨ (e = .zeroDivision ∧ (pGrow = 0 ∨ pPrune = 0)) ∨
    (e = .attributeError ∧ ∀ j, isNotConstant (column X (fun _ => true) j) = false)

/-- A step leaves a tree of the model behind. -/
theorem otreeStep_mid (hX : NoNan X) {y : Fin n → K} {t : Tree K n p} (hM : OMid X y t) (m : Params K) (pGrow pPrune : K) (r : Rand K) {mu t1 r1}
    (e : treeStep m pGrow pPrune t r = .ok (mu, t1, r1)) : OMid X y t1 ∧ Untouched t t1 := by
  obtain ⟨s, d, hT⟩ := hM.tree
  have h1 := otreeStep_spec hX hT m pGrow pPrune r
  rw [e] at h1
  cases mu with
  | none => exact ⟨⟨⟨s, d, hT.ext h1⟩, by rw [h1.cache]; exact hM.cache, by rw [h1.pred]; exact hM.buf⟩, .ofExt h1⟩
  | some mus =>
    obtain ⟨t0, s', news, me, -, he, hT', hf, hnew⟩ := h1
    refine ⟨⟨⟨s', _, hT'⟩, ?_, by rw [hf.pred, he.pred]; exact hM.buf⟩, ?_⟩
    · rcases hf.cache with h | h
      · rw [h, he.cache]; exact hM.cache
      · exact h
    · refine ⟨by rw [hf.nextNode]; exact he.heap.nextNode, fun i hi hn => ?_, fun i hi hn hc => ?_⟩
      · rw [hf.other i (by rw [he.nodes]; exact hn) (fun hc => absurd (hnew i hc) (by omega)), he.heap.node i hi]
      · rcases hf.mem i hc with h | h
        · rw [he.nodes] at h; exact hn h
        · exact absurd (hnew i h) (by omega)

/-- What a sweep does to one tree. -/
theorem otreeBody_spec (hX : NoNan X) {y : Fin n → K} {t : Tree K n p} (hM : OMid X y t) (m : Params K) (pGrow pPrune : K) (r : Rand K) :
    match treeBody m pGrow pPrune t r with
    | .error e => StepError X pGrow pPrune e
    | .ok (_, t', _) => OMid X y t' ∧ Untouched t t' := by
  obtain ⟨s, d, hT⟩ := hM.tree
  have h1 := otreeStep_spec hX hT m pGrow pPrune r
  unfold treeBody
  cases e : treeStep m pGrow pPrune t r with
  | error er =>
    rw [e] at h1
    rcases h1 with h1 | h1 | ⟨h1, -, i, h2, h3⟩
    · exact .inl h1
    · exact .inr (.inr (.inl h1))
    · refine .inr (.inr (.inr ⟨h1, ?_⟩))
      have hroot : s.root = i := by
        have := hT.inv.perm.mem_iff.2 s.root_mem
        rw [h2] at this; simpa using this
      obtain ⟨q, hk⟩ := hT.inv.nodeOk (i := i) (by rw [h2]; simp)
      have : q = [] := by
        apply init_injective
        rw [← hk.combined, ← hroot]; exact hT.inv.top
      subst this
      have : rowsOf (t.heap.dataOf i) = fun _ => true := by funext r; rw [hk.rows]; rfl
      rw [this] at h3
      exact h3
  | ok q =>
    obtain ⟨mu, t1, r1⟩ := q
    rw [e] at h1
    have hM1 := otreeStep_mid hX hM m pGrow pPrune r e
    have h2 := oleafSteps_spec m t1.leafNodes hM1.1 (fun _ h => h) r1
    simp only
    cases e2 : Sampler.leafSteps m t1.leafNodes t1 r1 with
    | error er =>
      rw [e2] at h2
      rcases h2 with h2 | h2
      · exact .inl h2
      · exact .inr (.inl h2)
    | ok q2 =>
      obtain ⟨t2, r2⟩ := q2
      rw [e2] at h2
      exact ⟨h2.1, hM1.2.trans h2.2⟩

end

/-! ### the model -/

theorem predictTrees_live (hX : ∀ r, GoodRow (X r)) : ∀ {ts : List (Tree K n p)}, (∀ t ∈ ts, OLive X t) →
    ∃ ts', BModel.predictTrees ts = .ok (fun r => (ts.map (fun t => t.predictX X r)).sum, ts') ∧ (∀ t ∈ ts', OLive X t) ∧ List.Forall₂ Untouched ts ts' := by
  intro ts
  induction ts with
  | nil => intro _; exact ⟨[], rfl, by simp, .nil⟩
  | cons t ts ih =>
    intro h
    obtain ⟨t', e, h1, h2, -, hL⟩ := (h t (by simp)).predict hX
    obtain ⟨ts', e', hL', hu⟩ := ih (fun t ht => h t (by simp [ht]))
    refine ⟨t' :: ts', ?_, ?_, .cons (Untouched.of_eq h1 h2) hu⟩
    · unfold BModel.predictTrees
      simp only [e, e', List.map_cons, List.sum_cons]
    · intro u hu
      rcases List.mem_cons.1 hu with rfl | hu
      · exact hL
      · exact hL' u hu

theorem forall₂_trans {a b c : List (Tree K n p)} (h : List.Forall₂ Untouched a b) (h' : List.Forall₂ Untouched b c) : List.Forall₂ Untouched a c := by
  induction h generalizing c with
  | nil => cases h'; exact .nil
  | cons hd _ ih =>
    cases h' with
    | cons hd' tl' => exact .cons (hd.trans hd') (ih tl')

theorem forall₂_refl (a : List (Tree K n p)) : List.Forall₂ Untouched a a := by
  induction a with
  | nil => exact .nil
  | cons t a ih => exact .cons (.refl t) ih

/-- A model between two sweeps. -/
structure OModel (X : Fin n → Fin p → Fl K) (m : BModel K n p) : Prop where
  target : ∃ y, m.data.y.y = some y
  rows : 0 ≤ m.data.X.nObsv
  trees : ∀ t ∈ m.trees, OLive X t

theorem OModel.predict (hX : ∀ r, GoodRow (X r)) {m : BModel K n p} (hM : OModel X m) :
    ∃ m', m.predict = .ok (m.predictX X, m') ∧ OModel X m' ∧ List.Forall₂ Untouched m.trees m'.trees ∧ m'.data = m.data ∧ m'.sigma = m.sigma := by
  obtain ⟨ts, e, hL, hu⟩ := predictTrees_live hX hM.trees
  refine ⟨{ m with trees := ts }, ?_, ⟨hM.target, hM.rows, hL⟩, hu, rfl, rfl⟩
  unfold BModel.predict
  rw [e]
  rfl

section
variable [MathFns K]

/-- The loop over the trees. -/
theorem refreshLoop_live {S α : Type} (hX : ∀ r, GoodRow (X r)) (y : Fin n → K) {body : Tree K n p → S → Except PyErr (α × Tree K n p × S)} {Err : PyErr → Prop}
    (he : ∀ {z : Fin n → K} {t : Tree K n p} {s : S} {e : PyErr}, OMid X z t → body t s = .error e → Err e)
    (hb : ∀ {z : Fin n → K} {t t' : Tree K n p} {s s' : S} {a : α}, OMid X z t → body t s = .ok (a, t', s') → OMid X z t' ∧ Untouched t t') :
    ∀ {ts : List (Tree K n p)}, (∀ t ∈ ts, OLive X t) → ∀ (pred : Fin n → K) (s : S),
    match BModel.refreshLoop y body ts pred s with
    | .error e => Err e
    | .ok (_, _, ts', _) => (∀ t ∈ ts', OLive X t) ∧ List.Forall₂ Untouched ts ts' := by
  intro ts
  induction ts with
  | nil => intro _ pred s; exact ⟨by simp, .nil⟩
  | cons t ts ih =>
    intro h pred s
    obtain ⟨t1, e1, hM1, hu1, -⟩ := (h t (by simp)).begin hX y pred
    unfold BModel.refreshLoop
    simp only [e1]
    cases e2 : body t1 s with
    | error er => exact he hM1 e2
    | ok q =>
      obtain ⟨a, t2, s2⟩ := q
      obtain ⟨hM2, hu2⟩ := hb hM1 e2
      obtain ⟨t3, e3, hL3, h31, h32⟩ := hM2.finish hX (fun r => pred r - t.predictX X r)
      simp only [e3]
      have h4 := ih (fun t ht => h t (by simp [ht])) (fun r => pred r - t.predictX X r + t2.predictX X r) s2
      cases e4 : BModel.refreshLoop y body ts (fun r => pred r - t.predictX X r + t2.predictX X r) s2 with
      | error er => rw [e4] at h4; exact h4
      | ok q4 =>
        obtain ⟨as, pr, ts', s4⟩ := q4
        rw [e4] at h4
        refine ⟨?_, .cons ((hu1.trans hu2).trans (Untouched.of_eq h31 h32)) h4.2⟩
        intro u hu
        rcases List.mem_cons.1 hu with rfl | hu
        · exact hL3
        · exact h4.1 u hu

/-- The parameters of the gamma distribution are negative only if a parameter of the prior is. -/
theorem OModel.sigmaStep [IsStrictOrderedRing K] (hX : ∀ r, GoodRow (X r)) {m : BModel K n p} (hM : OModel X m) (r : Rand K) :
    match m.sigmaStep r with
    | .error e => e = .outOfDraws ∨ e = .nonFinite ∨ (e = .valueError ∧ (m.sigma.alpha < 0 ∨ m.sigma.beta < 0))
    | .ok (m', _) => OModel X m' ∧ List.Forall₂ Untouched m.trees m'.trees ∧ m'.data = m.data ∧ m'.sigma.alpha = m.sigma.alpha ∧ m'.sigma.beta = m.sigma.beta := by
  obtain ⟨y, hy⟩ := hM.target
  obtain ⟨m3, e3, hM3, hu3, hd3, hs3⟩ := hM.predict hX
  unfold BModel.sigmaStep BModel.residuals
  simp only [e3, hy]
  by_cases hneg : BModel.sigmaShape m < 0 ∨ BModel.sigmaRate m (fun r => y r - m.predictX X r) < 0
  · rw [if_pos hneg]
    refine .inr (.inr ⟨rfl, ?_⟩)
    rcases hneg with h | h
    · left
      unfold BModel.sigmaShape at h
      have h0 : (0 : K) ≤ ((m.data.X.nObsv : Int) : K) := by exact_mod_cast hM.rows
      linarith
    · right
      unfold BModel.sigmaRate at h
      have h0 : (0 : K) ≤ ∑ r, (y r - m.predictX X r) * (y r - m.predictX X r) := Finset.sum_nonneg (fun r _ => mul_self_nonneg _)
      linarith
  · rw [if_neg hneg]
    cases hg : r.gammas with
    | nil => exact .inl rfl
    | cons g gs =>
      simp only
      cases hp : MathFns.pow g (-(1/2) : K) with
      | fin v => exact ⟨⟨by rw [hd3]; exact hM.target, by rw [hd3]; exact hM.rows, hM3.trees⟩, hu3, hd3, by simp only [hs3], by simp only [hs3]⟩
      | nan => exact .inr (.inl rfl)
      | pinf => exact .inr (.inl rfl)
      | ninf => exact .inr (.inl rfl)

/-- The errors of a sweep: those of a step, or negative parameters of the gamma distribution. -/
def SweepError (X : Fin n → Fin p → Fl K) (pGrow pPrune : K) (m : BModel K n p) (e : PyErr) : Prop :=
  StepError X pGrow pPrune e ∨ (e = .valueError ∧ (m.sigma.alpha < 0 ∨ m.sigma.beta < 0))

/-- What stays during the sampling. -/
structure Kept (m m' : BModel K n p) : Prop where
  trees : List.Forall₂ Untouched m.trees m'.trees
  data : m'.data = m.data
  alpha : m'.sigma.alpha = m.sigma.alpha
  beta : m'.sigma.beta = m.sigma.beta

theorem Kept.refl (m : BModel K n p) : Kept m m := ⟨forall₂_refl _, rfl, rfl, rfl⟩

theorem Kept.trans {a b c : BModel K n p} (h : Kept a b) (h' : Kept b c) : Kept a c :=
  ⟨forall₂_trans h.trees h'.trees, h'.data.trans h.data, h'.alpha.trans h.alpha, h'.beta.trans h.beta⟩

theorem SweepError.back {pGrow pPrune : K} {m m' : BModel K n p} {e : PyErr} (hk : Kept m m') (h : SweepError X pGrow pPrune m' e) : SweepError X pGrow pPrune m e := by
  unfold SweepError at *; rw [hk.alpha, hk.beta] at h; exact h

theorem OModel.sweep [IsStrictOrderedRing K] (hX : ∀ r, GoodRow (X r)) {m : BModel K n p} (hM : OModel X m) (pGrow pPrune : K) (r : Rand K) :
    match sweep m pGrow pPrune r with
    | .error e => SweepError X pGrow pPrune m e
    | .ok (_, m', _) => OModel X m' ∧ Kept m m' := by
  have hX' : NoNan X := fun r v => (hX r v).1
  obtain ⟨y, hy⟩ := hM.target
  have hstart : ∃ f m1, m.startPrediction = .ok (f, m1) ∧ OModel X m1 ∧ Kept m m1 := by
    unfold BModel.startPrediction
    cases hp : m.prediction with
    | some f => exact ⟨f, m, rfl, hM, .refl _⟩
    | none => obtain ⟨m1, e, h1, h2, h3, h4⟩ := hM.predict hX; exact ⟨_, m1, e, h1, h2, h3, by rw [h4], by rw [h4]⟩
  obtain ⟨f, m1, e1, hM1, hk1⟩ := hstart
  have hloop := refreshLoop_live (body := treeBody m.params pGrow pPrune) (Err := StepError X pGrow pPrune) hX y
    (fun {z t s e} hz h => by have := otreeBody_spec hX' hz m.params pGrow pPrune s; rw [h] at this; exact this)
    (fun {z t t' s s' a} hz h => by have := otreeBody_spec hX' hz m.params pGrow pPrune s; rw [h] at this; exact this) hM1.trees f r
  unfold Oblivious.sweep sweepTrees
  simp only [hy, e1]
  cases e2 : BModel.refreshLoop y (treeBody m.params pGrow pPrune) m1.trees f r with
  | error er => rw [e2] at hloop; exact .inl hloop
  | ok q =>
    obtain ⟨mus, f1, ts, r1⟩ := q
    rw [e2] at hloop
    simp only
    have hM2 : OModel X { m1 with trees := ts, prediction := some f1 } := ⟨hM1.target, hM1.rows, hloop.1⟩
    have hk2 : Kept m { m1 with trees := ts, prediction := some f1 } := hk1.trans ⟨hloop.2, rfl, rfl, rfl⟩
    have h3 := hM2.sigmaStep hX r1
    cases e3 : ({ m1 with trees := ts, prediction := some f1 } : BModel K n p).sigmaStep r1 with
    | error er =>
      rw [e3] at h3
      rcases h3 with h | h | h
      · exact .inl (.inl h)
      · exact .inl (.inr (.inl h))
      · exact SweepError.back hk2 (.inr h)
    | ok q3 =>
      obtain ⟨m4, r4⟩ := q3
      rw [e3] at h3
      exact ⟨h3.1, hk2.trans ⟨h3.2.1, h3.2.2.1, h3.2.2.2.1, h3.2.2.2.2⟩⟩

end

/-! ### stored samples -/

theorem ocopy_untouched {t t' : Tree K n p} (hlt : ∀ i ∈ t.nodes, i < t.heap.nextNode) (h : Untouched t.deepCopy.2 t') :
    t.deepCopy.1.map (nodeView t'.heap) = t.nodes.map (nodeView t.heap) := by
  have hs := copyNodes_spec t.nodes t.heap hlt
  have hn : ∀ c, t.heap.nextNode ≤ c → c < t.deepCopy.2.heap.nextNode → nodeView t'.heap c = nodeView t.deepCopy.2.heap c := by
    intro c h1 h2
    unfold nodeView
    rw [h.node c h2 (fun hc => absurd (hlt c hc) (by omega))]
  show (Tree.copyNodes t.nodes t.heap).1.map _ = _
  have hn' : ∀ c, t.heap.nextNode ≤ c → c < (Tree.copyNodes t.nodes t.heap).2.nextNode → nodeView t'.heap c = nodeView (Tree.copyNodes t.nodes t.heap).2 c := hn
  revert hs hn'
  generalize (Tree.copyNodes t.nodes t.heap).2 = h2
  generalize (Tree.copyNodes t.nodes t.heap).1 = l
  generalize t.nodes = l0
  intro hs hn'
  induction hs with
  | nil => rfl
  | cons hd _ ih => rw [List.map_cons, List.map_cons, ih, hn' _ hd.1 hd.2.1, hd.2.2]

/-- A stored sample looks like the live model at the moment of storing. -/
theorem ostored_core {m m' : BModel K n p} (hm : ∀ t ∈ m.trees, ∀ i ∈ t.nodes, i < t.heap.nextNode) (h : List.Forall₂ Untouched m.deepCopy.2.trees m'.trees) :
    storedContent m' m.deepCopy.1 = liveContent m ∧ ∀ {q : Nat} (Z : Fin q → Fin p → Fl K), m'.storedPredictX m.deepCopy.1 Z = m.predictX Z := by
  have h' : List.Forall₂ (fun t t' => Untouched t.deepCopy.2 t') m.trees m'.trees := by
    have : m.deepCopy.2.trees = m.trees.map (fun t => t.deepCopy.2) := rfl
    rw [this, List.forall₂_map_left_iff] at h
    exact h
  constructor
  · show List.zipWith _ m'.trees (m.trees.map _) = m.trees.map _
    revert h' hm
    generalize m.trees = l
    generalize m'.trees = l'
    intro hm h'
    clear h
    induction h' with
    | nil => rfl
    | cons hd _ ih =>
      simp only [List.map_cons, List.zipWith_cons_cons]
      rw [ih (fun t ht => hm t (by simp [ht])), ocopy_untouched (hm _ (by simp)) hd]
  · intro q Z
    funext r
    unfold BModel.storedPredictX BModel.predictX BModel.storedTrees
    show ((List.zipWith _ m'.trees (m.trees.map _)).map _).sum = _
    congr 1
    revert h' hm
    generalize m.trees = l
    generalize m'.trees = l'
    intro hm h'
    clear h
    induction h' with
    | nil => rfl
    | @cons t t' _ _ hd _ ih =>
      simp only [List.map_cons, List.zipWith_cons_cons]
      rw [ih (fun t ht => hm t (by simp [ht]))]
      congr 1
      have := ocopy_untouched (hm t (by simp)) hd
      exact congrFun (predictX_view t (t'.stored t.deepCopy.1) this Z) r

theorem OModel.copy [MathFns K] {m : BModel K n p} (hM : OModel X m) : OModel X m.deepCopy.2 ∧ Kept m m.deepCopy.2 := by
  have hd : m.deepCopy.2.trees = m.trees.map (fun t => t.deepCopy.2) := rfl
  refine ⟨⟨hM.target, hM.rows, fun t ht => ?_⟩, ?_, rfl, rfl, rfl⟩
  · rw [hd] at ht
    obtain ⟨t0, ht0, rfl⟩ := List.mem_map.1 ht
    exact (hM.trees t0 ht0).ext (deepCopy_ext t0)
  · rw [hd, List.forall₂_map_right_iff, List.forall₂_same]
    exact fun t _ => .ofExt (deepCopy_ext t)

section
variable [IsStrictOrderedRing K] [MathFns K] [FloorRing K]

theorem OModel.burn (hX : ∀ r, GoodRow (X r)) (c : SampleParams K) : ∀ (k : Nat) {m : BModel K n p}, OModel X m → ∀ r : Rand K,
    match burn c k m r with
    | .error e => SweepError X c.pGrow c.pPrune m e
    | .ok (m', _) => OModel X m' ∧ Kept m m' := by
  intro k
  induction k with
  | zero => intro m hM r; exact ⟨hM, .refl _⟩
  | succ k ih =>
    intro m hM r
    have h1 := hM.sweep hX c.pGrow c.pPrune r
    unfold Oblivious.burn
    cases e : Oblivious.sweep m c.pGrow c.pPrune r with
    | error er => rw [e] at h1; exact h1
    | ok q =>
      obtain ⟨mus, m1, r1⟩ := q
      rw [e] at h1
      have h2 := ih h1.1 r1
      simp only
      cases e2 : Oblivious.burn c k m1 r1 with
      | error er => rw [e2] at h2; exact h2.back h1.2
      | ok q2 =>
        obtain ⟨m2, r2⟩ := q2
        rw [e2] at h2
        exact ⟨h2.1, h1.2.trans h2.2⟩

/-- The state in which a sample was taken. -/
def TakenFrom (X : Fin n → Fin p → Fl K) (m' : BModel K n p) (x : StoredModel K) (M : BModel K n p) : Prop :=
  OModel X M ∧ storedContent m' x = liveContent M ∧ ∀ {q : Nat} (Z : Fin q → Fin p → Fl K), m'.storedPredictX x Z = M.predictX Z

theorem OModel.sampleLoop (hX : ∀ r, GoodRow (X r)) (c : SampleParams K) {ti : K} (hti : ti ≠ 0) : ∀ (k ss : Nat) {m : BModel K n p}, OModel X m → ∀ r : Rand K,
    match sampleLoop c ti k ss m r with
    | .error e => SweepError X c.pGrow c.pPrune m e
    | .ok (ch, m', _) => OModel X m' ∧ Kept m m' ∧
        (c.storePredictions = true → ch.predictions = ch.model.map (fun x => m'.storedPredictX x X)) ∧ (∀ x ∈ ch.model, ∃ M, TakenFrom X m' x M) ∧
        ch.model.length = (BModel.times ti k ss).length ∧ ch.acceptance.length = (if c.storeAcceptance then ch.model.length else 0) ∧
        ch.predictions.length = (if c.storePredictions then ch.model.length else 0) := by
  intro k
  induction k with
  | zero => intro ss m hM r; exact ⟨hM, .refl _, fun _ => rfl, by simp, by simp [BModel.times], by simp, by simp⟩
  | succ k ih =>
    intro ss m hM r
    have h1 := hM.sweep hX c.pGrow c.pPrune r
    unfold Oblivious.sampleLoop
    cases e : Oblivious.sweep m c.pGrow c.pPrune r with
    | error er => rw [e] at h1; exact h1
    | ok q =>
      obtain ⟨mus, m1, r1⟩ := q
      rw [e] at h1
      obtain ⟨hM1, hk1⟩ := h1
      simp only
      by_cases hmod : pyMod (ss : K) ti = 0
      · rw [if_pos hmod]
        have hrec : ∃ fs m2, BModel.recordPrediction c m1 = .ok (fs, m2) ∧ OModel X m2 ∧ Kept m1 m2 ∧
            (c.storePredictions = true → fs = [m2.predictX X]) := by
          unfold BModel.recordPrediction
          split
          · obtain ⟨m2, e2, g1, g2, g3, g4⟩ := hM1.predict hX
            rw [e2]
            refine ⟨_, _, rfl, g1, ⟨g2, g3, by rw [g4], by rw [g4]⟩, fun _ => ?_⟩
            rw [(predict_content e2).2.2 X]
          · next hc => exact ⟨_, _, rfl, hM1, .refl _, fun h => absurd h hc⟩
        obtain ⟨fs, m2, e2, hM2, hk2, hfs⟩ := hrec
        obtain ⟨hMc, hkc⟩ := hM2.copy
        have h3 := ih (ss + 1) hMc r1
        simp only [e2]
        cases e3 : Oblivious.sampleLoop c ti k (ss + 1) m2.deepCopy.2 r1 with
        | error er => rw [e3] at h3; exact h3.back (hk1.trans (hk2.trans hkc))
        | ok q3 =>
          obtain ⟨ch, m3, r3⟩ := q3
          rw [e3] at h3
          obtain ⟨i1, i2, i4, i5, i6, i7, i8⟩ := h3
          have htm : BModel.times ti (k + 1) ss = ss :: BModel.times ti k (ss + 1) := by
            rw [pyMod_eq_zero hti] at hmod
            simp only [BModel.times, List.range'_succ, List.filter_cons, hmod, decide_true, if_true]
          have hfl : fs.length = (if c.storePredictions then 1 else 0) := by
            rcases BModel.recordPrediction_cases e2 with ⟨h, f, -, rfl⟩ | ⟨h, -, rfl⟩ <;> simp [h]
          obtain ⟨s1, s2⟩ := ostored_core (fun t ht i hi => (hM2.trees t ht).mem_lt hi) i2.trees
          refine ⟨i1, hk1.trans (hk2.trans (hkc.trans i2)), fun hc => ?_, ?_, by simp [htm, i6], ?_, ?_⟩
          · simp only [List.map_cons]
            rw [hfs hc, i4 hc, s2 X]
            rfl
          · intro x hx
            rcases List.mem_cons.1 hx with rfl | hx
            · exact ⟨m2, hM2, s1, fun Z => s2 Z⟩
            · exact i5 x hx
          · simp only [List.length_append, i7, List.length_cons]
            split <;> simp [Nat.add_comm]
          · simp only [List.length_append, i8, List.length_cons, hfl]
            split <;> simp [Nat.add_comm]
      · rw [if_neg hmod]
        have h3 := ih (ss + 1) hM1 r1
        cases e3 : Oblivious.sampleLoop c ti k (ss + 1) m1 r1 with
        | error er => rw [e3] at h3; exact h3.back hk1
        | ok q3 =>
          obtain ⟨ch, m3, r3⟩ := q3
          rw [e3] at h3
          obtain ⟨i1, i2, i4, i5, i6, i7, i8⟩ := h3
          have htm : BModel.times ti (k + 1) ss = BModel.times ti k (ss + 1) := by
            rw [pyMod_eq_zero hti] at hmod
            simp only [BModel.times, List.range'_succ, List.filter_cons, hmod, decide_false, Bool.false_eq_true, if_false]
          exact ⟨i1, hk1.trans i2, i4, i5, by rw [htm]; exact i6, i7, i8⟩

theorem OModel.samples (hX : ∀ r, GoodRow (X r)) (c : SampleParams K) (nSamples nBurn : Nat) {m : BModel K n p} (hM : OModel X m) (r : Rand K) :
    match samples c nSamples nBurn m r with
    | .error e => SweepError X c.pGrow c.pPrune m e ∨ (e = .zeroDivision ∧ c.thin = 0)
    | .ok (ch, m', _) => OModel X m' ∧ Kept m m' ∧
        (c.storePredictions = true → ch.predictions = ch.model.map (fun x => m'.storedPredictX x X)) ∧ (∀ x ∈ ch.model, ∃ M, TakenFrom X m' x M) ∧
        ch.model.length = (storedTimes nSamples c.thin).length ∧ ch.acceptance.length = (if c.storeAcceptance then ch.model.length else 0) ∧
        ch.predictions.length = (if c.storePredictions then ch.model.length else 0) := by
  have h1 := hM.burn hX c nBurn r
  unfold Oblivious.samples
  cases e : Oblivious.burn c nBurn m r with
  | error er => rw [e] at h1; exact .inl h1
  | ok q =>
    obtain ⟨m1, r1⟩ := q
    rw [e] at h1
    simp only
    by_cases ht : c.thin = 0
    · rw [if_pos ht]; exact .inr ⟨rfl, ht⟩
    · rw [if_neg ht]
      have h2 := h1.1.sampleLoop hX c (one_div_ne_zero ht) nSamples 0 r1
      rw [BModel.times_eq] at h2
      cases e2 : Oblivious.sampleLoop c (1 / c.thin) nSamples 0 m1 r1 with
      | error er => rw [e2] at h2; exact .inl (h2.back h1.2)
      | ok q2 =>
        obtain ⟨ch, m2, r2⟩ := q2
        rw [e2] at h2
        exact ⟨h2.1, h1.2.trans h2.2.1, h2.2.2⟩

end

/-- A new model. -/
theorem OModel.fresh [IsStrictOrderedRing K] (hX : ∀ r, GoodRow (X r)) {y : Fin n → K} {m : BModel K n p} (h : FreshModel X y m) : OModel X m := by
  obtain ⟨nz, d, sigma, nT, al, be, kk, hd, hc⟩ := h
  obtain ⟨m', y', t, e, hy, -, e1, -, -, -, -, -, -, e8, hG, hn, -⟩ := construct_inv (N := False) (fun h => h.elim) hd sigma nT al be kk
  rw [hc] at e; injection e with e; subst e
  have hobs : 0 ≤ d.X.nObsv := by
    obtain ⟨⟨y2, hI2⟩, -⟩ := fresh_tree_inv (⟨nz, d, hd, rfl⟩ : Fresh X y (Tree.ofData d))
    obtain ⟨q, hk⟩ := hI2.repr.nodeOk 0 (by simp [Shape.ids])
    have h2 : d.X.nObsv = _ := hk.inv.X.nObsv
    rw [h2]
    exact Int.natCast_nonneg _
  refine ⟨⟨y', by rw [e1]; exact hy⟩, by rw [e1]; exact hobs, fun u hu => ?_⟩
  rw [e8] at hu
  obtain ⟨-, rfl⟩ := List.mem_replicate.1 hu
  obtain ⟨⟨s, hI⟩, hP, -, -⟩ := hG
  have hs : s = .leaf 0 := by
    have hp := hI.perm
    rw [hn] at hp
    have := List.singleton_perm.1 hp
    cases s with
    | leaf i => simp [Shape.ids] at this; rw [this]
    | node i l r =>
      have h1 := l.root_mem
      simp only [Shape.ids] at this
      injection this with _ this
      have : l.ids = [] := by
        have := this.symm
        simp at this; exact this.1
      rw [this] at h1; cases h1
  subst hs
  have hR := hI.repr
  obtain ⟨r1, r2, r3, r4, hk⟩ := hR
  have hlf : u.leafNodes = [0] := by unfold Tree.leafNodes; rw [hn]; simp [r1]
  refine ⟨⟨none, .leaf 0, 0, ⟨⟨⟨r1, r2, r3, r4⟩, hI.repr.nodeOk, hk.combined, hI.perm, hI.nodup, hI.lt⟩, ?_, ?_⟩⟩, ?_, .inr ⟨(hP.nobuf rfl).1, none, 0, hI, fun r => by rw [hk.rows]; rfl⟩⟩
  · rw [hlf]; intro i hi; simp at hi; subst hi; exact r4
  · rw [hn]; intro i hi hne; simp at hi; exact absurd hi hne
  · rw [hP.cache]; intro h; cases h

end Bart.Oblivious
