import Verif.Props.ObliviousFitProps
import Verif.Props.DomainProps

/-! Fits with the oblivious tree sampler over the reals: C126. -/

set_option linter.unusedSectionVars false

namespace Bart.Oblivious
open Bart Spec Lik Sampler
variable {n p : Nat} {X : Fin n → Fin p → Fl ℝ}

/-! ### one tree -/

/-- The value drawn for a leaf is a number. -/
theorem oleafSteps_real (hn : 0 < n) {y : Fin n → ℝ} {m : Params ℝ} (hm : GoodParams m) : ∀ (is : List NodeId) {t : Tree ℝ n p}, OMid X y t → (∀ i ∈ is, i ∈ t.leafNodes) →
    ∀ (r : Rand ℝ), leafSteps m is t r ≠ .error .nonFinite := by
  intro is
  induction is with
  | nil => intro t _ _ r h; cases h
  | cons i is ih =>
    intro t hM hi r h
    have h1 := oleafStep_spec hM m (hi i (by simp)) r
    unfold leafSteps at h
    cases e1 : leafStep m t i r with
    | error er =>
      rw [e1] at h
      injection h with h; subst h
      obtain ⟨s, d, hT⟩ := hM.tree
      have hin := (List.mem_filter.1 (hi i (by simp))).1
      obtain ⟨q, hk⟩ := hT.inv.nodeOk hin
      obtain ⟨h', e2, -⟩ := Lik.sumYOf_spec hk
      obtain ⟨w, hw⟩ := hT.inv.nonempty hn hin
      have hc : 0 < count (rowsOf (t.heap.dataOf i)) := Finset.card_pos.2 ⟨w, by simpa using hw⟩
      unfold leafStep at e1
      simp only [e2, Lik.nObsv_spec hk] at e1
      cases hz : r.normals with
      | nil => rw [hz] at e1; cases e1
      | cons z zs =>
        rw [hz] at e1
        simp only [leafValue_eq hm y hc, Fl.toFinite] at e1
        cases e1
    | ok q =>
      obtain ⟨t1, r1⟩ := q
      rw [e1] at h1 h
      obtain ⟨hM1, -, hl⟩ := h1
      exact ih hM1 (fun k hk => by rw [hl]; exact hi k (by simp [hk])) r1 h

/-- A tree step is followed by finite leaf values. -/
theorem otreeBody_real (hX : NoNan X) (hn : 0 < n) {y : Fin n → ℝ} {t : Tree ℝ n p} (hM : OMid X y t) {m : Params ℝ} (hm : GoodParams m) (pGrow pPrune : ℝ) (r : Rand ℝ) :
    treeBody m pGrow pPrune t r ≠ .error .nonFinite := by
  intro h
  obtain ⟨s, d, hT⟩ := hM.tree
  have h1 := otreeStep_spec hX hT m pGrow pPrune r
  unfold treeBody at h
  cases e : treeStep m pGrow pPrune t r with
  | error er =>
    rw [e] at h1 h
    injection h with h; subst h
    rcases h1 with h1 | ⟨h1, -⟩ | ⟨h1, -⟩ <;> cases h1
  | ok q =>
    obtain ⟨mu, t1, r1⟩ := q
    rw [e] at h
    have hM1 := otreeStep_mid hX hM m pGrow pPrune r e
    simp only at h
    cases e2 : leafSteps m t1.leafNodes t1 r1 with
    | error er => rw [e2] at h; injection h with h; subst h; exact oleafSteps_real hn hm _ hM1.1 (fun _ h => h) r1 e2
    | ok q2 => rw [e2] at h; cases h

theorem otreeBody_gammas {m : Params ℝ} {pG pP : ℝ} {t t' : Tree ℝ n p} {r r' : Rand ℝ} {mu} (h : treeBody m pG pP t r = .ok (mu, t', r')) : r'.gammas = r.gammas := by
  unfold treeBody at h
  split at h
  · cases h
  · next mu1 t1 r1 e1 =>
    split at h
    · cases h
    · next t2 r2 e2 =>
      injection h with h; injection h with _ h; injection h with _ h; subst h
      rw [leafSteps_gammas _ e2]
      unfold treeStep at e1
      have key : ∀ {mu1 t1 r1}, treeSample m pG pP t r = .ok (mu1, t1, r1) → r1.gammas = r.gammas := by
        intro mu1 t1 r1 h
        unfold treeSample at h
        split at h
        · cases h
        · split at h
          · cases h
          · split at h
            · cases h
            · injection h with h; injection h with _ h; injection h with _ h; subst h; rfl
      split at e1
      · cases e1
      · next e => injection e1 with e1; injection e1 with _ e1; injection e1 with _ e1; subst e1; exact key e
      · next e =>
        split at e1
        · cases e1
        · injection e1 with e1; injection e1 with _ e1; injection e1 with _ e1; subst e1; exact key e

theorem orefreshLoop_gammas {m : Params ℝ} {pG pP : ℝ} {y : Fin n → ℝ} (ts : List (Tree ℝ n p)) : ∀ {f f' : Fin n → ℝ} {ts'} {r r' : Rand ℝ} {mus},
    BModel.refreshLoop y (treeBody m pG pP) ts f r = .ok (mus, f', ts', r') → r'.gammas = r.gammas := by
  induction ts with
  | nil => intro f f' ts' r r' mus h; cases h; rfl
  | cons t ts ih =>
    intro f f' ts' r r' mus h
    unfold BModel.refreshLoop at h
    split at h
    · cases h
    · split at h
      · cases h
      · next e =>
        split at h
        · cases h
        · split at h
          · cases h
          · next e2 =>
            simp only [Except.ok.injEq, Prod.mk.injEq] at h
            obtain ⟨-, -, -, rfl⟩ := h
            rw [ih e2, otreeBody_gammas e]

/-! ### a sweep -/

theorem predict_params {m m' : BModel ℝ n p} {f : Fin n → ℝ} (h : m.predict = .ok (f, m')) : m'.params = m.params := by
  unfold BModel.predict at h
  split at h
  · cases h
  · injection h with h; injection h with _ h; subst h; rfl

theorem osweep_real (hX : ∀ r, GoodRow (X r)) (hn : 0 < n) {m : BModel ℝ n p} (hM : OModel X m) (hm : GoodParams m.params) (pGrow pPrune : ℝ) (r : Rand ℝ) (hg : ∀ g ∈ r.gammas, 0 < g) :
    match sweep m pGrow pPrune r with
    | .error e => e ≠ .nonFinite
    | .ok (_, m', r') => GoodParams m'.params ∧ ∀ g ∈ r'.gammas, 0 < g := by
  have hX' : NoNan X := fun r v => (hX r v).1
  obtain ⟨y, hy⟩ := hM.target
  have hstart : ∃ f m1, m.startPrediction = .ok (f, m1) ∧ OModel X m1 ∧ m1.params = m.params := by
    unfold BModel.startPrediction
    cases hp : m.prediction with
    | some f => exact ⟨f, m, rfl, hM, rfl⟩
    | none => obtain ⟨m1, e, h1, -⟩ := hM.predict hX; exact ⟨_, m1, e, h1, predict_params e⟩
  obtain ⟨f, m1, e1, hM1, hp1⟩ := hstart
  have hloop := refreshLoop_live (body := treeBody m.params pGrow pPrune) (Err := fun e => e ≠ .nonFinite) hX y
    (fun {z t s e} hz h => by rintro rfl; exact otreeBody_real hX' hn hz hm pGrow pPrune s h)
    (fun {z t t' s s' a} hz h => by have := otreeBody_spec hX' hz m.params pGrow pPrune s; rw [h] at this; exact this) hM1.trees f r
  unfold Oblivious.sweep sweepTrees
  simp only [hy, e1]
  cases e2 : BModel.refreshLoop y (treeBody m.params pGrow pPrune) m1.trees f r with
  | error er => rw [e2] at hloop; exact hloop
  | ok q =>
    obtain ⟨mus, f1, ts, r1⟩ := q
    rw [e2] at hloop
    simp only
    have hg1 : ∀ g ∈ r1.gammas, 0 < g := by rw [orefreshLoop_gammas _ e2]; exact hg
    have hM2 : OModel X { m1 with trees := ts, prediction := some f1 } := ⟨hM1.target, hM1.rows, hloop.1⟩
    have hp2 : ({ m1 with trees := ts, prediction := some f1 } : BModel ℝ n p).params = m.params := hp1
    generalize ({ m1 with trees := ts, prediction := some f1 } : BModel ℝ n p) = m2 at hM2 hp2
    obtain ⟨y2, hy2⟩ := hM2.target
    obtain ⟨m3, e3, -⟩ := hM2.predict hX
    have hp3 := predict_params e3
    unfold BModel.sigmaStep BModel.residuals
    simp only [e3, hy2]
    by_cases hneg : BModel.sigmaShape m2 < 0 ∨ BModel.sigmaRate m2 (fun r => y2 r - m2.predictX X r) < 0
    · rw [if_pos hneg]; intro h; cases h
    · rw [if_neg hneg]
      cases hz : r1.gammas with
      | nil => intro h; cases h
      | cons g gs =>
        have hgp : 0 < g := hg1 g (by rw [hz]; simp)
        simp only [Fl.pow_fin hgp, Fl.toFinite]
        refine ⟨⟨Real.rpow_pos_of_pos hgp _, ?_, ?_⟩, fun x hx => hg1 x (by rw [hz]; exact List.mem_cons_of_mem _ hx)⟩
        · have : m3.k = m.k := congrArg Params.k (hp3.trans hp2)
          show 0 < m3.k
          rw [this]; exact hm.k
        · have : m3.nTrees = m.nTrees := congrArg Params.nTrees (hp3.trans hp2)
          show 0 < m3.nTrees
          rw [this]; exact hm.nTrees

/-! ### a chain -/

theorem oburn_real (hX : ∀ r, GoodRow (X r)) (hn : 0 < n) (c : SampleParams ℝ) : ∀ (k : Nat) {m : BModel ℝ n p}, OModel X m → GoodParams m.params → ∀ r : Rand ℝ, (∀ g ∈ r.gammas, 0 < g) →
    match burn c k m r with
    | .error e => e ≠ .nonFinite
    | .ok (m', r') => OModel X m' ∧ GoodParams m'.params ∧ ∀ g ∈ r'.gammas, 0 < g := by
  intro k
  induction k with
  | zero => intro m hM hm r hg; exact ⟨hM, hm, hg⟩
  | succ k ih =>
    intro m hM hm r hg
    have h1 := osweep_real hX hn hM hm c.pGrow c.pPrune r hg
    have h2 := hM.sweep hX c.pGrow c.pPrune r
    unfold Oblivious.burn
    cases e : Oblivious.sweep m c.pGrow c.pPrune r with
    | error er => rw [e] at h1; exact h1
    | ok q =>
      obtain ⟨mus, m1, r1⟩ := q
      rw [e] at h1 h2
      exact ih h2.1 h1.1 r1 h1.2

theorem osampleLoop_real (hX : ∀ r, GoodRow (X r)) (hn : 0 < n) (c : SampleParams ℝ) (ti : ℝ) : ∀ (k ss : Nat) {m : BModel ℝ n p}, OModel X m → GoodParams m.params → ∀ r : Rand ℝ,
    (∀ g ∈ r.gammas, 0 < g) → sampleLoop c ti k ss m r ≠ .error .nonFinite := by
  intro k
  induction k with
  | zero => intro ss m hM hm r hg h; cases h
  | succ k ih =>
    intro ss m hM hm r hg h
    have h1 := osweep_real hX hn hM hm c.pGrow c.pPrune r hg
    have h2 := hM.sweep hX c.pGrow c.pPrune r
    unfold Oblivious.sampleLoop at h
    cases e : Oblivious.sweep m c.pGrow c.pPrune r with
    | error er => rw [e] at h1 h; injection h with h; exact h1 h
    | ok q =>
      obtain ⟨mus, m1, r1⟩ := q
      rw [e] at h1 h2 h
      obtain ⟨hm1, hg1⟩ := h1
      have hM1 := h2.1
      simp only at h
      by_cases hmod : pyMod (ss : ℝ) ti = 0
      · rw [if_pos hmod] at h
        have hrec : ∃ fs m2, BModel.recordPrediction c m1 = .ok (fs, m2) ∧ OModel X m2 ∧ m2.params = m1.params := by
          unfold BModel.recordPrediction
          split
          · obtain ⟨m2, e2, g1, -⟩ := hM1.predict hX
            rw [e2]
            exact ⟨_, _, rfl, g1, predict_params e2⟩
          · exact ⟨_, _, rfl, hM1, rfl⟩
        obtain ⟨fs, m2, e2, hM2, hp2⟩ := hrec
        simp only [e2] at h
        cases e3 : Oblivious.sampleLoop c ti k (ss + 1) m2.deepCopy.2 r1 with
        | error er => rw [e3] at h; injection h with h; subst h; exact ih (ss + 1) hM2.copy.1 (by show GoodParams m2.params; rw [hp2]; exact hm1) r1 hg1 e3
        | ok q3 => rw [e3] at h; cases h
      · rw [if_neg hmod] at h
        exact ih (ss + 1) hM1 hm1 r1 hg1 h

theorem orunChain_real (hX : ∀ r, GoodRow (X r)) (hn : 0 < n) {s : SkModel ℝ p} (hT : 0 < s.nTrees) {y : Fin n → ℝ} {d : Data ℝ n p} {m : BModel ℝ n p} (hc : s.constructModel X y = .ok (d, m)) {r : Rand ℝ}
    (hg : ∀ g ∈ r.gammas, 0 < g) : runChain s X y r ≠ .error .nonFinite := by
  intro h
  obtain ⟨-, -, -, hf, -, h1, -, -, h2, -, -, h5, -⟩ := constructModel_spec hc
  have hm : GoodParams m.params := ⟨by show 0 < m.sigma.current; rw [h5]; norm_num, by show 0 < m.k; rw [h2]; norm_num, by show 0 < m.nTrees; rw [h1]; exact hT⟩
  have hb := oburn_real hX hn s.sampleParams s.nBurn (OModel.fresh hX hf) hm r hg
  unfold runChain samples at h
  rw [hc] at h
  simp only at h
  cases e : burn s.sampleParams s.nBurn m r with
  | error er => rw [e] at hb h; injection h with h; exact hb h
  | ok q =>
    obtain ⟨m1, r1⟩ := q
    rw [e] at hb h
    simp only at h
    by_cases ht : s.sampleParams.thin = 0
    · rw [if_pos ht] at h; cases h
    · rw [if_neg ht] at h
      cases e2 : sampleLoop s.sampleParams (1 / s.sampleParams.thin) s.nSamples 0 m1 r1 with
      | error er => rw [e2] at h; injection h with h; subst h; exact osampleLoop_real hX hn _ _ _ _ hb.1 hb.2.1 r1 hb.2.2 e2
      | ok q2 => rw [e2] at h; cases h

theorem ofit_real (hX : ∀ r, GoodRow (X r)) (hn : 0 < n) {s : SkModel ℝ p} (hT : 0 < s.nTrees) {y : Fin n → ℝ} {d : Data ℝ n p} {m : BModel ℝ n p} (hc : s.constructModel X y = .ok (d, m)) (rs : Nat → Rand ℝ)
    (hg : ∀ i, ∀ g ∈ (rs i).gammas, 0 < g) : fit s X y rs ≠ .error .nonFinite := by
  intro h
  unfold fit at h
  rw [hc] at h
  simp only at h
  have hchains : ∀ (rl : List (Rand ℝ)), (∀ r ∈ rl, ∀ g ∈ r.gammas, 0 < g) → runChains s X y rl ≠ .error .nonFinite := by
    intro rl
    induction rl with
    | nil => intro _ h; cases h
    | cons r rl ih =>
      intro hg h
      unfold runChains at h
      cases e2 : runChain s X y r with
      | error e3 => rw [e2] at h; injection h with h; subst h; exact orunChain_real hX hn hT hc (hg r (by simp)) e2
      | ok o =>
        rw [e2] at h
        simp only at h
        cases e4 : runChains s X y rl with
        | error e5 => rw [e4] at h; injection h with h; subst h; exact ih (fun r hr => hg r (by simp [hr])) e4
        | ok os => rw [e4] at h; cases h
  split at h
  · next e' e2 =>
    injection h with h; subst h
    refine hchains _ (fun r hr => ?_) e2
    obtain ⟨i, -, rfl⟩ := List.mem_map.1 hr
    exact hg i
  · next os e2 =>
    cases os with
    | nil => simp [combineChains] at h
    | cons o os =>
      have hne : combineChains (o :: os) ≠ .error .nonFinite := by
        unfold combineChains concatRows
        intro h
        simp only at h
        split at h
        · next e =>
          split at e
          · cases e
          · split at e
            · cases e
            · injection e with e; subst e; cases h
        · cases h
      cases e3 : combineChains (o :: os) with
      | error er => rw [e3] at h; injection h with h; subst h; exact hne e3
      | ok c => rw [e3] at h; cases h

/-! ### C126 -/

/-- C126, the exceptions of a fit with valid settings on a target that is not constant: if the gamma draws are positive, a fit with the oblivious tree sampler fails only when the draws are used up,
or with AttributeError when no column has two values after the first row. -/
theorem C126_valid (hX : ∀ r, GoodRow (X r)) (hp : 0 < p) {s : SkModel ℝ p} (hs : ValidSettings s) {y : Fin n → ℝ} {a b : Fin n} (hy : y a ≠ y b) (rs : Nat → Rand ℝ)
    (hg : ∀ i, ∀ g ∈ (rs i).gammas, 0 < g) {e : PyErr} (h : fit s X y rs = .error e) :
    e = .outOfDraws ∨ (e = .attributeError ∧ ∀ j, ¬ HasTwoValues (column X (fun _ => true) j).tail) := by
  have hn : 0 < n := a.pos
  obtain ⟨d, m, hc, -⟩ := constructModel_ok (X := X) hn hp hy hs
  rcases C126_errors hX h with h1 | ⟨-, h1⟩ | h1
  · rw [hc] at h1; cases h1
  · have := hs.chains; omega
  · rcases h1 with h1 | h1 | ⟨-, h1⟩ | ⟨-, h1⟩ | h1
    · exact .inl h1
    · subst h1; exact absurd h (ofit_real hX hn hs.trees hc rs hg)
    · rcases h1 with h1 | h1 | h1
      · exact absurd h1 hs.grow
      · exact absurd h1 hs.prune
      · exact absurd h1 hs.thin
    · rcases h1 with h1 | h1
      · exact absurd h1 (not_lt.2 hs.priorA)
      · exact absurd h1 (not_lt.2 hs.priorB)
    · exact .inr h1

/-! ### there are draws for which a fit returns -/

/-- A tree with a single node has one leaf and nothing to prune. -/
theorem stump_nodes {y : Option (Fin n → ℝ)} {t : Tree ℝ n p} {s : Shape} {d : Nat} (hT : OTree X y t s d) (h1 : t.nodes.length = 1) :
    ∃ i, t.leafNodes = [i] ∧ t.prunableDecisionNodes = [] := by
  obtain ⟨i, hi⟩ := List.length_eq_one_iff.1 h1
  obtain ⟨-, c2, c3⟩ := hT.complete
  have hd : d = 0 := by
    rw [h1, pow_succ] at c3
    have : 0 < 2 ^ d := by positivity
    have h2 : 2 ^ d = 1 := by omega
    by_contra hne
    have := Nat.one_lt_two_pow hne
    omega
  subst hd
  have hk : (t.heap.node i).kind = .leaf := by
    by_contra hne
    unfold Tree.leafNodes at c2
    rw [hi] at c2
    simp [hne] at c2
  refine ⟨i, by unfold Tree.leafNodes; rw [hi]; simp [hk], ?_⟩
  unfold Tree.prunableDecisionNodes Tree.decisionNodes
  rw [hi]; simp [hk]

/-- A prune step that is rejected, and a new value for the only leaf. -/
def idle (z : ℝ) : Rand ℝ := ⟨[.prune], [], [0], [z], []⟩

theorem treeBody_idle (hn : 0 < n) {y : Fin n → ℝ} {t : Tree ℝ n p} (hM : OMid X y t) (h1 : t.nodes.length = 1) {m : Params ℝ} (hm : GoodParams m) (pGrow pPrune z : ℝ) (r : Rand ℝ) :
    ∃ mu t', treeBody m pGrow pPrune t ((idle z).append r) = .ok (mu, t', r) ∧ OMid X y t' ∧ t'.nodes.length = 1 := by
  obtain ⟨s, d, hT⟩ := hM.tree
  obtain ⟨i, h2, h3⟩ := stump_nodes hT h1
  have hstep : treeStep m pGrow pPrune t ((idle z).append r) = .ok (none, t, { r with normals := z :: r.normals }) := by
    unfold treeStep treeSample propose
    simp only [idle, Rand.append, List.cons_append, List.nil_append, sampleMethod, h3, pruneMutations, sumRatios]
    have : Fl.lt (.fin (0 : ℝ)) (.fin 0) = false := by simp [Fl.lt]
    simp only [this, Bool.false_eq_true, if_false]
  have hi : i ∈ t.leafNodes := by rw [h2]; simp
  have hin := (List.mem_filter.1 hi).1
  obtain ⟨q, hk⟩ := hT.inv.nodeOk hin
  obtain ⟨h', e2, -⟩ := Lik.sumYOf_spec hk
  obtain ⟨w, hw⟩ := hT.inv.nonempty hn hin
  have hc : 0 < count (rowsOf (t.heap.dataOf i)) := Finset.card_pos.2 ⟨w, by simpa using hw⟩
  have hleaf : ∃ t', leafStep m t i { r with normals := z :: r.normals } = .ok (t', r) ∧ t'.nodes = t.nodes := by
    unfold leafStep
    simp only [e2, Lik.nObsv_spec hk, leafValue_eq hm y hc, Fl.toFinite]
    exact ⟨_, rfl, rfl⟩
  obtain ⟨t', e3, h4⟩ := hleaf
  have h5 := oleafStep_spec hM m hi { r with normals := z :: r.normals }
  rw [e3] at h5
  refine ⟨none, t', ?_, h5.1, by rw [h4]; exact h1⟩
  unfold treeBody
  simp only [hstep, h2]
  unfold leafSteps
  simp only [e3]
  rfl

/-- No draws. -/
def noDraws : Rand ℝ := ⟨[], [], [], [], []⟩

/-- The draws of `T` rejected steps. -/
def idles (z : ℝ) : Nat → Rand ℝ
  | 0 => noDraws
  | T + 1 => (idle z).append (idles z T)

theorem refreshLoop_idle (hX : ∀ r, GoodRow (X r)) (hn : 0 < n) {m : Params ℝ} (hm : GoodParams m) (pGrow pPrune z : ℝ) (y : Fin n → ℝ) : ∀ (ts : List (Tree ℝ n p)),
    (∀ t ∈ ts, OLive X t ∧ t.nodes.length = 1) → ∀ (f : Fin n → ℝ) (r : Rand ℝ), ∃ mus f' ts', BModel.refreshLoop y (treeBody m pGrow pPrune) ts f ((idles z ts.length).append r) = .ok (mus, f', ts', r) ∧
      ts'.length = ts.length ∧ ∀ t ∈ ts', OLive X t ∧ t.nodes.length = 1 := by
  intro ts
  induction ts with
  | nil => intro _ f r; exact ⟨[], f, [], rfl, rfl, by simp⟩
  | cons t ts ih =>
    intro h f r
    obtain ⟨hL, hl⟩ := h t (by simp)
    obtain ⟨t1, e1, hM1, -, hn1, -⟩ := hL.begin hX y f
    obtain ⟨mu, t2, e2, hM2, hn2⟩ := treeBody_idle hn hM1 (by rw [hn1]; exact hl) hm pGrow pPrune z ((idles z ts.length).append r)
    obtain ⟨t3, e3, hL3, -, hn3⟩ := hM2.finish hX (fun r => f r - t.predictX X r)
    obtain ⟨mus, f', ts', e4, h4, h5⟩ := ih (fun t ht => h t (by simp [ht])) (fun r => f r - t.predictX X r + t2.predictX X r) r
    refine ⟨mu :: mus, f', t3 :: ts', ?_, by simp [h4], ?_⟩
    · unfold BModel.refreshLoop
      simp only [e1, List.length_cons, idles, Rand.append_assoc, e2, e3, e4]
    · intro u hu
      rcases List.mem_cons.1 hu with rfl | hu
      · exact ⟨hL3, by rw [hn3]; exact hn2⟩
      · exact h5 u hu

/-- A model all of whose trees have a single node. -/
structure Idle (X : Fin n → Fin p → Fl ℝ) (T : Nat) (m : BModel ℝ n p) : Prop where
  model : OModel X m
  good : GoodParams m.params
  alpha : 0 ≤ m.sigma.alpha
  beta : 0 ≤ m.sigma.beta
  trees : m.trees.length = T
  stumps : ∀ t ∈ m.trees, t.nodes.length = 1

theorem Idle.predict (hX : ∀ r, GoodRow (X r)) {T : Nat} {m : BModel ℝ n p} (h : Idle X T m) : ∃ f m', m.predict = .ok (f, m') ∧ Idle X T m' := by
  obtain ⟨m', e, h1, -, h3, h4⟩ := h.model.predict hX
  refine ⟨_, m', e, h1, by rw [predict_params e]; exact h.good, by rw [h4]; exact h.alpha, by rw [h4]; exact h.beta, ?_, ?_⟩
  all_goals
    have hm : m'.trees.map (fun t => t.nodes.map (nodeView t.heap)) = m.trees.map (fun t => t.nodes.map (nodeView t.heap)) := (predict_content e).1
  · have := congrArg List.length hm
    simpa [h.trees] using this
  · intro t ht
    have : t.nodes.map (nodeView t.heap) ∈ m.trees.map (fun t => t.nodes.map (nodeView t.heap)) := hm ▸ List.mem_map_of_mem ht
    obtain ⟨u, hu, e⟩ := List.mem_map.1 this
    have := congrArg List.length e
    simp only [List.length_map] at this
    rw [← this]; exact h.stumps u hu

/-- The draws of a sweep of `T` trees in which all steps are rejected. -/
def idleSweep (z g : ℝ) (T : Nat) : Rand ℝ := (idles z T).append ⟨[], [], [], [], [g]⟩

theorem Idle.sweep (hX : ∀ r, GoodRow (X r)) (hn : 0 < n) {T : Nat} {m : BModel ℝ n p} (h : Idle X T m) (pGrow pPrune z : ℝ) {g : ℝ} (hg : 0 < g) (r : Rand ℝ) :
    ∃ mus m', Oblivious.sweep m pGrow pPrune ((idleSweep z g T).append r) = .ok (mus, m', r) ∧ Idle X T m' := by
  obtain ⟨y, hy⟩ := h.model.target
  have hstart : ∃ f m1, m.startPrediction = .ok (f, m1) ∧ Idle X T m1 := by
    unfold BModel.startPrediction
    cases hp : m.prediction with
    | some f => exact ⟨f, m, rfl, h⟩
    | none => obtain ⟨f, m1, e, h1⟩ := h.predict hX; exact ⟨f, m1, e, h1⟩
  obtain ⟨f, m1, e1, h1⟩ := hstart
  obtain ⟨mus, f', ts', e2, l2, h2⟩ := refreshLoop_idle hX hn h.good pGrow pPrune z y m1.trees (fun t ht => ⟨h1.model.trees t ht, h1.stumps t ht⟩) f ((⟨[], [], [], [], [g]⟩ : Rand ℝ).append r)
  have h3 : Idle X T { m1 with trees := ts', prediction := some f' } :=
    ⟨⟨h1.model.target, h1.model.rows, fun t ht => (h2 t ht).1⟩, h1.good, h1.alpha, h1.beta, l2.trans h1.trees, fun t ht => (h2 t ht).2⟩
  unfold Oblivious.sweep sweepTrees
  rw [h1.trees] at e2
  simp only [hy, e1, idleSweep, Rand.append_assoc, e2]
  generalize ({ m1 with trees := ts', prediction := some f' } : BModel ℝ n p) = m2 at h3
  obtain ⟨y2, hy2⟩ := h3.model.target
  obtain ⟨f3, m3, e3, h4⟩ := h3.predict hX
  have hs := h3.model.sigmaStep hX ((⟨[], [], [], [], [g]⟩ : Rand ℝ).append r)
  have hok : ∃ m4, m2.sigmaStep ((⟨[], [], [], [], [g]⟩ : Rand ℝ).append r) = .ok (m4, r) ∧ Idle X T m4 := by
    unfold BModel.sigmaStep BModel.residuals at hs ⊢
    simp only [e3, hy2] at hs ⊢
    by_cases hneg : BModel.sigmaShape m2 < 0 ∨ BModel.sigmaRate m2 (fun r => y2 r - f3 r) < 0
    · rw [if_pos hneg] at hs
      rcases hs with hs | hs | ⟨-, hs | hs⟩
      · cases hs
      · cases hs
      · exact absurd hs (not_lt.2 h3.alpha)
      · exact absurd hs (not_lt.2 h3.beta)
    · rw [if_neg hneg]
      simp only [Rand.append, List.nil_append, List.cons_append, Fl.pow_fin hg, Fl.toFinite]
      exact ⟨_, rfl, ⟨h4.model.target, h4.model.rows, h4.model.trees⟩, ⟨Real.rpow_pos_of_pos hg _, h4.good.k, h4.good.nTrees⟩, h4.alpha, h4.beta, h4.trees, h4.stumps⟩
  obtain ⟨m4, e4, h5⟩ := hok
  simp only [e4]
  exact ⟨_, _, rfl, h5⟩

theorem Idle.copy {T : Nat} {m : BModel ℝ n p} (h : Idle X T m) : Idle X T m.deepCopy.2 := by
  refine ⟨h.model.copy.1, h.good, h.alpha, h.beta, ?_, ?_⟩
  · have : m.deepCopy.2.trees = m.trees.map (fun t => t.deepCopy.2) := rfl
    rw [this]; simpa using h.trees
  · intro t ht
    have : m.deepCopy.2.trees = m.trees.map (fun t => t.deepCopy.2) := rfl
    rw [this] at ht
    obtain ⟨u, hu, rfl⟩ := List.mem_map.1 ht
    exact h.stumps u hu

/-- The draws of `k` sweeps. -/
def idleSweeps (z g : ℝ) (T : Nat) : Nat → Rand ℝ
  | 0 => noDraws
  | k + 1 => (idleSweep z g T).append (idleSweeps z g T k)

theorem Idle.burn (hX : ∀ r, GoodRow (X r)) (hn : 0 < n) {T : Nat} (c : SampleParams ℝ) (z : ℝ) {g : ℝ} (hg : 0 < g) : ∀ (k : Nat) {m : BModel ℝ n p}, Idle X T m → ∀ r,
    ∃ m', Oblivious.burn c k m ((idleSweeps z g T k).append r) = .ok (m', r) ∧ Idle X T m' := by
  intro k
  induction k with
  | zero => intro m h r; exact ⟨m, rfl, h⟩
  | succ k ih =>
    intro m h r
    obtain ⟨mus, m1, e1, h1⟩ := h.sweep hX hn c.pGrow c.pPrune z hg ((idleSweeps z g T k).append r)
    obtain ⟨m2, e2, h2⟩ := ih h1 r
    refine ⟨m2, ?_, h2⟩
    unfold Oblivious.burn
    simp only [idleSweeps, Rand.append_assoc, e1, e2]

theorem Idle.sampleLoop (hX : ∀ r, GoodRow (X r)) (hn : 0 < n) {T : Nat} (c : SampleParams ℝ) (ti z : ℝ) {g : ℝ} (hg : 0 < g) : ∀ (k ss : Nat) {m : BModel ℝ n p}, Idle X T m → ∀ r,
    ∃ ch m', Oblivious.sampleLoop c ti k ss m ((idleSweeps z g T k).append r) = .ok (ch, m', r) := by
  intro k
  induction k with
  | zero => intro ss m h r; exact ⟨_, m, rfl⟩
  | succ k ih =>
    intro ss m h r
    obtain ⟨mus, m1, e1, h1⟩ := h.sweep hX hn c.pGrow c.pPrune z hg ((idleSweeps z g T k).append r)
    unfold Oblivious.sampleLoop
    simp only [idleSweeps, Rand.append_assoc, e1]
    by_cases hmod : pyMod (ss : ℝ) ti = 0
    · have hrec : ∃ fs m2, BModel.recordPrediction c m1 = .ok (fs, m2) ∧ Idle X T m2 := by
        unfold BModel.recordPrediction
        split
        · obtain ⟨f, m2, e2, g1⟩ := h1.predict hX
          rw [e2]
          exact ⟨_, _, rfl, g1⟩
        · exact ⟨_, _, rfl, h1⟩
      obtain ⟨fs, m2, e2, h2⟩ := hrec
      obtain ⟨ch, m3, e3⟩ := ih (ss + 1) h2.copy r
      simp only [if_pos hmod, e2, e3]
      exact ⟨_, _, rfl⟩
    · obtain ⟨ch, m3, e3⟩ := ih (ss + 1) h1 r
      simp only [if_neg hmod, e3]
      exact ⟨_, _, rfl⟩

/-- C126: for valid settings and a target that is not constant there are draws for which a fit with the oblivious tree sampler returns, whatever the columns are. -/
theorem C126_returns (hX : ∀ r, GoodRow (X r)) (hp : 0 < p) {s : SkModel ℝ p} (hs : ValidSettings s) {y : Fin n → ℝ} {a b : Fin n} (hy : y a ≠ y b) :
    ∃ rs s', fit s X y rs = .ok s' := by
  have hn : 0 < n := a.pos
  obtain ⟨d, m, hc, -⟩ := constructModel_ok (X := X) hn hp hy hs
  obtain ⟨-, -, -, hf, -, h1, -, -, h2, h3, h4, h5, -⟩ := constructModel_spec hc
  have hM := OModel.fresh hX hf
  obtain ⟨nz, d1, sigma, nT, al, be, kk, hd1, hc1⟩ := hf
  obtain ⟨m', y', t, e, -, -, -, -, hnT, -, -, -, -, htr, -, htn, -⟩ := construct_inv (N := False) (fun h => h.elim) hd1 sigma nT al be kk
  rw [hc1] at e; injection e with e; subst e
  have hI : Idle X s.nTrees m := by
    refine ⟨hM, ⟨by show 0 < m.sigma.current; rw [h5]; norm_num, by show 0 < m.k; rw [h2]; norm_num, by show 0 < m.nTrees; rw [h1]; exact hs.trees⟩, by rw [h3]; exact hs.priorA, by rw [h4]; exact hs.priorB, ?_, ?_⟩
    · rw [htr, List.length_replicate, ← hnT, h1]
    · intro t ht
      rw [htr] at ht
      obtain ⟨-, rfl⟩ := List.mem_replicate.1 ht
      rw [htn]; rfl
  obtain ⟨m1, e1, hI1⟩ := hI.burn hX hn s.sampleParams 0 (g := 1) one_pos s.nBurn (idleSweeps 0 1 s.nTrees s.nSamples |>.append noDraws)
  obtain ⟨ch, m2, e2⟩ := hI1.sampleLoop hX hn s.sampleParams (1 / s.sampleParams.thin) 0 (g := 1) one_pos s.nSamples 0 noDraws
  set R := (idleSweeps 0 1 s.nTrees s.nBurn).append ((idleSweeps 0 1 s.nTrees s.nSamples).append noDraws) with hR
  have hch : ∃ o, runChain s X y R = .ok o := by
    unfold runChain samples
    simp only [hc, e1, if_neg (show ¬ s.sampleParams.thin = 0 from hs.thin), e2]
    exact ⟨_, rfl⟩
  obtain ⟨o, ho⟩ := hch
  have hall : ∀ k : Nat, runChains s X y (List.replicate k R) = .ok (List.replicate k o) := by
    intro k
    induction k with
    | zero => rfl
    | succ k ih =>
      rw [List.replicate_succ, List.replicate_succ]
      unfold runChains
      simp only [ho, ih]
  refine ⟨fun _ => R, ?_⟩
  cases e : fit s X y (fun _ => R) with
  | ok s' => exact ⟨s', rfl⟩
  | error er =>
    exfalso
    have hspec := chain_spec hX s hc R
    rw [ho] at hspec
    obtain ⟨ch', m', rfl, -, -, -, h6, h7, h8⟩ := hspec
    have hne : List.replicate s.nChains (⟨n, m', ch'⟩ : ChainOut ℝ p) ≠ [] := by
      have := hs.chains
      simp only [ne_eq, List.replicate_eq_nil_iff]
      omega
    obtain ⟨c, hcc, -⟩ := combine_ok (n := n) (T := (storedTimes s.nSamples s.thin).length) (sa := s.storeAcceptance) (sp := s.storePredictions) hne (fun o ho => by
      obtain ⟨-, rfl⟩ := List.mem_replicate.1 ho
      exact ⟨rfl, h6, h7, h8⟩)
    unfold fit at e
    have hmap : (List.range s.nChains).map (fun _ => R) = List.replicate s.nChains R := by simp
    simp only [hc, hmap, hall, hcc] at e
    cases e

/-! ### concrete cases -/

/-- C126, the example: with the rows 0, 1, 2 a fit fails only if the draws are used up; it does return for other draws. -/
example (store : Bool) : (∀ rs : Nat → Rand ℝ, (∀ i, ∀ g ∈ (rs i).gammas, 0 < g) → ∀ e, fit (exSkReal store) (rampX 3) (fun r => (r.val : ℝ)) rs = .error e → e = .outOfDraws) ∧
    ∃ rs s', fit (exSkReal store) (rampX 3) (fun r => (r.val : ℝ)) rs = .ok s' := by
  have hX : ∀ r, GoodRow (rampX 3 r) := fun r j => ⟨by simp [rampX], by simp [rampX]⟩
  have hj : HasTwoValues (column (rampX 3) (fun _ => true) 0).tail := by
    refine (isNotConstant_noNan ?_).1 (ramp_splittable ?_)
    · intro x hx; obtain ⟨r, -, hr⟩ := mem_column.1 hx; rw [← hr]; exact rampX_noNan 3 r 0
    · simp [count]
  refine ⟨fun rs hg e h => ?_, C126_returns hX (by norm_num) (exSkReal_valid store) (a := 0) (b := 1) (by norm_num)⟩
  rcases C126_valid hX (by norm_num) (exSkReal_valid store) (a := 0) (b := 1) (by norm_num) rs hg h with h1 | ⟨-, h1⟩
  · exact h1
  · exact absurd hj (h1 0)

/-- C126, the example: the rows have the same values in every column; the default tree sampler cannot be used (C108), the oblivious one returns for some draws and raises AttributeError for others (see the example
after `C124_refuted`). -/
example (store : Bool) : (∀ rs s', (exSkReal store).fit (fun (_ : Fin 3) _ => (.fin 1 : Fl ℝ)) (fun r => (r.val : ℝ)) rs ≠ .ok s') ∧
    ∃ rs s', fit (exSkReal store) (fun (_ : Fin 3) _ => (.fin 1 : Fl ℝ)) (fun r => (r.val : ℝ)) rs = .ok s' := by
  refine ⟨fun rs s' h => ?_, C126_returns (fun r j => ⟨by simp, by simp⟩) (by norm_num) (exSkReal_valid store) (a := 0) (b := 1) (by norm_num)⟩
  obtain ⟨j, a, ha, b, hb, hab⟩ := C108_needs (fun _ _ => by simp) (exSkReal_valid store).trees (by simp [exSkReal]) (exSkReal_valid store).grow (exSkReal_valid store).prune h
  rw [column_three] at ha hb
  simp at ha hb
  exact hab (ha.trans hb.symm)

end Bart.Oblivious
