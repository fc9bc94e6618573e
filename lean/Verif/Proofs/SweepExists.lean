import Verif.Props.PosteriorProps
import Verif.Proofs.ModelTrees

/-! Sweeps that return exist: for every model over a matrix with a splittable column there are draws for which a Gibbs sweep runs to its end. -/

set_option linter.unusedSectionVars false

namespace Bart
open Spec Lik Sampler

section
variable {K : Type} [Field K] [LinearOrder K] {n p : Nat} {X : Fin n → Fin p → Fl K}

theorem Fl.lt_or_lt {a b : Fl K} (ha : a ≠ .nan) (hb : b ≠ .nan) (hab : a ≠ b) : Fl.lt a b = true ∨ Fl.lt b a = true := by
  cases a <;> cases b <;> simp_all [Fl.lt]

/-- Every tree over a matrix with a splittable column has a proposal. -/
theorem propose_exists (hX : NoNan X) {j : Fin p} (hj : HasTwoValues (column X (fun _ => true) j).tail) {y : Fin n → K} {t : Tree K n p} {s : Shape}
    (hI : TreeInv X (some y) t s) : ∃ us ms mu t1, ∀ us' ms', t.propose (us ++ us') (ms ++ ms') = .ok (mu, t1, us', ms') := by
  by_cases hd : s.decisions = []
  · cases s with
    | node i l r => simp [Shape.decisions] at hd
    | leaf i =>
      have hi : i ∈ t.leafNodes := hI.mem_leafNodes.2 (by simp [Shape.leaves])
      have hrows : rowsOf (t.heap.dataOf i) = fun _ => true := by
        funext r
        obtain ⟨k, k1, -, k3, -⟩ := hI.leaf_of_row (hX r)
        have : k = i := by simpa [Shape.leaves] using hI.mem_leafNodes.1 k1
        rw [← this]; exact k3
      have hnn : ∀ x ∈ column X (fun _ => true) j, x ≠ .nan := by
        intro x hx; obtain ⟨r, -, hr⟩ := mem_column.1 hx; rw [← hr]; exact hX r j
      have hnc : isNotConstant (column X (rowsOf (t.heap.dataOf i)) j) = true := by
        rw [hrows]; exact (isNotConstant_noNan hnn).2 hj
      obtain ⟨a, ha, b, hb, hab⟩ := hj
      have ha := List.mem_of_mem_tail ha
      have hb := List.mem_of_mem_tail hb
      have hex : ∃ x b, x ∈ column X (rowsOf (t.heap.dataOf i)) j ∧ b ∈ column X (rowsOf (t.heap.dataOf i)) j ∧ Fl.lt x b = true := by
        rw [hrows]
        rcases Fl.lt_or_lt (hnn a ha) (hnn b hb) hab with h | h
        · exact ⟨a, b, ha, hb, h⟩
        · exact ⟨b, a, hb, ha, h⟩
      obtain ⟨x, b, hx, hb, hlt⟩ := hex
      obtain ⟨u0, u1, u2, t1, D, -, e⟩ := sampleGrow_exact hX hI hi hnc hx hb hlt
      refine ⟨[u0, u1, u2], [.grow], ⟨.grow, i, D⟩, t1, fun us' ms' => ?_⟩
      simp only [List.cons_append, List.nil_append]
      unfold Tree.propose
      simp only [Tree.sampleMethod, e]
  · obtain ⟨i, l, r, hsub⟩ := s.exists_prunable hd
    have hi : i ∈ t.prunableDecisionNodes := by
      obtain ⟨q, d, hR⟩ := hI.repr.sub hsub
      obtain ⟨r1, r2, r3, -, -, cl, cr, -, hl, hr⟩ := hR
      simp only [Shape.root] at r2 r3
      have hi : i ∈ t.nodes := hI.perm.mem_iff.2 (hsub.ids_subset _ (by simp [Shape.ids]))
      unfold Tree.prunableDecisionNodes Tree.decisionNodes
      simp [hi, r1, Heap.isPrunable, r2, r3, Heap.isLeafPtr, hl.1, hr.1]
    obtain ⟨u, t1, U, e⟩ := samplePrune_exact hI hi
    refine ⟨[u], [.prune], ⟨.prune, i, U⟩, t1, fun us' ms' => ?_⟩
    simp only [List.cons_append, List.nil_append]
    unfold Tree.propose
    simp only [Tree.sampleMethod, e]

end

variable {n p : Nat} {X : Fin n → Fin p → Fl ℝ}

/-- Prefix the draws of a step to the draws still to come. -/
def Rand.before (r : Rand ℝ) (ms : List Method) (us : List Nat) (u : ℝ) (zs : List ℝ) : Rand ℝ :=
  { methods := ms ++ r.methods, picks := us ++ r.picks, uniforms := u :: r.uniforms, normals := zs ++ r.normals, gammas := r.gammas }

/-- First the draws `a`, then the draws `b`. -/
def Rand.append (a b : Rand ℝ) : Rand ℝ :=
  { methods := a.methods ++ b.methods, picks := a.picks ++ b.picks, uniforms := a.uniforms ++ b.uniforms, normals := a.normals ++ b.normals, gammas := a.gammas ++ b.gammas }

theorem Rand.append_assoc (a b c : Rand ℝ) : (a.append b).append c = a.append (b.append c) := by simp [Rand.append]

theorem leafSteps_exists (hX : NoNan X) {y : Fin n → ℝ} {m : Params ℝ} (hm : GoodParams m) {fl : CacheFlags} (hf : fl.fresh = false) (z : ℝ) (is : List NodeId) :
    ∀ {t : Tree ℝ n p} (_ : Good True X (some y) t fl) (_ : ∀ i ∈ is, i ∈ t.leafNodes), ∃ t', ∀ r : Rand ℝ,
      leafSteps m is t { r with normals := List.replicate is.length z ++ r.normals } = .ok (t', r) := by
  induction is with
  | nil => intro t _ _; exact ⟨t, fun r => rfl⟩
  | cons i is ih =>
    intro t hG hi
    obtain ⟨s, hI⟩ := hG.inv
    have hin := (List.mem_filter.1 (hi i (by simp))).1
    obtain ⟨q, hk⟩ := hI.repr.nodeOk i (hI.perm.mem_iff.1 hin)
    obtain ⟨h', e2, x⟩ := Lik.sumYOf_spec hk
    obtain ⟨w, hw⟩ := hG.ne trivial i hin
    have hc : 0 < count (rowsOf (t.heap.dataOf i)) := Finset.card_pos.2 ⟨w, by simpa using hw⟩
    set v := postMean m.sigma (sm m) y (rowsOf (t.heap.dataOf i)) + z * Real.sqrt (postVar m.sigma (sm m) (rowsOf (t.heap.dataOf i)) / m.nTrees) with hv
    have e1 : ∀ r : Rand ℝ, leafStep m t i { r with normals := List.replicate (is.length + 1) z ++ r.normals } =
        .ok ({ t with heap := h'.setValue i v }, { r with normals := List.replicate is.length z ++ r.normals }) := by
      intro r
      unfold leafStep
      simp only [e2, Lik.nObsv_spec hk, List.replicate_succ, List.cons_append]
      rw [leafValue_eq hm y hc]
      rfl
    have h1 := leafStep_spec hX hG m (hi i (by simp)) { (⟨[], [], [], [], []⟩ : Rand ℝ) with normals := List.replicate (is.length + 1) z ++ [] }
    rw [e1] at h1
    obtain ⟨h'', v', x', ht, -, hG1⟩ := h1
    have hfl : ({ fl with stale := fl.stale || fl.fresh } : CacheFlags) = fl := by cases fl; simp_all
    rw [hfl] at hG1
    have hsh : SameShape t { t with heap := h'.setValue i v } := by
      refine ⟨rfl, fun k hk => ?_⟩
      have := x.node k (hI.mem_lt hk)
      by_cases hki : k = i
      · subst hki; simp [Heap.setValue, Heap.setNode, this]; exact ⟨rfl, rfl, rfl, rfl, rfl⟩
      · simp [Heap.setValue, Heap.setNode, hki, this]; exact SameNode.refl _
    obtain ⟨t', e3⟩ := ih hG1 (fun k hk => by rw [hsh.leafNodes]; exact hi k (by simp [hk]))
    refine ⟨t', fun r => ?_⟩
    unfold leafSteps
    simp only [List.length_cons, e1, e3]

theorem treeStep_exists (hX : NoNan X) {j : Fin p} (hj : HasTwoValues (column X (fun _ => true) j).tail) {y : Fin n → ℝ} {t : Tree ℝ n p} {s : Shape}
    (hI : TreeInv X (some y) t s) (m : Params ℝ) {pGrow pPrune : ℝ} (hp1 : pGrow ≠ 0) (hp2 : pPrune ≠ 0) (u : ℝ) :
    ∃ ms us mu t', ∀ (r : Rand ℝ) zs, treeStep m pGrow pPrune t (r.before ms us u zs) = .ok (mu, t', { r with normals := zs ++ r.normals }) := by
  obtain ⟨us, ms, mu, t1, e⟩ := propose_exists hX hj hI
  have hps := propose_spec hX (ms ++ []) hI (us ++ [])
  rw [e] at hps
  obtain ⟨x1, hm⟩ := hps
  obtain ⟨v, t2, e2, x2⟩ := Lik.ratio_ok hX m hI x1 hm hp1 hp2
  by_cases hlt : Fl.lt (.fin u) v = true
  · obtain ⟨t', s', e3, -⟩ := (hm.ext x2.heap).mutate hI (x1.trans x2)
    refine ⟨ms, us, some mu, t', fun r zs => ?_⟩
    unfold treeStep treeSample Rand.before
    simp only [e, e2, hlt, if_true, e3]
  · refine ⟨ms, us, none, t2, fun r zs => ?_⟩
    unfold treeStep treeSample Rand.before
    simp only [e, e2, hlt, if_false, Bool.false_eq_true]

theorem treeBody_exists (hX : NoNan X) {j : Fin p} (hj : HasTwoValues (column X (fun _ => true) j).tail) {m : Params ℝ} (hm : GoodParams m)
    {pGrow pPrune : ℝ} (hp1 : pGrow ≠ 0) (hp2 : pPrune ≠ 0) (u z : ℝ) {y : Fin n → ℝ} {t : Tree ℝ n p} (h : Handed True X y t) :
    ∃ ms us zs mu t', ∀ r : Rand ℝ, BModel.treeBody m pGrow pPrune t (r.before ms us u zs) = .ok (mu, t', r) := by
  obtain ⟨fl, hG, hp, hf, hst⟩ := h
  obtain ⟨s, hI⟩ := hG.inv
  obtain ⟨ms, us, mu, t1, e⟩ := treeStep_exists hX hj hI m hp1 hp2 u
  have h1 := treeStep_spec hX hG m hp1 hp2 ((⟨[], [], [], [], []⟩ : Rand ℝ).before ms us u [])
  rw [e] at h1
  obtain ⟨-, hG1⟩ := h1
  generalize hfl : (if mu.isSome then { fl with changed := true, fresh := false, stale := false } else fl : CacheFlags) = fl1 at hG1
  have hf1 : fl1.fresh = false := by rw [← hfl]; split <;> first | rfl | exact hf
  obtain ⟨t', e2⟩ := leafSteps_exists hX hm hf1 z t1.leafNodes hG1 (fun _ h => h)
  refine ⟨ms, us, List.replicate t1.leafNodes.length z, mu, t', fun r => ?_⟩
  unfold BModel.treeBody
  simp only [e, e2]

theorem refreshLoop_exists (hX : NoNan X) {j : Fin p} (hj : HasTwoValues (column X (fun _ => true) j).tail) {m : Params ℝ} (hm : GoodParams m)
    {pGrow pPrune : ℝ} (hp1 : pGrow ≠ 0) (hp2 : pPrune ≠ 0) (u z : ℝ) (y : Fin n → ℝ) (ts : List (Tree ℝ n p)) :
    ∀ (_ : ∀ t ∈ ts, Fitted True X t) (pred : Fin n → ℝ), ∃ (r0 : Rand ℝ) (mus : _) (f : _) (ts' : _), r0.gammas = [] ∧
      ∀ r : Rand ℝ, BModel.refreshLoop y (BModel.treeBody m pGrow pPrune) ts pred (r0.append r) = .ok (mus, f, ts', r) := by
  induction ts with
  | nil => intro _ pred; exact ⟨⟨[], [], [], [], []⟩, [], pred, [], rfl, fun r => rfl⟩
  | cons t ts ih =>
    intro hF pred
    obtain ⟨t1, e1, hH, -⟩ := BModel.refreshBegin_spec hX y pred (hF t (by simp))
    obtain ⟨ms, us, zs, mu, t2, e2⟩ := treeBody_exists hX hj hm hp1 hp2 u z hH
    have h2 := BModel.treeBody_keeps hX m hp1 hp2 _ _ _ _ _ _ hH (e2 ⟨[], [], [], [], []⟩)
    obtain ⟨t3, e3, -, -⟩ := BModel.refreshEnd_spec hX (fun r => pred r - rowValue t r) h2
    obtain ⟨r1, mus, f, ts', hg, e4⟩ := ih (fun t ht => hF t (by simp [ht])) (fun r => pred r - rowValue t r + rowValue t2 r)
    refine ⟨r1.before ms us u zs, mu :: mus, f, t3 :: ts', hg, fun r => ?_⟩
    have hap : (r1.before ms us u zs).append r = (r1.append r).before ms us u zs := by
      simp [Rand.before, Rand.append]
    rw [hap]
    unfold BModel.refreshLoop
    simp only [e1, e2, e3, e4]

/-- For every model there are draws that let a sweep return, whatever the acceptance draw `u`, the normal draw `z` and the gamma draw `g > 0` are (the same
for all trees and leaves). -/
theorem ModelInv.sweep_exists (hX : NoNan X) {j : Fin p} (hj : HasTwoValues (column X (fun _ => true) j).tail) {y : Fin n → ℝ} {m : BModel ℝ n p}
    (h : ModelInv True X y m) (hm : GoodParams m.params) (ha : 0 ≤ m.sigma.alpha) (hb : 0 ≤ m.sigma.beta)
    {pGrow pPrune : ℝ} (hp1 : pGrow ≠ 0) (hp2 : pPrune ≠ 0) (u z : ℝ) {g : ℝ} (hg : 0 < g) :
    ∃ (r0 : Rand ℝ) (mus : _) (m' : _), r0.gammas = [g] ∧ ∀ r : Rand ℝ, m.sweep pGrow pPrune (r0.append r) = .ok (mus, m', r) := by
  have hstart : ∃ f m1, m.startPrediction = .ok (f, m1) ∧ ModelInv True X y m1 := by
    unfold BModel.startPrediction
    cases hp : m.prediction with
    | some f => exact ⟨f, m, rfl, h⟩
    | none =>
      obtain ⟨m1, e, h1, -⟩ := h.predict hX
      exact ⟨_, m1, e, h1⟩
  obtain ⟨f, m1, e1, hI1⟩ := hstart
  obtain ⟨r0, mus, f1, ts', hgam, e2⟩ := refreshLoop_exists hX hj hm hp1 hp2 u z y m1.trees hI1.fitted f
  have e3 : ∀ r : Rand ℝ, m.sweepTrees pGrow pPrune (r0.append r) = .ok (mus, { m1 with trees := ts', prediction := some f1 }, r) := by
    intro r
    unfold BModel.sweepTrees
    simp only [h.target, e1, e2]
  have hst := h.sweepTrees hX hp1 hp2 (r0.append ⟨[], [], [], [], []⟩)
  rw [e3] at hst
  obtain ⟨j1, -, -, j2⟩ := hst
  generalize ({ m1 with trees := ts', prediction := some f1 } : BModel ℝ n p) = m2 at e3 j1 j2
  obtain ⟨m3, e4, -⟩ := j1.residuals hX
  have hneg : ¬ (m2.sigmaShape < 0 ∨ m2.sigmaRate (fun r => y r - sumValue m2.trees r) < 0) := by
    have z1 : 0 ≤ ∑ r, (y r - sumValue m2.trees r) * (y r - sumValue m2.trees r) := Finset.sum_nonneg (fun r _ => mul_self_nonneg _)
    unfold BModel.sigmaShape BModel.sigmaRate
    have hsg : m2.sigma = m.sigma := by rw [j2]
    rw [hsg, j1.obs]
    have : (0 : ℝ) ≤ (((n : Int) : ℝ)) := by positivity
    rintro (h | h) <;> linarith
  refine ⟨{ r0 with gammas := [g] }, mus, { m3 with sigma := { m3.sigma with current := g ^ (-(1/2) : ℝ) } }, rfl, fun r => ?_⟩
  have hap : Rand.append { r0 with gammas := [g] } r = r0.append { r with gammas := g :: r.gammas } := by simp [Rand.append, hgam]
  rw [hap]
  unfold BModel.sweep
  simp only [e3]
  unfold BModel.sigmaStep
  simp only [e4, if_neg hneg, Fl.pow_fin hg, Fl.toFinite]

/-- A new model over the reals. -/
theorem exists_fresh_model (X : Fin n → Fin p → Fl ℝ) (y : Fin n → ℝ) (sigma : Sigma ℝ) (nTrees : Nat) (alpha beta k : ℝ) :
    ∃ m, FreshModel X y m ∧ m.data.y.y = some y ∧ m.sigma = sigma ∧ m.nTrees = nTrees ∧ m.alpha = alpha ∧ m.beta = beta ∧ m.k = k := by
  have h : ∃ d, Data.init X y none false none none none none = .ok d ∧ d.y.y = some y := ⟨_, rfl, rfl⟩
  obtain ⟨d, hd, hdy⟩ := h
  obtain ⟨m, y', t, e, -, -, e1, e2, e3, e4, e5, e6, -⟩ := construct_inv (N := False) (by simp) hd sigma nTrees alpha beta k
  exact ⟨m, ⟨false, d, sigma, nTrees, alpha, beta, k, hd, e⟩, by rw [e1]; exact hdy, e2, e3, e4, e5, e6⟩

end Bart
