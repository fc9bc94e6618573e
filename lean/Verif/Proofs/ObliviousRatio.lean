import Verif.Proofs.Oblivious
import Verif.Proofs.RealLemmas

/-! When the ratio of a proposal of the oblivious sampler is a number. -/

set_option linter.unusedSectionVars false

namespace Bart
open Spec Lik
variable {K : Type} [Field K] [LinearOrder K] [MathFns K] {n p : Nat} {X : Fin n → Fin p → Fl K}

namespace Oblivious

/-- What `log_probability_split_within_node` computes for the rows and the condition. -/
def logFreq (X : Fin n → Fin p → Fl K) (rows : Fin n → Bool) (c : SplitCondition K p) : Fl K :=
  Fl.log (Fl.div (Fl.ofInt (freqOf X rows c.splittingVariable c.splittingValue).1) (Fl.ofInt (freqOf X rows c.splittingVariable c.splittingValue).2))

/-- The value occurs among the rows, or the rows are not empty and no value of the column occurs twice. -/
def Counted (X : Fin n → Fin p → Fl K) (rows : Fin n → Bool) (c : SplitCondition K p) : Prop :=
  (∃ r, rows r = true ∧ X r c.splittingVariable = c.splittingValue) ∨ ((∃ r, rows r = true) ∧ (column X rows c.splittingVariable).Nodup)

theorem logFreq_fin {X : Fin n → Fin p → Fl ℝ} (hX : NoNan X) {rows : Fin n → Bool} {c : SplitCondition ℝ p} (h : Counted X rows c) : ∃ w : ℝ, logFreq X rows c = .fin w := by
  have hn : 0 < count rows := by
    obtain ⟨r, hr, -⟩ | ⟨⟨r, hr⟩, -⟩ := h <;> exact Finset.card_pos.2 ⟨r, by simpa using hr⟩
  have h1 : 0 < (freqOf X rows c.splittingVariable c.splittingValue).1 ∧ (freqOf X rows c.splittingVariable c.splittingValue).2 = (count rows : Int) := by
    unfold freqOf
    split
    · exact ⟨by norm_num, rfl⟩
    · next hnd =>
      refine ⟨?_, rfl⟩
      rcases h with ⟨r, hr, hv⟩ | ⟨-, h⟩
      · have : 0 < (column X rows c.splittingVariable).countP (fun x => Fl.eq x c.splittingValue) :=
          List.countP_pos_iff.2 ⟨c.splittingValue, mem_column.2 ⟨r, hr, hv⟩, Fl.eq_iff.2 ⟨by rw [← hv]; exact hX r _, rfl⟩⟩
        show (0 : Int) < ((column X rows c.splittingVariable).countP (fun x => Fl.eq x c.splittingValue) : Nat)
        exact_mod_cast this
      · exact absurd h hnd
  unfold logFreq Fl.ofInt
  rw [h1.2]
  have p1 : (0 : ℝ) < ((freqOf X rows c.splittingVariable c.splittingValue).1 : ℝ) := by exact_mod_cast h1.1
  have p2 : (0 : ℝ) < (((count rows : Nat) : Int) : ℝ) := by exact_mod_cast hn
  rw [Fl.div_fin _ p2.ne', Fl.log_fin (by positivity)]
  exact ⟨_, rfl⟩

theorem logFreq_inf [IsStrictOrderedRing K] (h0 : MathFns.log (0 : K) = .ninf) {rows : Fin n → Bool} {c : SplitCondition K p} (h : ¬ Counted X rows c) : logFreq X rows c = .ninf ∨ logFreq X rows c = .pinf ∨ logFreq X rows c = .nan := by
  unfold Counted at h
  push Not at h
  unfold logFreq freqOf
  split
  · next hn =>
    have hz : count rows = 0 := by
      by_contra hne
      obtain ⟨r, hr⟩ := Finset.card_pos.1 (Nat.pos_of_ne_zero hne)
      exact h.2 ⟨r, by simpa using hr⟩ hn
    simp [hz, Fl.ofInt, Fl.div, Fl.infSign, Fl.log]
  · next hn =>
    have hz0 : (column X rows c.splittingVariable).countP (fun x => Fl.eq x c.splittingValue) = 0 := by
      rw [List.countP_eq_zero]
      intro x hx hc
      obtain ⟨r, hr, hv⟩ := mem_column.1 hx
      rw [Fl.eq_iff] at hc
      exact h.1 r hr (hv.trans hc.2)
    have hz : ((((column X rows c.splittingVariable).countP (fun x => Fl.eq x c.splittingValue) : Nat) : Int) : K) = 0 := by rw [hz0]; norm_num
    simp only [Fl.ofInt, hz, Fl.div]
    split
    · simp [Fl.infSign, Fl.log]
    · simp [Fl.log, h0]

/-- The condition of the new (or old) split of a rated proposal. -/
def HasRule (h : Heap K n p) (l : NodeId) (c : SplitCondition K p) : Prop := (h.node l).split.combined.mostRecentSplitCondition = some c

theorem Rated.within_value {y : Fin n → K} {h : Heap K n p} {mu : TreeMutation} {c d l r : NodeId} (hr : Rated X y h mu c d l r) {cd : SplitCondition K p} (hc : HasRule h l cd) :
    ∃ h', logSplitWithinNode h c d = .ok (logFreq X (rowsOf (h.dataOf c)) cd, h') ∧ HeapExt h h' := by
  obtain ⟨qc, okc⟩ := hr.okc
  obtain ⟨p1, p2, p3⟩ := CovariateMatrix.proportionOfValue_spec okc.inv.X cd.splittingVariable cd.splittingValue
  refine ⟨_, ?_, HeapExt.setX okc.inv p2 p3⟩
  unfold logSplitWithinNode Heap.mostRecentSplitCondition
  rw [hr.left]
  unfold HasRule at hc
  simp only [hc]
  rw [p1]
  have : (h.dataOf c).X.refProportion cd.splittingVariable cd.splittingValue = freqOf X (rowsOf (h.dataOf c)) cd.splittingVariable cd.splittingValue := by
    unfold CovariateMatrix.refProportion freqOf
    rw [okc.col, okc.inv.maskX]
    rfl
  rw [this]
  rfl

theorem Rated.logGrow_value {y : Fin n → K} {h : Heap K n p} {mu : TreeMutation} {c d l r : NodeId} (hr : Rated X y h mu c d l r) (sigma : K) (smu : Fl K) :
    ∃ h', logGrowRatio h c l r sigma smu = .ok (growRatioValue (.fin sigma) smu (Fl.ofInt (count (rowsOf (h.dataOf c)) : Int)) (Fl.ofInt (count (rowsOf (h.dataOf l)) : Int))
      (Fl.ofInt (count (rowsOf (h.dataOf r)) : Int)) (.fin (total y (rowsOf (h.dataOf c)))) (.fin (total y (rowsOf (h.dataOf l)))) (.fin (total y (rowsOf (h.dataOf r)))), h') ∧ HeapExt h h' := by
  obtain ⟨qc, kc⟩ := hr.okc
  obtain ⟨ql, kl⟩ := hr.okl
  obtain ⟨qr, kr⟩ := hr.okr
  have ltc := hr.lt c (by simp)
  have ltl := hr.lt l (by simp)
  have ltr := hr.lt r (by simp)
  obtain ⟨h1, e1, x1⟩ := Lik.sumYOf_spec kl
  obtain ⟨h2, e2, x2⟩ := Lik.sumYOf_spec (x1.nodeOk ltr kr)
  obtain ⟨h3, e3, x3⟩ := Lik.sumYOf_spec (x2.nodeOk (ltc.trans_le x1.nextNode) (x1.nodeOk ltc kc))
  refine ⟨h3, ?_, (x1.trans x2).trans x3⟩
  unfold logGrowRatio
  simp only [e1, e2, e3, nObsv_spec kc, nObsv_spec kl, nObsv_spec kr]
  rw [x1.rowsOf ltr kr, (x1.trans x2).rowsOf ltc kc]

/-- NaN, whatever the other terms are. -/
theorem nan_grow {v : Fl K} (hv : v = .ninf ∨ v = .pinf ∨ v = .nan) (a b c d e f : Fl K) :
    Fl.add (Fl.add (Fl.add a (Fl.sub (Fl.neg (Fl.log (.fin 1))) v)) b) (Fl.sub (Fl.add (Fl.add (Fl.add c d) e) v) f) = .nan := by
  generalize Fl.neg (Fl.log (.fin (1 : K))) = k
  generalize Fl.add (Fl.add c d) e = g
  rcases hv with rfl | rfl | rfl <;> cases a <;> cases b <;> cases g <;> cases f <;> cases k <;> rfl

theorem nan_prune {v : Fl K} (hv : v = .ninf ∨ v = .pinf ∨ v = .nan) (a b c d e f : Fl K) :
    Fl.add (Fl.add (Fl.add a v) b) (Fl.sub f (Fl.add (Fl.add (Fl.add c d) e) v)) = .nan := by
  generalize Fl.add (Fl.add c d) e = g
  rcases hv with rfl | rfl | rfl <;> cases a <;> cases b <;> cases g <;> cases f <;> rfl

/-- The ratio of one proposal. -/
theorem Rated.ratio_form {y : Fin n → K} {h h' : Heap K n p} {mu : TreeMutation} {c d l r : NodeId} (m : Params K) {pGrow pPrune : K} (hr : Rated X y h mu c d l r)
    {cd : SplitCondition K p} (hc : HasRule h l cd) {z : Fl K} (e : logProbabilityRatio m pGrow pPrune h mu = .ok (z, h')) :
    ∃ (a b : K) (k0 k1 k2 : Nat) (s0 s1 s2 : K) (d0 d1 d2 d3 : Nat),
      (a = pGrow ∧ b = pPrune ∧ z = Fl.add (Fl.add (Fl.add (Fl.log (.fin (b / a))) (Fl.sub (Fl.neg (Fl.log (.fin 1))) (logFreq X (rowsOf (h.dataOf c)) cd)))
        (growRatioValue (.fin m.sigma) (Lik.sigmaM m) (Fl.ofInt (k0 : Int)) (Fl.ofInt (k1 : Int)) (Fl.ofInt (k2 : Int)) (.fin s0) (.fin s1) (.fin s2)))
        (Fl.sub (Fl.add (Fl.add (Fl.add (logNodeNotSplit m d0) (logNodeNotSplit m d1)) (logNodeSplit m d2)) (logFreq X (rowsOf (h.dataOf c)) cd)) (logNodeNotSplit m d3))) ∨
      (a = pPrune ∧ b = pGrow ∧ z = Fl.add (Fl.add (Fl.add (Fl.log (.fin (b / a))) (logFreq X (rowsOf (h.dataOf c)) cd))
        (Fl.neg (growRatioValue (.fin m.sigma) (Lik.sigmaM m) (Fl.ofInt (k0 : Int)) (Fl.ofInt (k1 : Int)) (Fl.ofInt (k2 : Int)) (.fin s0) (.fin s1) (.fin s2))))
        (Fl.sub (logNodeNotSplit m d3) (Fl.add (Fl.add (Fl.add (logNodeNotSplit m d0) (logNodeNotSplit m d1)) (logNodeSplit m d2)) (logFreq X (rowsOf (h.dataOf c)) cd)))) := by
  obtain ⟨qc, kc⟩ := hr.okc
  have ltc := hr.lt c (by simp)
  have hgm : Tree.growMutation h c d = .ok { kind := .grow, existing := c, updated := d } := by
    unfold Tree.growMutation; simp [hr.leaf]
  obtain ⟨h1, e1, x1⟩ := hr.within_value hc
  have hr1 := hr.ext x1
  obtain ⟨h2, e2, x2⟩ := hr1.logGrow_value m.sigma (Lik.sigmaM m)
  have hr2 := hr1.ext x2
  have hl1 := x1.node l (hr.lt l (by simp))
  have hl2 := x2.node l (hr1.lt l (by simp))
  obtain ⟨h3, e3, x3⟩ := hr2.within_value (cd := cd) (by unfold HasRule at hc ⊢; rw [hl2, hl1, hc])
  rw [(x1.trans x2).rowsOf ltc kc] at e3
  have hgm2 : Tree.growMutation h2 c d = .ok { kind := .grow, existing := c, updated := d } := by
    unfold Tree.growMutation; simp [hr2.leaf]
  have hch : Lik.children h1 d = .ok (l, r) := by unfold Lik.children; rw [hr1.left, hr1.right]
  have hch2 : Lik.children h2 d = .ok (l, r) := by unfold Lik.children; rw [hr2.left, hr2.right]
  unfold logProbabilityRatio at e
  rcases hr.mu with rfl | rfl
  · by_cases h0 : pGrow = 0
    · simp [logTransitionRatio, e1, Lik.pyDiv, h0] at e
    · simp only [logTransitionRatio, e1, Lik.pyDiv, h0, if_false, logLikihoodRatio, hch, e2, logTreeRatio, hch2, e3, Except.ok.injEq, Prod.mk.injEq] at e
      obtain ⟨rfl, -⟩ := e
      exact ⟨_, _, _, _, _, _, _, _, _, _, _, _, .inl ⟨rfl, rfl, rfl⟩⟩
  · by_cases h0 : pPrune = 0
    · simp [logTransitionRatio, e1, hgm, Lik.pyDiv, h0] at e
    · simp only [logTransitionRatio, e1, hgm, Lik.pyDiv, h0, if_false, logLikihoodRatio, hch, e2, logTreeRatio, hr2.left, hgm2, e3, Except.ok.injEq, Prod.mk.injEq] at e
      obtain ⟨rfl, -⟩ := e
      exact ⟨_, _, _, _, _, _, _, _, _, _, _, _, .inr ⟨rfl, rfl, rfl⟩⟩

/-- It is NaN if the value of the split is not counted. -/
theorem Rated.ratio_nan [IsStrictOrderedRing K] (hz : MathFns.log (0 : K) = .ninf) {y : Fin n → K} {h h' : Heap K n p} {mu : TreeMutation} {c d l r : NodeId} (m : Params K) {pGrow pPrune : K}
    (hr : Rated X y h mu c d l r) {cd : SplitCondition K p} (hc : HasRule h l cd) {z : Fl K} (e : logProbabilityRatio m pGrow pPrune h mu = .ok (z, h'))
    (hn : ¬ Counted X (rowsOf (h.dataOf c)) cd) : z = .nan := by
  obtain ⟨a, b, k0, k1, k2, s0, s1, s2, d0, d1, d2, d3, ⟨-, -, rfl⟩ | ⟨-, -, rfl⟩⟩ := hr.ratio_form m hc e
  · exact nan_grow (logFreq_inf hz hn) _ _ _ _ _ _
  · exact nan_prune (logFreq_inf hz hn) _ _ _ _ _ _

/-- It is a number if the value of the split is counted. -/
theorem Rated.ratio_fin {X : Fin n → Fin p → Fl ℝ} (hX : NoNan X) {y : Fin n → ℝ} {h h' : Heap ℝ n p} {mu : TreeMutation} {c d l r : NodeId} {m : Params ℝ} (gp : GoodParams m)
    (gpr : GoodPrior m) {pGrow pPrune : ℝ} (h1 : 0 < pGrow) (h2 : 0 < pPrune) (hr : Rated X y h mu c d l r) {cd : SplitCondition ℝ p} (hc : HasRule h l cd) {z : Fl ℝ}
    (e : logProbabilityRatio m pGrow pPrune h mu = .ok (z, h')) (hn : Counted X (rowsOf (h.dataOf c)) cd) : ∃ w : ℝ, z = .fin w := by
  obtain ⟨w, hw⟩ := logFreq_fin hX hn
  have one : Fl.log (.fin (1 : ℝ)) = .fin 0 := by rw [Fl.log_fin one_pos]; simp
  obtain ⟨a, b, k0, k1, k2, s0, s1, s2, d0, d1, d2, d3, ⟨rfl, rfl, rfl⟩ | ⟨rfl, rfl, rfl⟩⟩ := hr.ratio_form m hc e
  · have hg := growRatioValue_eq gp.sigma (sm_pos gp) (n := k0) (nl := k1) (nr := k2) (by positivity) (by positivity) (by positivity) s0 s1 s2
    simp only [Fl.ofInt, Int.cast_natCast]
    rw [Lik.sigmaM_eq gp, hg, hw, logNodeNotSplit_eq gpr, logNodeNotSplit_eq gpr, logNodeNotSplit_eq gpr, logNodeSplit_eq gpr, Fl.log_fin (div_pos h2 h1), one]
    exact ⟨_, rfl⟩
  · have hg := growRatioValue_eq gp.sigma (sm_pos gp) (n := k0) (nl := k1) (nr := k2) (by positivity) (by positivity) (by positivity) s0 s1 s2
    simp only [Fl.ofInt, Int.cast_natCast]
    rw [Lik.sigmaM_eq gp, hg, hw, logNodeNotSplit_eq gpr, logNodeNotSplit_eq gpr, logNodeNotSplit_eq gpr, logNodeSplit_eq gpr, Fl.log_fin (div_pos h1 h2)]
    exact ⟨_, rfl⟩

/-- What a proposal in the heap `h` is about: the leaf, the left of the two leaves and the condition. -/
def About (X : Fin n → Fin p → Fl K) (y : Fin n → K) (h : Heap K n p) (mu : TreeMutation) (c : NodeId) (cd : SplitCondition K p) : Prop :=
  ∃ d l r, Rated X y h mu c d l r ∧ HasRule h l cd

theorem About.ext {y : Fin n → K} {h h1 : Heap K n p} {mu : TreeMutation} {c : NodeId} {cd : SplitCondition K p} (ha : About X y h mu c cd) (x1 : HeapExt h h1) :
    About X y h1 mu c cd ∧ rowsOf (h1.dataOf c) = rowsOf (h.dataOf c) := by
  obtain ⟨d, l, r, g1, g2⟩ := ha
  obtain ⟨qc, kc⟩ := g1.okc
  refine ⟨⟨d, l, r, g1.ext x1, ?_⟩, x1.rowsOf (g1.lt c (by simp)) kc⟩
  unfold HasRule at g2 ⊢
  rw [x1.node l (g1.lt l (by simp))]
  exact g2

theorem sumRatios_cons {m : Params K} {pGrow pPrune : K} {mu : TreeMutation} {mus : List TreeMutation} {h h' : Heap K n p} {z : Fl K}
    (e : sumRatios m pGrow pPrune (mu :: mus) h = .ok (z, h')) : ∃ a b h1, logProbabilityRatio m pGrow pPrune h mu = .ok (a, h1) ∧ sumRatios m pGrow pPrune mus h1 = .ok (b, h') ∧
      z = Fl.add a b := by
  unfold sumRatios at e
  split at e
  · cases e
  · next a h1 e1 =>
    split at e
    · cases e
    · next b h2 e2 =>
      simp only [Except.ok.injEq, Prod.mk.injEq] at e
      obtain ⟨rfl, rfl⟩ := e
      exact ⟨a, b, h1, e1, e2, rfl⟩

theorem sumRatios_nan [IsStrictOrderedRing K] (hz : MathFns.log (0 : K) = .ninf) {y : Fin n → K} (m : Params K) {pGrow pPrune : K} : ∀ (mus : List TreeMutation) {h h' : Heap K n p} {z : Fl K},
    (∀ mu ∈ mus, ∃ c cd, About X y h mu c cd) → sumRatios m pGrow pPrune mus h = .ok (z, h') →
    (∃ mu ∈ mus, ∃ c cd, About X y h mu c cd ∧ ¬ Counted X (rowsOf (h.dataOf c)) cd) → z = .nan := by
  intro mus
  induction mus with
  | nil => rintro h h' z - - ⟨_, hm, -⟩; simp at hm
  | cons mu mus ih =>
    rintro h h' z hr e ⟨mu', hm, c, cd, ha, hn⟩
    obtain ⟨a, b, h1, e1, e2, rfl⟩ := sumRatios_cons e
    rcases List.mem_cons.1 hm with rfl | hm
    · obtain ⟨d, l, r, g1, g2⟩ := ha
      rw [g1.ratio_nan hz m g2 e1 hn]; simp
    · obtain ⟨c0, cd0, d0, l0, r0, hr0, -⟩ := hr mu (by simp)
      have hx := hr0.ratio m pGrow pPrune
      rw [e1] at hx
      obtain ⟨s1, s2⟩ := ha.ext hx.1
      rw [ih (fun mu hm => by
        obtain ⟨c, cd, g⟩ := hr mu (by simp [hm])
        exact ⟨c, cd, (g.ext hx.1).1⟩) e2 ⟨mu', hm, c, cd, s1, by rw [s2]; exact hn⟩]
      simp

theorem sumRatios_fin {X : Fin n → Fin p → Fl ℝ} (hX : NoNan X) {y : Fin n → ℝ} {m : Params ℝ} (gp : GoodParams m) (gpr : GoodPrior m) {pGrow pPrune : ℝ} (h1 : 0 < pGrow) (h2 : 0 < pPrune) :
    ∀ (mus : List TreeMutation) {h h' : Heap ℝ n p} {z : Fl ℝ}, (∀ mu ∈ mus, ∃ c cd, About X y h mu c cd ∧ Counted X (rowsOf (h.dataOf c)) cd) →
      sumRatios m pGrow pPrune mus h = .ok (z, h') → ∃ w : ℝ, z = .fin w := by
  intro mus
  induction mus with
  | nil =>
    intro h h' z _ e
    simp only [sumRatios, Except.ok.injEq, Prod.mk.injEq] at e
    exact ⟨0, e.1.symm⟩
  | cons mu mus ih =>
    intro h h' z hr e
    obtain ⟨a, b, h3, e1, e2, rfl⟩ := sumRatios_cons e
    obtain ⟨c, cd, ⟨d, l, r, g1, g2⟩, hn⟩ := hr mu (by simp)
    have hx := g1.ratio m pGrow pPrune
    rw [e1] at hx
    obtain ⟨w, rfl⟩ := g1.ratio_fin hX gp gpr h1 h2 g2 e1 hn
    obtain ⟨w', rfl⟩ := ih (fun mu hm => by
      obtain ⟨c, cd, g, hn⟩ := hr mu (by simp [hm])
      obtain ⟨s1, s2⟩ := g.ext hx.1
      exact ⟨c, cd, s1, by rw [s2]; exact hn⟩) e2
    exact ⟨w + w', rfl⟩

end Oblivious
end Bart
