import Mathlib.Probability.ProductMeasure
import Verif.Spec.Returns
import Verif.Proofs.AlmostSure
import Verif.Proofs.Returns
import Verif.Props.DomainProps
import Verif.Props.ReferenceProps

/-! Property theorem C117: a fit that can return does return, with probability 1. -/

set_option linter.unusedSectionVars false

namespace Bart
open Spec Reference MeasureTheory Returns
variable {n p N : Nat}

/-! ### the draws -/

instance : Fintype Method := ⟨{.grow, .prune}, by intro m; cases m <;> simp⟩

theorem pickMeasure_singleton (a : Fin N) : pickMeasure N {a} = (N : ENNReal)⁻¹ := by simp [pickMeasure]

instance [NeZero N] : IsProbabilityMeasure (pickMeasure N) := by
  constructor
  rw [pickMeasure, Measure.smul_apply, smul_eq_mul, Measure.count_apply_finite _ Set.finite_univ]
  simp only [Set.Finite.toFinset_univ, Finset.card_univ, Fintype.card_fin]
  exact ENNReal.inv_mul_cancel (by simpa using NeZero.ne N) (by simp)

theorem methodMeasure_univ {q : ℝ} (h0 : 0 < q) (h1 : q < 1) : IsProbabilityMeasure (methodMeasure q) := by
  constructor
  simp only [methodMeasure, Measure.add_apply, Measure.smul_apply, measure_univ, smul_eq_mul, mul_one]
  rw [← ENNReal.ofReal_add h0.le (by linarith)]
  simp

theorem methodMeasure_singleton {q : ℝ} (h0 : 0 < q) (h1 : q < 1) (m : Method) : methodMeasure q {m} ≠ 0 := by
  cases m <;> simp [methodMeasure, Measure.add_apply, Measure.smul_apply] <;> linarith

theorem drawMeasure_singleton {q : ℝ} (h0 : 0 < q) (h1 : q < 1) (a : Fin N × Method) : drawMeasure N q {a} ≠ 0 := by
  have := methodMeasure_univ h0 h1
  have e : ({a} : Set (Fin N × Method)) = {a.1} ×ˢ {a.2} := by simp
  rw [e, drawMeasure, Measure.prod_prod, pickMeasure_singleton]
  exact mul_ne_zero (by simp) (methodMeasure_singleton h0 h1 _)

/-! ### one chain -/

/-- What a chain has to draw from if the pairs `l` are ready, and as many draws of the other kinds. -/
def readyDraws (u z g : Nat → ℝ) (l : List (Fin N × Method)) : Rand ℝ :=
  { methods := l.map Prod.snd, picks := l.map (fun x => x.1.val), uniforms := (List.range l.length).map u, normals := (List.range l.length).map z, gammas := (List.range l.length).map g }

theorem firstDraws_eq (ω : Nat → Fin N × Method) (u z g : Nat → ℝ) (L : Nat) : firstDraws ω u z g L = readyDraws u z g ((List.range L).map ω) := by
  simp [firstDraws, readyDraws, Function.comp_def]

/-- The other draws that come with the further pairs. -/
def laterDraws (u z g : Nat → ℝ) (a b : Nat) : Rand ℝ := ⟨[], [], (List.range b).map (fun k => u (a + k)), (List.range b).map (fun k => z (a + k)), (List.range b).map (fun k => g (a + k))⟩

theorem readyDraws_append (u z g : Nat → ℝ) (l e : List (Fin N × Method)) :
    readyDraws u z g (l ++ e) = more (more (readyDraws u z g l) (pairs (e.map (fun x => (x.1.val, x.2))))) (laterDraws u z g l.length e.length) := by
  simp [readyDraws, more, pairs, laterDraws, List.range_add, Function.comp_def]

theorem lift_pairs (e : List (Nat × Method)) (h : ∀ x ∈ e, x.1 < N) : ∃ e' : List (Fin N × Method), e'.map (fun x => (x.1.val, x.2)) = e := by
  induction e with
  | nil => exact ⟨[], rfl⟩
  | cons x e ih =>
    obtain ⟨e', he'⟩ := ih (fun y hy => h y (List.mem_cons_of_mem _ hy))
    exact ⟨(⟨x.1, h x (List.mem_cons_self ..)⟩, x.2) :: e', by simp [he']⟩

variable {X : Fin n → Fin p → Fl ℝ}

theorem chain_returns (hX : NoNan X) (hn : 0 < n) (hc : columns X (fun _ => true) ≠ []) (hN : n ≤ N) (c : Reference.Config ℝ) (y : Fin n → ℝ) (u z g : Nat → ℝ) {ν : Measure (Fin N × Method)}
    [IsProbabilityMeasure ν] (hν : ∀ a, ν {a} ≠ 0) (i : Nat) :
    ∀ᵐ ω ∂(Measure.infinitePi (fun _ : ℕ × ℕ => ν)), ∃ L0, ∀ L ≥ L0, Reference.chain c X y (firstDraws (fun k => ω (i, k)) u z g L) ≠ .error .outOfDraws := by
  have mono : ∀ l e : List (Fin N × Method), Reference.sweeps c.toSettings X y (c.nBurn + c.nSamples) (start c.toSettings) (readyDraws u z g l) ≠ .error .outOfDraws →
      Reference.sweeps c.toSettings X y (c.nBurn + c.nSamples) (start c.toSettings) (readyDraws u z g (l ++ e)) ≠ .error .outOfDraws := by
    intro l e h
    have h1 : Reference.sweeps c.toSettings X y (c.nBurn + c.nSamples) (start c.toSettings) (more (readyDraws u z g l) (pairs (e.map (fun x => (x.1.val, x.2))))) ≠ .error .outOfDraws := by
      rw [sweeps_more _ _ h]
      intro h'
      cases hh : Reference.sweeps c.toSettings X y (c.nBurn + c.nSamples) (start c.toSettings) (readyDraws u z g l) with
      | error er => rw [hh] at h h'; simp only [Except.map, Except.error.injEq] at h'; rw [h'] at h; exact h rfl
      | ok q => rw [hh] at h'; cases h'
    rw [readyDraws_append, sweeps_more _ _ h1]
    intro h'
    cases hh : Reference.sweeps c.toSettings X y (c.nBurn + c.nSamples) (start c.toSettings) (more (readyDraws u z g l) (pairs (e.map (fun x => (x.1.val, x.2))))) with
    | error er => rw [hh] at h1 h'; simp only [Except.map, Except.error.injEq] at h'; rw [h'] at h1; exact h1 rfl
    | ok q => rw [hh] at h'; cases h'
  have hcomp : ∀ l : List (Fin N × Method),
      (c.nBurn + c.nSamples) * c.nTrees + (c.nBurn + c.nSamples) * (c.nTrees * (1 + 3 * (c.nBurn + c.nSamples))) + (c.nBurn + c.nSamples) ≤ l.length →
      ∃ e : List (Fin N × Method), e.length = (c.nBurn + c.nSamples) * (3 * c.nTrees) ∧
        Reference.sweeps c.toSettings X y (c.nBurn + c.nSamples) (start c.toSettings) (readyDraws u z g (l ++ e)) ≠ .error .outOfDraws := by
    intro l hl
    obtain ⟨e0, l0, b0, h0⟩ := sweeps_completes (c := c.toSettings) hX hn hc (y := y) (c.nBurn + c.nSamples) (s := start c.toSettings) (r := readyDraws u z g l) (d := 1) (T := c.nTrees)
      (by simp [start]) (by
        intro t ht
        rw [List.eq_of_mem_replicate ht]
        exact ⟨alive_root, by simp [RTree.root]⟩)
      (by simp only [readyDraws, List.length_map, List.length_range]; omega) (by simp only [readyDraws, List.length_map, List.length_range]; omega)
      (by simp only [readyDraws, List.length_map, List.length_range]; omega)
    obtain ⟨e, rfl⟩ := lift_pairs (N := N) e0 (fun x hx => lt_of_lt_of_le (b0 x hx) hN)
    refine ⟨e, by simpa using l0, ?_⟩
    rw [readyDraws_append, sweeps_more _ _ h0]
    intro h'
    cases hh : Reference.sweeps c.toSettings X y (c.nBurn + c.nSamples) (start c.toSettings) (more (readyDraws u z g l) (pairs (e.map (fun x => (x.1.val, x.2))))) with
    | error er => rw [hh] at h0 h'; simp only [Except.map, Except.error.injEq] at h'; rw [h'] at h0; exact h0 rfl
    | ok q => rw [hh] at h'; cases h'
  have := almost_sure (ι := ℕ × ℕ) hν (fun k => (i, k)) (fun a b h => by simpa using h) mono hcomp
  filter_upwards [this] with ω hω
  obtain ⟨L0, hL0⟩ := hω
  refine ⟨L0, fun L hL => ?_⟩
  have hg : Reference.sweeps c.toSettings X y (c.nBurn + c.nSamples) (start c.toSettings) (firstDraws (fun k => ω (i, k)) u z g L) ≠ .error .outOfDraws := by
    rw [firstDraws_eq]
    obtain ⟨d, rfl⟩ := Nat.exists_eq_add_of_le hL
    rw [List.range_add, List.map_append]
    exact mono _ _ hL0
  intro h
  unfold Reference.chain at h
  split at h
  · next e1 => cases h; exact hg e1
  · cases h

theorem chains_returns {c : Reference.Config ℝ} {y : Fin n → ℝ} {rs : List (Rand ℝ)} (h : ∀ r ∈ rs, Reference.chain c X y r ≠ .error .outOfDraws) : Reference.chains c X y rs ≠ .error .outOfDraws := by
  induction rs with
  | nil => intro h'; cases h'
  | cons r rs ih =>
    intro h'
    unfold Reference.chains at h'
    split at h'
    · next e1 => cases h'; exact h r (List.mem_cons_self ..) e1
    · split at h'
      · next e2 => cases h'; exact ih (fun r hr => h r (List.mem_cons_of_mem _ hr)) e2
      · cases h'

/-! ### C117 -/

/-- C117, for all distributions of the picks and kinds of move under which every pick and kind is possible: if some column has two different values among the training rows after the first, then with
probability 1 the fit returns when enough draws are ready. The uniform, normal and gamma numbers can be any (those from the gamma distribution are positive). -/
theorem C117_almost_surely (hX : NoNan X) {s : SkModel ℝ p} (hs : ValidSettings s) {y : Fin n → ℝ} {a b : Fin n} (hy : y a ≠ y b) {j : Fin p} (hj : HasTwoValues (column X (fun _ => true) j).tail)
    (hN : n ≤ N) {ν : Measure (Fin N × Method)} [IsProbabilityMeasure ν] (hν : ∀ x, ν {x} ≠ 0) (u z g : Nat → Nat → ℝ) (hg : ∀ i k, 0 < g i k) :
    ∀ᵐ ω ∂(Measure.infinitePi (fun _ : ℕ × ℕ => ν)), ∃ L0, ∀ L ≥ L0, ∃ s', s.fit X y (fun i => firstDraws (fun k => ω (i, k)) (u i) (z i) (g i) L) = .ok s' := by
  have hn : 0 < n := a.pos
  have hp : 0 < p := j.pos
  have hc : columns X (fun _ => true) ≠ [] := by
    obtain ⟨v, hv, w, hw, hvw⟩ := hj
    exact List.ne_nil_of_mem (List.mem_filter.2 ⟨List.mem_finRange j, List.any_eq_true.2 ⟨v, hv, List.any_eq_true.2 ⟨w, hw, decide_eq_true hvw⟩⟩⟩)
  have hne : (Set.range y).Nonempty := ⟨y a, a, rfl⟩
  have hfin : (Set.range y).Finite := Set.finite_range y
  obtain ⟨lo, hlo⟩ : ∃ lo, IsLeast (Set.range y) lo := ⟨_, hne.csInf_mem hfin, fun _ h => csInf_le hfin.bddBelow h⟩
  obtain ⟨hi, hhi⟩ : ∃ hi, IsGreatest (Set.range y) hi := ⟨_, hne.csSup_mem hfin, fun _ h => le_csSup hfin.bddAbove h⟩
  have hlt : lo < hi := by
    rcases lt_or_gt_of_ne hy with h | h
    · exact lt_of_le_of_lt (hlo.2 ⟨a, rfl⟩) (lt_of_lt_of_le h (hhi.2 ⟨b, rfl⟩))
    · exact lt_of_le_of_lt (hlo.2 ⟨b, rfl⟩) (lt_of_lt_of_le h (hhi.2 ⟨a, rfl⟩))
  have hall : ∀ᵐ ω ∂(Measure.infinitePi (fun _ : ℕ × ℕ => ν)), ∀ i, ∃ L0, ∀ L ≥ L0,
      Reference.chain s.config X (scaled lo hi y) (firstDraws (fun k => ω (i, k)) (u i) (z i) (g i) L) ≠ .error .outOfDraws :=
    ae_all_iff.2 (fun i => chain_returns hX hn hc hN s.config (scaled lo hi y) (u i) (z i) (g i) hν i)
  filter_upwards [hall] with ω hω
  choose L0 hL0 using hω
  refine ⟨∑ i ∈ Finset.range s.nChains, L0 i, fun L hL => ?_⟩
  have href : Reference.fit s.config X lo hi y (fun i => firstDraws (fun k => ω (i, k)) (u i) (z i) (g i) L) ≠ .error .outOfDraws := by
    refine chains_returns ?_
    intro r hr
    obtain ⟨i, hi', rfl⟩ := List.mem_map.1 hr
    have hi'' : i ∈ Finset.range s.nChains := Finset.mem_range.2 (List.mem_range.1 hi')
    exact hL0 i L (le_trans (Finset.single_le_sum (f := L0) (fun _ _ => Nat.zero_le _) hi'') hL)
  have h103 := C103_fit hX hp hs.grow hs.prune hs.thin hs.chains hlo hhi hlt (fun i => firstDraws (fun k => ω (i, k)) (u i) (z i) (g i) L)
  cases hf : s.fit X y (fun i => firstDraws (fun k => ω (i, k)) (u i) (z i) (g i) L) with
  | ok s' => exact ⟨s', rfl⟩
  | error e =>
    exfalso
    rw [hf] at h103
    have he := C70_no_exception hX hn hp hs hy _ (by
      intro i x hx
      simp only [firstDraws, List.mem_map] at hx
      obtain ⟨k, -, rfl⟩ := hx
      exact hg i k) hf
    subst he
    exact href h103

/-- C117: for valid settings with at least one step, `p_grow` and `p_prune` between 0 and 1 and a target that is not constant: if the data can be fitted at all (some draws let `fit` return), then `fit` returns
with probability 1, for uniformly distributed picks and kinds of move drawn with probability `p_grow`, all independent. -/
theorem C117_returns (hX : NoNan X) {s : SkModel ℝ p} (hs : ValidSettings s) (hk : 0 < s.nBurn + s.nSamples) (h0 : 0 < s.pGrow) (h1 : s.pGrow < 1) {y : Fin n → ℝ} {a b : Fin n} (hy : y a ≠ y b)
    (hN : n ≤ N) (u z g : Nat → Nat → ℝ) (hg : ∀ i k, 0 < g i k) (hcan : ∃ rs s', s.fit X y rs = .ok s') :
    ∀ᵐ ω ∂(Measure.infinitePi (fun _ : ℕ × ℕ => drawMeasure N s.pGrow)), ∃ L0, ∀ L ≥ L0, ∃ s', s.fit X y (fun i => firstDraws (fun k => ω (i, k)) (u i) (z i) (g i) L) = .ok s' := by
  obtain ⟨j, hj⟩ := (C108_exactly_partial hX hs hk hy).1 hcan
  have hnz : NeZero N := ⟨by have := a.pos; omega⟩
  have := methodMeasure_univ h0 h1
  have : IsProbabilityMeasure (drawMeasure N s.pGrow) := by unfold drawMeasure; infer_instance
  exact C117_almost_surely hX hs hy hj hN (drawMeasure_singleton h0 h1) u z g hg

/-- C117: otherwise (no draws let `fit` return) it never returns; so the probability that `fit` returns is always 0 or 1. -/
theorem C117_zero_one (hX : NoNan X) {s : SkModel ℝ p} (hs : ValidSettings s) (hk : 0 < s.nBurn + s.nSamples) (h0 : 0 < s.pGrow) (h1 : s.pGrow < 1) {y : Fin n → ℝ} {a b : Fin n} (hy : y a ≠ y b)
    (hN : n ≤ N) (u z g : Nat → Nat → ℝ) (hg : ∀ i k, 0 < g i k) :
    Measure.infinitePi (fun _ : ℕ × ℕ => drawMeasure N s.pGrow) {ω | ∃ L s', s.fit X y (fun i => firstDraws (fun k => ω (i, k)) (u i) (z i) (g i) L) = .ok s'} =
      (open Classical in if ∃ j, HasTwoValues (column X (fun _ => true) j).tail then 1 else 0) := by
  have hnz : NeZero N := ⟨by have := a.pos; omega⟩
  have := methodMeasure_univ h0 h1
  have : IsProbabilityMeasure (drawMeasure N s.pGrow) := by unfold drawMeasure; infer_instance
  by_cases hc : ∃ j, HasTwoValues (column X (fun _ => true) j).tail
  · rw [if_pos hc]
    obtain ⟨j, hj⟩ := hc
    have hae := C117_almost_surely hX hs hy hj hN (drawMeasure_singleton h0 h1) u z g hg
    have heq : {ω : ℕ × ℕ → Fin N × Method | ∃ L s', s.fit X y (fun i => firstDraws (fun k => ω (i, k)) (u i) (z i) (g i) L) = .ok s'} =ᵐ[Measure.infinitePi (fun _ : ℕ × ℕ => drawMeasure N s.pGrow)] Set.univ := by
      rw [Filter.eventuallyEq_univ]
      filter_upwards [hae] with ω hω
      obtain ⟨L0, h⟩ := hω
      exact ⟨L0, h L0 (le_refl _)⟩
    rw [measure_congr heq, measure_univ]
  · rw [if_neg hc]
    have e : {ω : ℕ × ℕ → Fin N × Method | ∃ L s', s.fit X y (fun i => firstDraws (fun k => ω (i, k)) (u i) (z i) (g i) L) = .ok s'} = ∅ := by
      ext ω
      simp only [Set.mem_setOf_eq, Set.mem_empty_iff_false, iff_false, not_exists]
      intro L s' h
      exact hc (C108_needs hX hs.trees hk hs.grow hs.prune h)
    rw [e, measure_empty]

/-! ### concrete cases -/

/-- A fit of the rows 0, 1, 2 with target 0, 1, 2 returns with probability 1. -/
example : ∀ᵐ ω ∂(Measure.infinitePi (fun _ : ℕ × ℕ => drawMeasure 6 (exSkReal true).pGrow)), ∃ L0, ∀ L ≥ L0, ∃ s',
    (exSkReal true).fit (rampX 3) (fun r => (r.val : ℝ)) (fun i => firstDraws (fun k => ω (i, k)) (fun _ => 0) (fun _ => 1) (fun _ => 1) L) = .ok s' :=
  C117_returns (rampX_noNan 3) (exSkReal_valid true) (by simp [exSkReal]) (by simp [exSkReal]) (by simp [exSkReal]; norm_num) (a := 0) (b := 1) (by norm_num) (by norm_num)
    (fun _ _ => 0) (fun _ _ => 1) (fun _ _ => 1) (fun _ _ => one_pos) (exists_fit true)

/-- For the rows 1, 2, 2 (two different values, but not after the first row) the probability is 0. -/
example : Measure.infinitePi (fun _ : ℕ × ℕ => drawMeasure 6 (exSkReal true).pGrow)
    {ω | ∃ L s', (exSkReal true).fit (fun (r : Fin 3) (_ : Fin 1) => if r = 0 then (.fin 1 : Fl ℝ) else .fin 2) (fun r => (r.val : ℝ))
      (fun i => firstDraws (fun k => ω (i, k)) (fun _ => 0) (fun _ => 1) (fun _ => 1) L) = .ok s'} = 0 := by
  rw [C117_zero_one (fun r j => by split <;> simp) (exSkReal_valid true) (by simp [exSkReal]) (by simp [exSkReal]) (by simp [exSkReal]; norm_num) (a := 0) (b := 1) (by norm_num) (by norm_num)
    (fun _ _ => 0) (fun _ _ => 1) (fun _ _ => 1) (fun _ _ => one_pos), if_neg]
  rintro ⟨j, hj⟩
  rw [column_three] at hj
  obtain ⟨a, ha, b, hb, hab⟩ := hj
  simp at ha hb
  exact hab (ha.trans hb.symm)

end Bart
