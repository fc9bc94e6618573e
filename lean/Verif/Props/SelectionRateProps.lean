import Verif.Proofs.SelectorReturns
import Verif.Props.SelectionProps

/-! Property theorems C143: how often `SelectNullDistributionThreshold` selects a column. -/

set_option linter.unusedSectionVars false

namespace Bart
open Spec
variable {K : Type} [Field K] [LinearOrder K] [IsStrictOrderedRing K] [MathFns K] [FloorRing K] {n p : Nat} {X : Fin n → Fin p → Fl K}
variable {A : Type} [Fintype A] {run : A → Equiv.Perm (Fin n) × (Nat → Rand K)}

/-! ### probabilities -/

theorem weight_nonneg {w : A → ℝ} (hw : ∀ a, 0 ≤ w a) {m : Nat} (ω : Fin m → A) : 0 ≤ ∏ k, w (ω k) := Finset.prod_nonneg fun _ _ => hw _

theorem chance_mono {w : A → ℝ} (hw : ∀ a, 0 ≤ w a) {m : Nat} {E F : (Fin m → A) → Prop} (h : ∀ ω, E ω → F ω) : chance w E ≤ chance w F := by
  classical
  unfold chance
  refine Finset.sum_le_sum fun ω _ => ?_
  by_cases e : E ω
  · rw [if_pos e, if_pos (h ω e)]
  · rw [if_neg e]; split
    · exact weight_nonneg hw ω
    · exact le_refl _

theorem weight_sum {w : A → ℝ} (hw1 : ∑ a, w a = 1) (m : Nat) : ∑ ω : Fin m → A, ∏ k, w (ω k) = 1 := by
  classical
  have h := Finset.prod_univ_sum (fun _ : Fin m => (Finset.univ : Finset A)) (fun _ a => w a)
  rw [Fintype.piFinset_univ] at h
  rw [← h]
  simp [hw1]

theorem chance_not {w : A → ℝ} (hw1 : ∑ a, w a = 1) {m : Nat} (E : (Fin m → A) → Prop) : chance w (fun ω => ¬ E ω) = 1 - chance w E := by
  classical
  rw [eq_sub_iff_add_eq, ← weight_sum hw1 m]
  unfold chance
  rw [← Finset.sum_add_distrib]
  refine Finset.sum_congr rfl fun ω _ => ?_
  by_cases e : E ω <;> simp [e]

/-- The order of independent outcomes does not matter. -/
theorem chance_perm (w : A → ℝ) {m : Nat} (σ : Equiv.Perm (Fin m)) (E : (Fin m → A) → Prop) : chance w (fun ω => E (fun k => ω (σ k))) = chance w E := by
  classical
  unfold chance
  rw [← Equiv.sum_comp (Equiv.arrowCongr σ (Equiv.refl A)) (fun ω => if E (fun k => ω (σ k)) then ∏ k, w (ω k) else 0)]
  refine Finset.sum_congr rfl fun ω _ => ?_
  have h1 : (fun k => (Equiv.arrowCongr σ (Equiv.refl A)) ω (σ k)) = ω := by funext k; simp [Equiv.arrowCongr]
  have h2 : ∏ k, w ((Equiv.arrowCongr σ (Equiv.refl A)) ω k) = ∏ k, w (ω k) := by
    rw [← Equiv.prod_comp σ]
    exact Finset.prod_congr rfl fun k _ => by rw [show (Equiv.arrowCongr σ (Equiv.refl A)) ω (σ k) = ω k from congrFun h1 k]
  rw [h1, h2]

theorem smaller_perm {m : Nat} (u : Fin m → K) (σ : Equiv.Perm (Fin m)) (k : Fin m) : smaller (fun i => u (σ i)) k = smaller u (σ k) := by
  unfold smaller
  apply Finset.card_bij (fun i _ => σ i)
  · intro i hi; rw [Finset.mem_filter] at hi ⊢; exact ⟨Finset.mem_univ _, hi.2⟩
  · intro a _ b _ h; exact σ.injective h
  · intro b hb
    refine ⟨σ.symm b, ?_, by simp⟩
    rw [Finset.mem_filter] at hb ⊢
    exact ⟨Finset.mem_univ _, by simpa using hb.2⟩

/-- The probability that a given one of `m` independent outcomes is larger than `d` or more others, times `m`, is the expected number of those that are. -/
theorem rank_chance (w : A → ℝ) (v : A → K) {m : Nat} (k : Fin m) (d : Nat) :
    (m : ℝ) * chance w (fun ω : Fin m → A => d ≤ smaller (fun i => v (ω i)) k) =
      ∑ ω : Fin m → A, (∏ i, w (ω i)) * ((Finset.univ.filter (fun k => d ≤ smaller (fun i => v (ω i)) k)).card : ℝ) := by
  classical
  have h1 : ∀ k' : Fin m, chance w (fun ω : Fin m → A => d ≤ smaller (fun i => v (ω i)) k') = chance w (fun ω : Fin m → A => d ≤ smaller (fun i => v (ω i)) k) := by
    intro k'
    rw [← chance_perm w (Equiv.swap k k') (fun ω : Fin m → A => d ≤ smaller (fun i => v (ω i)) k)]
    congr 1
    funext ω
    rw [smaller_perm (fun i => v (ω i)) (Equiv.swap k k') k, Equiv.swap_apply_left]
  have h2 : (m : ℝ) * chance w (fun ω : Fin m → A => d ≤ smaller (fun i => v (ω i)) k) = ∑ k' : Fin m, chance w (fun ω : Fin m → A => d ≤ smaller (fun i => v (ω i)) k') := by
    rw [Finset.sum_congr rfl (fun k' _ => h1 k')]; simp
  rw [h2]
  unfold chance
  rw [Finset.sum_comm]
  refine Finset.sum_congr rfl fun ω _ => ?_
  rw [Finset.card_filter, Nat.cast_sum, Finset.mul_sum]
  refine Finset.sum_congr rfl fun k' _ => ?_
  by_cases e : d ≤ smaller (fun i => v (ω i)) k' <;> simp [e]

/-! ### the comparison -/

theorem filter_last {m : Nat} (u : Fin (m + 1) → K) : ((List.ofFn fun k : Fin m => u k.castSucc).filter (fun x => decide (x < u (Fin.last m)))).length = smaller u (Fin.last m) := by
  rw [countP_ofFn]
  unfold smaller
  apply Finset.card_bij (fun (i : Fin m) _ => i.castSucc)
  · intro i hi; rw [Finset.mem_filter] at hi ⊢; exact ⟨Finset.mem_univ _, by simpa using hi.2⟩
  · intro a _ b _ h; exact Fin.castSucc_injective m h
  · intro b hb
    have hb := (Finset.mem_filter.1 hb).2
    have hne : b ≠ Fin.last m := by rintro rfl; exact lt_irrefl _ hb
    refine ⟨b.castPred hne, ?_, by simp⟩
    rw [Finset.mem_filter]
    exact ⟨Finset.mem_univ _, by simpa using hb⟩

theorem selects_rank {s : SkModel K p} {q : K} (h0 : 0 ≤ q) (h1 : q ≤ 100) {y : Fin n → K} {rs : Nat → Rand K} {j : Fin p} {m d : Nat} (hd : (d : K) ≤ q / 100 * m) {ω : Fin (m + 1) → A}
    (h : Selects s q X y rs run j ω) {v : A → K} (hv : ∀ a x, RunShare s X y j (run a) x → x = v a) : d ≤ smaller (fun i => v (ω i)) (Fin.last m) := by
  obtain ⟨f, l, e1, e2, e3⟩ := h
  obtain ⟨u, r, t, a1, -, a2, l', a3, a4⟩ := selector_runs e1 j
  rw [e2] at a3; injection a3 with a3; subst a3
  obtain ⟨-, ht⟩ := a4.1 e3
  obtain ⟨t', b1, b2, -⟩ := C60_percentile_partial (l := r :: List.ofFn (fun k : Fin m => u k.castSucc)) (by simp) h0 h1
  rw [a2] at b1; injection b1 with b1; subst b1
  have hu : (fun i => v (ω i)) = u := by funext i; exact (hv _ _ (a1 i)).symm
  rw [hu, ← filter_last]
  have h3 : atMost (r :: List.ofFn (fun k : Fin m => u k.castSucc)) t ≤ 1 + ((List.ofFn fun k : Fin m => u k.castSucc).filter (fun x => decide (x < u (Fin.last m)))).length := by
    unfold atMost
    have h4 : ((List.ofFn fun k : Fin m => u k.castSucc).filter (fun x => decide (x ≤ t))).length ≤ ((List.ofFn fun k : Fin m => u k.castSucc).filter (fun x => decide (x < u (Fin.last m)))).length := by
      apply List.Sublist.length_le
      apply List.monotone_filter_right
      intro x hx
      simp only [decide_eq_true_eq] at hx ⊢
      exact lt_of_le_of_lt hx ht
    rw [List.filter_cons]
    split
    · rw [List.length_cons]; omega
    · omega
  have h5 : (d : K) < ((1 + ((List.ofFn fun k : Fin m => u k.castSucc).filter (fun x => decide (x < u (Fin.last m)))).length : ℕ) : K) := by
    refine lt_of_le_of_lt hd (lt_of_lt_of_le ?_ (Nat.cast_le.2 h3))
    simpa using b2
  have : d < 1 + ((List.ofFn fun k : Fin m => u k.castSucc).filter (fun x => decide (x < u (Fin.last m)))).length := by exact_mod_cast h5
  omega

theorem rank_selects {s g : SkModel K p} {q : K} (h0 : 0 ≤ q) (h1 : q ≤ 100) {y : Fin n → K} {rs : Nat → Rand K} (hreal : s.fit X y rs = .ok g) {j : Fin p} {v : A → K}
    (hv : ∀ a, RunShare s X y j (run a) (v a)) {m e : Nat} (he : q / 100 * m + 1 < e) {ω : Fin (m + 1) → A} (h : e ≤ smaller (fun i => v (ω i)) (Fin.last m)) : Selects s q X y rs run j ω := by
  obtain ⟨f, hf⟩ := selector_returns (run := run) h0 h1 hreal (fun a => by obtain ⟨f, e, -⟩ := hv a; exact ⟨f, e⟩) ω
  obtain ⟨u, r, t, a1, a5, a2, l, a3, a4⟩ := selector_runs hf j
  have hu : (fun i => v (ω i)) = u := by funext i; exact runShare_unique (hv _) (a1 i)
  rw [hu] at h
  refine ⟨f, l, hf, a3, a4.2 ⟨?_, ?_⟩⟩
  · have he' : 0 < e := by
      have : (0 : K) < e := lt_of_le_of_lt (by positivity) he
      exact_mod_cast this
    obtain ⟨i, hi⟩ := Finset.card_pos.1 (lt_of_lt_of_le he' h)
    exact lt_of_le_of_lt (a5 i) (Finset.mem_filter.1 hi).2
  · by_contra hc
    rw [not_lt] at hc
    obtain ⟨t', b1, -, b2⟩ := C60_percentile_partial (l := r :: List.ofFn (fun k : Fin m => u k.castSucc)) (by simp) h0 h1
    rw [a2] at b1; injection b1 with b1; subst b1
    have h3 : smaller u (Fin.last m) ≤ below (r :: List.ofFn (fun k : Fin m => u k.castSucc)) t := by
      rw [← filter_last]
      unfold below
      refine List.Sublist.length_le ?_
      refine ((List.sublist_cons_self r _).filter _).trans ?_
      apply List.monotone_filter_right
      intro x hx
      simp only [decide_eq_true_eq] at hx ⊢
      exact lt_of_lt_of_le hx hc
    have h4 : (e : K) ≤ below (r :: List.ofFn (fun k : Fin m => u k.castSucc)) t := by exact_mod_cast h.trans h3
    have h5 : (e : K) ≤ q / 100 * m + 1 := h4.trans (by simpa using b2)
    exact absurd he (not_lt.2 h5)

/-! ### C143 -/

/-- C143, with the percentile read as per cent: whatever the target and the draws of the fit to it, for `m + 1` runs with independent permutations and draws, a column is selected with a probability of at most
`1 - d / (m + 1)` for each `d` up to the percentile of `m` (with 101 runs and the percentile 95: at most 6/101). This holds as well for a target that the column determines: since the compared share is that of a run
on a permuted target (C56), no column is selected more often than that. -/
theorem C143_rate_partial {w : A → ℝ} (hw : ∀ a, 0 ≤ w a) (hw1 : ∑ a, w a = 1) (s : SkModel K p) {q : K} (h0 : 0 ≤ q) (h1 : q ≤ 100) (y : Fin n → K) (rs : Nat → Rand K) (j : Fin p) {m d : Nat}
    (hd : (d : K) ≤ q / 100 * m) : chance w (fun ω : Fin (m + 1) → A => Selects s q X y rs run j ω) ≤ 1 - d / (m + 1) := by
  classical
  have hdm : d ≤ m := by
    have : (d : K) ≤ m := hd.trans (mul_le_of_le_one_left (by positivity) (by linarith [div_le_one_of_le₀ h1 (by norm_num : (0 : K) ≤ 100)]))
    exact_mod_cast this
  let v : A → K := fun a => if h : ∃ x, RunShare s X y j (run a) x then h.choose else 0
  have hv : ∀ a x, RunShare s X y j (run a) x → x = v a := by
    intro a x hx
    have hex : ∃ x, RunShare s X y j (run a) x := ⟨x, hx⟩
    simp only [v, dif_pos hex]
    exact runShare_unique hx hex.choose_spec
  have h2 : chance w (fun ω : Fin (m + 1) → A => Selects s q X y rs run j ω) ≤ chance w (fun ω : Fin (m + 1) → A => d ≤ smaller (fun i => v (ω i)) (Fin.last m)) :=
    chance_mono hw fun ω h => selects_rank h0 h1 hd h hv
  have h3 := rank_chance w v (Fin.last m) d
  have h4 : ∑ ω : Fin (m + 1) → A, (∏ i, w (ω i)) * ((Finset.univ.filter (fun k => d ≤ smaller (fun i => v (ω i)) k)).card : ℝ) ≤ ∑ ω : Fin (m + 1) → A, (∏ i, w (ω i)) * ((m : ℝ) + 1 - d) := by
    refine Finset.sum_le_sum fun ω _ => mul_le_mul_of_nonneg_left ?_ (weight_nonneg hw ω)
    have := rank_upper (fun i => v (ω i)) (show d ≤ m + 1 by omega)
    have : (((Finset.univ.filter (fun k => d ≤ smaller (fun i => v (ω i)) k)).card + d : ℕ) : ℝ) ≤ ((m + 1 : ℕ) : ℝ) := by exact_mod_cast this
    push_cast at this
    linarith
  rw [← Finset.sum_mul, weight_sum hw1, one_mul, ← h3] at h4
  push_cast at h4
  have hm : (0 : ℝ) < (m : ℝ) + 1 := by positivity
  refine h2.trans ?_
  rw [show (1 : ℝ) - d / (m + 1) = ((m : ℝ) + 1 - d) / (m + 1) by field_simp, le_div_iff₀ hm]
  linarith

/-- C143, from below: if the fits to the real and to the permuted targets return, then a column is selected with a probability of at least `1 - e / (m + 1)`, for each `e` beyond the percentile of `m` plus 1, times the
probability that the shares of the column in the runs on permuted targets are different. -/
theorem C143_rate_below {w : A → ℝ} (hw : ∀ a, 0 ≤ w a) {s g : SkModel K p} {q : K} (h0 : 0 ≤ q) (h1 : q ≤ 100) {y : Fin n → K} {rs : Nat → Rand K} (hreal : s.fit X y rs = .ok g) {j : Fin p}
    {v : A → K} (hv : ∀ a, RunShare s X y j (run a) (v a)) {m e : Nat} (he : q / 100 * m + 1 < e) :
    (1 - (e : ℝ) / (m + 1)) * chance w (fun ω : Fin (m + 1) → A => Function.Injective fun k => v (ω k)) ≤ chance w (fun ω : Fin (m + 1) → A => Selects s q X y rs run j ω) := by
  classical
  have h2 : chance w (fun ω : Fin (m + 1) → A => e ≤ smaller (fun i => v (ω i)) (Fin.last m)) ≤ chance w (fun ω : Fin (m + 1) → A => Selects s q X y rs run j ω) :=
    chance_mono hw fun ω h => rank_selects h0 h1 hreal hv he h
  have h3 := rank_chance w v (Fin.last m) e
  have h4 : ∑ ω : Fin (m + 1) → A, (if Function.Injective (fun k => v (ω k)) then ∏ i, w (ω i) else 0) * ((m : ℝ) + 1 - e) ≤
      ∑ ω : Fin (m + 1) → A, (∏ i, w (ω i)) * ((Finset.univ.filter (fun k => e ≤ smaller (fun i => v (ω i)) k)).card : ℝ) := by
    refine Finset.sum_le_sum fun ω _ => ?_
    split
    · next hi =>
      refine mul_le_mul_of_nonneg_left ?_ (weight_nonneg hw ω)
      have := rank_lower e (fun i => v (ω i)) hi
      have : ((m + 1 : ℕ) : ℝ) ≤ (((Finset.univ.filter (fun k => e ≤ smaller (fun i => v (ω i)) k)).card + e : ℕ) : ℝ) := by exact_mod_cast this
      push_cast at this
      linarith
    · rw [zero_mul]; exact mul_nonneg (weight_nonneg hw ω) (by positivity)
  rw [← Finset.sum_mul, ← h3] at h4
  push_cast at h4
  have hm : (0 : ℝ) < (m : ℝ) + 1 := by positivity
  refine le_trans ?_ h2
  rw [show (1 : ℝ) - e / (m + 1) = ((m : ℝ) + 1 - e) / (m + 1) by field_simp, div_mul_eq_mul_div, div_le_iff₀ hm]
  refine le_trans (le_of_eq ?_) (h4.trans (le_of_eq (mul_comm _ _)))
  rw [mul_comm]
  unfold chance
  congr 1
  refine Finset.sum_congr rfl fun ω _ => ?_
  by_cases e : Function.Injective (fun k => v (ω k)) <;> simp [e]

/-- C143 with the percentile 0.95, the default: up to 106 runs on permuted targets (the default number is 10), a column is selected with a probability of at least `1 - 2 / m` times the probability that
there are no ties among its shares, although all of these runs, also the one with which the others are compared, are on targets in random order. -/
theorem C143_default {w : A → ℝ} (hw : ∀ a, 0 ≤ w a) {s g : SkModel K p} {y : Fin n → K} {rs : Nat → Rand K} (hreal : s.fit X y rs = .ok g) {j : Fin p}
    {v : A → K} (hv : ∀ a, RunShare s X y j (run a) (v a)) {m : Nat} (hm : 1 ≤ m) (hm' : m ≤ 106) :
    (1 - 2 / (m : ℝ)) * chance w (fun ω : Fin m → A => Function.Injective fun k => v (ω k)) ≤ chance w (fun ω : Fin m → A => Selects s (95 / 100) X y rs run j ω) := by
  obtain ⟨m, rfl⟩ : ∃ m', m = m' + 1 := ⟨m - 1, by omega⟩
  have := C143_rate_below (run := run) hw (q := (95 / 100 : K)) (by norm_num) (by norm_num) hreal hv (m := m) (e := 2) (by
    have : (m : K) ≤ 105 := by exact_mod_cast (by omega : m ≤ 105)
    push_cast
    linarith)
  push_cast at this ⊢
  exact this

/-! ### examples -/

section ex
attribute [local instance] exFns

/-- Three permutations with draws: both trees of both chains are grown; those of the first chain only; none. -/
def exOutcome : Fin 3 → Equiv.Perm (Fin 3) × (Nat → Rand ℚ) := ![(Equiv.swap 0 1, exRs), (1, fun i => if i = 0 then exRands1 else exRandsReject), (Equiv.swap 0 2, fun _ => exRandsReject)]

/-- The shares of the column in the three. -/
def exOutcomeShare : Fin 3 → ℚ := ![2/3, 1/2, 0]

/-- The hypothesis of C143 on the runs: with each of the three outcomes a fit to the permuted target returns, and the column has the share given. -/
theorem exOutcome_share (a : Fin 3) : RunShare (exSk true) exX exY 0 (exOutcome a) (exOutcomeShare a) := by
  have h : ∀ a : Fin 3, (match (exSk true).fit exX (fun r => exY ((exOutcome a).1 r)) (exOutcome a).2 with
    | .ok f => decide (f.featureSplitProportions (some [0]) = .ok [(0, exOutcomeShare a)])
    | _ => false) = true := by decide +kernel
  have h := h a
  cases e : (exSk true).fit exX (fun r => exY ((exOutcome a).1 r)) (exOutcome a).2 with
  | error _ => rw [e] at h; simp at h
  | ok f => rw [e] at h; exact ⟨f, e, by simpa using h⟩

theorem exOutcome_distinct : chance (fun _ : Fin 3 => (1 / 3 : ℝ)) (fun ω : Fin 3 → Fin 3 => Function.Injective fun k => exOutcomeShare (ω k)) = 2 / 9 := by
  classical
  have h1 : ∀ ω : Fin 3 → Fin 3, (Function.Injective fun k => exOutcomeShare (ω k)) ↔ Function.Injective ω := by decide +kernel
  have h2 : (Finset.univ.filter (fun ω : Fin 3 → Fin 3 => Function.Injective ω)).card = 6 := by decide +kernel
  have h3 : chance (fun _ : Fin 3 => (1 / 3 : ℝ)) (fun ω : Fin 3 → Fin 3 => Function.Injective fun k => exOutcomeShare (ω k)) = ∑ ω : Fin 3 → Fin 3, if Function.Injective ω then (1 / 27 : ℝ) else 0 := by
    unfold chance
    refine Finset.sum_congr rfl fun ω _ => ?_
    by_cases e : Function.Injective ω
    · rw [if_pos e, if_pos ((h1 ω).2 e)]; simp; norm_num
    · rw [if_neg e, if_neg (fun h => e ((h1 ω).1 h))]
  rw [h3, ← Finset.sum_filter, Finset.sum_const, h2]
  norm_num

/-- C143 is false, an instance: three runs, in each of which one of the three outcomes is drawn with equal probabilities. With the percentile 0.95 the column is selected with a probability of more than 5 %.
(The functions log and sqrt are stand-ins on the rationals here; what happens in general is `C143_rate_below`.) -/
theorem C143_refuted : 1 / 20 < chance (fun _ : Fin 3 => (1 / 3 : ℝ)) (fun ω : Fin 3 → Fin 3 => Selects (exSk true) (95 / 100 : ℚ) exX exY exRs exOutcome 0 ω) := by
  have hg : ∃ g, (exSk true).fit exX exY exRs = .ok g := by
    obtain ⟨_, s1, -, h, -⟩ := C56_refuted
    exact ⟨s1, h⟩
  obtain ⟨g, hg⟩ := hg
  have h := C143_default (run := exOutcome) (w := fun _ : Fin 3 => (1 / 3 : ℝ)) (fun _ => by norm_num) hg exOutcome_share (m := 3) (by norm_num) (by norm_num)
  rw [exOutcome_distinct] at h
  refine lt_of_lt_of_le ?_ h
  norm_num

/-- C143, the example for the bound: the percentile 95, read as per cent, with the same outcomes and 21 runs: at most 2/21. -/
example : chance (fun _ : Fin 3 => (1 / 3 : ℝ)) (fun ω : Fin 21 → Fin 3 => Selects (exSk true) (95 : ℚ) exX exY exRs exOutcome 0 ω) ≤ 2 / 21 := by
  have := C143_rate_partial (run := exOutcome) (X := exX) (w := fun _ : Fin 3 => (1 / 3 : ℝ)) (fun _ => by norm_num) (by simp) (exSk true) (q := (95 : ℚ)) (by norm_num) (by norm_num) exY exRs 0 (m := 20) (d := 19) (by norm_num)
  refine this.trans ?_
  norm_num
end ex

end Bart
