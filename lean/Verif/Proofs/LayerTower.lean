import Verif.Proofs.LayerRecur
import Verif.Proofs.RealWitness
import Verif.Proofs.LayerReturns
import Verif.Props.PosteriorProps

/-! A tree over three rows that grows in every step. -/

set_option linter.unusedSectionVars false

namespace Bart.LayerTower
open Bart Spec Reference Oblivious Lik LayerRecur

variable {n p : Nat} {X : Fin n → Fin p → Fl ℝ} {m : Params ℝ} {pGrow pPrune : ℝ} {y : Fin n → ℝ}

/-- The log prior ratio of a growth of one leaf. -/
noncomputable def priorTerm (m : Params ℝ) (d : Nat) : ℝ := Real.log (1 - splitP m (d + 1)) + Real.log (1 - splitP m (d + 1)) + Real.log (splitP m d) - Real.log (1 - splitP m d)

theorem growTerm_value (gpr : GoodPrior m) (h1 : 0 < pGrow) (h2 : 0 < pPrune) {d : Nat} {path : List (Cond ℝ p)} {rule : Layers.Rule ℝ p} {j : Fin p} {v : Fl ℝ} {w l : ℝ}
    (hc : Layers.counted path rule = some (j, v)) (hw : Fl.log (frequency X (Layers.rowsOn X path) j v) = .fin w) (hl : Layers.likelihoodOf m X y path rule = .fin l) :
    Layers.growTerm m pGrow pPrune X y d path rule = .ok (.fin (Real.log (pPrune / pGrow) + l + priorTerm m d)) := by
  have one : Fl.log (.fin (1 : ℝ)) = .fin 0 := by rw [Fl.log_fin one_pos]; simp
  unfold Layers.growTerm splitPrior priorTerm
  rw [hc]
  dsimp only
  rw [hw, hl, one, logNodeNotSplit_eq gpr, logNodeNotSplit_eq gpr, logNodeSplit_eq gpr, Fl.log_fin (div_pos h2 h1)]
  simp only [Fl.add_fin, Fl.sub_fin, Fl.neg_fin]
  congr 2
  ring

theorem sum_ge : ∀ {terms : List (Except PyErr (Fl ℝ))}, terms ≠ [] → (∀ z ∈ terms, ∃ w : ℝ, 1 ≤ w ∧ z = .ok (.fin w)) → ∃ w : ℝ, 1 ≤ w ∧ Layers.sumTerms terms = .ok (.fin w) := by
  have main : ∀ {terms : List (Except PyErr (Fl ℝ))}, (∀ z ∈ terms, ∃ w : ℝ, 1 ≤ w ∧ z = .ok (.fin w)) → ∃ w : ℝ, 0 ≤ w ∧ Layers.sumTerms terms = .ok (.fin w) := by
    intro terms
    induction terms with
    | nil => intro _; exact ⟨0, le_refl _, rfl⟩
    | cons z l ih =>
      intro h
      obtain ⟨w, hw, rfl⟩ := h z (by simp)
      obtain ⟨w', hw', e⟩ := ih (fun z hz => h z (by simp [hz]))
      exact ⟨w + w', by linarith, by simp [Layers.sumTerms, e]⟩
  intro terms hne h
  cases terms with
  | nil => exact absurd rfl hne
  | cons z l =>
    obtain ⟨w, hw, rfl⟩ := h z (by simp)
    obtain ⟨w', hw', e⟩ := main (terms := l) (fun z hz => h z (by simp [hz]))
    exact ⟨w + w', by linarith, by simp [Layers.sumTerms, e]⟩

/-! ### the likelihood for small sigma -/

/-- With small sigma the likelihood ratio is as large as you like. -/
theorem growRatio_large {s q : ℝ} (hs : 0 < s) (hq : 0 < q) (M : ℝ) : ∃ x0 : ℝ, 1 ≤ x0 ∧ ∀ x ≥ x0, ∀ (n nl nr t tl tr : ℝ), 1 ≤ n → 0 ≤ nl → nl ≤ 3 → 0 ≤ nr → nr ≤ 3 →
    q ≤ tl * tl / (1 / x * (1 / x) + nl * s) + tr * tr / (1 / x * (1 / x) + nr * s) - t * t / (1 / x * (1 / x) + n * s) →
    M ≤ growRatio (1 / x) s n nl nr t tl tr := by
  set c : ℝ := s / ((1 + 3 * (s * s)) * (1 + 3 * (s * s))) with hc
  have hc0 : 0 < c := by positivity
  set b : ℝ := -(1 / 2 * Real.log c) with hb
  set a : ℝ := s * s / 2 * q with ha
  have ha0 : 0 < a := by positivity
  refine ⟨max 1 ((1 + |M + b|) / a), le_max_left _ _, ?_⟩
  intro x hx n nl nr t tl tr hn hl0 hl3 hr0 hr3 hqq
  have hx1 : 1 ≤ x := le_trans (le_max_left _ _) hx
  have hx2 : (1 + |M + b|) / a ≤ x := le_trans (le_max_right _ _) hx
  have hx0 : 0 < x := by linarith
  have hv : 0 < 1 / x * (1 / x) := by positivity
  have hv1 : 1 / x * (1 / x) ≤ 1 := by
    have : 1 / x ≤ 1 := by rw [div_le_one hx0]; exact hx1
    have h0 : 0 < 1 / x := by positivity
    nlinarith
  unfold growRatio
  have h1 : -x - b ≤ Real.log (Real.sqrt (1 / x * (1 / x) * (1 / x * (1 / x) + n * s) / ((1 / x * (1 / x) + nl * (s * s)) * (1 / x * (1 / x) + nr * (s * s))))) := by
    have hr : 1 / x * (1 / x) * c ≤ 1 / x * (1 / x) * (1 / x * (1 / x) + n * s) / ((1 / x * (1 / x) + nl * (s * s)) * (1 / x * (1 / x) + nr * (s * s))) := by
      rw [hc, ← mul_div_assoc]
      have hss : 0 < s * s := by positivity
      apply div_le_div₀ (by positivity)
      · apply mul_le_mul_of_nonneg_left _ hv.le
        nlinarith
      · positivity
      · apply mul_le_mul
        · nlinarith
        · nlinarith
        · positivity
        · positivity
    rw [Real.log_sqrt (le_trans (by positivity) hr)]
    have hlog := Real.log_le_log (by positivity) hr
    rw [Real.log_mul hv.ne' hc0.ne', Real.log_mul (by positivity) (by positivity), one_div, Real.log_inv] at hlog
    have hlx := Real.log_le_self hx0.le
    rw [one_div] 
    rw [hb]
    linarith
  have h2 : a * (x * x) ≤ s * s / (2 * (1 / x * (1 / x))) * (tl * tl / (1 / x * (1 / x) + nl * s) + tr * tr / (1 / x * (1 / x) + nr * s) - t * t / (1 / x * (1 / x) + n * s)) := by
    have e : s * s / (2 * (1 / x * (1 / x))) = s * s / 2 * (x * x) := by field_simp
    rw [e, ha]
    have : 0 ≤ s * s / 2 * (x * x) := by positivity
    nlinarith
  have h3 : 1 + |M + b| ≤ a * x := by rw [div_le_iff₀ ha0] at hx2; linarith
  have h4 := le_abs_self (M + b)
  have h5 := abs_nonneg (M + b)
  nlinarith

/-! ### three rows -/

/-- The only split. -/
def cut : Layers.Rule ℝ 1 := some (0, .fin 0)

def left : List (Cond ℝ 1) := [⟨0, .fin 0, true⟩]

def right : List (Cond ℝ 1) := [⟨0, .fin 0, false⟩]

theorem rows_root : Layers.rowsOn (rampX 3) [] = fun _ => true := rfl

theorem rows_left : Layers.rowsOn (rampX 3) left = fun r => decide (r = 0) := by
  funext r
  fin_cases r <;> simp [Layers.rowsOn, Layers.meets, left, Cond.holds, rampX, Fl.le]

theorem rows_right : Layers.rowsOn (rampX 3) right = fun r => decide (r ≠ 0) := by
  funext r
  fin_cases r <;> simp [Layers.rowsOn, Layers.meets, right, Cond.holds, rampX, Fl.le]

theorem column_root : column (rampX 3) (Layers.rowsOn (rampX 3) []) 0 = [.fin 0, .fin 1, .fin 2] := by
  rw [rows_root]
  simp [column, rampX, List.finRange_succ]

theorem column_left : column (rampX 3) (Layers.rowsOn (rampX 3) left) 0 = [.fin 0] := by
  rw [rows_left]
  simp [column, rampX, List.finRange_succ]

theorem column_right : column (rampX 3) (Layers.rowsOn (rampX 3) right) 0 = [.fin 1, .fin 2] := by
  rw [rows_right]
  simp [column, rampX, List.finRange_succ]

theorem count_left : count (Layers.rowsOn (rampX 3) left) = 1 := by rw [rows_left]; decide

theorem count_right : count (Layers.rowsOn (rampX 3) right) = 2 := by rw [rows_right]; decide

theorem count_root : count (Layers.rowsOn (rampX 3) []) = 3 := by rw [rows_root]; decide

theorem columns_root : columns (rampX 3) (Layers.rowsOn (rampX 3) []) = [0] := by
  simp [columns, column_root, List.finRange_succ]

theorem columns_left : columns (rampX 3) (Layers.rowsOn (rampX 3) left) = [] := by
  simp [columns, column_left, List.finRange_succ]

theorem columns_right : columns (rampX 3) (Layers.rowsOn (rampX 3) right) = [] := by
  simp [columns, column_right, List.finRange_succ]

theorem grow_root (us : List Nat) : Layers.growRules (rampX 3) [[]] (0 :: 0 :: us) = .ok ([cut], us) := by
  simp [Layers.growRules, Layers.growRule, columns_root, choice, drawCut, column_root, Fl.lt, cut]

theorem grow_double (us : List Nat) : ∀ ps : List (List (Cond ℝ 1)), (∀ q ∈ ps, q = left ∨ q = right) → Layers.growRules (rampX 3) ps us = .ok (List.replicate ps.length none, us) := by
  intro ps
  induction ps with
  | nil => intro _; rfl
  | cons q ps ih =>
    intro h
    have h1 : Layers.growRule (rampX 3) q us = .ok (none, us) := by
      rcases h q (by simp) with rfl | rfl
      · simp [Layers.growRule, columns_left]
      · simp [Layers.growRule, columns_right]
    rw [Layers.growRules, h1]
    dsimp only
    rw [ih (fun q hq => h q (by simp [hq]))]
    rfl

theorem freq_root : Fl.log (frequency (rampX 3) (Layers.rowsOn (rampX 3) []) 0 (.fin 0)) = .fin (Real.log (1 / 3)) := by
  unfold frequency
  rw [column_root, count_root]
  have : ([.fin 0, .fin 1, .fin 2] : List (Fl ℝ)).Nodup := by simp
  simp only [this, if_true, Fl.ofInt]
  rw [Fl.div_fin _ (by norm_num)]
  push_cast
  exact Fl.log_fin (by norm_num)

theorem freq_left : Fl.log (frequency (rampX 3) (Layers.rowsOn (rampX 3) left) 0 (.fin 0)) = .fin (Real.log (1 / 1)) := by
  unfold frequency
  rw [column_left, count_left]
  have : ([.fin 0] : List (Fl ℝ)).Nodup := by simp
  simp only [this, if_true, Fl.ofInt]
  rw [Fl.div_fin _ (by norm_num)]
  push_cast
  exact Fl.log_fin (by norm_num)

theorem freq_right : Fl.log (frequency (rampX 3) (Layers.rowsOn (rampX 3) right) 0 (.fin 0)) = .fin (Real.log (1 / 2)) := by
  unfold frequency
  rw [column_right, count_right]
  have : ([.fin 1, .fin 2] : List (Fl ℝ)).Nodup := by simp
  simp only [this, if_true, Fl.ofInt]
  rw [Fl.div_fin _ (by norm_num)]
  push_cast
  exact Fl.log_fin (by norm_num)

/-- The target: -1/2, 0, 1/2. -/
noncomputable def ys : Fin 3 → ℝ := ![-1/2, 0, 1/2]

theorem total_root : total ys (Layers.rowsOn (rampX 3) []) = 0 := by
  rw [rows_root]; simp [total, ys, Fin.sum_univ_three]; norm_num

theorem total_left : total ys (Layers.rowsOn (rampX 3) left) = -1/2 := by
  rw [rows_left]; simp [total, ys, Finset.sum_filter]

theorem total_right : total ys (Layers.rowsOn (rampX 3) right) = 1/2 := by
  rw [rows_right]; simp [total, ys, Finset.sum_filter, Fin.sum_univ_three]

/-! ### the growths -/

/-- The growths of the tree after `k` growths. -/
def tower : ℕ → List (List (Layers.Rule ℝ 1))
  | 0 => []
  | 1 => [[cut]]
  | k + 2 => List.replicate (2 ^ (k + 1)) none :: tower (k + 1)

theorem tower_length : ∀ k, (tower k).length = k
  | 0 => rfl
  | 1 => rfl
  | k + 2 => by rw [tower, List.length_cons, tower_length (k + 1)]

theorem tower_full : ∀ k, Full (tower k)
  | 0 => trivial
  | 1 => ⟨trivial, rfl⟩
  | k + 2 => ⟨tower_full (k + 1), by rw [List.length_replicate, tower_length]⟩

theorem tower_paths : ∀ k, ∀ q ∈ Layers.paths (tower (k + 1)), q = left ∨ q = right := by
  intro k
  induction k with
  | zero =>
    intro q hq
    simp only [tower, Layers.paths, List.zipWith_cons_cons, List.zipWith_nil_right, cut, Layers.expand, List.nil_append, List.flatten_cons, List.flatten_nil, List.append_nil, List.mem_cons,
      List.not_mem_nil, or_false] at hq
    exact hq
  | succ k ih =>
    intro q hq
    rw [tower, Layers.paths] at hq
    obtain ⟨l, hl, hq⟩ := List.mem_flatten.1 hq
    obtain ⟨i, hi, rfl⟩ := List.mem_iff_getElem.1 hl
    rw [List.getElem_zipWith, List.getElem_replicate] at hq
    simp only [Layers.expand, List.mem_cons, List.not_mem_nil, or_false, or_self] at hq
    rw [hq]
    exact ih _ (List.getElem_mem _)

theorem grow_tower (k : ℕ) (us : List Nat) : Layers.growRules (rampX 3) (Layers.paths (tower (k + 1))) us = .ok (List.replicate (2 ^ (k + 1)) none, us) := by
  rw [grow_double us _ (tower_paths k), (tower_full _).paths_length, tower_length]

section
variable (m : Params ℝ)

/-- The parameters with sigma = 1/x. -/
noncomputable def at' (x : ℝ) : Params ℝ := { m with sigma := 1 / x }

theorem good_at {m : Params ℝ} (gp : GoodParams m) {x : ℝ} (hx : 1 ≤ x) : GoodParams (at' m x) := ⟨by unfold at'; dsimp only; positivity, gp.k, gp.nTrees⟩

theorem prior_at {m : Params ℝ} (gpr : GoodPrior m) (x : ℝ) : GoodPrior (at' m x) := ⟨gpr.alpha0, gpr.alpha1, gpr.beta⟩

theorem likelihood_root {m : Params ℝ} (gp : GoodParams m) {x : ℝ} (hx : 1 ≤ x) :
    Layers.likelihoodOf (at' m x) (rampX 3) ys [] cut = .fin (growRatio (1 / x) (sm m) 3 1 2 0 (-1/2) (1/2)) := by
  have hL : (fun r => Layers.rowsOn (rampX 3) [] r && Fl.le (rampX 3 r 0) (.fin 0)) = Layers.rowsOn (rampX 3) left := by
    rw [rows_left, rows_root]; funext r; fin_cases r <;> simp [rampX, Fl.le]
  have hR : (fun r => Layers.rowsOn (rampX 3) [] r && !Fl.le (rampX 3 r 0) (.fin 0)) = Layers.rowsOn (rampX 3) right := by
    rw [rows_right, rows_root]; funext r; fin_cases r <;> simp [rampX, Fl.le]
  simp only [Layers.likelihoodOf, cut, Reference.likelihood]
  rw [hL, hR, count_root, count_left, count_right, total_root, total_left, total_right, Lik.sigmaM_eq (good_at gp hx)]
  simp only [Fl.ofInt]
  rw [growRatioValue_eq (good_at gp hx).sigma (sm_pos (good_at gp hx)) (by norm_num) (by norm_num) (by norm_num)]
  push_cast
  rfl

theorem likelihood_left {m : Params ℝ} (gp : GoodParams m) {x : ℝ} (hx : 1 ≤ x) :
    Layers.likelihoodOf (at' m x) (rampX 3) ys left none = .fin (growRatio (1 / x) (sm m) 1 1 1 (-1/2) (-1/2) (-1/2)) := by
  simp only [Layers.likelihoodOf]
  rw [count_left, total_left, Lik.sigmaM_eq (good_at gp hx)]
  simp only [Fl.ofInt]
  rw [growRatioValue_eq (good_at gp hx).sigma (sm_pos (good_at gp hx)) (by norm_num) (by norm_num) (by norm_num)]
  push_cast
  rfl

theorem likelihood_right {m : Params ℝ} (gp : GoodParams m) {x : ℝ} (hx : 1 ≤ x) :
    Layers.likelihoodOf (at' m x) (rampX 3) ys right none = .fin (growRatio (1 / x) (sm m) 2 2 2 (1/2) (1/2) (1/2)) := by
  simp only [Layers.likelihoodOf]
  rw [count_right, total_right, Lik.sigmaM_eq (good_at gp hx)]
  simp only [Fl.ofInt]
  rw [growRatioValue_eq (good_at gp hx).sigma (sm_pos (good_at gp hx)) (by norm_num) (by norm_num) (by norm_num)]
  push_cast
  rfl

/-- The numbers that the first growth takes, followed by others. -/
def picksFor : ℕ → List Nat → List Nat
  | 0, us => 0 :: 0 :: us
  | _ + 1, us => us

/-- With small sigma the log ratios of the first `D` growths are at least 1. -/
theorem tower_gain {m : Params ℝ} (gp : GoodParams m) (gpr : GoodPrior m) (h1 : 0 < pGrow) (h2 : 0 < pPrune) (D : ℕ) : ∃ x : ℝ, 1 ≤ x ∧ ∀ d < D, ∃ w : ℝ, 1 ≤ w ∧
    ∀ us, Layers.propose (at' m x) pGrow pPrune (rampX 3) ys (tower d) .grow (picksFor d us) = .ok (tower (d + 1), .fin w, us) := by
  have hs := sm_pos gp
  have hq : 0 < 1 / 4 / (1 + 3 * sm m) := by positivity
  obtain ⟨M, hM⟩ := Finset.exists_le ((Finset.range D).image (fun d => 1 - Real.log (pPrune / pGrow) - priorTerm m d))
  have hM' : ∀ d < D, 1 ≤ Real.log (pPrune / pGrow) + M + priorTerm m d := by
    intro d hd
    have := hM _ (Finset.mem_image.2 ⟨d, Finset.mem_range.2 hd, rfl⟩)
    linarith
  obtain ⟨x, hx, hlarge⟩ := growRatio_large hs hq M
  have hv1 : 1 / x * (1 / x) ≤ 1 := by
    have hx0 : 0 < x := by linarith
    have : 1 / x ≤ 1 := by rw [div_le_one hx0]; exact hx
    have h0 : 0 < 1 / x := by positivity
    nlinarith
  have hv : 0 < 1 / x * (1 / x) := by
    have hx0 : 0 < x := by linarith
    positivity
  have bound : ∀ c : ℝ, 0 ≤ c → c ≤ 3 → 1 / 4 / (1 + 3 * sm m) ≤ 1 / 4 / (1 / x * (1 / x) + c * sm m) := by
    intro c h0 h3
    apply div_le_div_of_nonneg_left (by norm_num) (by positivity)
    nlinarith
  have pos : ∀ c : ℝ, 0 ≤ c → 0 ≤ 1 / 4 / (1 / x * (1 / x) + c * sm m) := by
    intro c h0; positivity
  refine ⟨x, hx, fun d hd => ?_⟩
  cases d with
  | zero =>
    have hl := hlarge x (le_refl _) 3 1 2 0 (-1/2) (1/2) (by norm_num) (by norm_num) (by norm_num) (by norm_num) (by norm_num) (by
      have e1 := bound 1 (by norm_num) (by norm_num)
      have e2 := pos 2 (by norm_num)
      norm_num at e1 e2 ⊢
      linarith)
    have ht := growTerm_value (X := rampX 3) (y := ys) (prior_at gpr x) h1 h2 (d := 0) (path := []) (rule := cut) rfl freq_root (likelihood_root gp hx)
    refine ⟨Real.log (pPrune / pGrow) + growRatio (1 / x) (sm m) 3 1 2 0 (-1/2) (1/2) + priorTerm (at' m x) 0, ?_, fun us => ?_⟩
    · have := hM' 0 hd
      rw [show priorTerm (at' m x) 0 = priorTerm m 0 from rfl]
      linarith
    · simp only [Layers.propose, picksFor, tower, Layers.paths, List.length_nil]
      rw [grow_root]
      simp only [List.zipWith_cons_cons, List.zipWith_nil_right, ht, Layers.sumTerms, Fl.add_fin, add_zero]
  | succ d =>
    have key : ∀ q ∈ Layers.paths (tower (d + 1)), ∃ w : ℝ, 1 ≤ w ∧ Layers.growTerm (at' m x) pGrow pPrune (rampX 3) ys (d + 1) q none = .ok (.fin w) := by
      intro q hq
      have hp := hM' (d + 1) hd
      rcases tower_paths d q hq with rfl | rfl
      · have hl := hlarge x (le_refl _) 1 1 1 (-1/2) (-1/2) (-1/2) (by norm_num) (by norm_num) (by norm_num) (by norm_num) (by norm_num) (by
          have e1 := bound 1 (by norm_num) (by norm_num)
          norm_num at e1 ⊢
          linarith)
        exact ⟨_, by rw [show priorTerm m (d + 1) = priorTerm (at' m x) (d + 1) from rfl] at hp; linarith,
          growTerm_value (X := rampX 3) (y := ys) (prior_at gpr x) h1 h2 (d := d + 1) (path := left) (rule := none) rfl freq_left (likelihood_left gp hx)⟩
      · have hl := hlarge x (le_refl _) 2 2 2 (1/2) (1/2) (1/2) (by norm_num) (by norm_num) (by norm_num) (by norm_num) (by norm_num) (by
          have e1 := bound 2 (by norm_num) (by norm_num)
          norm_num at e1 ⊢
          linarith)
        exact ⟨_, by rw [show priorTerm m (d + 1) = priorTerm (at' m x) (d + 1) from rfl] at hp; linarith,
          growTerm_value (X := rampX 3) (y := ys) (prior_at gpr x) h1 h2 (d := d + 1) (path := right) (rule := none) rfl freq_right (likelihood_right gp hx)⟩
    have hlen : (Layers.paths (tower (d + 1))).length = 2 ^ (d + 1) := by rw [(tower_full _).paths_length, tower_length]
    obtain ⟨w, hw, e⟩ := sum_ge (terms := List.zipWith (Layers.growTerm (at' m x) pGrow pPrune (rampX 3) ys (d + 1)) (Layers.paths (tower (d + 1))) (List.replicate (2 ^ (d + 1)) none))
      (by
        intro h0
        have := congrArg List.length h0
        rw [List.length_zipWith, hlen, List.length_replicate] at this
        simp at this)
      (by
        intro z hz
        obtain ⟨i, hi, rfl⟩ := List.mem_iff_getElem.1 hz
        rw [List.getElem_zipWith, List.getElem_replicate]
        exact key _ (List.getElem_mem _))
    refine ⟨w, hw, fun us => ?_⟩
    simp only [Layers.propose, picksFor, tower_length]
    rw [grow_tower]
    simp only [e]
    rfl

end

/-! ### sweeps -/

theorem leafValues_ok {n p : Nat} {X : Fin n → Fin p → Fl ℝ} {m : Params ℝ} (gp : GoodParams m) (y : Fin n → ℝ) : ∀ (ps : List (List (Cond ℝ p))) (zs : List ℝ),
    (∀ q ∈ ps, 0 < count (Layers.rowsOn X q)) → ps.length ≤ zs.length → ∃ vs, Layers.leafValues m X y ps zs = .ok (vs, zs.drop ps.length) ∧ vs.length = ps.length := by
  intro ps
  induction ps with
  | nil => intro zs _ _; exact ⟨[], rfl, rfl⟩
  | cons q ps ih =>
    intro zs h hl
    cases zs with
    | nil => simp at hl
    | cons z zs =>
      obtain ⟨vs, e, hlen⟩ := ih zs (fun q hq => h q (by simp [hq])) (by simpa using hl)
      refine ⟨(postMean m.sigma (sm m) y (Layers.rowsOn X q) + z * Real.sqrt (postVar m.sigma (sm m) (Layers.rowsOn X q) / m.nTrees)) :: vs, ?_, by simp [hlen]⟩
      simp only [Layers.leafValues]
      rw [leafValue_eq gp y (h q (by simp))]
      simp only [Fl.toFinite, e]
      rfl

theorem tower_rows (k : ℕ) : ∀ q ∈ Layers.paths (tower k), 0 < count (Layers.rowsOn (rampX 3) q) := by
  intro q hq
  cases k with
  | zero =>
    simp only [tower, Layers.paths, List.mem_cons, List.not_mem_nil, or_false] at hq
    rw [hq, count_root]; norm_num
  | succ k =>
    rcases tower_paths k q hq with rfl | rfl
    · rw [count_left]; norm_num
    · rw [count_right]; norm_num

theorem tower_leaves (k : ℕ) : (Layers.paths (tower k)).length = 2 ^ k := by rw [(tower_full _).paths_length, tower_length]

theorem sigma_step (c : Settings ℝ) (ha : 0 ≤ c.sigmaA) (hb : 0 ≤ c.sigmaB) (ts : List (Layers.LTree ℝ 1)) {x : ℝ} (hx : 0 < x) (gs : List ℝ) :
    Layers.sigmaStep c (rampX 3) ys ts (x ^ 2 :: gs) = .ok (1 / x, gs) := by
  unfold Layers.sigmaStep
  have hsq : 0 ≤ ∑ i, (ys i - Layers.forest ts (rampX 3 i)) * (ys i - Layers.forest ts (rampX 3 i)) := Finset.sum_nonneg (fun i _ => mul_self_nonneg _)
  have h1 : ¬ (c.sigmaA + ((3 : ℕ) : ℝ) / 2 < 0) := by push_cast; linarith
  have h2 : ¬ (c.sigmaB + (1/2) * ∑ i, (ys i - Layers.forest ts (rampX 3 i)) * (ys i - Layers.forest ts (rampX 3 i)) < 0) := by linarith
  have hp : (MathFns.pow (x ^ 2) (-(1/2)) : Fl ℝ) = .fin (1 / x) := by
    rw [Fl.pow_fin (by positivity)]
    congr 1
    rw [Real.rpow_neg (by positivity), ← Real.sqrt_eq_rpow, Real.sqrt_sq hx.le, one_div]
  rw [if_neg (by push Not; exact ⟨not_lt.1 h1, not_lt.1 h2⟩)]
  simp only
  rw [hp]
  rfl

theorem one_tree (c : Settings ℝ) {P : Params ℝ} (t : Layers.LTree ℝ 1) (r : Rand ℝ) : Layers.sweepTrees P c.pGrow c.pPrune (rampX 3) ys [] [t] r =
    (Layers.treeBody P c.pGrow c.pPrune (rampX 3) ys t r).map (fun q => ([q.1], [q.2.1], q.2.2)) := by
  have : (fun i => ys i - Layers.forest ([] ++ []) (rampX 3 i)) = ys := by funext i; simp [Layers.forest]
  rw [Layers.sweepTrees, this]
  cases Layers.treeBody P c.pGrow c.pPrune (rampX 3) ys t r with
  | error e => rfl
  | ok q => rfl

/-- The first sweep: nothing to prune. -/
theorem sweep_first (c : Settings ℝ) (hk : 0 < c.k) (hT : c.nTrees = 1) (ha : 0 ≤ c.sigmaA) (hb : 0 ≤ c.sigmaB) {x : ℝ} (hx : 0 < x) (ms : List Method) (us : List Nat) (u : ℝ) (uu : List ℝ)
    {zs : List ℝ} (hz : 1 ≤ zs.length) (gs : List ℝ) :
    ∃ b vs, Layers.sweep c (rampX 3) ys (Layers.start c) ⟨.prune :: ms, us, u :: uu, zs, x ^ 2 :: gs⟩ = .ok ([b], ⟨[⟨tower 0, vs⟩], 1 / x⟩, ⟨ms, us, uu, zs.drop 1, gs⟩) ∧ vs.length = 1 := by
  have gp : GoodParams (c.params 1) := ⟨one_pos, hk, by show 0 < c.nTrees; omega⟩
  obtain ⟨vs, e, hl⟩ := leafValues_ok (X := rampX 3) gp ys (Layers.paths (tower 0)) zs (tower_rows 0) (by rw [tower_leaves]; simpa using hz)
  rw [tower_leaves] at e hl
  refine ⟨Fl.lt (.fin u) (.fin 0), vs, ?_, hl⟩
  have hst : (Layers.start c : Layers.State ℝ 1) = ⟨[⟨tower 0, [0]⟩], 1⟩ := by unfold Layers.start; rw [hT]; rfl
  unfold Layers.sweep
  rw [hst]
  dsimp only
  rw [one_tree]
  unfold Layers.treeBody Layers.treeStep
  simp only [tower, Layers.propose, ite_self]
  simp only [tower, pow_zero] at e
  rw [e]
  simp only [Except.map]
  rw [sigma_step c ha hb _ hx]

/-- A sweep in which the tree grows. -/
theorem sweep_grow (c : Settings ℝ) (hk : 0 < c.k) (hT : c.nTrees = 1) (ha : 0 ≤ c.sigmaA) (hb : 0 ≤ c.sigmaB) {x : ℝ} (hx : 1 ≤ x) {d : ℕ} {w : ℝ} (hw : 1 ≤ w)
    (he : ∀ us, Layers.propose (c.params (1 / x)) c.pGrow c.pPrune (rampX 3) ys (tower d) .grow (picksFor d us) = .ok (tower (d + 1), .fin w, us)) (ms : List Method) (us : List Nat) {u : ℝ} (hu : u < 1)
    (uu : List ℝ) {zs : List ℝ} (hz : 2 ^ (d + 1) ≤ zs.length) (gs : List ℝ) (vs : List ℝ) :
    ∃ vs', Layers.sweep c (rampX 3) ys ⟨[⟨tower d, vs⟩], 1 / x⟩ ⟨.grow :: ms, picksFor d us, u :: uu, zs, x ^ 2 :: gs⟩ =
      .ok ([true], ⟨[⟨tower (d + 1), vs'⟩], 1 / x⟩, ⟨ms, us, uu, zs.drop (2 ^ (d + 1)), gs⟩) ∧ vs'.length = 2 ^ (d + 1) := by
  have gp : GoodParams (c.params (1 / x)) := ⟨by show 0 < 1 / x; positivity, hk, by show 0 < c.nTrees; omega⟩
  obtain ⟨vs', e, hl⟩ := leafValues_ok (X := rampX 3) gp ys (Layers.paths (tower (d + 1))) zs (tower_rows (d + 1)) (by rw [tower_leaves]; exact hz)
  rw [tower_leaves] at e hl
  refine ⟨vs', ?_, hl⟩
  unfold Layers.sweep
  dsimp only
  rw [one_tree]
  unfold Layers.treeBody Layers.treeStep
  have hacc : Fl.lt (.fin u) (.fin w) = true := by simp only [Fl.lt, decide_eq_true_eq]; linarith
  simp only [he, hacc, if_true, e, Except.map]
  rw [sigma_step c ha hb _ (by linarith)]

/-- The tree after `i` growths. -/
def AtHeight (x : ℝ) (i : ℕ) (q : List Bool × Layers.State ℝ 1) : Prop := ∃ vs, q.2 = ⟨[⟨tower i, vs⟩], 1 / x⟩ ∧ vs.length = 2 ^ i

theorem picksFor_tail (d : ℕ) (us : List Nat) : picksFor (d + 1) us = us := rfl

theorem sweeps_grow (c : Settings ℝ) (hk : 0 < c.k) (hT : c.nTrees = 1) (ha : 0 ≤ c.sigmaA) (hb : 0 ≤ c.sigmaB) {x : ℝ} (hx : 1 ≤ x) : ∀ (j d : ℕ)
    (_ : ∀ e, e < d + j → ∃ w : ℝ, 1 ≤ w ∧ ∀ us, Layers.propose (c.params (1 / x)) c.pGrow c.pPrune (rampX 3) ys (tower e) .grow (picksFor e us) = .ok (tower (e + 1), .fin w, us))
    (uu zs vs : List ℝ) (_ : ∀ u ∈ uu, u < 1) (_ : j ≤ uu.length) (_ : 2 ^ (d + j + 1) ≤ zs.length + 2 ^ (d + 1)),
    ∃ l st r, Layers.sweeps c (rampX 3) ys j ⟨[⟨tower d, vs⟩], 1 / x⟩ ⟨List.replicate j .grow, picksFor d [], uu, zs, List.replicate j (x ^ 2)⟩ = .ok (l, st, r) ∧ l.length = j ∧
      ∀ i < j, ∃ q, l[i]? = some q ∧ AtHeight x (d + i + 1) q := by
  intro j
  induction j with
  | zero => intro d _ uu zs vs _ _ _; exact ⟨[], _, _, rfl, rfl, fun i hi => by omega⟩
  | succ j ih =>
    intro d he uu zs vs hu hl hz
    cases uu with
    | nil => simp at hl
    | cons u uu =>
      obtain ⟨w, hw, hp⟩ := he d (by omega)
      have hpow : 2 ^ (d + 1) * 2 ≤ 2 ^ (d + (j + 1) + 1) := by
        rw [← pow_succ]; exact Nat.pow_le_pow_right (by norm_num) (by omega)
      obtain ⟨vs', e, hvs⟩ := sweep_grow c hk hT ha hb hx hw hp (List.replicate j .grow) (picksFor (d + 1) []) (hu u (by simp)) uu (zs := zs) (by omega) (List.replicate j (x ^ 2)) vs
      have hpf : picksFor d [] = picksFor d (picksFor (d + 1) []) := by rw [picksFor_tail]
      obtain ⟨l, st, r, e2, hlen, hall⟩ := ih (d + 1) (fun e h => he e (by omega)) uu (zs.drop (2 ^ (d + 1))) vs' (fun u h => hu u (by simp [h])) (by simpa using hl) (by
        rw [List.length_drop]
        have : 2 ^ (d + 1 + j + 1) = 2 ^ (d + (j + 1) + 1) := by congr 1; omega
        rw [pow_succ 2 (d + 1)]
        omega)
      refine ⟨([true], ⟨[⟨tower (d + 1), vs'⟩], 1 / x⟩) :: l, st, r, ?_, by simp [hlen], ?_⟩
      · rw [List.replicate_succ, List.replicate_succ, hpf]
        simp only [Layers.sweeps]
        rw [e]
        simp only
        rw [e2]
      · intro i hi
        cases i with
        | zero => exact ⟨_, rfl, vs', rfl, hvs⟩
        | succ i =>
          obtain ⟨q, h1, h2⟩ := hall i (by omega)
          exact ⟨q, by simpa using h1, by rw [show d + (i + 1) + 1 = d + 1 + i + 1 by omega]; exact h2⟩

end Bart.LayerTower
