import Verif.Model.RealFns
import Verif.Proofs.LikLemmas
import Mathlib.Tactic.FieldSimp
import Mathlib.Tactic.Positivity
import Mathlib.Tactic.Linarith

/-! The ratios and draws as real numbers. -/

set_option linter.unusedSectionVars false

namespace Bart
open Spec

namespace Fl
variable {K : Type} [Field K] [LinearOrder K]
@[simp] theorem add_fin (a b : K) : Fl.add (.fin a) (.fin b) = .fin (a + b) := rfl
@[simp] theorem neg_fin (a : K) : Fl.neg (.fin a) = .fin (-a) := rfl
@[simp] theorem sub_fin (a b : K) : Fl.sub (.fin a) (.fin b) = .fin (a - b) := by simp [Fl.sub, sub_eq_add_neg]
@[simp] theorem mul_fin (a b : K) : Fl.mul (.fin a) (.fin b) = .fin (a * b) := rfl
theorem div_fin (a : K) {b : K} (hb : b ≠ 0) : Fl.div (.fin a) (.fin b) = .fin (a / b) := by simp [Fl.div, hb]
@[simp] theorem add_nan (a : Fl K) : Fl.add a .nan = .nan := by cases a <;> rfl
@[simp] theorem nan_add (a : Fl K) : Fl.add .nan a = .nan := by cases a <;> rfl
@[simp] theorem neg_nan : Fl.neg (.nan : Fl K) = .nan := rfl
@[simp] theorem sub_nan (a : Fl K) : Fl.sub a .nan = .nan := by simp [Fl.sub]
@[simp] theorem nan_sub (a : Fl K) : Fl.sub .nan a = .nan := by simp [Fl.sub]
theorem log_fin {x : ℝ} (hx : 0 < x) : Fl.log (.fin x) = .fin (Real.log x) := by simp [Fl.log, MathFns.log, hx]
theorem log_neg {x : ℝ} (hx : x < 0) : Fl.log (.fin x) = .nan := by simp [Fl.log, MathFns.log, hx.not_gt, hx.ne]
theorem sqrt_fin {x : ℝ} (hx : 0 ≤ x) : Fl.sqrt (.fin x) = .fin (Real.sqrt x) := by simp [Fl.sqrt, MathFns.sqrt, hx]
theorem pow_fin {x : ℝ} (hx : 0 < x) (y : ℝ) : MathFns.pow x y = .fin (x ^ y) := by simp [MathFns.pow, hx]
end Fl

namespace Lik

/-- The parameters under which the formulas make sense. -/
structure GoodParams (m : Params ℝ) : Prop where
  sigma : 0 < m.sigma
  k : 0 < m.k
  nTrees : 0 < m.nTrees

/-- `sigma_m` as a real number. -/
noncomputable def sm (m : Params ℝ) : ℝ := 1 / 2 / (m.k * Real.sqrt m.nTrees)

theorem sm_pos {m : Params ℝ} (h : GoodParams m) : 0 < sm m := by
  have := h.k
  have h1 : (0 : ℝ) < m.nTrees := by exact_mod_cast h.nTrees
  have h2 := Real.sqrt_pos.2 h1
  unfold sm; positivity

theorem sigmaM_eq {m : Params ℝ} (h : GoodParams m) : sigmaM m = .fin (sm m) := by
  have h1 : (0 : ℝ) < m.nTrees := by exact_mod_cast h.nTrees
  have h2 := Real.sqrt_pos.2 h1
  have hk := h.k
  unfold sigmaM sm
  rw [Fl.pow_fin h1, Fl.mul_fin, Fl.div_fin _ (by rw [← Real.sqrt_eq_rpow]; positivity), ← Real.sqrt_eq_rpow]

/-- The value of `log_grow_ratio` as a real number. -/
noncomputable def growRatio (sigma smu : ℝ) (n nl nr s sl sr : ℝ) : ℝ :=
  Real.log (Real.sqrt ((sigma * sigma * (sigma * sigma + n * smu)) / ((sigma * sigma + nl * (smu * smu)) * (sigma * sigma + nr * (smu * smu))))) +
    smu * smu / (2 * (sigma * sigma)) * (sl * sl / (sigma * sigma + nl * smu) + sr * sr / (sigma * sigma + nr * smu) - s * s / (sigma * sigma + n * smu))

theorem growRatioValue_eq {sigma smu n nl nr : ℝ} (hs : 0 < sigma) (hm : 0 < smu) (h0 : 0 ≤ n) (h1 : 0 ≤ nl) (h2 : 0 ≤ nr) (s sl sr : ℝ) :
    growRatioValue (.fin sigma) (.fin smu) (.fin n) (.fin nl) (.fin nr) (.fin s) (.fin sl) (.fin sr) = .fin (growRatio sigma smu n nl nr s sl sr) := by
  have hv : 0 < sigma * sigma := by positivity
  have a0 : 0 < sigma * sigma + n * smu := by positivity
  have a1 : 0 < sigma * sigma + nl * smu := by positivity
  have a2 : 0 < sigma * sigma + nr * smu := by positivity
  have b1 : 0 < sigma * sigma + nl * (smu * smu) := by positivity
  have b2 : 0 < sigma * sigma + nr * (smu * smu) := by positivity
  have c : 0 < (sigma * sigma * (sigma * sigma + n * smu)) / ((sigma * sigma + nl * (smu * smu)) * (sigma * sigma + nr * (smu * smu))) := by positivity
  unfold growRatioValue growRatio
  simp only [Fl.mul_fin, Fl.add_fin]
  rw [Fl.div_fin _ (by positivity), Fl.div_fin _ a1.ne', Fl.div_fin _ a2.ne', Fl.div_fin _ a0.ne', Fl.div_fin _ (by positivity),
    Fl.sqrt_fin c.le, Fl.log_fin (Real.sqrt_pos.2 c)]
  simp

variable {n p : Nat}

/-- The likelihood ratio of the cut of `rows` at `(j, v)` as a real number. -/
noncomputable def likReal (m : Params ℝ) (X : Fin n → Fin p → Fl ℝ) (y : Fin n → ℝ) (rows : Fin n → Bool) (j : Fin p) (v : Fl ℝ) : ℝ :=
  let L := fun r => rows r && Fl.le (X r j) v
  let R := fun r => rows r && !Fl.le (X r j) v
  growRatio m.sigma (sm m) (count rows) (count L) (count R) (total y rows) (total y L) (total y R)

theorem likValue_eq {m : Params ℝ} (h : GoodParams m) (X : Fin n → Fin p → Fl ℝ) (y : Fin n → ℝ) (rows : Fin n → Bool) (j : Fin p) (v : Fl ℝ) :
    likValue m X y rows j v = .fin (likReal m X y rows j v) := by
  unfold likValue likReal
  rw [sigmaM_eq h]
  simp only [Fl.ofInt, Int.cast_natCast]
  exact growRatioValue_eq h.sigma (sm_pos h) (Nat.cast_nonneg _) (Nat.cast_nonneg _) (Nat.cast_nonneg _) _ _ _

/-- Split probability at a depth. -/
noncomputable def splitP (m : Params ℝ) (d : Nat) : ℝ := m.alpha * ((1 + d : Nat) : ℝ) ^ (-m.beta)

theorem splitProb_eq (m : Params ℝ) (d : Nat) : splitProb m d = .fin (splitP m d) := by
  unfold splitProb splitP
  rw [Fl.pow_fin (by positivity)]
  simp

/-- `0 < alpha < 1`, `0 ≤ beta`. -/
structure GoodPrior (m : Params ℝ) : Prop where
  alpha0 : 0 < m.alpha
  alpha1 : m.alpha < 1
  beta : 0 ≤ m.beta

theorem splitP_pos {m : Params ℝ} (h : GoodPrior m) (d : Nat) : 0 < splitP m d := by
  have := h.alpha0; unfold splitP; positivity

theorem splitP_lt_one {m : Params ℝ} (h : GoodPrior m) (d : Nat) : splitP m d < 1 := by
  unfold splitP
  have h1 : ((1 + d : Nat) : ℝ) ^ (-m.beta) ≤ 1 :=
    Real.rpow_le_one_of_one_le_of_nonpos (by push_cast; linarith [(Nat.cast_nonneg d : (0:ℝ) ≤ d)]) (by linarith [h.beta])
  calc m.alpha * ((1 + d : Nat) : ℝ) ^ (-m.beta) ≤ m.alpha * 1 := by
        apply mul_le_mul_of_nonneg_left h1 h.alpha0.le
    _ < 1 := by linarith [h.alpha1]

theorem logNodeSplit_eq {m : Params ℝ} (h : GoodPrior m) (d : Nat) : logNodeSplit m d = .fin (Real.log (splitP m d)) := by
  unfold logNodeSplit; rw [splitProb_eq, Fl.log_fin (splitP_pos h d)]

theorem logNodeNotSplit_eq {m : Params ℝ} (h : GoodPrior m) (d : Nat) : logNodeNotSplit m d = .fin (Real.log (1 - splitP m d)) := by
  unfold logNodeNotSplit; rw [splitProb_eq, Fl.sub_fin, Fl.log_fin (by linarith [splitP_lt_one h d])]

theorem colsOf_pos {X : Fin n → Fin p → Fl ℝ} {rows : Fin n → Bool} {j : Fin p} (hj : isNotConstant (column X rows j) = true) : 0 < colsOf X rows := by
  unfold colsOf
  apply List.length_pos_of_mem (a := j)
  simp [hj]

/-- The prior of a cut that can be proposed is a finite number. -/
theorem withinNode_fin {X : Fin n → Fin p → Fl ℝ} (hX : NoNan X) {rows : Fin n → Bool} {j : Fin p} (hj : isNotConstant (column X rows j) = true)
    {v : Fl ℝ} (hv : v ∈ column X rows j) : ∃ w : ℝ, withinNode X rows j v = .fin w := by
  have hc := colsOf_pos hj
  obtain ⟨r, hr, hrv⟩ := mem_column.1 hv
  have hn : 0 < count rows := Finset.card_pos.2 ⟨r, by simpa using hr⟩
  have h1 : 0 < (freqOf X rows j v).1 ∧ (freqOf X rows j v).2 = (count rows : Int) := by
    unfold freqOf
    split
    · exact ⟨by norm_num, rfl⟩
    · refine ⟨?_, rfl⟩
      have : 0 < (column X rows j).countP (fun x => Fl.eq x v) :=
        List.countP_pos_iff.2 ⟨v, hv, Fl.eq_iff.2 ⟨by rw [← hrv]; exact hX r j, rfl⟩⟩
      show (0 : Int) < ((column X rows j).countP (fun x => Fl.eq x v) : Nat)
      exact_mod_cast this
  unfold withinNode Fl.ofInt
  rw [h1.2]
  have p1 : (0 : ℝ) < ((freqOf X rows j v).1 : ℝ) := by exact_mod_cast h1.1
  have p2 : (0 : ℝ) < (((count rows : Nat) : Int) : ℝ) := by exact_mod_cast hn
  have p3 : (0 : ℝ) < (((colsOf X rows : Nat) : Int) : ℝ) := by exact_mod_cast hc
  rw [Fl.log_fin p3, Fl.div_fin _ p2.ne', Fl.log_fin (by positivity)]
  exact ⟨_, rfl⟩

theorem ofInt_log {k : Int} (hk : 0 < k) : Fl.log (Fl.ofInt k : Fl ℝ) = .fin (Real.log k) := Fl.log_fin (by exact_mod_cast hk)

theorem withinTree_fin {nsl : Nat} (h : 0 < nsl) (w : ℝ) : withinTree nsl (.fin w : Fl ℝ) = .fin (-Real.log nsl + w) := by
  unfold withinTree
  rw [ofInt_log (by exact_mod_cast h)]
  simp

theorem transGrow_fin {q : ℝ} (hq : 0 < q) (nPrun : Nat) {nsl : Nat} (h : 0 < nsl) (w : ℝ) :
    transGrowValue q nPrun nsl (.fin w) = .fin (Real.log q - Real.log (nPrun + 1) + Real.log nsl - w) := by
  unfold transGrowValue
  rw [withinTree_fin h, Fl.log_fin hq, ofInt_log (by positivity)]
  simp; ring

theorem transPrune_fin {q : ℝ} (hq : 0 < q) {nPrun : Nat} (hp : 0 < nPrun) {nsl : Nat} (h : 1 < nsl) (w : ℝ) :
    transPruneValue q nPrun nsl (.fin w) = .fin (Real.log q - Real.log (nsl - 1) + w + Real.log nPrun) := by
  unfold transPruneValue
  rw [if_neg (by omega), Fl.log_fin hq, ofInt_log (by omega), ofInt_log (by exact_mod_cast hp)]
  simp; ring

theorem transPrune_one {q : ℝ} (hq : 0 < q) {nPrun : Nat} (hp : 0 < nPrun) (w : ℝ) :
    transPruneValue q nPrun 1 (.fin w) = .ninf := by
  unfold transPruneValue
  rw [if_pos rfl, Fl.log_fin hq, ofInt_log (by exact_mod_cast hp)]
  rfl

theorem transPrune_zero {q : ℝ} {nPrun : Nat} (w : Fl ℝ) : transPruneValue q nPrun 0 w = .nan := by
  unfold transPruneValue
  have h : Fl.log (Fl.ofInt (((0 : Nat) : Int) - 1) : Fl ℝ) = .nan := Fl.log_neg (by norm_num)
  rw [if_neg (by omega), h]
  simp

theorem treeGrow_fin {m : Params ℝ} (h : GoodPrior m) (d : Nat) {nsl : Nat} (hn : 0 < nsl) (w : ℝ) :
    treeGrowValue m d nsl (.fin w) = .fin (2 * Real.log (1 - splitP m (d + 1)) + Real.log (splitP m d) + (-Real.log nsl + w) - Real.log (1 - splitP m d)) := by
  unfold treeGrowValue
  rw [logNodeNotSplit_eq h, logNodeNotSplit_eq h, logNodeSplit_eq h, withinTree_fin hn]
  simp; ring

theorem treePrune_fin {m : Params ℝ} (h : GoodPrior m) (d : Nat) (w : ℝ) :
    treePruneValue m d (.fin w) = .fin (Real.log (1 - splitP m d) - (2 * Real.log (1 - splitP m (d + 1)) + Real.log (splitP m d) + w)) := by
  unfold treePruneValue
  rw [logNodeNotSplit_eq h, logNodeNotSplit_eq h, logNodeSplit_eq h]
  simp; ring

end Lik
end Bart
