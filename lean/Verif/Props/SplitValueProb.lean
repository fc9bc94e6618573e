import Verif.Props.DataProps
import Mathlib.Analysis.SpecificLimits.Basic
import Mathlib.Tactic.Positivity

/-! Property theorem C08: the distribution of the sampled split value. -/

namespace Bart
open Spec CovariateMatrix
variable {K : Type} [Field K] [LinearOrder K] {n p : Nat}

/-- The probability that the rejection loop on a column with `col.length` rows, fed with independent uniform row indices, stops
after exactly `k + 1` draws with the value `v`: favourable index sequences over all index sequences. -/
noncomputable def stopProb (col : List (Fl K)) (m v : Fl K) (k : Nat) : ℝ :=
  ((Finset.univ.filter (fun us : Fin (k + 1) → Fin col.length =>
      drawNonMax col m (List.ofFn (fun i => (us i).val)) = .ok (v, []))).card : ℝ) / (col.length : ℝ) ^ (k + 1)

/-- The probability that the loop returns `v` at all. -/
noncomputable def drawProb (col : List (Fl K)) (m v : Fl K) : ℝ := ∑' k, stopProb col m v k

theorem drawProb_eq {col : List (Fl K)} {m v : Fl K} (hv : Fl.eq v m = false) (hlt : col.countP (fun x => Fl.eq x m) < col.length) :
    drawProb col m v = (col.countP (fun x => decide (x = v)) : ℝ) / ((col.length : ℝ) - col.countP (fun x => Fl.eq x m)) := by
  unfold drawProb
  have hN : (0 : ℝ) < col.length := by exact_mod_cast (Nat.zero_le _).trans_lt hlt
  have hlt' : (col.countP (fun x => Fl.eq x m) : ℝ) < col.length := by exact_mod_cast hlt
  have e : ∀ k, stopProb col m v k = ((col.countP (fun x => decide (x = v)) : ℝ) / col.length) *
      ((col.countP (fun x => Fl.eq x m) : ℝ) / col.length) ^ k := by
    intro k
    unfold stopProb
    rw [card_draws hv k]
    push_cast
    rw [div_pow, pow_succ]
    field_simp
  simp_rw [e]
  rw [tsum_mul_left, tsum_geometric_of_lt_one (by positivity) (by rw [div_lt_one hN]; exact hlt')]
  have : (col.length : ℝ) - col.countP (fun x => Fl.eq x m) ≠ 0 := (sub_pos.2 hlt').ne'
  have hN' := hN.ne'
  rw [show (1 : ℝ) - (col.countP (fun x => Fl.eq x m) : ℝ) / col.length
    = ((col.length : ℝ) - col.countP (fun x => Fl.eq x m)) / col.length by field_simp]
  rw [inv_div]
  field_simp

/-- The probability that the code reports for the split value (bartpy/data.py:187-191). -/
noncomputable def reportedProb (d : Data K n p) (i : Fin p) (v : Fl K) : ℝ :=
  ((d.X.proportionOfValue i v).1.1 : ℝ) / ((d.X.proportionOfValue i v).1.2 : ℝ)

/-! Full statement of C08: `reportedProb d i v = drawProb (column X (rowsOf d) i) m v`. It is false for every splittable column and
every value that can be drawn. -/

/-- C08 (partial): exact relation of the two probabilities; `m` is the maximum of the column. -/
theorem C08_reported_vs_actual_partial {X : Fin n → Fin p → Fl K} (hn : NoNan X) {d : Data K n p} (h : ReachableData X d)
    {i : Fin p} {m v : Fl K} (hm : npMaxList (column X (rowsOf d) i) = .ok m)
    (hv : ∃ r, rowsOf d r = true ∧ X r i = v) (hvm : v ≠ m) :
    reportedProb d i v = drawProb (column X (rowsOf d) i) m v *
      (1 - (count (fun r => rowsOf d r && decide (X r i = m)) : ℝ) / count (rowsOf d)) ∧
    0 < reportedProb d i v ∧
    0 < (count (fun r => rowsOf d r && decide (X r i = m)) : ℝ) / count (rowsOf d) ∧
    (count (fun r => rowsOf d r && decide (X r i = m)) : ℝ) / count (rowsOf d) < 1 := by
  have hnc : ∀ x ∈ column X (rowsOf d) i, x ≠ .nan := by
    intro x hx
    obtain ⟨r, -, hr⟩ := mem_column.1 hx
    rw [← hr]; exact hn r i
  obtain ⟨mm, ml⟩ := npMaxList_spec hnc hm
  have hvmem : v ∈ column X (rowsOf d) i := mem_column.2 hv
  have hveq : Fl.eq v m = false := by
    cases he : Fl.eq v m with
    | false => rfl
    | true => exact absurd (Fl.eq_iff.1 he).2 hvm
  have hcp : ∀ (P : Fl K → Bool), (column X (rowsOf d) i).countP P = count (fun r => rowsOf d r && P (X r i)) := by
    intro P
    unfold column count
    rw [List.countP_map, List.countP_filter, List.countP_eq_length_filter,
      ← List.toFinset_card_of_nodup ((List.nodup_finRange n).filter _)]
    congr 1
    ext r
    simp [and_comm]
  have hlen := column_length X (rowsOf d) i
  have heq : (column X (rowsOf d) i).countP (fun x => Fl.eq x m) = count (fun r => rowsOf d r && decide (X r i = m)) := by
    rw [hcp]
    congr 1
    funext r
    congr 1
    rw [Bool.eq_iff_iff, Fl.eq_iff, decide_eq_true_eq]
    exact ⟨fun h => h.2, fun h => ⟨hn r i, h⟩⟩
  have hlt : (column X (rowsOf d) i).countP (fun x => Fl.eq x m) < (column X (rowsOf d) i).length := by
    rcases Nat.lt_or_ge ((column X (rowsOf d) i).countP (fun x => Fl.eq x m)) (column X (rowsOf d) i).length with h' | h'
    · exact h'
    · have := List.countP_eq_length.1 (le_antisymm List.countP_le_length h') v hvmem
      rw [hveq] at this; cases this
  have hpos : 0 < (column X (rowsOf d) i).countP (fun x => Fl.eq x m) :=
    List.countP_pos_iff.2 ⟨m, mm, Fl.eq_iff.2 ⟨hnc m mm, rfl⟩⟩
  have hposv : 0 < (column X (rowsOf d) i).countP (fun x => decide (x = v)) :=
    List.countP_pos_iff.2 ⟨v, hvmem, by simp⟩
  obtain ⟨c07, hcnt⟩ := C07_proportion hn h i hv
  have hrep : reportedProb d i v = (count (fun r => rowsOf d r && decide (X r i = v)) : ℝ) / count (rowsOf d) := by
    unfold reportedProb
    have := congrArg (fun q : ℚ => (q : ℝ)) c07
    push_cast at this
    exact this
  rw [hrep, drawProb_eq hveq hlt, heq, hcp (fun x => decide (x = v)), hlen]
  rw [heq, hlen] at hlt
  rw [heq] at hpos
  rw [hcp (fun x => decide (x = v))] at hposv
  have hlt' : (count (fun r => rowsOf d r && decide (X r i = m)) : ℝ) < count (rowsOf d) := by exact_mod_cast hlt
  have hc : (0 : ℝ) < count (rowsOf d) := by exact_mod_cast hcnt
  have hp : (0 : ℝ) < count (fun r => rowsOf d r && decide (X r i = m)) := by exact_mod_cast hpos
  have hq : (0 : ℝ) < count (fun r => rowsOf d r && decide (X r i = v)) := by exact_mod_cast hposv
  refine ⟨?_, div_pos hq hc, div_pos hp hc, ?_⟩
  · have := (sub_pos.2 hlt').ne'
    have := hc.ne'
    field_simp
  · rw [div_lt_one hc]; exact hlt'

/-- C08 fails everywhere: the reported probability is strictly smaller than the probability of drawing the value. -/
theorem C08_refuted {X : Fin n → Fin p → Fl K} (hn : NoNan X) {d : Data K n p} (h : ReachableData X d)
    {i : Fin p} {m v : Fl K} (hm : npMaxList (column X (rowsOf d) i) = .ok m)
    (hv : ∃ r, rowsOf d r = true ∧ X r i = v) (hvm : v ≠ m) :
    reportedProb d i v < drawProb (column X (rowsOf d) i) m v := by
  obtain ⟨h1, h2, h3, h4⟩ := C08_reported_vs_actual_partial hn h hm hv hvm
  set q := (count (fun r => rowsOf d r && decide (X r i = m)) : ℝ) / count (rowsOf d)
  have hd : 0 < drawProb (column X (rowsOf d) i) m v := by
    rw [h1] at h2
    exact pos_of_mul_pos_left h2 (by linarith)
  rw [h1]
  nlinarith

/-- The hypotheses are met: column [1, 1, 2], value 1, maximum 2. -/
example : ∃ (X : Fin 3 → Fin 1 → Fl ℚ) (d : Data ℚ 3 1), NoNan X ∧ ReachableData X d ∧
    npMaxList (column X (rowsOf d) 0) = .ok (.fin 2) ∧ (∃ r, rowsOf d r = true ∧ X r 0 = .fin 1) :=
  ⟨exX3 (.fin 1) (.fin 1) (.fin 2), _, by unfold NoNan; decide +kernel, exData_reachable _ (fun _ => 0), rfl,
    0, by decide +kernel, by decide +kernel⟩

end Bart
