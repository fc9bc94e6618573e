import Verif.Proofs.DataInv
import Verif.Spec.DataHistory
import Mathlib.Tactic.Ring
import Mathlib.Tactic.Linarith

/-! The data layer refines its cache-free reference. -/

set_option linter.unusedSectionVars false

namespace Bart
open Spec
variable {K : Type} [Field K] [LinearOrder K] {n p : Nat}

/-- The cache-free content of a data object. -/
def Data.abs (d : Data K n p) : Ref K n p := ⟨d.X.X, inRows d.mask, d.y.y⟩

theorem inRows_injective {m m' : Fin n → Bool} (h : inRows m = inRows m') : m = m' := by
  funext r
  have := congrFun h r
  simpa [inRows] using this

theorem updateMask_ok (c : CovariateMatrix K n p) (s : SplitCondition K p) (ho : s.operator ≠ .other) :
    ∃ m, c.updateMask s = .ok m ∧
      inRows m = fun r => inRows c.mask r && keep (c.X r s.splittingVariable) s.splittingValue s.operator := by
  unfold CovariateMatrix.updateMask
  cases h : s.operator with
  | other => exact absurd h ho
  | le => exact ⟨_, rfl, by funext r; simp [inRows, keep]⟩
  | gt => exact ⟨_, rfl, by funext r; simp [inRows, keep]⟩

theorem SameData.abs {d d' : Data K n p} (h : SameData d d') : d'.abs = d.abs := by
  simp [Data.abs, h.X.X, h.mask, h.y]

theorem count_split (rows : Fin n → Bool) (P : Fin n → Bool) :
    count (fun r => rows r && P r) + count (fun r => rows r && !P r) = count rows := by
  unfold count
  rw [← Finset.card_union_of_disjoint]
  · congr 1
    ext r
    simp only [Finset.mem_union, Finset.mem_filter, Finset.mem_univ, true_and, Bool.and_eq_true, Bool.not_eq_true']
    cases P r <;> simp
  · rw [Finset.disjoint_left]
    intro r h1 h2
    simp at h1 h2
    rw [h1.2] at h2; simp at h2

theorem total_split (y : Fin n → K) (rows : Fin n → Bool) (P : Fin n → Bool) :
    total y (fun r => rows r && P r) + total y (fun r => rows r && !P r) = total y rows := by
  unfold total
  rw [← Finset.sum_union]
  · apply Finset.sum_congr _ (fun _ _ => rfl)
    ext r
    simp only [Finset.mem_union, Finset.mem_filter, Finset.mem_univ, true_and, Bool.and_eq_true, Bool.not_eq_true']
    cases P r <;> simp
  · rw [Finset.disjoint_left]
    intro r h1 h2
    simp at h1 h2
    rw [h1.2] at h2; simp at h2

/-- The rows kept by `<= v` and by `> v` are complementary when nothing is NaN. -/
theorem keep_gt_eq_not_le {x v : Fl K} (hx : x ≠ .nan) (hv : v ≠ .nan) : keep x v .gt = !keep x v .le := by
  simp [keep, Fl.le_eq_not_gt hx hv]

theorem add_ok {d : Data K n p} (h : DataInv d) (j : Fin p) (v : Fl K) {op : Op} (ho : op ≠ .other) :
    ∃ d', d.add { splittingVariable := j, splittingValue := v, operator := op } = .ok d' ∧ DataInv d' ∧
      d'.abs = ⟨d.X.X, fun r => inRows d.mask r && keep (d.X.X r j) v op, d.y.y⟩ := by
  obtain ⟨m, hm, hr⟩ := updateMask_ok d.X { splittingVariable := j, splittingValue := v, operator := op } ho
  obtain ⟨d', h1, h2, h3, h4, h5, -⟩ := Data.add_spec h hm (by simp) (by simp)
  refine ⟨d', h1, h2, ?_⟩
  simp [Data.abs, h3, h4, h5, hr, h.maskX]

theorem rightOf_ok {d : Data K n p} (h : DataInv d) {y : Fin n → K} (hy : d.y.y = some y) {j : Fin p} {v : Fl K}
    (hX : ∀ r, d.X.X r j ≠ .nan) (hv : v ≠ .nan) :
    ∃ d', d.rightOf j v = .ok d' ∧ DataInv d' ∧
      d'.abs = ⟨d.X.X, fun r => inRows d.mask r && keep (d.X.X r j) v .gt, d.y.y⟩ := by
  obtain ⟨l, hl, il, al⟩ := add_ok h j v (op := .le) (by simp)
  have lrows : inRows l.mask = fun r => inRows d.mask r && keep (d.X.X r j) v .le := congrArg Ref.rows al
  have ly : l.y.y = d.y.y := congrArg Ref.y al
  unfold Data.rightOf
  rw [hl]
  have hs := Data.sumY_spec h
  cases e1 : d.sumY with
  | error e => rw [e1] at hs; rw [hs.2] at hy; cases hy
  | ok q =>
    obtain ⟨s, d1⟩ := q
    rw [e1] at hs
    obtain ⟨y1, hy1, hs1, sd, id⟩ := hs
    have ls := Data.sumY_spec il
    cases e2 : l.sumY with
    | error e => rw [e2] at ls; rw [ly, hy] at ls; cases ls.2
    | ok q2 =>
      obtain ⟨s2, l1⟩ := q2
      rw [e2] at ls
      obtain ⟨y2, hy2, hs2, sl, jl⟩ := ls
      have ey1 : y1 = y := by rw [hy] at hy1; injection hy1 with h; exact h.symm
      have ey2 : y2 = y := by rw [ly, hy] at hy2; injection hy2 with h; exact h.symm
      subst ey1; subst ey2
      simp only [e2]
      obtain ⟨m, hm, hr⟩ := updateMask_ok d1.X
        { splittingVariable := j, splittingValue := v, operator := .gt,
          carryNObsv := some (d1.X.nObsv - l1.X.nObsv), carryYSum := some (s - s2) } (by simp)
      simp only [sd.X.X, sd.X.mask, h.maskX] at hr
      have hr' : inRows m = fun r => inRows d.mask r && !keep (d.X.X r j) v .le := by
        rw [hr]; funext r; rw [keep_gt_eq_not_le (hX r) hv]
      obtain ⟨d', h1, h2, h3, h4, h5, -⟩ := Data.add_spec id hm (by
          intro k hk
          simp only [Option.some.injEq] at hk
          rw [← hk, sd.X.nObsv, sl.X.nObsv, h.X.nObsv, il.X.nObsv, h.maskX, il.maskX, lrows, hr']
          have := count_split (inRows d.mask) (fun r => keep (d.X.X r j) v .le)
          omega) (by
          intro w hw
          simp only [Option.some.injEq] at hw
          refine ⟨y2, sd.y.trans hy1, ?_⟩
          rw [← hw, hs1, hs2, lrows, hr']
          have := total_split y2 (inRows d.mask) (fun r => keep (d.X.X r j) v .le)
          rw [← this]; ring)
      refine ⟨d', h1, h2, ?_⟩
      simp [Data.abs, h3, h4, h5, hr, sd.X.X, sd.y]

theorem step_refines {d : Data K n p} (h : DataInv d) (op : DataOp K n p) (ho : opOk d.X.X op) :
    (d.step op).1 = (d.abs.step op).1 ∧ (d.step op).2.abs = (d.abs.step op).2 ∧ DataInv (d.step op).2 := by
  have hcol : ∀ i, d.X.col i = column d.abs.X d.abs.rows i := by
    intro i; simp [CovariateMatrix.col, Data.abs, h.maskX]
  have hspl : d.X.refSplittable = (List.finRange p).filter (fun i => isNotConstant (column d.abs.X d.abs.rows i)) := by
    unfold CovariateMatrix.refSplittable; simp [hcol]
  cases op with
  | getColumn i =>
    obtain ⟨h1, h2, h3, -⟩ := CovariateMatrix.getColumn_spec h.X i
    obtain ⟨s1, s2⟩ := Data.withX_spec h h2 h3
    exact ⟨by simp [Data.step, Ref.step, h1, hcol], by simp only [Data.step, Ref.step]; exact s1.abs, s2⟩
  | splittable =>
    obtain ⟨h1, h2, h3⟩ := CovariateMatrix.splittable_spec h.X
    obtain ⟨s1, s2⟩ := Data.withX_spec h h2 h3
    exact ⟨by simp [Data.step, Ref.step, h1, hspl], by simp only [Data.step, Ref.step]; exact s1.abs, s2⟩
  | nSplittable =>
    obtain ⟨h1, h2, h3⟩ := CovariateMatrix.splittable_spec h.X
    obtain ⟨s1, s2⟩ := Data.withX_spec h h2 h3
    exact ⟨by simp [Data.step, Ref.step, CovariateMatrix.nSplittable, h1, hspl],
      by simp only [Data.step, Ref.step]; exact s1.abs, s2⟩
  | anySplittable =>
    obtain ⟨h1, h2, h3⟩ := CovariateMatrix.isAtLeastOneSplittable_spec h.X
    obtain ⟨s1, s2⟩ := Data.withX_spec h h2 h3
    refine ⟨?_, by simp only [Data.step, Ref.step]; exact s1.abs, s2⟩
    simp only [Data.step, Ref.step, h1, hspl, Except.ok.injEq, DataOut.bool.injEq, decide_eq_decide]
    rw [ne_eq, List.filter_eq_nil_iff]
    simp
  | isUnique i =>
    obtain ⟨h1, h2, h3⟩ := CovariateMatrix.isColumnUnique_spec h.X i
    obtain ⟨s1, s2⟩ := Data.withX_spec h h2 h3
    exact ⟨by simp [Data.step, Ref.step, h1, hcol], by simp only [Data.step, Ref.step]; exact s1.abs, s2⟩
  | maxValue i =>
    have hm := CovariateMatrix.maxValueOfColumn_spec h.X i
    rw [hcol] at hm
    simp only [Data.step, Ref.step]
    cases e : d.X.maxValueOfColumn i with
    | error e' => rw [e] at hm; simp only at hm; rw [hm]; exact ⟨rfl, rfl, h⟩
    | ok q =>
      obtain ⟨m, c⟩ := q
      rw [e] at hm
      obtain ⟨h1, h2, h3⟩ := hm
      obtain ⟨s1, s2⟩ := Data.withX_spec h h2 h3
      rw [h1]
      exact ⟨rfl, s1.abs, s2⟩
  | proportion i v =>
    obtain ⟨h1, h2, h3⟩ := CovariateMatrix.proportionOfValue_spec h.X i v
    obtain ⟨s1, s2⟩ := Data.withX_spec h h2 h3
    have hc : count (inRows d.X.mask) = count d.abs.rows := by simp [Data.abs, h.maskX]
    refine ⟨?_, ?_, s2⟩
    · simp only [Data.step, Ref.step, h1, CovariateMatrix.refProportion, hcol, hc]
      split <;> rfl
    · have : (d.abs.step (.proportion i v)).2 = d.abs := by simp only [Ref.step]; split <;> rfl
      rw [this]; exact s1.abs
  | sumY =>
    have hs := Data.sumY_spec h
    simp only [Data.step, Ref.step]
    cases e : d.sumY with
    | error e' =>
      rw [e] at hs
      have : d.abs.y = none := hs.2
      rw [this, hs.1]; exact ⟨rfl, rfl, h⟩
    | ok q =>
      obtain ⟨s, d'⟩ := q
      rw [e] at hs
      obtain ⟨y, hy, h1, h2, h3⟩ := hs
      have : d.abs.y = some y := hy
      rw [this]
      exact ⟨by rw [h1]; rfl, h2.abs, h3⟩
  | nObsv =>
    refine ⟨?_, rfl, h⟩
    simp only [Data.step, Ref.step, h.X.nObsv, Data.abs, h.maskX]
  | updateY y => exact ⟨rfl, rfl, Data.updateY_inv h y⟩
  | add j v op =>
    cases op with
    | other =>
      have : d.add { splittingVariable := j, splittingValue := v, operator := .other } = .error .typeError := by
        simp [Data.add, CovariateMatrix.updateMask]
      simp only [Data.step, Ref.step, this]
      exact ⟨trivial, trivial, h⟩
    | le =>
      obtain ⟨d', h1, h2, h3⟩ := add_ok h j v (op := .le) (by simp)
      simp only [Data.step, Ref.step, h1, h3]
      exact ⟨trivial, rfl, h2⟩
    | gt =>
      obtain ⟨d', h1, h2, h3⟩ := add_ok h j v (op := .gt) (by simp)
      simp only [Data.step, Ref.step, h1, h3]
      exact ⟨trivial, rfl, h2⟩
  | splitRight j v =>
    cases hy : d.y.y with
    | none =>
      obtain ⟨l, hl, il, al⟩ := add_ok h j v (op := .le) (by simp)
      have : d.rightOf j v = .error .typeError := by
        unfold Data.rightOf
        rw [hl]
        have hs := Data.sumY_spec h
        cases e1 : d.sumY with
        | error e => rw [e1] at hs; simp [hs.1]
        | ok q =>
          rw [e1] at hs
          obtain ⟨y1, hy1, -⟩ := hs
          rw [hy] at hy1; cases hy1
      have hay : d.abs.y = none := hy
      simp only [Data.step, Ref.step, this, hay]
      exact ⟨trivial, trivial, h⟩
    | some y =>
      obtain ⟨d', h1, h2, h3⟩ := rightOf_ok h hy ho.1 ho.2
      have hay : d.abs.y = some y := hy
      simp only [Data.step, Ref.step, h1, h3, hay]
      exact ⟨trivial, by simp [Data.abs, hy], h2⟩

theorem step_X {d : Data K n p} (h : DataInv d) (op : DataOp K n p) (ho : opOk d.X.X op) : (d.step op).2.X.X = d.X.X := by
  have := congrArg Ref.X (step_refines h op ho).2.1
  rw [show (d.step op).2.X.X = ((d.step op).2.abs).X from rfl, this]
  cases op with
  | proportion i v => simp only [Ref.step]; split <;> rfl
  | maxValue i => simp only [Ref.step]; split <;> rfl
  | sumY => simp only [Ref.step]; split <;> rfl
  | splitRight j v => simp only [Ref.step]; split <;> rfl
  | add j v op => cases op <;> rfl
  | _ => rfl

theorem run_refines (ops : List (DataOp K n p)) : ∀ {d : Data K n p}, DataInv d → (∀ op ∈ ops, opOk d.X.X op) →
    (d.run ops).1 = (d.abs.run ops).1 ∧ (d.run ops).2.abs = (d.abs.run ops).2 ∧ DataInv (d.run ops).2 := by
  induction ops with
  | nil => intro d h _; exact ⟨rfl, rfl, h⟩
  | cons op ops ih =>
    intro d h ho
    obtain ⟨h1, h2, h3⟩ := step_refines h op (ho op (by simp))
    have hX := step_X h op (ho op (by simp))
    obtain ⟨i1, i2, i3⟩ := ih h3 (by intro o hm; rw [hX]; exact ho o (List.mem_cons_of_mem _ hm))
    refine ⟨?_, ?_, i3⟩
    · simp only [Data.run, Ref.run, h1]; rw [i1, h2]
    · simp only [Data.run, Ref.run]; rw [i2, h2]

/-- A fresh data object satisfies the invariant. -/
theorem init_inv {X : Fin n → Fin p → Fl K} {y : Fin n → K} {mask : Option (Fin n → Bool)} {normalize : Bool}
    {d : Data K n p} (h : Data.init X y mask normalize none none none none = .ok d) :
    DataInv d ∧ d.X.X = X ∧ d.mask = mask.getD (fun _ => false) := by
  unfold Data.init at h
  simp only at h
  split at h
  · cases h
  · next t ht =>
    injection h with h
    subst h
    have hk : (none : Option Int).getD (Data.countUnmasked (mask.getD (fun _ => false)))
        = (count (inRows (mask.getD (fun _ => false))) : Int) := by simp [countUnmasked_eq]
    have htm : t.mask = mask.getD (fun _ => false) ∧ t.sumCacheUpToDate = false := by
      unfold Target.init at ht
      cases normalize with
      | false => simp at ht; subst ht; simp
      | true =>
        simp only [if_true] at ht
        split at ht <;> simp at ht
        subst ht; simp
    refine ⟨⟨CovariateMatrix.init_fresh_inv _ _ hk, ⟨by rw [htm.2]; simp⟩, rfl, htm.1, hk⟩, rfl, rfl⟩

end Bart
