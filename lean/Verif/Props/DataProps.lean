import Verif.Proofs.DataLemmas
import Verif.Proofs.Condition
import Verif.Model.Node

/-! Property theorems C01-C03, C05-C14 (data, targets, conditions). C04 is in `TreeProps`. -/

set_option linter.unusedSectionVars false

namespace Bart
open Spec
variable {K : Type} [Field K] [LinearOrder K] {n p : Nat}

theorem reachable_inv {X : Fin n → Fin p → Fl K} {d : Data K n p} (h : ReachableData X d) :
    DataInv d ∧ d.X.X = X := by
  obtain ⟨y, mask, nz, d0, ops, h1, h2, rfl⟩ := h
  obtain ⟨i1, i2, -⟩ := init_inv h1
  have := run_refines ops i1 (by rw [i2]; exact h2)
  refine ⟨this.2.2, ?_⟩
  have hX : ∀ (ops : List (DataOp K n p)) (s : Ref K n p), (s.run ops).2.X = s.X := by
    intro ops
    induction ops with
    | nil => intro s; rfl
    | cons op ops ih =>
      intro s
      simp only [Ref.run]
      rw [ih]
      cases op with
      | proportion i v => simp only [Ref.step]; split <;> rfl
      | maxValue i => simp only [Ref.step]; split <;> rfl
      | sumY => simp only [Ref.step]; split <;> rfl
      | splitRight j v => simp only [Ref.step]; split <;> rfl
      | add j v op => cases op <;> rfl
      | _ => rfl
  have h3 := congrArg Ref.X this.2.1
  rw [hX] at h3
  exact h3.trans i2

theorem reachable_col {X : Fin n → Fin p → Fl K} {d : Data K n p} (h : ReachableData X d) (i : Fin p) :
    d.X.col i = column X (rowsOf d) i := by
  obtain ⟨h1, h2⟩ := reachable_inv h
  simp [CovariateMatrix.col, h2, h1.maskX]; rfl

/-! ### C01

Full statement: `i ∈ d.X.splittable.1 ↔ HasTwoValues (column X (rowsOf d) i)`. It is false (`C01_refuted`): the code ignores the
first row of the node. Proved: the exact behaviour, with all rows but the first one. -/

/-- C01 (partial): a column is reported iff it takes two distinct values among the node's rows other than the first. -/
theorem C01_splittable_partial {X : Fin n → Fin p → Fl K} (hn : NoNan X) {d : Data K n p} (h : ReachableData X d) (i : Fin p) :
    i ∈ d.X.splittable.1 ↔ HasTwoValues (column X (rowsOf d) i).tail := by
  rw [(CovariateMatrix.splittable_spec (reachable_inv h).1.X).1]
  unfold CovariateMatrix.refSplittable
  rw [List.mem_filter, reachable_col h]
  simp only [List.mem_finRange, true_and]
  apply isNotConstant_noNan
  intro x hx
  obtain ⟨r, -, hr⟩ := mem_column.1 hx
  rw [← hr]; exact hn r i

/-- C01: reported columns really have two distinct values. -/
theorem C01_splittable_sound {X : Fin n → Fin p → Fl K} (hn : NoNan X) {d : Data K n p} (h : ReachableData X d) {i : Fin p}
    (hi : i ∈ d.X.splittable.1) : HasTwoValues (column X (rowsOf d) i) := by
  obtain ⟨a, ha, b, hb, hab⟩ := (C01_splittable_partial hn h i).1 hi
  exact ⟨a, List.mem_of_mem_tail ha, b, List.mem_of_mem_tail hb, hab⟩

/-- C01: the only non-constant columns that are missed are those where the first row alone differs. -/
theorem C01_missed_iff {X : Fin n → Fin p → Fl K} (hn : NoNan X) {d : Data K n p} (h : ReachableData X d) (i : Fin p) :
    (HasTwoValues (column X (rowsOf d) i) ∧ i ∉ d.X.splittable.1) ↔
      ∃ a b rest, column X (rowsOf d) i = a :: b :: rest ∧ a ≠ b ∧ ∀ x ∈ rest, x = b := by
  rw [C01_splittable_partial hn h i]
  generalize column X (rowsOf d) i = l
  constructor
  · rintro ⟨⟨x, hx, y, hy, hxy⟩, h2⟩
    rcases l with _ | ⟨a, _ | ⟨b, rest⟩⟩
    · simp at hx
    · simp at hx hy; exact absurd (hx.trans hy.symm) hxy
    · have hall : ∀ z ∈ b :: rest, z = b := by
        intro z hz
        by_contra hc
        exact h2 ⟨z, hz, b, by simp, hc⟩
      refine ⟨a, b, rest, rfl, ?_, fun z hz => hall z (by simp [hz])⟩
      rintro rfl
      have e : ∀ z ∈ a :: a :: rest, z = a := by
        intro z hz
        rcases List.mem_cons.1 hz with rfl | hz
        · rfl
        · exact hall z hz
      exact hxy ((e x hx).trans (e y hy).symm)
  · rintro ⟨a, b, rest, rfl, hab, hall⟩
    refine ⟨⟨a, by simp, b, by simp, hab⟩, ?_⟩
    rintro ⟨x, hx, y, hy, hxy⟩
    simp only [List.tail_cons] at hx hy
    have e : ∀ z ∈ b :: rest, z = b := by
      intro z hz
      rcases List.mem_cons.1 hz with rfl | hz
      · rfl
      · exact hall z hz
    exact hxy ((e x hx).trans (e y hy).symm)

/-- A 3x1 matrix over the rationals. -/
def exX3 (a b c : Fl ℚ) : Fin 3 → Fin 1 → Fl ℚ := fun r _ => [a, b, c].getD r.val a

/-- A concrete data object (not normalised target). -/
def exData {n p : Nat} (X : Fin n → Fin p → Fl ℚ) (y : Fin n → ℚ) : Data ℚ n p :=
  { mask := fun _ => false, nObsv := Data.countUnmasked (fun _ : Fin n => false)
    X := CovariateMatrix.init X (fun _ => false) (Data.countUnmasked (fun _ : Fin n => false)) none none
    y := { y := some y, mask := fun _ => false, nObsv := Data.countUnmasked (fun _ : Fin n => false), originalRange := none,
           sumCacheUpToDate := false, summedY := none } }

theorem exData_init {n p : Nat} (X : Fin n → Fin p → Fl ℚ) (y : Fin n → ℚ) :
    Data.init X y none false none none none none = .ok (exData X y) := rfl

theorem exData_reachable {n p : Nat} (X : Fin n → Fin p → Fl ℚ) (y : Fin n → ℚ) : ReachableData X (exData X y) :=
  ⟨y, none, false, exData X y, [], rfl, by simp, rfl⟩

/-- C01 fails: column `[1, 2, 2]` is not constant but is not reported. -/
theorem C01_refuted : ¬ (∀ (X : Fin 3 → Fin 1 → Fl ℚ), NoNan X → ∀ d, ReachableData X d → ∀ i,
    (i ∈ d.X.splittable.1 ↔ HasTwoValues (column X (rowsOf d) i))) := by
  intro h
  have h1 := h (exX3 (.fin 1) (.fin 2) (.fin 2)) (by unfold NoNan; decide +kernel) _ (exData_reachable _ (fun _ => 0)) 0
  have h2 : (0 : Fin 1) ∉ (exData (exX3 (.fin 1) (.fin 2) (.fin 2)) (fun _ => 0)).X.splittable.1 := by decide +kernel
  have h3 : column (exX3 (.fin 1) (.fin 2) (.fin 2)) (rowsOf (exData (exX3 (.fin 1) (.fin 2) (.fin 2)) (fun _ => 0))) 0
      = [.fin 1, .fin 2, .fin 2] := by decide +kernel
  rw [h3] at h1
  exact h2 (h1.2 ⟨.fin 1, by simp, .fin 2, by simp, by decide +kernel⟩)

/-- The hypotheses of the C01 theorems are met by a non-trivial object, which has a splittable column. -/
example : ∃ (X : Fin 3 → Fin 1 → Fl ℚ) (d : Data ℚ 3 1), NoNan X ∧ ReachableData X d ∧ (0 : Fin 1) ∈ d.X.splittable.1 :=
  ⟨exX3 (.fin 1) (.fin 1) (.fin 2), _, by unfold NoNan; decide +kernel, exData_reachable _ (fun _ => 0), by decide +kernel⟩

/-! ### C02 -/

/-- C02: every history of queries, target updates, added conditions and splits returns what recomputing from scratch returns. -/
theorem C02_caches_transparent {X : Fin n → Fin p → Fl K} {y : Fin n → K} {mask : Option (Fin n → Bool)} {normalize : Bool}
    {d : Data K n p} (h : Data.init X y mask normalize none none none none = .ok d)
    (ops : List (DataOp K n p)) (hops : ∀ op ∈ ops, opOk X op) :
    (d.run ops).1 = (Ref.run ⟨X, fun r => !(mask.getD (fun _ => false)) r, d.y.y⟩ ops).1 := by
  obtain ⟨h1, h2, h3⟩ := init_inv h
  have := (run_refines ops h1 (by rw [h2]; exact hops)).1
  rw [this]
  have e : d.abs = ⟨X, fun r => !(mask.getD (fun _ => false)) r, d.y.y⟩ := by
    simp [Data.abs, h2, h3]; rfl
  rw [e]

/-- Hypotheses of C02: a history that fills caches, splits and queries again. -/
example : ∃ (d : Data ℚ 3 1) (ops : List (DataOp ℚ 3 1)),
    Data.init (exX3 (.fin 1) (.fin 2) (.fin 3)) (fun r => (r.val : ℚ)) none false none none none none = .ok d ∧
    (∀ op ∈ ops, opOk (exX3 (.fin 1) (.fin 2) (.fin 3)) op) ∧ ops.length = 5 ∧ (d.run ops).2.nObsv = 2 :=
  ⟨exData _ _, [.splittable, .isUnique 0, .sumY, .splitRight 0 (.fin 1), .sumY], rfl, by
    intro op hop
    simp at hop
    rcases hop with rfl | rfl | rfl | rfl | rfl
    · trivial
    · trivial
    · trivial
    · exact ⟨by decide +kernel, by simp⟩
    · trivial, rfl, by decide +kernel⟩

/-! ### C03 -/

/-- C03: after any history `summed_y()` is the sum of the last target over the rows of the node. -/
theorem C03_summed_y {X : Fin n → Fin p → Fl K} {y : Fin n → K} {mask : Option (Fin n → Bool)} {normalize : Bool}
    {d0 : Data K n p} (h : Data.init X y mask normalize none none none none = .ok d0)
    (ops : List (DataOp K n p)) (hops : ∀ op ∈ ops, opOk X op) :
    match lastTarget d0.y.y ops with
    | none => (d0.run ops).2.sumY = .error .typeError
    | some y => ∃ d', (d0.run ops).2.sumY = .ok (total y (rowsOf (d0.run ops).2), d') := by
  obtain ⟨h1, h2, h3⟩ := init_inv h
  obtain ⟨-, r2, r3⟩ := run_refines ops h1 (by rw [h2]; exact hops)
  have hy : ∀ (ops : List (DataOp K n p)) (s : Ref K n p), (s.run ops).2.y = lastTarget s.y ops := by
    intro ops
    induction ops with
    | nil => intro s; rfl
    | cons op ops ih =>
      intro s
      simp only [Ref.run]
      rw [ih]
      simp only [lastTarget, List.foldl_cons]
      congr 1
      cases op with
      | proportion i v => simp only [Ref.step]; split <;> rfl
      | maxValue i => simp only [Ref.step]; split <;> rfl
      | sumY => simp only [Ref.step]; split <;> rfl
      | splitRight j v => simp only [Ref.step]; split <;> rfl
      | add j v op => cases op <;> rfl
      | _ => rfl
  have hyy : (d0.run ops).2.y.y = lastTarget d0.y.y ops := (congrArg Ref.y r2).trans (hy ops _)
  have hs := Data.sumY_spec r3
  cases e : lastTarget d0.y.y ops with
  | none =>
    simp only
    cases e2 : (d0.run ops).2.sumY with
    | error e' => rw [e2] at hs; rw [hs.1]
    | ok q => rw [e2] at hs; obtain ⟨y, hy, -⟩ := hs; rw [hyy, e] at hy; cases hy
  | some y' =>
    simp only
    cases e2 : (d0.run ops).2.sumY with
    | error e' => rw [e2] at hs; rw [hyy, e] at hs; cases hs.2
    | ok q =>
      rw [e2] at hs
      obtain ⟨y2, hy2, hq, -⟩ := hs
      rw [hyy, e] at hy2
      injection hy2 with hy2
      subst hy2
      exact ⟨q.2, by rw [← show q.1 = total y' (rowsOf (d0.run ops).2) from hq]⟩

/-- C03 in use: target replaced, node split, sum of the right child without recomputation. -/
example : ∃ d', ((exData (exX3 (.fin 1) (.fin 2) (.fin 3)) (fun r => (r.val : ℚ))).run
    [.sumY, .updateY (some (fun r => 10 * (r.val : ℚ))), .splitRight 0 (.fin 1)]).2.sumY = .ok (30, d') := by
  have h := C03_summed_y (exData_init (exX3 (.fin 1) (.fin 2) (.fin 3)) (fun r => (r.val : ℚ)))
    [.sumY, .updateY (some (fun r => 10 * (r.val : ℚ))), .splitRight 0 (.fin 1)] (by
      intro op hop
      simp at hop
      rcases hop with rfl | rfl | rfl
      · trivial
      · trivial
      · exact ⟨by decide +kernel, by simp⟩)
  obtain ⟨d', hd⟩ := h
  refine ⟨d', hd.trans ?_⟩
  congr 2
  decide +kernel

/-! ### C05

Full statement: C04 for matrices with NaN. False. What holds without NaN is C04 (`TreeProps`). -/

/-- C05 fails: with a NaN in the split column the row lies in both children, and the right child reports 1 row although it has 2. -/
theorem C05_refuted : ∃ (X : Fin 3 → Fin 1 → Fl ℚ) (left right : Data ℚ 3 1),
    (exData X (fun _ => 0)).add { splittingVariable := 0, splittingValue := .fin 1, operator := .le } = .ok left ∧
    (exData X (fun _ => 0)).rightOf 0 (.fin 1) = .ok right ∧
    rowsOf left 0 = true ∧ rowsOf right 0 = true ∧ right.nObsv = 1 ∧ count (rowsOf right) = 2 := by
  refine ⟨exX3 .nan (.fin 1) (.fin 2), _, _, rfl, rfl, ?_, ?_, ?_, ?_⟩ <;> decide +kernel

/-- C05 (partial): every row of the parent is in at least one child, NaN or not; a row in both children has NaN in the split column
(the cut value itself being no NaN). -/
theorem C05_nan_rows_partial {X : Fin n → Fin p → Fl K} {d l r : Data K n p} (h : ReachableData X d) {j : Fin p} {v : Fl K}
    (hv : v ≠ .nan)
    (hl : d.add { splittingVariable := j, splittingValue := v, operator := .le } = .ok l)
    (hr : d.rightOf j v = .ok r) (i : Fin n) :
    (rowsOf d i = (rowsOf l i || rowsOf r i)) ∧ ((rowsOf l i && rowsOf r i) = true → X i j = .nan) := by
  obtain ⟨inv, hX⟩ := reachable_inv h
  have hlm : rowsOf l i = (rowsOf d i && keep (X i j) v .le) := by
    obtain ⟨d', h1, -, h3⟩ := add_ok inv j v (op := .le) (by simp)
    rw [hl] at h1; injection h1 with h1; subst h1
    have := congrFun (congrArg Ref.rows h3) i
    rw [hX] at this; exact this
  have hrm : rowsOf r i = (rowsOf d i && keep (X i j) v .gt) := by
    unfold Data.rightOf at hr
    rw [hl] at hr
    have hs := Data.sumY_spec inv
    cases e1 : d.sumY with
    | error e => rw [e1] at hr; cases hr
    | ok q =>
      obtain ⟨s, d1⟩ := q
      rw [e1] at hr hs
      obtain ⟨y1, -, -, sd, -⟩ := hs
      simp only at hr
      cases e2 : l.sumY with
      | error e => rw [e2] at hr; cases hr
      | ok q2 =>
        rw [e2] at hr
        simp only [Data.add, CovariateMatrix.updateMask] at hr
        injection hr with hr
        subst hr
        simp [rowsOf, keep, sd.X.mask, sd.X.X, inv.maskX, hX]
  rw [hlm, hrm]
  refine ⟨?_, ?_⟩
  · cases hx : X i j <;> cases hvv : v <;> simp_all [keep, Fl.gt, Fl.lt, Fl.le] <;> cases rowsOf d i <;> simp
    rename_i a b
    rcases le_or_gt a b with h | h
    · left; exact h
    · right; exact h
  · intro hb
    by_contra hc
    rw [keep_gt_eq_not_le hc hv] at hb
    cases h1 : keep (X i j) v .le <;> simp_all

/-- Both situations of C05 occur. -/
example : ∃ l r, (exData (exX3 .nan (.fin 1) (.fin 2)) (fun _ => 0)).add
      { splittingVariable := 0, splittingValue := .fin 1, operator := .le } = .ok l ∧
    (exData (exX3 .nan (.fin 1) (.fin 2)) (fun _ => 0)).rightOf 0 (.fin 1) = .ok r ∧
    (rowsOf l 0 && rowsOf r 0) = true ∧ (rowsOf l 1 && rowsOf r 1) = false :=
  ⟨_, _, rfl, rfl, by decide +kernel, by decide +kernel⟩

/-! ### C06 -/

/-- C06: behaviour of `random_splittable_value` for every sequence of draws. `outOfDraws` is the still running loop. -/
theorem C06_random_splittable_value {X : Fin n → Fin p → Fl K} (hn : NoNan X) {d : Data K n p} (h : ReachableData X d)
    (i : Fin p) (draws : List Nat) :
    (d.X.randomSplittableValue i draws = .error .noSplittableVariable ↔ i ∉ d.X.splittable.1) ∧
    (∀ e, d.X.randomSplittableValue i draws = .error e → e = .noSplittableVariable ∨ e = .outOfDraws) ∧
    (∀ v rest c, d.X.randomSplittableValue i draws = .ok (v, rest, c) →
      (∃ r, rowsOf d r = true ∧ X r i = v) ∧
      (∃ r, rowsOf d r = true ∧ Fl.gt (X r i) v = true) ∧ (∃ r, rowsOf d r = true ∧ Fl.le (X r i) v = true)) := by
  obtain ⟨inv, hX⟩ := reachable_inv h
  have hs := CovariateMatrix.randomSplittableValue_spec inv.X (by rw [hX]; exact hn) i draws
  rw [(CovariateMatrix.splittable_spec inv.X).1]
  refine ⟨?_, ?_, ?_⟩
  · cases e : d.X.randomSplittableValue i draws with
    | error e' =>
      rw [e] at hs
      rcases hs with ⟨h1, h2⟩ | ⟨h1, h2⟩
      · simp [h1, h2]
      · simp [h1, h2]
    | ok q => rw [e] at hs; simp [hs.1]
  · intro e he
    rw [he] at hs
    rcases hs with ⟨h1, h2⟩ | ⟨h1, h2⟩ <;> simp [h1]
  · intro v rest c hc
    rw [hc] at hs
    obtain ⟨-, h1, ⟨m, hm1, hm2⟩, -, -⟩ := hs
    rw [reachable_col h] at h1 hm1
    obtain ⟨r, hr1, hr2⟩ := mem_column.1 h1
    obtain ⟨s, hs1, hs2⟩ := mem_column.1 hm1
    refine ⟨⟨r, hr1, hr2⟩, ⟨s, hs1, by rw [hs2]; exact hm2⟩, ⟨r, hr1, ?_⟩⟩
    rw [← hr2]
    exact Fl.le_refl (hn r i)

/-- C06: for a splittable column some draw ends the loop at once, whatever draws follow. -/
theorem C06_some_draw_returns {X : Fin n → Fin p → Fl K} (hn : NoNan X) {d : Data K n p} (h : ReachableData X d)
    (i : Fin p) (hi : i ∈ d.X.splittable.1) (rest : List Nat) :
    ∃ u v c, d.X.randomSplittableValue i (u :: rest) = .ok (v, rest, c) := by
  obtain ⟨inv, hX⟩ := reachable_inv h
  rw [(CovariateMatrix.splittable_spec inv.X).1] at hi
  exact CovariateMatrix.randomSplittableValue_exists inv.X (by rw [hX]; exact hn) hi rest

example : ∃ c, (exData (exX3 (.fin 5) (.fin 1) (.fin 2)) (fun _ => 0)).X.randomSplittableValue 0 [0, 3, 2] = .ok (.fin 2, [], c) :=
  ⟨_, rfl⟩

/-! ### C07 -/

/-- C07: for a value that occurs in the node, the reported proportion is count / rows. -/
theorem C07_proportion {X : Fin n → Fin p → Fl K} (hn : NoNan X) {d : Data K n p} (h : ReachableData X d)
    (i : Fin p) {v : Fl K} (hv : ∃ r, rowsOf d r = true ∧ X r i = v) :
    (((d.X.proportionOfValue i v).1.1 : ℚ) / ((d.X.proportionOfValue i v).1.2 : ℚ)
      = (count (fun r => rowsOf d r && decide (X r i = v)) : ℚ) / (count (rowsOf d) : ℚ)) ∧ 0 < count (rowsOf d) := by
  obtain ⟨inv, hX⟩ := reachable_inv h
  have hcol := reachable_col h i
  obtain ⟨r0, hr0, hv0⟩ := hv
  refine ⟨?_, Finset.card_pos.2 ⟨r0, by simp [hr0]⟩⟩
  rw [(CovariateMatrix.proportionOfValue_spec inv.X i v).1]
  unfold CovariateMatrix.refProportion
  rw [hcol, inv.maskX]
  have hc : count (inRows d.mask) = count (rowsOf d) := rfl
  rw [hc]
  have hcp : ∀ (P : Fl K → Bool), (column X (rowsOf d) i).countP P = count (fun r => rowsOf d r && P (X r i)) := by
    intro P
    unfold column count
    rw [List.countP_map, List.countP_filter, List.countP_eq_length_filter,
      ← List.toFinset_card_of_nodup ((List.nodup_finRange n).filter _)]
    congr 1
    ext r
    simp [and_comm]
  by_cases hnd : (column X (rowsOf d) i).Nodup
  · simp only [hnd, if_true]
    have h1 : (column X (rowsOf d) i).countP (fun x => decide (x = v)) = 1 := by
      have hmem : v ∈ column X (rowsOf d) i := mem_column.2 ⟨r0, hr0, hv0⟩
      have := List.count_eq_one_of_mem hnd hmem
      rw [← this, List.count]
      congr 1
    rw [hcp] at h1
    rw [h1]; simp
  · simp only [hnd, if_false]
    rw [hcp]
    have : (fun r => rowsOf d r && Fl.eq (X r i) v) = (fun r => rowsOf d r && decide (X r i = v)) := by
      funext r
      congr 1
      rw [Bool.eq_iff_iff, Fl.eq_iff, decide_eq_true_eq]
      exact ⟨fun h => h.2, fun h => ⟨hn r i, h⟩⟩
    rw [this]
    simp

example : ∃ (d : Data ℚ 3 1), ReachableData (exX3 (.fin 5) (.fin 1) (.fin 5)) d ∧
    (∃ r, rowsOf d r = true ∧ exX3 (.fin 5) (.fin 1) (.fin 5) r 0 = .fin 5) ∧
    (d.X.proportionOfValue 0 (.fin 5)).1 = (2, 3) :=
  ⟨_, exData_reachable _ (fun _ => 0), ⟨0, by decide +kernel, by decide +kernel⟩, by decide +kernel⟩

/-! ### C09, C10 -/
section
variable [IsStrictOrderedRing K]

/-- C09: the normalised target lies in [-1/2, 1/2], attains both ends and keeps the order of the rows. -/
theorem C09_normalised {X : Fin n → Fin p → Fl K} {y : Fin n → K} {mask : Option (Fin n → Bool)} (r1 r2 : Fin n)
    (hne : y r1 ≠ y r2) :
    ∃ d y', Data.init X y mask true none none none none = .ok d ∧ d.y.y = some y' ∧
      (∀ r, -(1/2) ≤ y' r ∧ y' r ≤ 1/2) ∧ (∃ r, y' r = -(1/2)) ∧ (∃ r, y' r = 1/2) ∧
      (∀ r s, y' r < y' s ↔ y r < y s) ∧ (∀ r s, y' r = y' s ↔ y r = y s) := by
  obtain ⟨lo, hi, t, ht, hlt, ⟨rl, hrl⟩, ⟨rh, hrh⟩, hb, hy, -, -⟩ :=
    target_init_spec (y := y) (mask := mask.getD (fun _ => false))
      (k := Data.countUnmasked (mask.getD (fun _ => false))) (s := none) r1 r2 hne
  have hpos : 0 < hi - lo := sub_pos.2 hlt
  refine ⟨_, _, by unfold Data.init; simp only [Option.getD_none]; rw [ht], hy, ?_, ⟨rl, ?_⟩, ⟨rh, ?_⟩, ?_, ?_⟩
  · intro r
    obtain ⟨h1, h2⟩ := hb r
    have a : 0 ≤ (y r - lo) / (hi - lo) := div_nonneg (sub_nonneg.2 h1) hpos.le
    have b : (y r - lo) / (hi - lo) ≤ 1 := by
      rw [div_le_one hpos]; linarith
    constructor <;> linarith
  · rw [hrl]; simp
  · rw [hrh, div_self hpos.ne']; norm_num
  · intro r s
    rw [add_lt_add_iff_left, div_lt_div_iff_of_pos_right hpos]
    constructor <;> intro h <;> linarith
  · intro r s
    rw [add_right_inj, div_left_inj' hpos.ne', sub_left_inj]

/-- C10: unnormalising gives back the target; unnormalisation is the affine map sending -1/2 to the minimum and 1/2 to the maximum. -/
theorem C10_unnormalise {X : Fin n → Fin p → Fl K} {y : Fin n → K} {mask : Option (Fin n → Bool)} (r1 r2 : Fin n)
    (hne : y r1 ≠ y r2) :
    ∃ d lo hi, Data.init X y mask true none none none none = .ok d ∧ d.y.unnormalizedY = .ok y ∧
      (∃ r, y r = lo) ∧ (∃ r, y r = hi) ∧ (∀ r, lo ≤ y r ∧ y r ≤ hi) ∧ d.y.normalizingScale = .ok (hi - lo) ∧
      (∀ (m : Nat) (z : Fin m → K), d.y.unnormalizeY z = .ok (fun r => (1/2 - z r) * lo + (1/2 + z r) * hi)) := by
  obtain ⟨lo, hi, t, ht, hlt, hl, hh, hb, hy, hr, -⟩ :=
    target_init_spec (y := y) (mask := mask.getD (fun _ => false))
      (k := Data.countUnmasked (mask.getD (fun _ => false))) (s := none) r1 r2 hne
  have hpos : 0 < hi - lo := sub_pos.2 hlt
  refine ⟨_, lo, hi, by unfold Data.init; simp only [Option.getD_none]; rw [ht], ?_, hl, hh, hb, ?_, ?_⟩
  · simp only [Target.unnormalizedY, hy, Target.unnormalizeY, hr, Except.ok.injEq]
    funext r
    have := hpos.ne'
    field_simp
    ring
  · simp [Target.normalizingScale, hr]
  · intro m z
    simp only [Target.unnormalizeY, hr, Except.ok.injEq]
    funext r; ring

/-- C10: the data of a child node cannot be unnormalised (it does not carry the range). -/
theorem C10_child_has_no_range {d d' : Data K n p} {c : SplitCondition K p} (h : d.add c = .ok d') (m : Nat) (z : Fin m → K) :
    d'.y.unnormalizeY z = .error .attributeError := by
  unfold Data.add at h
  split at h
  · cases h
  · injection h with h; subst h; rfl

/-- C09/C10 need two distinct targets: on a constant target (at least one row) normalisation fails (numpy: every entry NaN). -/
theorem C09_constant_target {X : Fin n → Fin p → Fl K} {y : Fin n → K} {mask : Option (Fin n → Bool)} (r0 : Fin n)
    (hc : ∀ r, y r = y r0) : Data.init X y mask true none none none none = .error .zeroDivision := by
  obtain ⟨⟨lo, hlo⟩, ⟨hi, hhi⟩⟩ := yMinMax_ok (y := y) r0
  obtain ⟨⟨a, ha⟩, -⟩ := yMin_spec hlo
  obtain ⟨⟨b, hb⟩, -⟩ := yMax_spec hhi
  have hz : hi - lo = 0 := by rw [← ha, ← hb, hc a, hc b, sub_self]
  have hnorm : Target.normalizeY y = .error .zeroDivision := by
    unfold Target.normalizeY; rw [hlo, hhi]; simp [hz]
  unfold Data.init Target.init
  simp only [hlo, hhi, hnorm, if_true]

end

/-- Hypotheses of C09/C10: a target with two distinct values. -/
example : ∃ (y : Fin 3 → ℚ), y 0 ≠ y 1 := ⟨fun r => (r.val : ℚ), by decide +kernel⟩

/-! ### C11 -/

/-- C11: the combined condition is the conjunction of the added conditions. -/
theorem C11_conjunction {l : List (SplitCondition K p)} (hl : ∀ c ∈ l, c.splittingValue ≠ .nan) {x : Fin p → Fl K}
    (hx : GoodRow x) : (CombinedCondition.init l).condition x = true ↔ ∀ c ∈ l, sat c x = true :=
  init_condition hl hx

/-- C11: neither order nor multiplicity matters. -/
theorem C11_order_irrelevant {l l' : List (SplitCondition K p)} (hl : ∀ c ∈ l, c.splittingValue ≠ .nan)
    (h : ∀ c, c ∈ l ↔ c ∈ l') {x : Fin p → Fl K} (hx : GoodRow x) :
    (CombinedCondition.init l).condition x = (CombinedCondition.init l').condition x := by
  rw [Bool.eq_iff_iff, init_condition hl hx, init_condition (fun c hc => hl c ((h c).2 hc)) hx]
  exact ⟨fun g c hc => g c ((h c).2 hc), fun g c hc => g c ((h c).1 hc)⟩

/-- C11: adding conditions one by one is the same as building the list at once. -/
theorem C11_incremental (l : List (SplitCondition K p)) :
    l.foldl CombinedCondition.add (CombinedCondition.init []) = CombinedCondition.init l := by
  have : ∀ (l l0 : List (SplitCondition K p)), l.foldl CombinedCondition.add (CombinedCondition.init l0)
      = CombinedCondition.init (l0 ++ l) := by
    intro l
    induction l with
    | nil => simp
    | cons c l ih => intro l0; rw [List.foldl_cons, init_add, ih]; simp
  simpa using this l []

/-- Two conditions on one variable, one on another, satisfied by a good row. -/
example : ∃ (l : List (SplitCondition ℚ 2)) (x : Fin 2 → Fl ℚ), l.length = 3 ∧ (∀ c ∈ l, c.splittingValue ≠ .nan) ∧ GoodRow x ∧
    (CombinedCondition.init l).condition x = true :=
  ⟨[⟨0, .fin 5, .le, none, none⟩, ⟨0, .fin 1, .gt, none, none⟩, ⟨1, .fin 0, .gt, none, none⟩], fun _ => .fin 2, rfl,
    by decide +kernel, fun v => by simp, by decide +kernel⟩

/-! ### C12 -/

/-- `Split(data) + c1 + c2 + ...` -/
def Heap.splitAddAll (h : Heap K n p) (s : Split K p) : List (SplitCondition K p) → Except PyErr (Split K p × Heap K n p)
  | [] => .ok (s, h)
  | c :: cs =>
    match h.splitAdd s c with
    | .error e => .error e
    | .ok (s', h') => h'.splitAddAll s' cs

/-- C12: for every split built from a root over a fresh data object, membership of the training rows by mask equals membership by
the combined condition. -/
theorem C12_in_sample_eq_out_of_sample {X : Fin n → Fin p → Fl K} (hX : ∀ r, GoodRow (X r)) {y : Fin n → K} {normalize : Bool}
    {d : Data K n p} (hd : Data.init X y none normalize none none none none = .ok d) (h : Heap K n p) (i : DataId)
    (hi : h.data i = d) (cs : List (SplitCondition K p)) (hcs : ∀ c ∈ cs, c.splittingValue ≠ .nan)
    {s' : Split K p} {h' : Heap K n p}
    (hs : h.splitAddAll { data := i, combined := CombinedCondition.init [] } cs = .ok (s', h')) (r : Fin n) :
    h'.inSample s' r = Heap.outOfSample s' (X r) := by
  obtain ⟨inv, dX, dm⟩ := init_inv hd
  have key : ∀ (cs done : List (SplitCondition K p)) (h : Heap K n p) (s : Split K p), (∀ c ∈ done ++ cs, c.splittingValue ≠ .nan) →
      s.combined = CombinedCondition.init done → (h.data s.data).X.X = X → (h.data s.data).X.mask = (h.data s.data).mask →
      (∀ r, (h.data s.data).mask r = false ↔ ∀ c ∈ done, sat c (X r) = true) →
      h.splitAddAll s cs = .ok (s', h') → h'.inSample s' r = Heap.outOfSample s' (X r) := by
    intro cs
    induction cs with
    | nil =>
      intro done h s hv hc _ _ hm heq
      simp only [Heap.splitAddAll, Except.ok.injEq, Prod.mk.injEq] at heq
      obtain ⟨rfl, rfl⟩ := heq
      simp only [Heap.inSample, Heap.outOfSample, hc]
      rw [Bool.eq_iff_iff, init_condition (by simpa using hv) (hX r), ← hm r]
      simp
    | cons c cs ih =>
      intro done h s hv hc hXX hmm hm heq
      simp only [Heap.splitAddAll] at heq
      cases e : h.splitAdd s c with
      | error e' => rw [e] at heq; cases heq
      | ok q =>
        obtain ⟨s1, h1⟩ := q
        rw [e] at heq
        simp only at heq
        unfold Heap.splitAdd at e
        have hvc : c.splittingValue ≠ .nan := hv c (by simp)
        cases ho : c.operator with
        | other =>
          have : (h.data s.data).add c = .error .typeError := by simp [Data.add, CovariateMatrix.updateMask, ho]
          rw [this] at e; cases e
        | le =>
          have hadd : ∃ d', (h.data s.data).add c = .ok d' ∧ d'.X.X = X ∧ d'.X.mask = d'.mask ∧
              d'.mask = fun r => (h.data s.data).mask r || Fl.gt (X r c.splittingVariable) c.splittingValue := by
            unfold Data.add CovariateMatrix.updateMask
            rw [ho]
            exact ⟨_, rfl, hXX, rfl, by simp only [hmm, hXX]⟩
          obtain ⟨d', ha, a1, a2, a3⟩ := hadd
          rw [ha] at e
          simp only [Heap.allocData, Except.ok.injEq, Prod.mk.injEq] at e
          obtain ⟨rfl, rfl⟩ := e
          refine ih (done ++ [c]) _ _ (by simpa using hv) (by simp [hc, init_add]) (by simp [a1]) (by simp [a2]) ?_ heq
          intro r
          have : sat c (X r) = !Fl.gt (X r c.splittingVariable) c.splittingValue := by
            simp only [sat, ho, holdsOp]
            exact Fl.le_eq_not_gt ((hX r) _).1 hvc
          simp only [Function.update_self, a3, Bool.or_eq_false_iff, hm r, List.mem_append, List.mem_singleton]
          constructor
          · rintro ⟨h1, h2⟩ c' (hc' | rfl)
            · exact h1 c' hc'
            · rw [this, h2]; rfl
          · intro hall
            refine ⟨fun c' hc' => hall c' (Or.inl hc'), ?_⟩
            have := this ▸ hall c (Or.inr rfl)
            simpa using this
        | gt =>
          have hadd : ∃ d', (h.data s.data).add c = .ok d' ∧ d'.X.X = X ∧ d'.X.mask = d'.mask ∧
              d'.mask = fun r => (h.data s.data).mask r || Fl.le (X r c.splittingVariable) c.splittingValue := by
            unfold Data.add CovariateMatrix.updateMask
            rw [ho]
            exact ⟨_, rfl, hXX, rfl, by simp only [hmm, hXX]⟩
          obtain ⟨d', ha, a1, a2, a3⟩ := hadd
          rw [ha] at e
          simp only [Heap.allocData, Except.ok.injEq, Prod.mk.injEq] at e
          obtain ⟨rfl, rfl⟩ := e
          refine ih (done ++ [c]) _ _ (by simpa using hv) (by simp [hc, init_add]) (by simp [a1]) (by simp [a2]) ?_ heq
          intro r
          have : sat c (X r) = !Fl.le (X r c.splittingVariable) c.splittingValue := by
            simp only [sat, ho, holdsOp]
            exact Fl.gt_eq_not_le ((hX r) _).1 hvc
          simp only [Function.update_self, a3, Bool.or_eq_false_iff, hm r, List.mem_append, List.mem_singleton]
          constructor
          · rintro ⟨h1, h2⟩ c' (hc' | rfl)
            · exact h1 c' hc'
            · rw [this, h2]; rfl
          · intro hall
            refine ⟨fun c' hc' => hall c' (Or.inl hc'), ?_⟩
            have := this ▸ hall c (Or.inr rfl)
            simpa using this
  refine key cs [] h _ (by simpa using hcs) rfl (by rw [hi]; exact dX) (by rw [hi]; exact inv.maskX) ?_ hs
  intro r
  simp [hi, dm]

/-- C12 in use: two conditions. -/
example : ∃ (h : Heap ℚ 3 1) (s' : Split ℚ 1) (h' : Heap ℚ 3 1),
    h.data 0 = exData (exX3 (.fin 1) (.fin 2) (.fin 3)) (fun _ => 0) ∧
    h.splitAddAll { data := 0, combined := CombinedCondition.init [] }
      [⟨0, .fin 2, .le, none, none⟩, ⟨0, .fin 1, .gt, none, none⟩] = .ok (s', h') ∧ h'.inSample s' 1 = true ∧ h'.inSample s' 0 = false :=
  ⟨⟨fun _ => ⟨.leaf, 0, ⟨0, CombinedCondition.init []⟩, none, none, 0⟩, 1,
      fun _ => exData (exX3 (.fin 1) (.fin 2) (.fin 3)) (fun _ => 0), 1⟩,
   _, _, rfl, rfl, by decide +kernel, by decide +kernel⟩

/-! ### C13

Full statement: `(CombinedCondition.init []).condition x = true` for every row. False; exact condition below. -/

/-- C13 (partial): the root condition accepts a row iff the row has no NaN and no -inf. -/
theorem C13_root_condition_partial (x : Fin p → Fl K) :
    (CombinedCondition.init [] : CombinedCondition K p).condition x = true ↔ GoodRow x := by
  rw [condition_eq_all]
  simp only [CombinedCondition.init, List.foldl_nil]
  constructor
  · intro h v
    have := h v
    cases hx : x v <;> simp_all [CombinedVariableCondition.holds, Fl.gt, Fl.lt, Fl.le]
  · intro h v
    obtain ⟨h1, h2⟩ := h v
    cases hx : x v <;> simp_all [CombinedVariableCondition.holds, Fl.gt, Fl.lt, Fl.le]

/-- C13 fails: a training row with -inf is in the root but the out-of-sample condition of the root rejects it. -/
theorem C13_refuted : ∃ (X : Fin 3 → Fin 1 → Fl ℚ), rowsOf (exData X (fun _ => 0)) 0 = true ∧
    (CombinedCondition.init [] : CombinedCondition ℚ 1).condition (X 0) = false :=
  ⟨exX3 .ninf (.fin 1) (.fin 2), by decide +kernel, by decide +kernel⟩

/-! ### C14 -/

/-- C14: after any sequence of additions the most recent condition is the last one, none for a root. -/
theorem C14_most_recent (l : List (SplitCondition K p)) :
    (l.foldl CombinedCondition.add (CombinedCondition.init [])).mostRecentSplitCondition = l.getLast? ∧
    (l.foldl CombinedCondition.add (CombinedCondition.init [])).splittingVariable = l.getLast?.map (·.splittingVariable) := by
  rw [C11_incremental]
  refine ⟨?_, rfl⟩
  cases l with
  | nil => rfl
  | cons c l => simp [CombinedCondition.mostRecentSplitCondition, CombinedCondition.init]

example : ([(⟨0, .fin 2, .le, none, none⟩ : SplitCondition ℚ 1), ⟨0, .fin 1, .gt, none, none⟩].foldl CombinedCondition.add
    (CombinedCondition.init [])).mostRecentSplitCondition = some ⟨0, .fin 1, .gt, none, none⟩ := by decide +kernel

end Bart
