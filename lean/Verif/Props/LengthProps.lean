import Verif.Model.Lengths
import Verif.Props.RunnerProps

/-! C129: `fit` with a target that has another length than the table. -/

set_option linter.unusedSectionVars false

namespace Bart.Lengths
open Bart Spec
variable {K : Type} [Field K] [LinearOrder K] {p : Nat}

theorem boolRows_length {X : List (Fin p → Fl K)} {b : List Bool} : (∃ l, boolRows X b = .ok l) ↔ b.length = X.length := by
  unfold boolRows
  split <;> simp [*]

theorem getColumn_new {X : List (Fin p → Fl K)} {y : List K} (i : Fin p) : getColumn X (newMask y) i = if y.length = X.length then .ok (X.map (· i)) else .error .indexError := by
  unfold getColumn boolRows newMask
  simp only [List.length_map, List.map_map]
  by_cases e : y.length = X.length
  · rw [if_pos e, if_pos e]
    simp only [Except.ok.injEq]
    rw [show ((fun b : Bool => !b) ∘ fun _ : K => false) = fun _ => true from rfl]
    congr 1
    have : ∀ (X : List (Fin p → Fl K)) (y : List K), y.length = X.length → ((X.zip (y.map fun _ => true)).filter (fun q => q.2)).map (fun q => q.1) = X := by
      intro X
      induction X with
      | nil => intro y _; simp
      | cons x X ih =>
        intro y h
        cases y with
        | nil => simp at h
        | cons a y => simp only [List.map_cons, List.zip_cons_cons, List.filter_cons, if_true]; rw [ih y (by simpa using h)]
    exact this X y e
  · rw [if_neg e, if_neg e]

theorem splittable_new {X : List (Fin p → Fl K)} {y : List K} : ∀ is : List (Fin p), splittableOf X (newMask y) is =
    if y.length = X.length ∨ is = [] then .ok (is.filter (fun i => isNotConstant (X.map (· i)))) else .error .indexError := by
  intro is
  induction is with
  | nil => simp [splittableOf]
  | cons i is ih =>
    unfold splittableOf
    rw [getColumn_new, ih]
    by_cases h : y.length = X.length
    · simp only [h, if_true, true_or, List.filter_cons]
    · simp [h]

/-- C129, the check of the model: if the lengths agree, then a new tree can be split if and only if a column is not constant (in the sense of `is_not_constant`, see C01). -/
theorem C129_equal {n : Nat} (X : Fin n → Fin p → Fl K) (y : Fin n → K) :
    isAtLeastOneSplittable (List.ofFn X) (List.ofFn y) = .ok (decide (∃ j, isNotConstant (column X (fun _ => true) j) = true)) := by
  unfold isAtLeastOneSplittable
  rw [splittable_new, if_pos (.inl (by simp))]
  simp only [Except.ok.injEq, decide_eq_decide]
  rw [List.length_pos_iff_exists_mem]
  simp only [List.mem_filter, List.mem_finRange, true_and]
  have : ∀ j, (List.ofFn X).map (· j) = column X (fun _ => true) j := by
    intro j
    unfold column
    simp [List.ofFn_eq_map, Function.comp_def]
  simp only [this]

theorem proposeRoot_other {X : List (Fin p → Fl K)} {y : List K} (h : X.length ≠ y.length) (hp : 0 < p) (ms : List Method) :
    proposeRoot X y ms = .error (if Method.grow ∈ ms then .indexError else .outOfDraws) := by
  have h1 : isAtLeastOneSplittable X y = .error .indexError := by
    unfold isAtLeastOneSplittable
    rw [splittable_new, if_neg]
    rintro (h2 | h2)
    · exact h h2.symm
    · have := congrArg List.length h2
      simp at this
      omega
  induction ms with
  | nil => rfl
  | cons m ms ih =>
    cases m with
    | grow => unfold proposeRoot; rw [h1]; simp
    | prune => unfold proposeRoot; rw [ih]; simp

variable [MathFns K] [FloorRing K]

/-- C129 (partial: for at least one tree, one chain and one sweep): a fit of a target that has another length than the table never returns. It raises ValueError if one of them is empty, otherwise
IndexError as soon as a grow move is drawn (ZeroDivisionError if `thin` is 0 and there is no burn-in). -/
theorem C129_raises_partial {s : SkModel K p} (htr : 0 < s.nTrees) (hch : 0 < s.nChains) (hsw : 0 < s.nBurn + s.nSamples) {X : List (Fin p → Fl K)} {y : List K} (h : X.length ≠ y.length)
    (rs : Nat → Rand K) :
    ∃ e, fit s X y rs = .error e ∧ (X = [] ∨ p = 0 ∨ y = [] → e = .valueError) ∧
      (X ≠ [] → 0 < p → y ≠ [] → s.thin ≠ 0 → Method.grow ∈ (rs 0).methods → e = .indexError) ∧
      (e = .valueError ∨ e = .zeroDivision ∨ e = .indexError ∨ (e = .outOfDraws ∧ Method.grow ∉ (rs 0).methods)) := by
  unfold fit
  rw [dif_neg h]
  by_cases h1 : X.length = 0 ∨ p = 0
  · rw [if_pos h1]
    refine ⟨_, rfl, fun _ => rfl, fun g1 g2 => ?_, .inl rfl⟩
    rcases h1 with h1 | h1
    · exact absurd (List.length_eq_zero_iff.1 h1) g1
    · omega
  rw [if_neg h1]
  push Not at h1
  by_cases h2 : y.length = 0
  · rw [if_pos h2]
    exact ⟨_, rfl, fun _ => rfl, fun _ _ g3 => absurd (List.length_eq_zero_iff.1 h2) g3, .inl rfl⟩
  rw [if_neg h2, if_neg hch.ne']
  have hno : ¬ (X = [] ∨ p = 0 ∨ y = []) := by
    rintro (g | g | g)
    · exact h1.1 (by rw [g]; rfl)
    · exact h1.2 g
    · exact h2 (by rw [g]; rfl)
  by_cases h3 : s.nBurn = 0 ∧ s.thin = 0
  · rw [if_pos h3]
    exact ⟨_, rfl, fun g => absurd g hno, fun _ _ _ g => absurd h3.2 g, .inr (.inl rfl)⟩
  rw [if_neg h3, if_neg hsw.ne', if_neg htr.ne', proposeRoot_other h (Nat.pos_of_ne_zero h1.2)]
  refine ⟨_, rfl, fun g => absurd g hno, fun _ _ _ _ g => if_pos g, ?_⟩
  by_cases hg : Method.grow ∈ (rs 0).methods
  · rw [if_pos hg]; exact .inr (.inr (.inl rfl))
  · rw [if_neg hg]; exact .inr (.inr (.inr ⟨rfl, hg⟩))

/-- C129 (partial: for at least one tree, one chain and one sweep): a fit of a target with rows and columns never returns, even if it has a single column with as many entries as the table has rows. It
raises IndexError, or ValueError if there is no entry (ZeroDivisionError if `thin` is 0 and there is no burn-in). -/
theorem C129_column_partial {s : SkModel K p} (htr : 0 < s.nTrees) (hch : 0 < s.nChains) (hsw : 0 < s.nBurn + s.nSamples) {m q : Nat} (X : List (Fin p → Fl K)) (y : Fin m → Fin q → K)
    (rs : Nat → Rand K) :
    ∃ e, fitColumns s X y rs = .error e ∧ (X = [] ∨ p = 0 ∨ m = 0 ∨ q = 0 → e = .valueError) ∧ (X ≠ [] → 0 < p → 0 < m → 0 < q → s.thin ≠ 0 → e = .indexError) := by
  unfold fitColumns
  by_cases h1 : X.length = 0 ∨ p = 0
  · rw [if_pos h1]
    refine ⟨_, rfl, fun _ => rfl, fun g1 g2 => ?_⟩
    rcases h1 with h1 | h1
    · exact absurd (List.length_eq_zero_iff.1 h1) g1
    · omega
  rw [if_neg h1]
  push Not at h1
  by_cases h2 : m * q = 0
  · rw [if_pos h2]
    refine ⟨_, rfl, fun _ => rfl, fun _ _ g3 g4 => ?_⟩
    exact absurd h2 (Nat.mul_pos g3 g4).ne'
  rw [if_neg h2, if_neg hch.ne']
  have hno : ¬ (X = [] ∨ p = 0 ∨ m = 0 ∨ q = 0) := by
    rintro (g | g | g | g)
    · exact h1.1 (by rw [g]; rfl)
    · exact h1.2 g
    · exact h2 (by rw [g, Nat.zero_mul])
    · exact h2 (by rw [g, Nat.mul_zero])
  by_cases h3 : s.nBurn = 0 ∧ s.thin = 0
  · rw [if_pos h3]
    exact ⟨_, rfl, fun g => absurd g hno, fun _ _ _ _ g => absurd h3.2 g⟩
  rw [if_neg h3, if_neg hsw.ne', if_neg htr.ne']
  have : predictRoot [m, q] = .error .indexError := by
    unfold predictRoot assignWhere
    rw [if_neg]
    simp
  rw [this]
  exact ⟨_, rfl, fun g => absurd g hno, fun _ _ _ _ _ => rfl⟩

/-! ### concrete cases -/

section examples
attribute [local instance] exFns

/-- C129, refuted in general: with no trees (or with no sweeps at all) a fit of three targets on a table with four rows returns. -/
theorem C129_refuted : ∃ (s : SkModel ℚ 1) (X : List (Fin 1 → Fl ℚ)) (y : List ℚ) (rs : Nat → Rand ℚ), X.length = 4 ∧ y.length = 3 ∧ 0 < s.nChains ∧ 0 < s.nSamples ∧ fit s X y rs = .ok () ∧
    fit { s with nTrees := 1, nBurn := 0, nSamples := 0 } X y rs = .ok () := by
  refine ⟨{ exSk false with nTrees := 0 }, [fun _ => .fin 0, fun _ => .fin 1, fun _ => .fin 2, fun _ => .fin 3], [0, 1, 2], exRs, by decide, by decide, by decide, by decide, by decide +kernel, by decide +kernel⟩

/-- C129, the example: four rows and three targets, with a grow move among the draws; three rows and three targets, where the fit returns. -/
example : fit (exSk true) [fun _ => .fin 0, fun _ => .fin 1, fun _ => .fin 2, fun _ => .fin 3] [0, 1, 2] exRs = .error .indexError ∧
    fit (exSk true) [fun _ => .fin 1, fun _ => .fin 2, fun _ => .fin 3] [0, 1, 2] exRs = .ok () ∧ (Method.grow ∈ (exRs 0).methods) ∧ 0 < (exSk true).nTrees ∧ 0 < (exSk true).nChains ∧
    0 < (exSk true).nBurn + (exSk true).nSamples ∧ (exSk true).thin ≠ 0 ∧
    fitColumns (exSk true) [fun _ => .fin 1, fun _ => .fin 2, fun _ => .fin 3] (fun (r : Fin 3) (_ : Fin 1) => (r.val : ℚ)) exRs = .error .indexError := by
  decide +kernel

end examples
end Bart.Lengths
