import Verif.Props.RunnerProps

/-! C13, for a whole fit: rows with NaN or -inf. -/

set_option linter.unusedSectionVars false

namespace Bart
open Spec
variable {K : Type} [Field K] [LinearOrder K] [IsStrictOrderedRing K] {n p : Nat} {X : Fin n → Fin p → Fl K}

/-- Whatever splits led to a leaf, a row with NaN or -inf is not in it. -/
theorem condition_bad {c : CombinedCondition K p} {x : Fin p → Fl K} (h : ¬ GoodRow x) : c.condition x = false := by
  rw [← Bool.not_eq_true, condition_eq_all]
  intro h0
  refine h fun v => ?_
  have := h0 v
  cases hx : x v with
  | nan => rw [hx] at this; cases hm : (c.variables v).minValue <;> simp [CombinedVariableCondition.holds, Fl.gt, Fl.lt, hm] at this
  | ninf => rw [hx] at this; cases hm : (c.variables v).minValue <;> simp [CombinedVariableCondition.holds, Fl.gt, Fl.lt, hm] at this
  | fin a => exact ⟨by simp, by simp⟩
  | pinf => exact ⟨by simp, by simp⟩

theorem predictX_bad {q : Nat} (t : Tree K n p) {Z : Fin q → Fin p → Fl K} {r : Fin q} (h : ¬ GoodRow (Z r)) : t.predictX Z r = 0 := by
  unfold Tree.predictX
  have : ∀ (l : List NodeId) (f : Fin q → K), (l.foldl (fun pred i r => if Heap.outOfSample (t.heap.node i).split (Z r) then (t.heap.node i).value else pred r) f) r = f r := by
    intro l
    induction l with
    | nil => intro f; rfl
    | cons i l ih =>
      intro f
      rw [List.foldl_cons, ih]
      unfold Heap.outOfSample
      rw [condition_bad h]
      simp
  exact this _ _

theorem sample_bad {q : Nat} (x : Sample K p) {Z : Fin q → Fin p → Fl K} {r : Fin q} (h : ¬ GoodRow (Z r)) : x.predictX Z r = 0 := by
  unfold Sample.predictX BModel.storedPredictX
  simp only [predictX_bad _ h]
  simp

variable [MathFns K] [FloorRing K]

/-- C13 for a fit, to any data: the prediction for a row with NaN or -inf is the middle of the range of the training target, whatever the other entries of the row are, and whatever was learned. -/
theorem C13_middle_partial {s s' : SkModel K p} {y : Fin n → K} {rs : Nat → Rand K} (h : s.fit X y rs = .ok s') {lo hi : K} (hlo : IsLeast (Set.range y) lo) (hhi : IsGreatest (Set.range y) hi) {q : Nat}
    {Z : Fin q → Fin p → Fl K} {l : List K} (hl : s'.predict (some ⟨q, Z⟩) = .ok l) (r : Fin q) (hr : ¬ GoodRow (Z r)) : l[(r : Nat)]? = some ((lo + hi) / 2) := by
  obtain ⟨d, m, os, c, h1, -, -, rfl⟩ := fit_spec h
  obtain ⟨-, -, hd, -⟩ := constructModel_spec h1
  have hne : c.models ≠ [] := by
    intro h0
    simp [SkModel.predict, SkModel.outOfSamplePredict, h0, meanRows] at hl
  obtain ⟨f, e1, e2⟩ := C48_predict (s := { s with data := some ⟨n, d⟩, model := some ⟨n, m⟩, samples := some c, extract := some os }) hd rfl rfl hne hlo hhi Z
  rw [e1] at hl
  cases hl
  rw [List.getElem?_ofFn]
  simp only [r.2, dite_true, Option.some.injEq, Fin.eta]
  rw [(e2 r).1]
  have : c.models.map (fun x => originalScale lo hi (x.predictX Z r)) = c.models.map fun _ => (lo + hi) / 2 := by
    refine List.map_congr_left fun x _ => ?_
    rw [sample_bad x hr]
    unfold originalScale
    ring
  rw [this]
  unfold mean
  rw [List.map_const', List.sum_replicate, List.length_replicate, nsmul_eq_mul]
  have hz : (c.models.length : K) ≠ 0 := by
    simpa using hne
  field_simp

section ex
attribute [local instance] exFns

/-- A table whose first row has a NaN. -/
def exNanX : Fin 3 → Fin 1 → Fl ℚ := exX3 .nan (.fin 1) (.fin 2)

/-- Draws with which nothing is accepted. -/
def exNanRs : Nat → Rand ℚ := fun i => { exRs i with uniforms := List.replicate 12 100, methods := List.replicate 12 .grow, picks := List.replicate 40 0 }

/-- C13 fails for a fit: a table with a NaN is fitted without an error, and then the prediction for its first row as part of the training data, 21801735274477/21041933817632, is not the prediction for the same row as
new data, which is the middle of the target. (Without NaN and -inf the two are equal, C49.) -/
theorem C13_fit_refuted : ∃ (X : Fin 3 → Fin 1 → Fl ℚ) (y : Fin 3 → ℚ) (s s' : SkModel ℚ 1) (rs : Nat → Rand ℚ) (f g : List ℚ), s.fit X y rs = .ok s' ∧ s'.predict none = .ok f ∧ s'.predict (some ⟨3, X⟩) = .ok g ∧
    f[0]? ≠ g[0]? ∧ ¬ GoodRow (X 0) ∧ GoodRow (X 1) ∧ f[1]? = g[1]? := by
  have h : (match (exSk true).fit exNanX exY exNanRs with
      | .ok s' =>
        match s'.predict none, s'.predict (some ⟨3, exNanX⟩) with
        | .ok f, .ok g => decide (f[0]? ≠ g[0]? ∧ f[1]? = g[1]?)
        | _, _ => false
      | .error _ => false) = true := by decide +kernel
  cases e1 : (exSk true).fit exNanX exY exNanRs with
  | error e => rw [e1] at h; simp at h
  | ok s' =>
    rw [e1] at h
    simp only at h
    cases e2 : s'.predict none with
    | error e => rw [e2] at h; simp at h
    | ok f =>
      cases e3 : s'.predict (some ⟨3, exNanX⟩) with
      | error e => rw [e2, e3] at h; simp at h
      | ok g =>
        rw [e2, e3] at h
        obtain ⟨h1, h2⟩ := of_decide_eq_true h
        exact ⟨exNanX, exY, exSk true, s', exNanRs, f, g, e1, e2, e3, h1, by unfold GoodRow; decide, by unfold GoodRow; decide, h2⟩

/-- C13, an example of a fit with splits: the first row is predicted with the middle of 0 and 2, the others are not. -/
example : (match exFit true with
    | .ok s' =>
      match s'.predict (some ⟨3, exX3 .ninf (.fin 1) (.fin 2)⟩) with
      | .ok l => decide (l[0]? = some 1 ∧ l[1]? ≠ some 1 ∧ l[2]? ≠ some 1 ∧ l[1]? ≠ l[2]?)
      | .error _ => false
    | .error _ => false) = true := by
  decide +kernel

end ex

end Bart
