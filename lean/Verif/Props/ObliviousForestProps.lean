import Verif.Proofs.LayerForest
import Verif.Props.ObliviousUnitsProps
import Verif.Props.ObliviousFitProps

/-! Property theorems C141: a model fitted with the oblivious tree sampler as a mean of sums of decision trees, and where its predictions are constant. -/

set_option linter.unusedSectionVars false

namespace Bart.Oblivious
open Bart Spec Reference LayerForest
variable {K : Type} [Field K] [LinearOrder K] [IsStrictOrderedRing K] {n p : Nat} {X : Fin n → Fin p → Fl K} [MathFns K] [FloorRing K]

theorem layer_chains_sound {c : Config K} {y : Fin n → K} {rs : List (Rand K)} {l : List (List Bool × Layers.State K p)} (h : Layers.chains c X y rs = .ok l) :
    l.length = rs.length * (storedTimes c.nSamples c.thin).length ∧ ∀ q ∈ l, (∀ t ∈ q.2.trees, Sound X t) ∧ q.2.trees.length = c.nTrees := by
  obtain ⟨L, h1, rfl⟩ := layer_chains_split.1 h
  clear h
  induction h1 with
  | nil => simp
  | cons e _ ih =>
    obtain ⟨i1, i2⟩ := ih
    refine ⟨?_, ?_⟩
    · rw [List.flatten_cons, List.length_append, i1, layer_chain_length e, List.length_cons]; ring
    · intro q hq
      rcases List.mem_append.1 (List.flatten_cons ▸ hq) with hq | hq
      · exact chain_sound e q hq
      · exact i2 q hq

/-! ### C141 -/

/-- C141: a model fitted with the oblivious tree sampler is, for prediction, a list of `n_trees` decision trees for each stored sample, although the sampler doubles leaves that it cannot split. Each comparison in
them is with an entry of the training data in the same column that is not the largest one there. The prediction for a row (without NaN and -inf) is the mean over the samples of the sum of the values of the trees,
on the original scale (`lo` and `hi` are the smallest and the largest entry of the training target). -/
theorem C141_forest (hX : ∀ r, GoodRow (X r)) {s f : SkModel K p} (hp : 0 < p) (hp1 : s.pGrow ≠ 0) (hp2 : s.pPrune ≠ 0) (hns : 0 < s.nSamples) {y : Fin n → K} (hy : ∃ i j, y i ≠ y j)
    {rs : Nat → Rand K} (h : fit s X y rs = .ok f) {lo hi : K} (hlo : IsLeast (Set.range y) lo) (hhi : IsGreatest (Set.range y) hi) :
    ∃ forests : List (List (DecTree K p)), forests.length = s.nChains * (storedTimes s.nSamples s.thin).length ∧ forests ≠ [] ∧
      (∀ F ∈ forests, F.length = s.nTrees ∧ ∀ D ∈ F, ∀ c ∈ D.cuts, ∃ r r', X r c.1 = c.2 ∧ Fl.lt c.2 (X r' c.1) = true) ∧
      ∀ (q : Nat) (Z : Fin q → Fin p → Fl K), (∀ r, GoodRow (Z r)) →
        f.predict (some ⟨q, Z⟩) = .ok (List.ofFn (fun r => mean (forests.map (fun F => originalScale lo hi ((F.map (fun D => D.eval (Z r))).sum))))) := by
  obtain ⟨-, hch, hth⟩ := C126_required h
  have hlt : lo < hi := by
    obtain ⟨i, j, hij⟩ := hy
    have a1 := hlo.2 ⟨i, rfl⟩
    have a2 := hlo.2 ⟨j, rfl⟩
    have b1 := hhi.2 ⟨i, rfl⟩
    have b2 := hhi.2 ⟨j, rfl⟩
    refine lt_of_le_of_ne (a1.trans b1) ?_
    rintro rfl
    exact hij ((le_antisymm b1 a1).trans (le_antisymm a2 b2))
  have h1 := C127_fit hX hp hp1 hp2 hth hch hlo hhi hlt rs
  rw [h] at h1
  obtain ⟨l, c, a1, -, -, -, -, -, -, -, a7⟩ := h1
  have hne := layer_fit_nonempty hch hns a1
  obtain ⟨b1, b2⟩ := layer_chains_sound a1
  obtain ⟨forests, hF⟩ := forall₂_of_forall (R := fun (q : List Bool × Layers.State K p) (F : List (DecTree K p)) => F.length = s.nTrees ∧ (∀ D ∈ F, ∀ c ∈ D.cuts, TrainingCut X c) ∧
      ∀ x, Layers.forest q.2.trees x = (F.map (fun D => D.eval x)).sum) (l := l) (by
    intro q hq
    obtain ⟨F, f1, f2, f3⟩ := forest_decTrees (b2 q hq).1
    exact ⟨F, f1.trans (b2 q hq).2, f2, f3⟩)
  refine ⟨forests, ?_, ?_, ?_, ?_⟩
  · rw [← hF.length_eq, b1, List.length_map, List.length_range]; rfl
  · rintro rfl; cases hF; exact hne rfl
  · clear a1 a7 hne b1 b2
    induction hF with
    | nil => simp
    | cons h _ ih =>
      intro F hF'
      rcases List.mem_cons.1 hF' with rfl | hF'
      · exact ⟨h.1, h.2.1⟩
      · exact ih F hF'
  · intro q Z hZ
    rw [(a7 hne).1 Z hZ]
    congr 2
    funext r
    rw [layer_prediction_eq, originalScale_mean (by simpa using hne), List.map_map]
    congr 1
    clear a1 a7 hne b1 b2
    induction hF with
    | nil => rfl
    | cons h _ ih => rw [List.map_cons, List.map_cons, ih]; simp only [Function.comp_apply, h.2.2]

/-- C141: the prediction for a row is a function of this row alone, and two rows get the same prediction if they compare in the same way with each entry of the training data that is not the largest one of its
column. -/
theorem C141_piecewise_constant (hX : ∀ r, GoodRow (X r)) {s f : SkModel K p} (hp : 0 < p) (hp1 : s.pGrow ≠ 0) (hp2 : s.pPrune ≠ 0) (hns : 0 < s.nSamples) {y : Fin n → K} (hy : ∃ i j, y i ≠ y j)
    {rs : Nat → Rand K} (h : fit s X y rs = .ok f) :
    ∃ g : (Fin p → Fl K) → K, (∀ (q : Nat) (Z : Fin q → Fin p → Fl K), (∀ r, GoodRow (Z r)) → f.predict (some ⟨q, Z⟩) = .ok (List.ofFn (fun r => g (Z r)))) ∧
      ∀ x x' : Fin p → Fl K, (∀ j r, (∃ r', Fl.lt (X r j) (X r' j) = true) → Fl.le (x j) (X r j) = Fl.le (x' j) (X r j)) → g x = g x' := by
  obtain ⟨lo, hi, hlo, hhi, -⟩ := exists_range hy
  obtain ⟨forests, -, -, f2, f3⟩ := C141_forest hX hp hp1 hp2 hns hy h hlo hhi
  refine ⟨fun x => mean (forests.map (fun F => originalScale lo hi ((F.map (fun D => D.eval x)).sum))), f3, ?_⟩
  intro x x' hxx
  simp only []
  congr 1
  refine List.map_congr_left fun F hF => ?_
  congr 2
  refine List.map_congr_left fun D hD => DecTree.eval_congr ?_
  intro c hc
  obtain ⟨r, r', a, b⟩ := (f2 F hF).2 D hD c hc
  rw [← a]
  exact hxx c.1 r ⟨r', by rw [a]; exact b⟩

/-- C141, beyond the data: raising an entry that is at least the largest training entry of its column, or lowering one that is below the smallest, changes no prediction. -/
theorem C141_extrapolation (hX : ∀ r, GoodRow (X r)) {s f : SkModel K p} (hp : 0 < p) (hp1 : s.pGrow ≠ 0) (hp2 : s.pPrune ≠ 0) (hns : 0 < s.nSamples) {y : Fin n → K} (hy : ∃ i j, y i ≠ y j)
    {rs : Nat → Rand K} (h : fit s X y rs = .ok f) {q : Nat} (Z Z' : Fin q → Fin p → Fl K) (hZ : ∀ r, GoodRow (Z r)) (hZ' : ∀ r, GoodRow (Z' r))
    (hd : ∀ r j, Z' r j = Z r j ∨ ((∀ i, Fl.le (X i j) (Z r j) = true) ∧ ∀ i, Fl.le (X i j) (Z' r j) = true) ∨
      ((∀ i, Fl.lt (Z r j) (X i j) = true) ∧ ∀ i, Fl.lt (Z' r j) (X i j) = true)) :
    f.predict (some ⟨q, Z'⟩) = f.predict (some ⟨q, Z⟩) := by
  obtain ⟨g, f1, f2⟩ := C141_piecewise_constant hX hp hp1 hp2 hns hy h
  rw [f1 q Z hZ, f1 q Z' hZ']
  congr 2
  funext r
  apply f2
  rintro j i ⟨i', hi'⟩
  rcases hd r j with e | ⟨e1, e2⟩ | ⟨e1, e2⟩
  · rw [e]
  · have k1 := e1 i'; have k2 := e2 i'
    revert hi' k1 k2
    cases X i j <;> cases X i' j <;> cases Z r j <;> cases Z' r j <;> simp [Fl.lt, Fl.le] <;> intros <;> first | (constructor <;> intro <;> order) | order
  · have k1 := e1 i; have k2 := e2 i
    revert k1 k2
    cases X i j <;> cases Z r j <;> cases Z' r j <;> simp [Fl.lt, Fl.le] <;> intros <;> first | (constructor <;> intro <;> order) | order

/-! ### a concrete case -/

section examples
attribute [local instance] exFns

/-- C141, the example: predictions of the fitted example (whose trees have doubled leaves) for rows below the data, at its entries 0, 1, 2, 3, and above. They change within the data only. -/
example : (match exFitf with
    | .ok s => (match s.predict (some ⟨7, fun r _ => if r = 6 then .pinf else .fin (r.val - 1)⟩) with
      | .ok f => decide (f[0]? = f[1]? ∧ f[1]? ≠ f[4]? ∧ f[4]? = f[5]? ∧ f[5]? = f[6]?)
      | .error _ => false)
    | .error _ => false) = true ∧ (∀ r, GoodRow (exXf r)) ∧ exSkf.pGrow ≠ 0 ∧ exSkf.pPrune ≠ 0 ∧ 0 < exSkf.nSamples ∧ exYf 0 ≠ exYf 2 := by
  refine ⟨by decide +kernel, fun r j => by simp [exXf], by decide +kernel, by decide +kernel, by decide, by decide +kernel⟩

end examples
end Bart.Oblivious
