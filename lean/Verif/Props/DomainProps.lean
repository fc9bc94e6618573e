import Verif.Props.SizeProps
import Verif.Props.FitProps
import Verif.Proofs.RefSweep

/-! Property theorem C108 (which training data can be fitted). -/

set_option linter.unusedSectionVars false

namespace Bart
open Spec Sampler Reference
variable {K : Type} [Field K] [LinearOrder K] {n p : Nat} {X : Fin n → Fin p → Fl K}

theorem columns_nil (hc : ∀ j, ¬ HasTwoValues (column X (fun _ => true) j).tail) (rows : Fin n → Bool) : columns X rows = [] := by
  rw [List.eq_nil_iff_forall_not_mem]
  intro j hj
  have := (List.mem_filter.1 hj).2
  simp only [List.any_eq_true, decide_eq_true_eq] at this
  obtain ⟨a, ha, b, hb, hab⟩ := this
  have hsub := (column_sublist X (rows := fun _ => true) (rows' := rows) (fun _ _ => rfl) j).tail
  exact hc j ⟨a, hsub.subset ha, b, hsub.subset hb, hab⟩

variable [MathFns K] [IsStrictOrderedRing K]

theorem treeStep_stuck (hc : ∀ j, ¬ HasTwoValues (column X (fun _ => true) j).tail) {t : RTree K p} (ht : Chosen X t) (P : Params K) (pGrow pPrune : K) (y : Fin n → K) (r : Rand K) :
    ∃ e, Reference.treeStep P pGrow pPrune X y t r = .error e := by
  unfold Reference.treeStep
  split
  · next e _ => exact ⟨e, rfl⟩
  · next mv us ms hmv =>
    exfalso
    have hm := propose_mem hmv
    cases mv with
    | grow path j v =>
      obtain ⟨w, -, hj, -⟩ := hm
      rw [columns_nil hc] at hj; cases hj
    | prune path j v =>
      obtain ⟨q, j', v', e, hin, -⟩ := mem_prunable.1 hm
      injection e with e1 e2; injection e2 with e2 e3
      subst e1 e2 e3
      have := (ht path j v hin).1
      rw [columns_nil hc] at this; cases this

/-- In a model with a tree no sweep is possible if no column has two different values after the first row. -/
theorem sweep_stuck (hX : NoNan X) (hc : ∀ j, ¬ HasTwoValues (column X (fun _ => true) j).tail) {m m' : BModel K n p} (h : ReachableModel X m) (hn : 0 < m.nTrees) {pGrow pPrune : K}
    (hp1 : pGrow ≠ 0) (hp2 : pPrune ≠ 0) {r r' : Rand K} {mus} (hs : m.sweep pGrow pPrune r = .ok (mus, m', r')) : False := by
  have hch := model_chosen hX h
  obtain ⟨y0, pg, pp, m0, k, h1, h2, h3, h4⟩ := h
  obtain ⟨y, -, hI, -⟩ := reachable_model_inv (N := False) hX (fun h => h.elim) h1 h2 h3 h4
  unfold BModel.sweep at hs
  have href := sweepTrees_ref hX hI hp1 hp2 r
  split at hs
  · cases hs
  · next mus1 m1 r1 e1 =>
    rw [e1] at href
    simp only at href
    cases ht : m.trees with
    | nil => have := hI.len; rw [ht] at this; simp at this; omega
    | cons t ts =>
      rw [ht, List.map_cons] at href
      unfold Reference.sweepTrees at href
      obtain ⟨e, he⟩ := treeStep_stuck hc (hch t (by rw [ht]; simp)) m.params pGrow pPrune (fun i => y i - forest ([] ++ ts.map look) (X i)) r
      have : Reference.treeBody m.params pGrow pPrune X (fun i => y i - forest ([] ++ ts.map look) (X i)) (look t) r = .error e := by
        unfold Reference.treeBody
        rw [he]
      rw [this] at href
      cases href

variable [FloorRing K]

/-- C108: if a fit with at least one tree and at least one step returns, then some column has two different values among the training rows after the first. -/
theorem C108_needs (hX : NoNan X) {s s' : SkModel K p} (ht : 0 < s.nTrees) (hk : 0 < s.nBurn + s.nSamples) (hp1 : s.pGrow ≠ 0) (hp2 : s.pPrune ≠ 0) {y : Fin n → K} {rs : Nat → Rand K}
    (h : s.fit X y rs = .ok s') : ∃ j, HasTwoValues (column X (fun _ => true) j).tail := by
  by_contra hc
  push Not at hc
  obtain ⟨d, m, os, c, e1, e2, e3, -⟩ := fit_spec h
  cases e2l : (List.range s.nChains).map rs with
  | nil =>
    rw [e2l] at e2
    cases e2
    unfold combineChains at e3; cases e3
  | cons r rl =>
    rw [e2l] at e2
    cases e2 with
    | cons e _ =>
      obtain ⟨d', m0, m', ch, r', k1, k2, -⟩ := runChain_spec e
      obtain ⟨-, -, -, hf, -, hnt, -⟩ := constructModel_spec k1
      have hm : ReachableModel X m0 := ⟨y, s.pGrow, s.pPrune, m0, 0, hp1, hp2, hf, .nil m0⟩
      obtain ⟨hrun, -⟩ := C44_samples hX (c := s.sampleParams) hm hp1 hp2 k2
      have key : ∀ {a b : BModel K n p × Rand K} {k : Nat}, DrawRun s.pGrow s.pPrune a k b → a.1 = m0 → 0 < k → False := by
        intro a b k hr
        induction hr with
        | nil => intro _ h; omega
        | @sweep k m1 r1 mus m2 r2 hr hs ih =>
          intro ha _
          have hr' := hr.run
          rw [ha] at hr'
          obtain ⟨_, -, -, -, -, -, -, hn1, -⟩ := reachable_model_inv (N := False) hX (fun h => h.elim) hp1 hp2 hf hr'
          exact sweep_stuck hX hc ⟨y, s.pGrow, s.pPrune, m0, k, hp1, hp2, hf, hr'⟩ (by rw [hn1, hnt]; exact ht) hp1 hp2 hs
        | copy _ ih => exact ih
      exact key hrun rfl hk

/-- C108: so nothing can be fitted to one or two training rows. -/
theorem C108_two_rows (hX : NoNan X) (hn : n ≤ 2) {s : SkModel K p} (ht : 0 < s.nTrees) (hk : 0 < s.nBurn + s.nSamples) (hp1 : s.pGrow ≠ 0) (hp2 : s.pPrune ≠ 0) (y : Fin n → K)
    (rs : Nat → Rand K) (s' : SkModel K p) : s.fit X y rs ≠ .ok s' := by
  intro h
  obtain ⟨j, hj⟩ := C108_needs hX ht hk hp1 hp2 h
  have := three_rows hj
  have hle : count (fun _ : Fin n => true) ≤ n := (Finset.card_le_univ _).trans (by simp)
  omega

/-- C108, exactly: for valid settings with at least one step and a target that is not constant, there are draws for which `fit` returns if and only if some column has two different values
among the training rows after the first. -/
theorem C108_exactly_partial {X : Fin n → Fin p → Fl ℝ} (hX : NoNan X) {s : SkModel ℝ p} (hs : ValidSettings s) (hk : 0 < s.nBurn + s.nSamples) {y : Fin n → ℝ} {a b : Fin n} (hy : y a ≠ y b) :
    (∃ rs s', s.fit X y rs = .ok s') ↔ ∃ j, HasTwoValues (column X (fun _ => true) j).tail :=
  ⟨fun ⟨_, _, h⟩ => C108_needs hX hs.trees hk hs.grow hs.prune h, fun ⟨_, hj⟩ => C70_returns hX hj hs hy⟩

theorem column_three (X : Fin 3 → Fin p → Fl K) (j : Fin p) : (column X (fun _ => true) j).tail = [X 1 j, X 2 j] := rfl

/-- C108 is false of the code: for the rows 1, 2, 2 (two different values) with target 0, 1, 2 no fit ever returns; as long as there are draws it goes on asking for the next proposal. -/
theorem C108_refuted : ∃ (X : Fin 3 → Fin 1 → Fl ℝ) (y : Fin 3 → ℝ), NoNan X ∧ HasTwoValues (column X (fun _ => true) 0) ∧ (∀ r r', r ≠ r' → y r ≠ y r') ∧
    ∀ (s : SkModel ℝ 1), ValidSettings s → 0 < s.nBurn + s.nSamples → ∀ rs : Nat → Rand ℝ, (∀ i, ∀ g ∈ (rs i).gammas, 0 < g) → s.fit X y rs = .error .outOfDraws := by
  have hX : NoNan ((fun r _ => if r = 0 then .fin 1 else .fin 2 : Fin 3 → Fin 1 → Fl ℝ)) := by
    intro r j
    fin_cases r <;> simp
  refine ⟨_, fun r => r.val, hX, ⟨.fin 1, ?_, .fin 2, ?_, ?_⟩, ?_, ?_⟩
  · exact mem_column.2 ⟨0, rfl, rfl⟩
  · exact mem_column.2 ⟨1, rfl, rfl⟩
  · simp
  · intro r r' h h'
    simp only [Nat.cast_inj] at h'
    exact h (Fin.ext h')
  · intro s hs hk rs hg
    cases h : s.fit (fun r _ => if r = 0 then .fin 1 else .fin 2 : Fin 3 → Fin 1 → Fl ℝ) (fun r => (r.val : ℝ)) rs with
    | error e => rw [C70_no_exception hX (by norm_num) (by norm_num) hs (a := 0) (b := 1) (by norm_num) rs hg h]
    | ok s' =>
      exfalso
      obtain ⟨j, hj⟩ := C108_needs hX hs.trees hk hs.grow hs.prune h
      have hj0 : j = 0 := Subsingleton.elim _ _
      subst hj0
      rw [column_three] at hj
      obtain ⟨a, ha, b, hb, hab⟩ := hj
      simp at ha hb
      exact hab (ha.trans hb.symm)

/-! ### concrete cases -/

/-- The data 0, 1, 2 with default settings can be fitted. -/
example : ∃ rs s', (exSkReal true).fit (fun (r : Fin 3) _ => (.fin r.val : Fl ℝ)) (fun r => (r.val : ℝ)) rs = .ok s' :=
  (C108_exactly_partial (fun _ _ => by simp) (exSkReal_valid true) (by simp [exSkReal]) (a := 0) (b := 1) (by norm_num)).2
    ⟨0, .fin 1, by rw [column_three]; simp, .fin 2, by rw [column_three]; simp, by simp⟩

end Bart
