import Verif.Spec.AnyTarget
import Verif.Proofs.AnyTargetDraws
import Verif.Proofs.AnyTargetFinite
import Verif.Props.ReferenceProps
import Verif.Proofs.RealWitness

/-! C112: targets that cannot be scaled (constant, or with NaN or infinities) are not reported; all predictions are NaN then. -/

set_option linter.unusedSectionVars false

namespace Bart
open Spec AnyTarget
variable {K : Type} [Field K] [LinearOrder K] {n p : Nat} {X : Fin n → Fin p → Fl K} [MathFns K]

theorem sweeps_length {c : Reference.Settings K} {y : Fin n → Fl K} : ∀ (k : Nat) {s : AState K n p} {q : Rand K} {l : List (List Bool × AState K n p)}, AnyTarget.sweeps c X y k s q = .ok l → l.length = k
  | 0, s, q, l, e => by cases e; rfl
  | k + 1, s, q, l, e => by
    unfold AnyTarget.sweeps at e
    split at e
    · cases e
    · split at e
      · cases e
      · next l' e2 => cases e; rw [List.length_cons, sweeps_length k e2]

theorem chains_length {c : Reference.Config K} {y : Fin n → Fl K} {rs : List (Rand K)} : ∀ {l : List (List Bool × AState K n p)}, AnyTarget.chains c X y rs = .ok l →
    l.length = rs.length * (storedTimes c.nSamples c.thin).length := by
  induction rs with
  | nil => intro l e; cases e; simp
  | cons q rs ih =>
    intro l e
    unfold AnyTarget.chains AnyTarget.chain at e
    split at e
    · cases e
    · next l1 e1 =>
      split at e1
      · cases e1
      · next l0 e0 =>
        cases e1
        split at e
        · cases e
        · next ls e2 =>
          cases e
          have h0 := sweeps_length _ e0
          rw [List.length_append, ih e2, List.length_cons, Nat.succ_mul, Nat.add_comm]
          congr 1
          have : ∀ t ∈ storedTimes c.nSamples c.thin, ∃ a, l0[c.nBurn + t]? = some a := by
            intro t ht
            have hlt : t < c.nSamples := List.mem_range.1 (List.mem_of_mem_filter ht)
            exact ⟨_, List.getElem?_eq_getElem (by omega)⟩
          generalize storedTimes c.nSamples c.thin = ts at this
          induction ts with
          | nil => rfl
          | cons t ts ih2 =>
            obtain ⟨a, ha⟩ := this t (List.mem_cons_self ..)
            rw [List.filterMap_cons, ha, List.length_cons, List.length_cons, ih2 (fun t ht => this t (List.mem_cons_of_mem _ ht))]

theorem unscalable_normalized {y : Fin n → Fl K} (hn : n ≠ 0) (h : Unscalable y) {lo hi : Fl K} (e1 : yMin y = .ok lo) (e2 : yMax y = .ok hi) : ∃ r, normalized lo hi (y r) = .nan := by
  rcases h with ⟨r, hr⟩ | ⟨v, hv⟩
  · exact ⟨r, normalized_nan hr e1 e2⟩
  · exact ⟨⟨0, Nat.pos_of_ne_zero hn⟩, normalized_const hv e1 e2 _⟩

theorem anyFit_spec {c : Reference.Config K} {y : Fin n → Fl K} {rs : Nat → Rand K} {f : AFit K n p} (h : AnyTarget.fit c X y rs = .ok f) :
    n ≠ 0 ∧ yMin y = .ok f.lo ∧ yMax y = .ok f.hi ∧ AnyTarget.chains c X (fun i => normalized f.lo f.hi (y i)) ((List.range c.nChains).map rs) = .ok f.samples := by
  unfold AnyTarget.fit at h
  split at h
  · cases h
  · next hnp =>
    split at h
    · cases h
    · cases h
    · next lo hi e1 e2 =>
      split at h
      · cases h
      · split at h
        · cases h
        · next l e3 => cases h; exact ⟨fun h0 => hnp (.inl h0), e1, e2, e3⟩

/-- **C112, targets that cannot be scaled**: if such a fit returns, then it has the usual number of samples, no change of a tree was ever accepted, sigma is NaN in every sample, and the prediction for every row is NaN. -/
theorem C112_nan {c : Reference.Config K} (ht : c.nTrees ≠ 0) {y : Fin n → Fl K} (hy : Unscalable y) {rs : Nat → Rand K} {f : AFit K n p} (h : AnyTarget.fit c X y rs = .ok f) :
    f.samples.length = c.nChains * (storedTimes c.nSamples c.thin).length ∧
    (∀ s ∈ f.samples, s.1 = List.replicate c.nTrees false ∧ s.2.sigma = .nan ∧ ∀ x, GoodRow x → predictTrees s.2.trees x = .nan) ∧
    ∀ x, GoodRow x → f.predict x = .nan := by
  obtain ⟨hn, e1, e2, e3⟩ := anyFit_spec h
  obtain ⟨r, hr⟩ := unscalable_normalized hn hy e1 e2
  have h1 := chains_nan (r := r) hr e3
  have h2 : ∀ s ∈ f.samples, ∀ x, predictTrees s.2.trees x = .nan := by
    intro s hs x
    unfold predictTrees
    rw [(h1 s hs).2.1]
    refine flSum_nan (List.mem_map.2 ⟨only .nan, List.mem_replicate.2 ⟨ht, rfl⟩, rfl⟩)
  refine ⟨by rw [chains_length e3, List.length_map, List.length_range], fun s hs => ⟨(h1 s hs).1, (h1 s hs).2.2, fun x _ => h2 s hs x⟩, fun x _ => ?_⟩
  unfold AFit.predict unnormalized
  have h3 : Fl.div (flSum (f.samples.map (fun s => predictTrees s.2.trees x))) (Fl.ofInt (f.samples.length : Int)) = .nan := by
    cases hs : f.samples with
    | nil => simp [flSum, Fl.ofInt, Fl.div, Fl.infSign]
    | cons s l =>
      rw [flSum_nan (List.mem_map.2 ⟨s, List.mem_cons_self .., h2 s (by rw [hs]; exact List.mem_cons_self ..) x⟩), nan_div']
  rw [h3, nan_sub', nan_mul', add_nan']

/-- **C112, nothing is reported**: a fit of such a target can return, and it never raises an exception (the only way not to return is that the given list of draws ends). -/
theorem C112_silent {c : Reference.Config K} (hX : NoNan X) (hp : p ≠ 0) (hs : Reference.columns X (fun _ => true) ≠ []) (hch : c.nChains ≠ 0) (ha : 0 ≤ c.sigmaA + (n : K) / 2) {y : Fin n → Fl K}
    (hy : Unscalable y) : (∃ rs f, AnyTarget.fit c X y rs = .ok f) ∧ ∀ rs e, AnyTarget.fit c X y rs = .error e → e = .outOfDraws := by
  have hn : n ≠ 0 := by
    rintro rfl
    apply hs
    unfold Reference.columns
    simp [column]
  have hyl : (List.finRange n).map y ≠ [] := by
    intro h0
    have := congrArg List.length h0
    simp at this
    exact hn this
  obtain ⟨lo, e1⟩ : ∃ lo, yMin y = .ok lo := by
    unfold yMin
    cases h0 : (List.finRange n).map y with
    | nil => exact absurd h0 hyl
    | cons a l => exact ⟨_, rfl⟩
  obtain ⟨hi, e2⟩ : ∃ hi, yMax y = .ok hi := by
    unfold yMax
    cases h0 : (List.finRange n).map y with
    | nil => exact absurd h0 hyl
    | cons a l => exact ⟨_, rfl⟩
  obtain ⟨r, hr⟩ := unscalable_normalized hn hy e1 e2
  constructor
  · obtain ⟨u, hu⟩ := exists_cuts hX hs
    obtain ⟨l, hl⟩ := chains_supply (c := c) (y := fun i => normalized lo hi (y i)) (r := r) hr hu hs ha
      (rs := (List.range c.nChains).map (fun _ => supply u ((c.nBurn + c.nSamples) * c.nTrees) (c.nBurn + c.nSamples))) (by
        intro q hq; obtain ⟨_, -, rfl⟩ := List.mem_map.1 hq; rfl)
    refine ⟨fun _ => supply u ((c.nBurn + c.nSamples) * c.nTrees) (c.nBurn + c.nSamples), ⟨lo, hi, l⟩, ?_⟩
    unfold AnyTarget.fit
    rw [if_neg (by tauto), e1, e2]
    dsimp only
    rw [if_neg hch, hl]
  · intro rs e he
    unfold AnyTarget.fit at he
    rw [if_neg (by tauto), e1, e2] at he
    dsimp only at he
    rw [if_neg hch] at he
    split at he
    · next e3 => cases he; exact chains_error (r := r) hr hs ha e3
    · cases he

/-- **C112 does not hold in full**: three rows with the constant target 7, and the default settings: the fit returns with samples, and all predictions are NaN. -/
theorem C112_refuted : ∃ (c : Reference.Config ℝ) (X : Fin 3 → Fin 1 → Fl ℝ) (rs : Nat → Rand ℝ) (f : AFit ℝ 3 1), NoNan X ∧ c.nTrees = 200 ∧ c.alpha = 0.95 ∧ c.beta = 2 ∧ c.k = 2 ∧ c.sigmaA = 0.001 ∧
    c.sigmaB = 0.001 ∧ c.pGrow = 0.5 ∧ c.pPrune = 0.5 ∧ c.nChains = 4 ∧ c.nSamples = 200 ∧ c.nBurn = 200 ∧ c.thin = 0.1 ∧ AnyTarget.fit c X (fun _ => .fin 7) rs = .ok f ∧ f.samples ≠ [] ∧
    ∀ x, GoodRow x → f.predict x = .nan := by
  let c : Reference.Config ℝ := ⟨⟨200, 0.95, 2, 2, 0.001, 0.001, 0.5, 0.5⟩, 4, 200, 200, 0.1⟩
  have hs : Reference.columns (rampX 3) (fun _ => true) ≠ [] := by
    rw [columns_eq (rampX_noNan 3)]
    refine List.ne_nil_of_mem (a := 0) (List.mem_filter.2 ⟨List.mem_finRange _, ?_⟩)
    exact ramp_splittable (by simp [count])
  have hy : Unscalable (fun _ : Fin 3 => (.fin 7 : Fl ℝ)) := .inr ⟨7, fun _ => rfl⟩
  obtain ⟨⟨rs, f, hf⟩, -⟩ := C112_silent (c := c) (rampX_noNan 3) one_ne_zero hs (by decide) (show (0 : ℝ) ≤ 0.001 + ((3 : ℕ) : ℝ) / 2 by norm_num) hy
  obtain ⟨h1, -, h2⟩ := C112_nan (by decide) hy hf
  refine ⟨c, rampX 3, rs, f, rampX_noNan 3, rfl, rfl, rfl, rfl, rfl, rfl, rfl, rfl, rfl, rfl, rfl, rfl, hf, ?_, h2⟩
  intro h0
  rw [h0] at h1
  have h3 : 0 ∈ storedTimes (200 : Nat) (0.1 : ℝ) := List.mem_filter.2 ⟨by simp, by simp only [decide_eq_true_eq]; exact ⟨0, by simp⟩⟩
  have h4 : 0 < (storedTimes (200 : Nat) (0.1 : ℝ)).length := List.length_pos_of_mem h3
  have h5 : (0 : Nat) = 4 * (storedTimes (200 : Nat) (0.1 : ℝ)).length := h1
  omega

variable [IsStrictOrderedRing K] [FloorRing K]

/-- **C112, all other targets**: for finite targets that are not all equal the model of `fit` for any targets agrees with the one used elsewhere (except that the latter stops, with the error `nonFinite`,
at values that are not finite), and the predictions are numbers. -/
theorem C112_numbers_partial (hX : NoNan X) {s : SkModel K p} (hp : 0 < p) (hp1 : s.pGrow ≠ 0) (hp2 : s.pPrune ≠ 0) (hth : s.thin ≠ 0) (hch : 0 < s.nChains) {y : Fin n → K}
    (hy : ¬ Unscalable (fun i => (.fin (y i) : Fl K))) (rs : Nat → Rand K) :
    match s.fit X y rs with
    | .error e => e ≠ .nonFinite → AnyTarget.fit s.config X (fun i => .fin (y i)) rs = .error e
    | .ok f => ∃ g, AnyTarget.fit s.config X (fun i => .fin (y i)) rs = .ok g ∧ (g.samples ≠ [] → (∀ x, GoodRow x → IsNumber (g.predict x)) ∧
      ∀ {q : Nat} (Z : Fin q → Fin p → Fl K), (∀ r, GoodRow (Z r)) → ∃ l, f.predict (some ⟨q, Z⟩) = .ok l ∧ l.map Fl.fin = List.ofFn (fun r => g.predict (Z r))) := by
  have hn : 0 < n := by
    rcases Nat.eq_zero_or_pos n with rfl | hn
    · exact absurd (.inr ⟨0, fun r => r.elim0⟩) hy
    · exact hn
  have : Nonempty (Fin n) := ⟨⟨0, hn⟩⟩
  obtain ⟨a, ha⟩ := Finite.exists_min y
  obtain ⟨b, hb⟩ := Finite.exists_max y
  have hlo : IsLeast (Set.range y) (y a) := ⟨⟨a, rfl⟩, by rintro _ ⟨r, rfl⟩; exact ha r⟩
  have hhi : IsGreatest (Set.range y) (y b) := ⟨⟨b, rfl⟩, by rintro _ ⟨r, rfl⟩; exact hb r⟩
  have hlt : y a < y b := by
    refine lt_of_le_of_ne (ha b) (fun h0 => hy (.inr ⟨y a, fun r => ?_⟩))
    exact congrArg Fl.fin (le_antisymm (h0 ▸ hb r) (ha r))
  have h1 := C103_fit hX hp hp1 hp2 hth hch hlo hhi hlt rs
  have h2 := fit_fin (c := s.config) (X := X) hn.ne' hp.ne' (show s.config.nChains ≠ 0 from hch.ne') hlo hhi hlt rs
  generalize s.fit X y rs = res at h1
  cases res with
  | error e =>
    have h1 : Reference.fit s.config X (y a) (y b) y rs = .error e := h1
    rw [h1] at h2
    exact h2
  | ok f =>
    obtain ⟨samples, c, e1, -, -, -, -, -, -, e2⟩ := h1
    rw [e1] at h2
    refine ⟨_, h2, fun hs => ?_⟩
    have hne : samples ≠ [] := by
      rintro rfl; exact hs rfl
    refine ⟨fun x _ => ⟨_, predict_fin hne x⟩, fun {q} Z hZ => ⟨_, (e2 hne).1 Z hZ, ?_⟩⟩
    rw [List.map_ofFn]
    congr 1
    funext r
    exact (predict_fin hne (Z r)).symm

/-! ### the hypotheses can be met -/

/-- A target with a missing value, one with an infinity, a constant one, and one that can be scaled. -/
example : Unscalable (![.fin 1, .nan, .fin 2] : Fin 3 → Fl ℚ) ∧ Unscalable (![.fin 1, .pinf, .fin 2] : Fin 3 → Fl ℚ) ∧ Unscalable (![.fin 2, .fin 2, .fin 2] : Fin 3 → Fl ℚ) ∧
    ¬ Unscalable (![.fin 1, .fin 2, .fin 2] : Fin 3 → Fl ℚ) := by
  refine ⟨.inl ⟨1, by simp⟩, .inl ⟨1, by simp⟩, .inr ⟨2, by intro r; fin_cases r <;> rfl⟩, ?_⟩
  rintro (⟨r, hr⟩ | ⟨v, hv⟩)
  · fin_cases r
    · exact hr 1 rfl
    · exact hr 2 rfl
    · exact hr 2 rfl
  · have h0 := hv 0; have h1 := hv 1
    simp at h0 h1
    rw [← h0] at h1; norm_num at h1

section examples
attribute [local instance] exFns

/-- A sweep on a target with a missing value: nothing is accepted, everything is NaN; the same draws on a finite target grow both trees. -/
example : (match AnyTarget.sweep (exSk true).config.toSettings exX (fun r => normalized .nan .nan (if r = 1 then .nan else .fin (exY r))) (AnyTarget.start (exSk true).config.toSettings exX) exRands1 with
      | .ok (bs, s, _) => decide (bs = [false, false] ∧ s.sigma = .nan ∧ predictTrees s.trees (exX 0) = .nan)
      | .error _ => false) = true ∧
    (match AnyTarget.sweep (exSk true).config.toSettings exX (fun r => normalized (.fin 0) (.fin 2) (.fin (exY r))) (AnyTarget.start (exSk true).config.toSettings exX) exRands1 with
      | .ok (bs, s, _) => decide (bs = [true, true] ∧ s.sigma ≠ .nan ∧ predictTrees s.trees (exX 0) ≠ .nan)
      | .error _ => false) = true := by decide +kernel

/-- The hypotheses of the theorem on the other targets. -/
example : NoNan exX ∧ (exSk true).pGrow ≠ 0 ∧ (exSk true).pPrune ≠ 0 ∧ (exSk true).thin ≠ 0 ∧ 0 < (exSk true).nChains ∧ exY 0 ≠ exY 2 := by
  refine ⟨exX_noNan, by decide +kernel, by decide +kernel, by decide +kernel, by decide +kernel, by decide +kernel⟩

end examples
end Bart
