import Verif.Props.StoredProps
import Mathlib.Algebra.Order.Floor.Ring
import Mathlib.Data.Rat.Floor
import Mathlib.Algebra.Order.Archimedean.Basic
import Mathlib.Tactic.FieldSimp
import Mathlib.Data.Int.CardIntervalMod
import Mathlib.Tactic.NormNum
import Mathlib.Tactic.Linarith

/-! The loop of `samples()`: C43, C44. -/

set_option linter.unusedSectionVars false

namespace Bart
open Spec
variable {K : Type} [Field K] [LinearOrder K] [IsStrictOrderedRing K] {n p : Nat} {X : Fin n → Fin p → Fl K}

section pymod
variable [FloorRing K]

/-- The test of modelsampler.py:53. -/
theorem pyMod_eq_zero {x y : K} (hy : y ≠ 0) : pyMod x y = 0 ↔ ∃ z : ℤ, x = (z : K) * y := by
  unfold pyMod
  constructor
  · intro h
    exact ⟨⌊x / y⌋, by rw [mul_comm]; linarith⟩
  · rintro ⟨z, rfl⟩
    rw [mul_div_assoc, div_self hy, mul_one, Int.floor_intCast]
    ring

end pymod

/-! ### C43 -/

theorem length_filter_range (P : Nat → Prop) [DecidablePred P] (k : Nat) : ((List.range k).filter (fun s => decide (P s))).length = Nat.count P k := by
  induction k with
  | zero => rfl
  | succ k ih =>
    rw [List.range_succ, List.filter_append, List.length_append, ih, Nat.count_succ]
    by_cases h : P k <;> simp [h]

/-- How many samples are stored when `thin` is the fraction `a / b` in lowest terms: `n_samples / b`, rounded up (independent of `a`). -/
theorem C43_count_partial {a b : Nat} (ha : 0 < a) (hb : 0 < b) (hab : Nat.Coprime a b) (k : Nat) :
    (storedTimes k ((a : K) / (b : K))).length = (k + b - 1) / b := by
  have ha' : (a : K) ≠ 0 := by exact_mod_cast ha.ne'
  have hb' : (b : K) ≠ 0 := by exact_mod_cast hb.ne'
  have hiff : ∀ s : Nat, (∃ z : ℤ, (s : K) = (z : K) * (1 / ((a : K) / (b : K)))) ↔ s ≡ 0 [MOD b] := by
    intro s
    rw [Nat.modEq_zero_iff_dvd]
    constructor
    · rintro ⟨z, hz⟩
      have h1 : (s : K) * a = z * b := by rw [hz]; field_simp
      have h2 : (s : ℤ) * a = z * b := by exact_mod_cast h1
      have h3 : (b : ℤ) ∣ (s : ℤ) * a := ⟨z, by rw [h2, mul_comm]⟩
      have h4 : b ∣ s * a := by exact_mod_cast h3
      exact (Nat.Coprime.symm hab).dvd_of_dvd_mul_right h4
    · rintro ⟨w, rfl⟩
      refine ⟨(w * a : ℕ), ?_⟩
      push_cast
      field_simp
  classical
  unfold storedTimes
  have : (List.range k).filter (fun s : Nat => decide (∃ z : ℤ, (s : K) = (z : K) * (1 / ((a : K) / (b : K))))) = (List.range k).filter (fun s : Nat => decide (s ≡ 0 [MOD b])) :=
    List.filter_congr (fun s _ => by simp only [hiff s])
  rw [this, length_filter_range, Nat.count_modEq_card k hb]
  rw [Nat.zero_mod]
  have hk := Nat.div_add_mod k b
  have hlt := Nat.mod_lt k hb
  split
  · next h =>
    symm
    rw [Nat.div_eq_iff hb]
    generalize k / b = q at *
    have hq : (q + 1) * b = b * q + b := by ring
    have hq0 : (q + 0) * b = b * q := by ring
    constructor <;> first | rw [hq] | rw [hq0]
    all_goals omega
  · next h =>
    have h0 : k % b = 0 := by omega
    symm
    rw [Nat.div_eq_iff hb]
    generalize k / b = q at *
    have hq : (q + 1) * b = b * q + b := by ring
    have hq0 : (q + 0) * b = b * q := by ring
    constructor <;> first | rw [hq] | rw [hq0]
    all_goals omega

/-- For `thin = 1 / b` the number of stored samples is `thin * n_samples` rounded up; in particular exactly `thin * n_samples` if that is a whole number. -/
theorem C43_unit_fraction_partial {b : Nat} (hb : 0 < b) (k : Nat) :
    ((storedTimes k (1 / (b : K))).length : K) - 1 < 1 / (b : K) * k ∧ 1 / (b : K) * k ≤ (storedTimes k (1 / (b : K))).length ∧
      ((∃ z : ℕ, 1 / (b : K) * k = z) → ((storedTimes k (1 / (b : K))).length : K) = 1 / (b : K) * k) := by
  have h := C43_count_partial (K := K) (a := 1) (b := b) one_pos hb (by simp) k
  rw [Nat.cast_one] at h
  rw [h]
  have hb' : (0 : K) < b := by exact_mod_cast hb
  have hdm := Nat.div_add_mod (k + b - 1) b
  have hlt := Nat.mod_lt (k + b - 1) hb
  generalize (k + b - 1) / b = q at *
  generalize (k + b - 1) % b = s at *
  have e1 : b * q < k + b := by omega
  have e2 : k ≤ b * q := by omega
  have e1' : (b : K) * q < k + b := by exact_mod_cast e1
  have e2' : (k : K) ≤ b * q := by exact_mod_cast e2
  have hm : 1 / (b : K) * k = k / b := by ring
  have r1 : (q : K) - 1 < 1 / (b : K) * k := by rw [hm, lt_div_iff₀ hb']; linarith
  have r2 : 1 / (b : K) * k ≤ q := by rw [hm, div_le_iff₀ hb']; linarith
  refine ⟨r1, r2, ?_⟩
  rintro ⟨z, hz⟩
  rw [hz] at r1 r2 ⊢
  have z1 : q < z + 1 := by
    have : (q : K) < (z : K) + 1 := by linarith
    exact_mod_cast this
  have z2 : z ≤ q := by exact_mod_cast r2
  have : q = z := by omega
  rw [this]

/-- For a `thin` of which no multiple is a whole number (an irrational one), at most one sample is stored. -/
theorem C43_irrational_partial {thin : K} (hirr : ∀ s : Nat, 0 < s → ∀ z : ℤ, (s : K) * thin ≠ z) (hth : thin ≠ 0) (k : Nat) : (storedTimes k thin).length = min k 1 := by
  classical
  unfold storedTimes
  have hiff : ∀ s : Nat, (∃ z : ℤ, (s : K) = (z : K) * (1 / thin)) ↔ s = 0 := by
    intro s
    constructor
    · rintro ⟨z, hz⟩
      by_contra h0
      refine hirr s (Nat.pos_of_ne_zero h0) z ?_
      rw [hz]; field_simp
    · rintro rfl; exact ⟨0, by simp⟩
  have : (List.range k).filter (fun s : Nat => decide (∃ z : ℤ, (s : K) = (z : K) * (1 / thin))) = (List.range k).filter (fun s : Nat => decide (s = 0)) :=
    List.filter_congr (fun s _ => by simp only [hiff s])
  rw [this, length_filter_range]
  cases k with
  | zero => rfl
  | succ k =>
    rw [Nat.count_succ']
    simp

/-- C43 is false: with `thin = 2/3` only every third sample is stored. -/
theorem C43_refuted : ¬ ∀ (k : Nat) (thin : ℚ), 0 < thin → thin ≤ 1 → ((storedTimes k thin).length : ℚ) = thin * k := by
  intro h
  have h1 := h 3 (2 / 3) (by norm_num) (by norm_num)
  have h2 := C43_count_partial (K := ℚ) (a := 2) (b := 3) (by norm_num) (by norm_num) (by decide) 3
  push_cast at h2
  rw [h2] at h1
  norm_num at h1

namespace Spec.DrawRun
variable [MathFns K]

theorem trans {pGrow pPrune : K} {a b c : BModel K n p × Rand K} {k l : Nat} (h : DrawRun pGrow pPrune a k b) (h' : DrawRun pGrow pPrune b l c) :
    DrawRun pGrow pPrune a (k + l) c := by
  induction h' with
  | nil => exact h
  | sweep _ e ih => exact .sweep ih e
  | copy _ ih => exact .copy ih

theorem run {pGrow pPrune : K} {a b : BModel K n p × Rand K} {k : Nat} (h : DrawRun pGrow pPrune a k b) : ModelRun pGrow pPrune a.1 k b.1 := by
  induction h with
  | nil => exact .nil _
  | sweep _ e ih => exact .sweep ih e
  | copy _ ih => exact .copy ih

end Spec.DrawRun

namespace BModel
variable [MathFns K] [FloorRing K]

theorem predictTrees_idem : ∀ {ts ts1 : List (Tree K n p)} {f : Fin n → K}, predictTrees ts = .ok (f, ts1) → predictTrees ts1 = .ok (f, ts1) := by
  intro ts
  induction ts with
  | nil => intro ts1 f h; injection h with h; injection h with h1 h2; subst h1 h2; rfl
  | cons t ts ih =>
    intro ts1 f h
    unfold predictTrees at h
    split at h
    · cases h
    · cases h
    · cases h
    · next g t1 e1 =>
      split at h
      · cases h
      · next g2 ts2 e2 =>
        injection h with h; injection h with h1 h2; subst h1 h2
        obtain ⟨-, -, a1, a2⟩ := predict_cases e1
        have : t1.predict = .ok (.sized g, t1) := by unfold Tree.predict; rw [if_pos a1, a2]
        unfold predictTrees
        rw [this]
        simp only [ih e2]

/-- After a sweep all in-sample predictions are up to date, `predict()` changes nothing. -/
theorem sweep_predict {m m1 m2 : BModel K n p} {pGrow pPrune : K} {r r1 : Rand K} {mus : List (Option TreeMutation)} {f : Fin n → K}
    (h : m.sweep pGrow pPrune r = .ok (mus, m1, r1)) (hp : m1.predict = .ok (f, m2)) : m2 = m1 := by
  unfold sweep at h
  split at h
  · cases h
  · split at h
    · cases h
    · next m3 r3 e =>
      injection h with h; injection h with h1 h2; injection h2 with h2 h3; subst h2
      unfold sigmaStep at e
      split at e
      · cases e
      · next res m4 e4 =>
        split at e
        · cases e
        · split at e
          · cases e
          · split at e
            · cases e
            · injection e with e; injection e with e1 e2; subst e1
              unfold residuals at e4
              split at e4
              · cases e4
              · next g m5 e5 =>
                split at e4
                · cases e4
                · injection e4 with e4; injection e4 with e6 e7; subst e7
                  unfold predict at e5
                  split at e5
                  · cases e5
                  · next g2 ts e8 =>
                    injection e5 with e5; injection e5 with e9 e10; subst e10
                    have := predictTrees_idem e8
                    unfold predict at hp
                    simp only [this] at hp
                    injection hp with hp; injection hp with _ hp
                    exact hp.symm

theorem burn_run {c : SampleParams K} : ∀ {k : Nat} {m m' : BModel K n p} {r r' : Rand K}, burn c k m r = .ok (m', r') → DrawRun c.pGrow c.pPrune (m, r) k (m', r') := by
  intro k
  induction k with
  | zero => intro m m' r r' h; injection h with h; injection h with h1 h2; subst h1 h2; exact .nil _
  | succ k ih =>
    intro m m' r r' h
    unfold burn at h
    split at h
    · cases h
    · next mus m1 r1 e =>
      have := (DrawRun.sweep (.nil (m, r)) e).trans (ih h)
      rwa [Nat.add_comm] at this

theorem recordPrediction_cases {c : SampleParams K} {m m' : BModel K n p} {fs : List (Fin n → K)} (h : recordPrediction c m = .ok (fs, m')) :
    (c.storePredictions = true ∧ ∃ f, m.predict = .ok (f, m') ∧ fs = [f]) ∨ (c.storePredictions = false ∧ m' = m ∧ fs = []) := by
  unfold recordPrediction at h
  split at h
  · next hc =>
    split at h
    · cases h
    · next f m1 e => injection h with h; injection h with h1 h2; subst h1 h2; exact Or.inl ⟨hc, f, e, rfl⟩
  · next hc => injection h with h; injection h with h1 h2; subst h1 h2; exact Or.inr ⟨by simpa using hc, rfl, rfl⟩

/-- One stored step: `b` is the state before the sweep that is stored as number `t`; the sample is the state `M` after it. -/
def StoredStep (c : SampleParams K) (start : BModel K n p × Rand K) (finish : BModel K n p × Rand K) (total t : Nat) (s : StoredModel K)
    (acc : Option (Option K)) (pr : Option (Fin n → K)) : Prop :=
  ∃ m0 r0 mus m1 r1 M, DrawRun c.pGrow c.pPrune start t (m0, r0) ∧ m0.sweep c.pGrow c.pPrune r0 = .ok (mus, m1, r1) ∧
    ((∃ f, m1.predict = .ok (f, M) ∧ pr = some f) ∨ (M = m1 ∧ pr = none)) ∧ s = M.deepCopy.1 ∧
    acc = (if c.storeAcceptance then some (acceptance mus) else none) ∧ (pr.isSome = c.storePredictions) ∧
    t + 1 ≤ total ∧ DrawRun c.pGrow c.pPrune (M.deepCopy.2, r1) (total - (t + 1)) finish

/-- The steps at which the loop stores. -/
noncomputable def times (thinInverse : K) (k ss : Nat) : List Nat := by
  classical exact (List.range' ss k).filter (fun s : Nat => decide (∃ z : ℤ, (s : K) = (z : K) * thinInverse))

theorem sampleLoop_spec {c : SampleParams K} {ti : K} (hti : ti ≠ 0) : ∀ {k ss b : Nat} {start : BModel K n p × Rand K} {m m' : BModel K n p} {r r' : Rand K} {ch : Chain K n},
    DrawRun c.pGrow c.pPrune start (b + ss) (m, r) → sampleLoop c ti k ss m r = .ok (ch, m', r') →
    DrawRun c.pGrow c.pPrune (m, r) k (m', r') ∧
    ch.model.length = (times ti k ss).length ∧ ch.acceptance.length = (if c.storeAcceptance then (times ti k ss).length else 0) ∧
    ch.predictions.length = (if c.storePredictions then (times ti k ss).length else 0) ∧
    ∀ (j t : Nat) (s : StoredModel K), (times ti k ss)[j]? = some t → ch.model[j]? = some s → StoredStep c start (m', r') (b + ss + k) (b + t) s ch.acceptance[j]? ch.predictions[j]? := by
  intro k
  induction k with
  | zero =>
    intro ss b start m m' r r' ch hd h
    injection h with h; injection h with h1 h2; injection h2 with h2 h3; subst h1 h2 h3
    refine ⟨.nil _, rfl, ?_, ?_, ?_⟩
    · simp [times]
    · simp [times]
    · intro j t s h; simp [times] at h
  | succ k ih =>
    intro ss b start m m' r r' ch hd h
    unfold sampleLoop at h
    split at h
    · cases h
    · next mus m1 r1 e1 =>
      split at h
      · next hmod =>
        rw [pyMod_eq_zero hti] at hmod
        have ht : times ti (k + 1) ss = ss :: times ti k (ss + 1) := by
          simp only [times, List.range'_succ, List.filter_cons, hmod, decide_true, if_true]
        split at h
        · cases h
        · next fs m2 e2 =>
          simp only at h
          split at h
          · cases h
          · next ch1 m3 r3 e3 =>
            injection h with h; injection h with h1 h2; injection h2 with h2 h3; subst h1 h2 h3
            have d1 : DrawRun c.pGrow c.pPrune start (b + ss + 1) (m1, r1) := .sweep hd e1
            have hcase := recordPrediction_cases e2
            have e12 : m2 = m1 := by
              rcases hcase with ⟨-, f, e, -⟩ | ⟨-, rfl, -⟩
              · exact sweep_predict e1 e
              · rfl
            have d2 : DrawRun c.pGrow c.pPrune start (b + ss + 1) (m2, r1) := by rw [e12]; exact d1
            have d2' : DrawRun c.pGrow c.pPrune (m, r) 1 (m2, r1) := by rw [e12]; exact .sweep (.nil _) e1
            have d3 : DrawRun c.pGrow c.pPrune start (b + (ss + 1)) (m2.deepCopy.2, r1) := .copy d2
            obtain ⟨i1, i2, i3, i4, i5⟩ := ih d3 e3
            rw [ht]
            refine ⟨?_, by simp [i2], ?_, ?_, ?_⟩
            · have := (DrawRun.copy d2').trans i1
              rwa [Nat.add_comm] at this
            · simp only [List.length_append, i3]
              split <;> simp [Nat.add_comm]
            · simp only [List.length_append, i4]
              rcases hcase with ⟨hc, f, -, rfl⟩ | ⟨hc, -, rfl⟩ <;> simp [hc, Nat.add_comm]
            · intro j t s hj hs
              cases j with
              | zero =>
                simp only [List.getElem?_cons_zero, Option.some.injEq] at hj hs
                subst hj hs
                refine ⟨m, r, mus, m1, r1, m2, hd, e1, ?_, rfl, ?_, ?_, by omega, ?_⟩
                · rcases hcase with ⟨hc, f, e, rfl⟩ | ⟨hc, rfl, rfl⟩
                  · exact Or.inl ⟨f, e, by simp⟩
                  · right
                    simp only [hc, Bool.false_eq_true, if_false] at i4
                    rw [List.length_eq_zero_iff] at i4
                    simp [i4]
                · by_cases hc : c.storeAcceptance = true
                  · simp [hc]
                  · simp only [hc, Bool.false_eq_true, if_false] at i3 ⊢
                    rw [List.length_eq_zero_iff] at i3
                    simp [i3]
                · rcases hcase with ⟨hc, f, e, rfl⟩ | ⟨hc, rfl, rfl⟩
                  · simp [hc]
                  · simp only [hc, Bool.false_eq_true, if_false] at i4
                    rw [List.length_eq_zero_iff] at i4
                    simp [i4, hc]
                · have : b + ss + (k + 1) - (b + ss + 1) = k := by omega
                  rw [this]; exact i1
              | succ j =>
                simp only [List.getElem?_cons_succ] at hj hs
                have := i5 j t s hj hs
                have e1 : b + (ss + 1) + k = b + ss + (k + 1) := by omega
                rw [e1] at this
                have ha : ((if c.storeAcceptance = true then [acceptance mus] else []) ++ ch1.acceptance)[j + 1]? = ch1.acceptance[j]? := by
                  by_cases hc : c.storeAcceptance = true
                  · simp [hc]
                  · simp only [hc, Bool.false_eq_true, if_false] at i3 ⊢
                    rw [List.length_eq_zero_iff] at i3
                    simp [i3]
                have hp : (fs ++ ch1.predictions)[j + 1]? = ch1.predictions[j]? := by
                  rcases hcase with ⟨hc, f, e, rfl⟩ | ⟨hc, rfl, rfl⟩
                  · simp
                  · simp only [hc, Bool.false_eq_true, if_false] at i4
                    rw [List.length_eq_zero_iff] at i4
                    simp [i4]
                simp only [ha, hp]
                exact this
      · next hmod =>
        rw [pyMod_eq_zero hti] at hmod
        have ht : times ti (k + 1) ss = times ti k (ss + 1) := by
          simp only [times, List.range'_succ, List.filter_cons, hmod, decide_false, Bool.false_eq_true, if_false]
        have d1 : DrawRun c.pGrow c.pPrune start (b + (ss + 1)) (m1, r1) := .sweep hd e1
        obtain ⟨i1, i2, i3, i4, i5⟩ := ih d1 h
        rw [ht]
        refine ⟨?_, i2, i3, i4, ?_⟩
        · have := (DrawRun.sweep (.nil (m, r)) e1).trans i1
          rwa [Nat.add_comm] at this
        · intro j t s hj hs
          have := i5 j t s hj hs
          have e1 : b + (ss + 1) + k = b + ss + (k + 1) := by omega
          rwa [e1] at this

theorem times_eq (thin : K) (k : Nat) : times (1 / thin) k 0 = storedTimes k thin := by
  unfold times storedTimes
  rw [← List.range_eq_range']

end BModel

variable [MathFns K] [FloorRing K]

/-- The invariant over a run. -/
theorem ModelInv.run {N : Prop} (hX : NoNan X) {y : Fin n → K} {m m' : BModel K n p} (h : ModelInv N X y m) {pGrow pPrune : K} (hp1 : pGrow ≠ 0) (hp2 : pPrune ≠ 0)
    {k : Nat} (hr : ModelRun pGrow pPrune m k m') : ModelInv N X y m' := by
  induction hr with
  | nil => exact h
  | @sweep k m1 r mus m2 r2 _ hs ih =>
    have := ih.sweep hX hp1 hp2 r
    rw [hs] at this
    exact this.1
  | @predict k m1 f m2 _ hs ih =>
    obtain ⟨m3, e3, j1, -⟩ := ih.predict hX
    rw [hs] at e3; injection e3 with e3; injection e3 with e3 e4; subst e4
    exact j1
  | @residuals k m1 f m2 _ hs ih =>
    obtain ⟨m3, e3, j1, -⟩ := ih.residuals hX
    rw [hs] at e3; injection e3 with e3; injection e3 with e3 e4; subst e4
    exact j1
  | copy _ ih => exact ih.copy

theorem predict_content {m m' : BModel K n p} {f : Fin n → K} (h : m.predict = .ok (f, m')) :
    liveContent m' = liveContent m ∧ m'.sigma = m.sigma ∧ ∀ {q : Nat} (Z : Fin q → Fin p → Fl K), m'.predictX Z = m.predictX Z := by
  unfold BModel.predict at h
  split at h
  · cases h
  · next g ts e =>
    injection h with h; injection h with h1 h2; subst h2
    have key : ∀ {l l' : List (Tree K n p)} {g : Fin n → K}, BModel.predictTrees l = .ok (g, l') →
        l'.map (fun t => t.nodes.map (nodeView t.heap)) = l.map (fun t => t.nodes.map (nodeView t.heap)) ∧
        ∀ {q : Nat} (Z : Fin q → Fin p → Fl K) (r : Fin q), l'.map (fun t => t.predictX Z r) = l.map (fun t => t.predictX Z r) := by
      intro l
      induction l with
      | nil => intro l' g h; injection h with h; injection h with h1 h2; subst h2; exact ⟨rfl, fun _ _ => rfl⟩
      | cons t l ih =>
        intro l' g h
        unfold BModel.predictTrees at h
        split at h
        · cases h
        · cases h
        · cases h
        · next g t1 e1 =>
          split at h
          · cases h
          · next g2 ts1 e2 =>
            injection h with h; injection h with h1 h2; subst h2
            obtain ⟨a1, a2⟩ := ih e2
            obtain ⟨b1, b2, -⟩ := predict_cases e1
            have hv : t1.nodes.map (nodeView t1.heap) = t.nodes.map (nodeView t.heap) := by rw [b1, b2]
            exact ⟨by rw [List.map_cons, List.map_cons, a1, hv], fun Z r => by rw [List.map_cons, List.map_cons, a2, predictX_view t t1 hv Z]⟩
    obtain ⟨a1, a2⟩ := key e
    refine ⟨a1, rfl, fun Z => ?_⟩
    funext r
    show (List.map _ ts).sum = _
    rw [a2 Z r]
    rfl

/-- `samples` from any model whose trees are reachable and whose targets and predictions fit together; see C44. -/
theorem samples_from (hX : NoNan X) {m m' : BModel K n p} {y : Fin n → K} (hT : ∀ t ∈ m.trees, ReachableTree X t) (hI : ModelInv False X y m) {c : SampleParams K} (hp1 : c.pGrow ≠ 0) (hp2 : c.pPrune ≠ 0) {nSamples nBurn : Nat}
    {r r' : Rand K} {ch : Chain K n} (h : m.samples c nSamples nBurn r = .ok (ch, m', r')) :
    DrawRun c.pGrow c.pPrune (m, r) (nBurn + nSamples) (m', r') ∧ ch.model.length = (storedTimes nSamples c.thin).length ∧
    ch.acceptance.length = (if c.storeAcceptance then ch.model.length else 0) ∧ ch.predictions.length = (if c.storePredictions then ch.model.length else 0) ∧
    ∀ j t : Nat, (storedTimes nSamples c.thin)[j]? = some t → ∃ s m0 r0 mus M rM, ch.model[j]? = some s ∧
      DrawRun c.pGrow c.pPrune (m, r) (nBurn + t) (m0, r0) ∧ m0.sweep c.pGrow c.pPrune r0 = .ok (mus, M, rM) ∧
      storedContent m' s = liveContent M ∧ m'.storedSigma s = M.sigma ∧ (∀ {q : Nat} (Z : Fin q → Fin p → Fl K), m'.storedPredictX s Z = M.predictX Z) ∧
      (c.storeAcceptance = true → ch.acceptance[j]? = some (BModel.acceptance mus)) ∧
      (c.storePredictions = true → ch.predictions[j]? = some (fun row => sumValue M.trees row)) := by
  unfold BModel.samples at h
  split at h
  · cases h
  · next m1 r1 e1 =>
    split at h
    · cases h
    · next hth =>
      have d1 := BModel.burn_run e1
      obtain ⟨i1, i2, i3, i4, i5⟩ := BModel.sampleLoop_spec (b := nBurn) (ss := 0) (one_div_ne_zero hth) d1 h
      rw [BModel.times_eq] at i2 i3 i4 i5
      refine ⟨d1.trans i1, i2, by rw [i3, i2], by rw [i4, i2], ?_⟩
      intro j t hj
      have hlt : j < ch.model.length := by
        rw [i2]; exact (List.getElem?_eq_some_iff.1 hj).1
      obtain ⟨m0, r0, mus, ma, ra, M, s1, s2, s3, s4, s5, s6, s7, s8⟩ := i5 j t ch.model[j] hj (List.getElem?_eq_getElem hlt)
      have hMrun : ModelRun c.pGrow c.pPrune m (nBurn + t + 1) ma := (DrawRun.sweep s1 s2).run
      have hra : ∀ t ∈ ma.trees, ReachableTree X t :=
        ((untouched_rel hX).run hX hp1 hp2 hT hMrun).1
      have hrM : ∀ t ∈ M.trees, ReachableTree X t := by
        rcases s3 with ⟨f, e, -⟩ | ⟨rfl, -⟩
        · exact predictModel_reach hra e
        · exact hra
      have hrc : ∀ t ∈ M.deepCopy.2.trees, ReachableTree X t := by
        intro t ht
        obtain ⟨t0, ht0, rfl⟩ := List.mem_map.1 ht
        exact (hrM t0 ht0).copy
      obtain ⟨-, hu⟩ := (untouched_rel hX).run hX hp1 hp2 hrc s8.run
      obtain ⟨c1, c2⟩ := stored_core hX hrM hu
      have hcont : liveContent M = liveContent ma ∧ M.sigma = ma.sigma ∧ ∀ {q : Nat} (Z : Fin q → Fin p → Fl K), M.predictX Z = ma.predictX Z := by
        rcases s3 with ⟨f, e, -⟩ | ⟨rfl, -⟩
        · exact predict_content e
        · exact ⟨rfl, rfl, fun _ => rfl⟩
      refine ⟨ch.model[j], m0, r0, mus, ma, ra, List.getElem?_eq_getElem hlt, s1, s2, ?_, ?_, ?_, ?_, ?_⟩
      · rw [s4, c1, hcont.1]
      · rw [s4]; exact hcont.2.1
      · intro q Z; rw [s4, c2 Z, hcont.2.2 Z]
      · intro hc; rw [s5, if_pos hc]
      · intro hc
        rcases s3 with ⟨f, e, hf⟩ | ⟨-, hf⟩
        · obtain ⟨m9, e9, -⟩ := (hI.run hX hp1 hp2 hMrun).predict hX
          rw [e] at e9; injection e9 with e9; injection e9 with e9 _
          rw [hf, e9]
        · rw [hf, hc] at s6; cases s6

/-- C44: when `samples` returns, one sample is stored for every multiple of `1/thin` below `n_samples`, and as many acceptance rates and predictions if these are wanted.
Sample number `j` shows (at the end, and by C46 always) the model `M` after exactly `n_burn + s_j + 1` sweeps, the acceptance rate is that of the last of these sweeps,
the stored prediction is that of `M`. In between there are `n_burn + n_samples` sweeps altogether, fed with the random draws in order. -/
theorem C44_samples (hX : NoNan X) {m m' : BModel K n p} (hm : ReachableModel X m) {c : SampleParams K} (hp1 : c.pGrow ≠ 0) (hp2 : c.pPrune ≠ 0) {nSamples nBurn : Nat}
    {r r' : Rand K} {ch : Chain K n} (h : m.samples c nSamples nBurn r = .ok (ch, m', r')) :
    DrawRun c.pGrow c.pPrune (m, r) (nBurn + nSamples) (m', r') ∧ ch.model.length = (storedTimes nSamples c.thin).length ∧
    ch.acceptance.length = (if c.storeAcceptance then ch.model.length else 0) ∧ ch.predictions.length = (if c.storePredictions then ch.model.length else 0) ∧
    ∀ j t : Nat, (storedTimes nSamples c.thin)[j]? = some t → ∃ s m0 r0 mus M rM, ch.model[j]? = some s ∧
      DrawRun c.pGrow c.pPrune (m, r) (nBurn + t) (m0, r0) ∧ m0.sweep c.pGrow c.pPrune r0 = .ok (mus, M, rM) ∧
      storedContent m' s = liveContent M ∧ m'.storedSigma s = M.sigma ∧ (∀ {q : Nat} (Z : Fin q → Fin p → Fl K), m'.storedPredictX s Z = M.predictX Z) ∧
      (c.storeAcceptance = true → ch.acceptance[j]? = some (BModel.acceptance mus)) ∧
      (c.storePredictions = true → ch.predictions[j]? = some (fun row => sumValue M.trees row)) := by
  have hT := model_trees_reachable hX hm
  obtain ⟨y0, pg, pp, mm, kk, q1, q2, q3, q4⟩ := hm
  obtain ⟨y, -, hI, -⟩ := reachable_model_inv (N := False) hX (fun h => h.elim) q1 q2 q3 q4
  exact samples_from hX hT hI hp1 hp2 h

/-- What `samples` stores is counted by `storedTimes` (see C44). -/
theorem C43_samples {m m' : BModel K n p} {c : SampleParams K} {nSamples nBurn : Nat} {r r' : Rand K} {ch : Chain K n}
    (h : m.samples c nSamples nBurn r = .ok (ch, m', r')) : ch.model.length = (storedTimes nSamples c.thin).length := by
  unfold BModel.samples at h
  split at h
  · cases h
  · next m1 r1 e1 =>
    split at h
    · cases h
    · next hth =>
      obtain ⟨-, i2, -⟩ := BModel.sampleLoop_spec (b := nBurn) (ss := 0) (one_div_ne_zero hth) (BModel.burn_run e1) h
      rwa [BModel.times_eq] at i2

section ex
attribute [local instance] exFns

/-- Draws for several sweeps. -/
def exRands : Rand ℚ := ⟨[.grow, .grow, .prune, .prune, .prune, .prune, .prune, .prune, .prune, .prune], [0, 0, 0, 0, 0, 1, 0, 0, 0, 0, 0, 0, 0, 0],
  [0, 1/2, 2, 3, 4, 5, 6, 7, 8, 9], [1, 2, -1, 1, 2, 3, 4, 5, 6, 7, 8, 9, 1, 2, 3, 4, 5, 6, 7, 8], [2, 3, 4, 5, 6]⟩

/-- C43, C44, the example: burn-in 1, 3 samples with `thin = 1/2` (the first and the third are stored) and with `thin = 2/3` (only the first is). -/
theorem exSamples : (match exModel0 with
    | .ok m =>
      match m.samples ⟨1/2, 1/2, 1/2, true, true⟩ 3 1 exRands, m.samples ⟨1/2, 1/2, 2/3, true, false⟩ 3 1 exRands with
      | .ok (ch, m', _), .ok (ch2, _) => decide (ch.model.length = 2 ∧ ch.acceptance = [some 0, some 0] ∧ ch.predictions.length = 2 ∧ ch2.model.length = 1 ∧
          ch2.acceptance = [] ∧ ch2.predictions.length = 1 ∧ (ch.model.map (fun s => m'.storedPredictX s exX 0)) = ch.predictions.map (fun f => f 0) ∧
          (ch.predictions.map (fun f => f 0)).Nodup ∧ (ch.model.map (fun s => (m'.storedSigma s).current)) = [1/3, 1/5])
      | _, _ => false
    | .error _ => false) = true := by
  decide +kernel

end ex

end Bart
