import Verif.Props.SklearnProps

/-! `run_models` and `from_extract`: C54, C55; examples for C48 - C55. -/

set_option linter.unusedSectionVars false

namespace Bart
open Spec
variable {K : Type} [Field K] [LinearOrder K] [IsStrictOrderedRing K] {n p : Nat} {X : Fin n → Fin p → Fl K}

/-! ### C54 -/

theorem groupLoop_inner {α : Type} {k : Nat} (hk : 0 < k) (l : List α) : ∀ (i : Nat) (rest : List α) (G : List (List α)) (g : List α), (∀ m < l.length, (i + m) % k ≠ 0) →
    groupLoop k i (l ++ rest) (G ++ [g]) = groupLoop k (i + l.length) rest (G ++ [g ++ l]) := by
  induction l with
  | nil => intro i rest G g _; simp
  | cons x l ih =>
    intro i rest G g h
    have h0 : i % k ≠ 0 := by simpa using h 0 (by simp)
    have e := ih (i + 1) rest G (g ++ [x]) (fun m hm => by
      have := h (m + 1) (by simpa using hm)
      rwa [show i + 1 + m = i + (m + 1) by omega])
    rw [List.cons_append, groupLoop]
    simp only [if_neg hk.ne', if_neg h0, List.getLast?_append, List.getLast?_singleton, Option.some_or, List.dropLast_concat]
    rw [e]
    have e1 : i + 1 + l.length = i + (x :: l).length := by simp only [List.length_cons]; omega
    rw [e1, List.append_assoc]
    rfl

theorem groupLoop_block {α : Type} {k : Nat} (hk : 0 < k) {b : List α} (hb : b.length = k) {i : Nat} (hi : i % k = 0) (rest : List α) (G : List (List α)) :
    groupLoop k i (b ++ rest) G = groupLoop k (i + k) rest (G ++ [b]) := by
  cases b with
  | nil => simp at hb; omega
  | cons x l =>
    rw [List.cons_append, groupLoop]
    simp only [if_neg hk.ne', if_pos hi, List.getLast?_append, List.getLast?_singleton, Option.some_or, List.dropLast_concat]
    rw [groupLoop_inner hk l (i + 1) rest G ([] ++ [x])]
    · simp only [List.length_cons] at hb
      congr 1
      omega
    · intro m hm h
      simp only [List.length_cons] at hb
      have hd : k ∣ i := Nat.dvd_of_mod_eq_zero hi
      have hd' : k ∣ i + 1 + m := Nat.dvd_of_mod_eq_zero h
      have : k ∣ 1 + m := by
        have := (Nat.dvd_add_right hd).1 (by rwa [Nat.add_assoc] at hd')
        exact this
      have := Nat.le_of_dvd (by omega) this
      omega

/-- C54, the grouping: blocks of `n_chains` chains each are found again. -/
theorem C54_groups {α : Type} {k : Nat} (hk : 0 < k) (blocks : List (List α)) (h : ∀ b ∈ blocks, b.length = k) : groupChains k blocks.flatten = .ok blocks := by
  have key : ∀ (blocks : List (List α)) (i : Nat) (G : List (List α)), (∀ b ∈ blocks, b.length = k) → i % k = 0 → groupLoop k i blocks.flatten G = .ok (G ++ blocks) := by
    intro blocks
    induction blocks with
    | nil => intro i G _ _; simp [groupLoop]
    | cons b bs ih =>
      intro i G h hi
      rw [List.flatten_cons, groupLoop_block hk (h b (by simp)) hi, ih (i + k) (G ++ [b]) (fun b hb => h b (by simp [hb])) (by simpa using hi)]
      simp
  have := key blocks 0 [] h (Nat.zero_mod k)
  simpa [groupChains] using this

section runs
variable [MathFns K] [FloorRing K]

theorem runAll_blocks {s : SkModel K p} {rs : Nat → Nat → Rand K} : ∀ {ds : List (DataSet K p)} {i : Nat} {chains : List (ChainOut K p)}, runAll s rs i ds = .ok chains →
    ∃ blocks : List (List (ChainOut K p)), chains = blocks.flatten ∧ blocks.length = ds.length ∧ (∀ b ∈ blocks, b.length = s.nChains) ∧
      ∀ (j : Nat) (d : DataSet K p), ds[j]? = some d → ∃ os, blocks[j]? = some os ∧
        List.Forall₂ (fun r o => s.runChain d.X d.y r = .ok o) ((List.range s.nChains).map (rs (i + j))) os := by
  intro ds
  induction ds with
  | nil => intro i chains h; injection h with h; subst h; exact ⟨[], rfl, rfl, by simp, by simp⟩
  | cons d ds ih =>
    intro i chains h
    unfold runAll at h
    split at h
    · cases h
    · next os e1 =>
      split at h
      · cases h
      · next rest e2 =>
        injection h with h; subst h
        obtain ⟨blocks, h1, h2, h3, h4⟩ := ih e2
        have hos := runChains_spec e1
        refine ⟨os :: blocks, by simp [h1], by simp [h2], ?_, ?_⟩
        · intro b hb
          rcases List.mem_cons.1 hb with rfl | hb
          · have := hos.length_eq; simpa using this.symm
          · exact h3 b hb
        · intro j d' hj
          cases j with
          | zero =>
            simp only [List.getElem?_cons_zero, Option.some.injEq] at hj
            subst hj
            exact ⟨os, by simp, hos⟩
          | succ j =>
            simp only [List.getElem?_cons_succ] at hj
            obtain ⟨os', k1, k2⟩ := h4 j d' hj
            exact ⟨os', by simpa using k1, by rwa [show i + (j + 1) = i + 1 + j by omega]⟩

/-- C54: `run_models` pairs data set number `i` with exactly the `n_chains` chains that were run on it. -/
theorem C54_run_models {s : SkModel K p} (hk : 0 < s.nChains) {ds : List (DataSet K p)} {rs : Nat → Nat → Rand K} {res} (h : runModels s ds rs = .ok res) :
    ∃ groups : List (List (ChainOut K p)), fromExtracts s (groups.zip ds) = .ok res ∧ groups.length = ds.length ∧
      ∀ (i : Nat) (d : DataSet K p), ds[i]? = some d → ∃ os, groups[i]? = some os ∧ os.length = s.nChains ∧
        List.Forall₂ (fun r o => s.runChain d.X d.y r = .ok o) ((List.range s.nChains).map (rs i)) os := by
  unfold runModels at h
  split at h
  · cases h
  · next chains e =>
    obtain ⟨blocks, h1, h2, h3, h4⟩ := runAll_blocks e
    unfold convertChainsModels at h
    rw [h1, C54_groups hk blocks h3] at h
    refine ⟨blocks, h, h2, ?_⟩
    intro i d hi
    obtain ⟨os, k1, k2⟩ := h4 i d hi
    rw [Nat.zero_add] at k2
    exact ⟨os, k1, h3 os (List.mem_of_getElem? k1), k2⟩

end runs

/-! ### C55 -/

/-- C55, what `from_extract` does: the returned model is over the new data and has the samples that `self` had before; `self` gets the samples of the extract. -/
theorem C55_from_extract_partial {s s' new : SkModel K p} {extract : List (ChainOut K p)} {y : Fin n → K} (h : s.fromExtract extract X y = .ok (s', new)) :
    ∃ c d, combineChains extract = .ok c ∧ SkModel.convertData X y = .ok d ∧ new = { s with data := some ⟨n, d⟩ } ∧ s' = { s with samples := some c } := by
  unfold SkModel.fromExtract at h
  simp only at h
  split at h
  · cases h
  · next c e1 =>
    split at h
    · cases h
    · next d e2 => injection h with h; injection h with h1 h2; exact ⟨c, d, e1, e2, h2.symm, h1.symm⟩

/-- C55 is false of every model that has not been fitted: the returned model has no samples and `self` has changed. -/
theorem C55_refuted {s s' new : SkModel K p} {extract : List (ChainOut K p)} {y : Fin n → K} (h : s.fromExtract extract X y = .ok (s', new)) (hs : s.samples = none) :
    new.samples = none ∧ s' ≠ s ∧ ∀ Z, new.predict (some Z) = .error .typeError := by
  obtain ⟨c, d, -, -, rfl, rfl⟩ := C55_from_extract_partial h
  refine ⟨hs, fun hc => ?_, fun Z => ?_⟩
  · have := congrArg SkModel.samples hc
    simp only [hs] at this
    cases this
  · unfold SkModel.predict SkModel.outOfSamplePredict
    simp only [hs]

/-- C55 for `run_models`: the first returned model has the samples that the given model had before; model number `i + 1` has the samples of the chains run on data set number `i`;
the samples of the last data set end up in the given model. -/
theorem C55_shifted_partial : ∀ {l : List (List (ChainOut K p) × DataSet K p)} {s s' : SkModel K p} {news : List (SkModel K p)}, fromExtracts s l = .ok (s', news) →
    news.length = l.length ∧ (∀ new, news[0]? = some new → new.samples = s.samples) ∧
    (∀ i os d new, l[i]? = some (os, d) → news[i + 1]? = some new → ∃ c, combineChains os = .ok c ∧ new.samples = some c) ∧
    ∀ os d, l.getLast? = some (os, d) → ∃ c, combineChains os = .ok c ∧ s'.samples = some c := by
  intro l
  induction l with
  | nil => intro s s' news h; injection h with h; injection h with h1 h2; subst h1 h2; simp
  | cons a l ih =>
    obtain ⟨chains, d⟩ := a
    intro s s' news h
    unfold fromExtracts at h
    split at h
    · cases h
    · next s1 new e1 =>
      split at h
      · cases h
      · next s2 news' e2 =>
        injection h with h; injection h with h1 h2; subst h1 h2
        obtain ⟨c, dd, f1, f2, f3, f4⟩ := C55_from_extract_partial e1
        obtain ⟨i1, i2, i3, i4⟩ := ih e2
        refine ⟨by simp [i1], ?_, ?_, ?_⟩
        · intro new' h; simp only [List.getElem?_cons_zero, Option.some.injEq] at h; subst h; rw [f3]
        · intro i os d' new' hi hn
          simp only [List.getElem?_cons_succ] at hn
          cases i with
          | zero =>
            simp only [List.getElem?_cons_zero, Option.some.injEq, Prod.mk.injEq] at hi
            obtain ⟨rfl, rfl⟩ := hi
            exact ⟨c, f1, by rw [i2 new' hn, f4]⟩
          | succ i =>
            simp only [List.getElem?_cons_succ] at hi
            exact i3 i os d' new' hi hn
        · intro os d' hl
          cases l with
          | nil =>
            simp only [List.getLast?_singleton, Option.some.injEq, Prod.mk.injEq] at hl
            obtain ⟨rfl, rfl⟩ := hl
            injection e2 with e2; injection e2 with e2 _; subst e2
            exact ⟨c, f1, by rw [f4]⟩
          | cons b l =>
            rw [List.getLast?_cons_cons] at hl
            exact i4 os d' hl

/-! ### examples -/

section ex
attribute [local instance] exFns

/-- Two trees, two chains, three samples of which the first and the third are stored. -/
def exSk (store : Bool) : SkModel ℚ 1 := ⟨2, 2, 1, 1, 3, 1, 1/2, 1/2, 1, store, true, 1/2, 1/2, none, none, none, none⟩

/-- Draws for the first chain: both trees are grown in the first sweep, afterwards everything is rejected. -/
def exRands1 : Rand ℚ := { exRands with uniforms := [-100, -100, 20, 30, 40, 50, 60, 70, 80, 90] }

/-- Draws for the second chain. -/
def exRands2 : Rand ℚ := { exRands1 with normals := [2, 1, 1, 3, -2, 3, 1, 5, 2, 7, 1, 9, 4, 2, 3, 4, 5, 6, 7, 8] }

def exRs : Nat → Rand ℚ := fun i => if i = 0 then exRands1 else exRands2

/-- The fit of the example. -/
def exFit (store : Bool) : Except PyErr (SkModel ℚ 1) := (exSk store).fit exX exY exRs

/-- C48, C49, C51, the example: four samples with four different predictions in the first row; the prediction is their mean on the scale from 0 to 2, and `predict()` is
the same. -/
example : (match exFit true with
    | .ok s =>
      match s.samples, s.predict none, s.predict (some ⟨3, exX⟩) with
      | some c, .ok f, .ok g => decide (c.models.length = 4 ∧ c.predictions.length = 4 ∧ c.acceptance.length = 4 ∧ f = g ∧ f.length = 3 ∧
          (c.models.map (fun x => x.predictX exX 0)).Nodup ∧ f[0]? = some (mean (c.models.map (fun x => originalScale 0 2 (x.predictX exX 0)))))
      | _, _, _ => false
    | .error _ => false) = true := by
  decide +kernel

/-- C52, the example: without stored predictions the fit works, `predict()` does not, `predict(X)` does. -/
example : (match exFit false with
    | .ok s => decide (s.predict none = .error .valueError ∧ (s.predict (some ⟨3, exX⟩)).isOk = true)
    | .error _ => false) = true := by
  decide +kernel

/-- C98, the example: with and without stored predictions `fit_predict` gives the same, non-constant result. -/
example : (match (exSk false).fitPredict exX exY exRs, (exSk true).fitPredict exX exY exRs with
    | .ok (f, _), .ok (g, _) => decide (f = g ∧ f.length = 3 ∧ f[0]? ≠ f[2]?)
    | _, _ => false) = true := by
  decide +kernel

/-- C54, C55, the example: two data sets, the second with another target. -/
example : (match runModels (exSk true) [⟨3, exX, exY⟩, ⟨3, exX, fun r => if r = 0 then 5 else 0⟩] (fun i j => exRs (i + j)) with
    | .ok (s', [m1, m2]) => m1.samples.isNone && m2.samples.isSome && s'.samples.isSome && decide (m2.predict (some ⟨3, exX⟩) ≠ s'.predict (some ⟨3, exX⟩))
    | _ => false) = true := by
  decide +kernel

end ex

end Bart
