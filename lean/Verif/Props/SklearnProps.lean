import Verif.Spec.Sklearn
import Verif.Props.SamplesProps
import Verif.Props.DataProps
import Verif.Model.RealFns
import Mathlib.Algebra.BigOperators.Group.List.Basic
import Mathlib.Algebra.Order.BigOperators.Group.List

/-! `SklearnModel`: C48 - C53. -/

set_option linter.unusedSectionVars false

namespace Bart
open Spec
variable {K : Type} [Field K] [LinearOrder K] [IsStrictOrderedRing K] {n p : Nat} {X : Fin n → Fin p → Fl K}

/-! ### lemmas -/

/-- What the data object of a fitted model knows about the target. -/
theorem convertData_spec {y : Fin n → K} {d : Data K n p} (h : SkModel.convertData X y = .ok d) :
    ∃ lo hi, (∃ r, y r = lo) ∧ (∃ r, y r = hi) ∧ (∀ r, lo ≤ y r ∧ y r ≤ hi) ∧ d.y.unnormalizedY = .ok y ∧ d.y.normalizingScale = .ok (hi - lo) ∧
      ∀ (m : Nat) (z : Fin m → K), d.y.unnormalizeY z = .ok (fun r => originalScale lo hi (z r)) := by
  unfold SkModel.convertData at h
  have hne : ∃ r1 r2, y r1 ≠ y r2 := by
    by_contra hc
    push Not at hc
    have h0 : 0 < n := by
      rcases Nat.eq_zero_or_pos n with rfl | h0
      · unfold Data.init Target.init Target.yMin at h
        simp at h
      · exact h0
    have := C09_constant_target (X := X) (mask := none) ⟨0, h0⟩ (fun r => hc r ⟨0, h0⟩)
    rw [h] at this; cases this
  obtain ⟨r1, r2, h12⟩ := hne
  obtain ⟨d', lo, hi, e, e1, e2, e3, e4, e5, e6⟩ := C10_unnormalise (X := X) (mask := none) r1 r2 h12
  rw [h] at e; injection e with e; subst e
  exact ⟨lo, hi, e2, e3, e4, e1, e5, e6⟩

theorem unnormalizeList_spec {d : Data K n p} {lo hi : K} (h : ∀ (m : Nat) (z : Fin m → K), d.y.unnormalizeY z = .ok (fun r => originalScale lo hi (z r))) (l : List K) :
    unnormalizeList d l = .ok (l.map (originalScale lo hi)) := by
  unfold unnormalizeList
  rw [h]
  simp only [Except.ok.injEq]
  apply List.ext_getElem?
  intro i
  by_cases hi : i < l.length <;> simp [List.getElem?_ofFn, hi]

theorem originalScale_affine (lo hi v : K) : originalScale lo hi v = (1/2 * (lo + hi)) + (hi - lo) * v := by unfold originalScale; ring

theorem mean_originalScale (lo hi : K) {l : List K} (hl : l ≠ []) : originalScale lo hi (mean l) = mean (l.map (originalScale lo hi)) := by
  have hsum : ∀ l : List K, (l.map (originalScale lo hi)).sum = (l.length : K) * (1/2 * (lo + hi)) + (hi - lo) * l.sum := by
    intro l
    induction l with
    | nil => simp
    | cons a l ih => simp only [List.map_cons, List.sum_cons, ih, originalScale_affine, List.length_cons, Nat.cast_add, Nat.cast_one]; ring
  have hne : (l.length : K) ≠ 0 := by
    have : l.length ≠ 0 := by simpa using hl
    exact_mod_cast this
  unfold mean
  rw [hsum, List.length_map, originalScale_affine]
  field_simp

theorem mean_between {l : List K} (hl : l ≠ []) : (∃ a ∈ l, a ≤ mean l) ∧ ∃ b ∈ l, mean l ≤ b := by
  have hpos : (0 : K) < l.length := by
    have : 0 < l.length := List.length_pos_iff.2 hl
    exact_mod_cast this
  have hm : mean l * l.length = l.sum := by unfold mean; field_simp
  constructor
  · by_contra h
    push Not at h
    have : (l.map (fun _ => mean l)).sum < (l.map id).sum := List.sum_lt_sum_of_ne_nil hl _ _ (fun a ha => h a ha)
    simp only [List.map_const', List.sum_replicate, List.map_id, nsmul_eq_mul] at this
    rw [mul_comm, hm] at this
    exact lt_irrefl _ this
  · by_contra h
    push Not at h
    have : (l.map id).sum < (l.map (fun _ => mean l)).sum := List.sum_lt_sum_of_ne_nil hl _ _ (fun a ha => h a ha)
    simp only [List.map_const', List.sum_replicate, List.map_id, nsmul_eq_mul] at this
    rw [mul_comm, hm] at this
    exact lt_irrefl _ this

theorem meanRows_spec {α : Type} (l : List α) (hl : l ≠ []) {q : Nat} (f : α → Fin q → K) :
    meanRows (l.map (fun x => List.ofFn (f x))) = .ok (List.ofFn (fun r => mean (l.map (fun x => f x r)))) := by
  cases l with
  | nil => exact absurd rfl hl
  | cons a l =>
    unfold meanRows
    simp only [List.map_cons, List.length_ofFn, Except.ok.injEq]
    apply List.ext_getElem?
    intro i
    by_cases hi : i < q
    · simp only [List.getElem?_map, List.getElem?_range hi, Option.map_some, List.getElem?_ofFn, hi, dite_true, Option.some.injEq, mean, List.map_map]
      congr 1
      · congr 1
        · simp [List.getD_eq_getElem?_getD, List.getElem?_ofFn, hi]
      · simp
    · simp [List.getElem?_ofFn, hi]

/-! ### C48 -/

/-- C48: the prediction of a model with samples is, row by row, the mean of the predictions of the samples on the original scale (`lo` and `hi` are the smallest and the largest
entry of the training target), hence it is neither below all nor above all of them. -/
theorem C48_predict {s : SkModel K p} {y : Fin n → K} {d : Data K n p} (hd : SkModel.convertData X y = .ok d) (hs : s.data = some ⟨n, d⟩) {c : Combined K p}
    (hc : s.samples = some c) (hne : c.models ≠ []) {lo hi : K} (hlo : IsLeast (Set.range y) lo) (hhi : IsGreatest (Set.range y) hi) {q : Nat} (Z : Fin q → Fin p → Fl K) :
    ∃ f : Fin q → K, s.predict (some ⟨q, Z⟩) = .ok (List.ofFn f) ∧ ∀ r, f r = mean (c.models.map (fun x => originalScale lo hi (x.predictX Z r))) ∧
      (∃ a ∈ c.models, originalScale lo hi (a.predictX Z r) ≤ f r) ∧ ∃ b ∈ c.models, f r ≤ originalScale lo hi (b.predictX Z r) := by
  obtain ⟨lo', hi', ⟨r1, h1⟩, ⟨r2, h2⟩, h3, -, -, h4⟩ := convertData_spec hd
  have e1 : lo' = lo := le_antisymm (by obtain ⟨⟨r, hr⟩, -⟩ := hlo; rw [← hr]; exact (h3 r).1) (by rw [← h1]; exact hlo.2 ⟨r1, rfl⟩)
  have e2 : hi' = hi := le_antisymm (by rw [← h2]; exact hhi.2 ⟨r2, rfl⟩) (by obtain ⟨⟨r, hr⟩, -⟩ := hhi; rw [← hr]; exact (h3 r).2)
  subst e1 e2
  refine ⟨fun r => mean (c.models.map (fun x => originalScale lo' hi' (x.predictX Z r))), ?_, fun r => ⟨rfl, ?_⟩⟩
  · unfold SkModel.predict SkModel.outOfSamplePredict
    simp only [hs, hc]
    rw [meanRows_spec c.models hne (fun x => x.predictX Z)]
    simp only
    rw [unnormalizeList_spec h4, List.map_ofFn]
    congr 2
    funext r
    rw [Function.comp, mean_originalScale _ _ (by simpa using hne), List.map_map]
    rfl
  · obtain ⟨⟨a, ha, ha'⟩, ⟨b, hb, hb'⟩⟩ := mean_between (l := c.models.map (fun x => originalScale lo' hi' (x.predictX Z r))) (by simpa using hne)
    obtain ⟨x, hx, rfl⟩ := List.mem_map.1 ha
    obtain ⟨z, hz, rfl⟩ := List.mem_map.1 hb
    exact ⟨⟨x, hx, ha'⟩, ⟨z, hz, hb'⟩⟩

/-! ### C51 -/

theorem concatRows_ok {ls : List (List (List K))} {rows : List (List K)} (h : concatRows ls = .ok rows) : rows = ls.flatten := by
  unfold concatRows at h
  split at h
  · next e => injection h with h; rw [e, h]
  · next row rows' e =>
    split at h
    · injection h with h; rw [e, h]
    · cases h

/-- C51: `_combine_chains` puts together everything of the first chain, then everything of the second, and so on. -/
theorem C51_combine {extract : List (ChainOut K p)} {c : Combined K p} (h : combineChains extract = .ok c) :
    c.models = extract.flatMap (fun o => o.chain.model.map (fun x => ⟨o.n, o.live, x⟩)) ∧ c.acceptance = extract.flatMap (fun o => o.chain.acceptance) ∧
    c.predictions = extract.flatMap (fun o => o.chain.predictions.map List.ofFn) ∧
    c.models.length = (extract.map (fun o => o.chain.model.length)).sum ∧ c.acceptance.length = (extract.map (fun o => o.chain.acceptance.length)).sum ∧
    c.predictions.length = (extract.map (fun o => o.chain.predictions.length)).sum := by
  unfold combineChains at h
  split at h
  · cases h
  · next e =>
    split at h
    · cases h
    · next rows hr =>
      injection h with h; subst h
      have hr := concatRows_ok hr
      subst hr
      refine ⟨rfl, rfl, rfl, ?_, ?_, ?_⟩
      · simp [List.length_flatten, ChainOut.models, Function.comp_def]
      · simp [List.length_flatten, Function.comp_def]
      · simp [List.length_flatten, ChainOut.predictions, Function.comp_def]

theorem concatRows_flat {ls : List (List (List K))} {q : Nat} (h : ∀ l ∈ ls, ∀ r ∈ l, r.length = q) (h' : (∀ l ∈ ls, l = []) ∨ ∀ l ∈ ls, l ≠ []) : concatRows ls = .ok ls.flatten := by
  unfold concatRows
  split
  · next e => rw [e]
  · next row rows e =>
    have hmem : ∀ r ∈ ls.flatten, r.length = q := by
      intro r hr
      obtain ⟨l, hl, hr⟩ := List.mem_flatten.1 hr
      exact h l hl r hr
    rcases h' with h' | h'
    · have : ls.flatten = [] := by simpa using h'
      rw [this] at e; cases e
    · rw [if_pos, e]
      rw [e] at hmem
      simp only [Bool.and_eq_true, List.all_eq_true, Bool.not_eq_true', List.isEmpty_eq_false_iff, beq_iff_eq]
      exact ⟨h', fun r hr => (hmem r hr).trans (hmem row (by simp)).symm⟩

section fit
variable [MathFns K] [FloorRing K]

theorem constructModel_spec {s : SkModel K p} {y : Fin n → K} {d : Data K n p} {m : BModel K n p} (h : s.constructModel X y = .ok (d, m)) :
    0 < n ∧ 0 < p ∧ SkModel.convertData X y = .ok d ∧ FreshModel X y m ∧ m.data = d ∧ m.nTrees = s.nTrees ∧ m.alpha = s.alpha ∧ m.beta = s.beta ∧ m.k = 2 ∧
      m.sigma.alpha = s.sigmaA ∧ m.sigma.beta = s.sigmaB ∧ m.sigma.current = 1 ∧ d.y.normalizingScale = .ok m.sigma.scalingFactor := by
  unfold SkModel.constructModel at h
  split at h
  · cases h
  · next h0 =>
    push Not at h0
    split at h
    · cases h
    · next d' e1 =>
      split at h
      · cases h
      · next c e2 =>
        split at h
        · cases h
        · next m' e3 =>
          injection h with h; injection h with h1 h2; subst h1 h2
          obtain ⟨m2, -, -, e4, -, -, q1, q2, q3, q4, q5, q6, -⟩ := construct_inv (N := False) (X := X) (by simp) e1
            { alpha := s.sigmaA, beta := s.sigmaB, current := 1, scalingFactor := c } s.nTrees s.alpha s.beta 2
          rw [e3] at e4; injection e4 with e4; subst e4
          exact ⟨Nat.pos_of_ne_zero h0.1, Nat.pos_of_ne_zero h0.2, e1, ⟨true, _, _, _, _, _, _, e1, e3⟩, q1, q3, q4, q5, q6, by rw [q2], by rw [q2], by rw [q2], by rw [q2, e2]⟩

theorem runChain_spec {s : SkModel K p} {y : Fin n → K} {r : Rand K} {o : ChainOut K p} (h : s.runChain X y r = .ok o) :
    ∃ d m m' ch r', s.constructModel X y = .ok (d, m) ∧ m.samples s.sampleParams s.nSamples s.nBurn r = .ok (ch, m', r') ∧ o = ⟨n, m', ch⟩ := by
  unfold SkModel.runChain at h
  split at h
  · cases h
  · next d m e =>
    split at h
    · cases h
    · next ch m' r' e' => injection h with h; exact ⟨d, m, m', ch, r', e, e', h.symm⟩

theorem runChains_spec {s : SkModel K p} {y : Fin n → K} : ∀ {rs : List (Rand K)} {os : List (ChainOut K p)}, s.runChains X y rs = .ok os →
    List.Forall₂ (fun r o => s.runChain X y r = .ok o) rs os := by
  intro rs
  induction rs with
  | nil => intro os h; injection h with h; subst h; exact .nil
  | cons r rs ih =>
    intro os h
    unfold SkModel.runChains at h
    split at h
    · cases h
    · next o e =>
      split at h
      · cases h
      · next os' e' => injection h with h; subst h; exact .cons e (ih e')

theorem fit_spec {s s' : SkModel K p} {y : Fin n → K} {rs : Nat → Rand K} (h : s.fit X y rs = .ok s') :
    ∃ d m os c, s.constructModel X y = .ok (d, m) ∧ List.Forall₂ (fun r o => s.runChain X y r = .ok o) ((List.range s.nChains).map rs) os ∧ combineChains os = .ok c ∧
      s' = { s with data := some ⟨n, d⟩, model := some ⟨n, m⟩, samples := some c, extract := some os } := by
  unfold SkModel.fit at h
  split at h
  · cases h
  · next d m e =>
    split at h
    · cases h
    · next os e1 =>
      split at h
      · cases h
      · next c e2 => injection h with h; exact ⟨d, m, os, c, e, runChains_spec e1, e2, h.symm⟩

/-- The chains of a fit. -/
theorem chain_facts (hX : NoNan X) {s : SkModel K p} (hp1 : s.pGrow ≠ 0) (hp2 : s.pPrune ≠ 0) {y : Fin n → K} {r : Rand K} {o : ChainOut K p} (h : s.runChain X y r = .ok o) :
    o.n = n ∧ o.chain.model.length = (storedTimes s.nSamples s.thin).length ∧ o.chain.acceptance.length = (if s.storeAcceptance then o.chain.model.length else 0) ∧
      o.chain.predictions.length = (if s.storePredictions then o.chain.model.length else 0) := by
  obtain ⟨d, m, m', ch, r', e1, e2, rfl⟩ := runChain_spec h
  obtain ⟨-, -, -, hf, -⟩ := constructModel_spec e1
  obtain ⟨-, h2, h3, h4, -⟩ := C44_samples hX (c := s.sampleParams) ⟨y, s.pGrow, s.pPrune, m, 0, hp1, hp2, hf, .nil m⟩ hp1 hp2 e2
  exact ⟨rfl, h2, h3, h4⟩

/-- Chains with equally many samples can be put together. -/
theorem combine_ok {os : List (ChainOut K p)} (hne : os ≠ []) {T : Nat} {sa sp : Bool}
    (hf : ∀ o ∈ os, o.n = n ∧ o.chain.model.length = T ∧ o.chain.acceptance.length = (if sa then o.chain.model.length else 0) ∧
      o.chain.predictions.length = (if sp then o.chain.model.length else 0)) :
    ∃ c, combineChains os = .ok c ∧ c.models.length = os.length * T ∧
      c.acceptance.length = (if sa then c.models.length else 0) ∧ c.predictions.length = (if sp then c.models.length else 0) := by
  have hcat : concatRows (os.map ChainOut.predictions) = .ok (os.map ChainOut.predictions).flatten := by
    refine concatRows_flat (q := n) ?_ ?_
    · intro l hl r hr
      obtain ⟨o, ho, rfl⟩ := List.mem_map.1 hl
      obtain ⟨f, -, rfl⟩ := List.mem_map.1 hr
      rw [List.length_ofFn]; exact (hf o ho).1
    · have : ∀ o ∈ os, o.chain.predictions.length = (if sp then T else 0) := by
        intro o ho
        obtain ⟨-, h1, -, h3⟩ := hf o ho
        rw [h3, h1]
      by_cases hz : (if sp then T else 0) = 0
      · left
        intro l hl
        obtain ⟨o, ho, rfl⟩ := List.mem_map.1 hl
        have := (this o ho).trans hz
        simpa [ChainOut.predictions] using this
      · right
        intro l hl
        obtain ⟨o, ho, rfl⟩ := List.mem_map.1 hl
        intro h0
        have h0' : o.chain.predictions = [] := by simpa [ChainOut.predictions] using h0
        exact hz (by rw [← this o ho, h0']; rfl)
  have hok : ∃ c, combineChains os = .ok c := by
    unfold combineChains
    cases os with
    | nil => exact absurd rfl hne
    | cons o os => rw [hcat]; exact ⟨_, rfl⟩
  obtain ⟨c, hc⟩ := hok
  obtain ⟨-, -, -, l1, l2, l3⟩ := C51_combine hc
  have hs1 : (os.map (fun o => o.chain.model.length)).sum = os.length * T := by
    rw [List.map_congr_left (g := fun _ => T) (fun o ho => (hf o ho).2.1)]
    simp
  refine ⟨c, hc, l1.trans hs1, ?_, ?_⟩
  · rw [l2, l1]
    by_cases hb : sa
    · rw [if_pos hb]
      congr 1
      exact List.map_congr_left (fun o ho => by rw [(hf o ho).2.2.1, if_pos hb])
    · rw [if_neg hb, List.map_congr_left (g := fun _ => 0) (fun o ho => by rw [(hf o ho).2.2.1, if_neg hb])]
      simp
  · rw [l3, l1]
    by_cases hb : sp
    · rw [if_pos hb]
      congr 1
      exact List.map_congr_left (fun o ho => by rw [(hf o ho).2.2.2, if_pos hb])
    · rw [if_neg hb, List.map_congr_left (g := fun _ => 0) (fun o ho => by rw [(hf o ho).2.2.2, if_neg hb])]
      simp

/-- C51 for `fit`: as soon as there is a chain, putting the chains together works, and the number of samples is `n_chains` times the number of samples of one chain. -/
theorem C51_fit (hX : NoNan X) {s : SkModel K p} (hp1 : s.pGrow ≠ 0) (hp2 : s.pPrune ≠ 0) {y : Fin n → K} {rs : List (Rand K)} (hrs : rs ≠ []) {os : List (ChainOut K p)}
    (h : s.runChains X y rs = .ok os) :
    ∃ c, combineChains os = .ok c ∧ c.models.length = rs.length * (storedTimes s.nSamples s.thin).length ∧
      c.acceptance.length = (if s.storeAcceptance then c.models.length else 0) ∧ c.predictions.length = (if s.storePredictions then c.models.length else 0) := by
  have hall := runChains_spec h
  have hlen := hall.length_eq
  have hf : ∀ o ∈ os, o.n = n ∧ o.chain.model.length = (storedTimes s.nSamples s.thin).length ∧ o.chain.acceptance.length = (if s.storeAcceptance then o.chain.model.length else 0) ∧
      o.chain.predictions.length = (if s.storePredictions then o.chain.model.length else 0) := by
    clear hlen h hrs
    induction hall with
    | nil => simp
    | cons e _ ih =>
      intro o ho
      rcases List.mem_cons.1 ho with rfl | ho
      · exact chain_facts hX hp1 hp2 e
      · exact ih o ho
  have hne : os ≠ [] := by
    rintro rfl
    exact hrs (List.length_eq_zero_iff.1 (by simpa using hlen))
  obtain ⟨c, c1, c2, c3, c4⟩ := combine_ok hne hf
  exact ⟨c, c1, by rw [c2, hlen], c3, c4⟩

end fit


/-! ### C49 -/

/-- In-sample and out-of-sample prediction of a tree that occurs in the sampler agree on training rows without NaN and -inf. -/
theorem predictX_rowValue (hX : ∀ r, GoodRow (X r)) {t : Tree K n p} (ht : ReachableTree X t) (r : Fin n) : t.predictX X r = rowValue t r := by
  have hX' : NoNan X := fun r v => (hX r v).1
  obtain ⟨y, s, hI⟩ := reachable_tree_inv hX' ht
  obtain ⟨i, i1, i2, i3, i4⟩ := hI.leaf_of_row (hX' r)
  obtain ⟨k, -, k2, k3⟩ := hI.predictX_eq X r (hX r)
  have := Walk.unique i2 k2
  subst this
  rw [k3]
  unfold rowValue
  cases hf : t.leafNodes.find? (fun i => rowsOf (t.heap.dataOf i) r) with
  | none =>
    rw [List.find?_eq_none] at hf
    exact absurd i3 (hf i i1)
  | some j =>
    have h1 := List.mem_of_find?_eq_some hf
    have h2 := List.find?_some hf
    rw [i4 j h1 h2]

section C49
variable [MathFns K] [FloorRing K]

/-- What is stored as in-sample prediction is what the stored models predict for the training rows. -/
theorem samples_predictions (hX : ∀ r, GoodRow (X r)) {m m' : BModel K n p} {y : Fin n → K} (hT : ∀ t ∈ m.trees, ReachableTree X t) (hI : ModelInv False X y m)
    {c : SampleParams K} (hp1 : c.pGrow ≠ 0) (hp2 : c.pPrune ≠ 0) (hst : c.storePredictions = true) {nSamples nBurn : Nat} {r r' : Rand K} {ch : Chain K n}
    (h : m.samples c nSamples nBurn r = .ok (ch, m', r')) : ch.predictions = ch.model.map (fun x => m'.storedPredictX x X) := by
  have hX' : NoNan X := fun r v => (hX r v).1
  obtain ⟨-, h2, -, h4, h5⟩ := samples_from hX' hT hI hp1 hp2 h
  have h4' : ch.predictions.length = ch.model.length := by rw [h4, if_pos hst]
  apply List.ext_getElem?
  intro j
  by_cases hj : j < ch.model.length
  · obtain ⟨x, m0, r0, mus, M, rM, q1, q2, q3, -, -, q6, -, q8⟩ := h5 j _ (List.getElem?_eq_getElem (h2 ▸ hj))
    rw [q8 hst, List.getElem?_map, q1, Option.map_some, q6 X]
    congr 1
    funext row
    have hM := ((untouched_rel hX').run hX' hp1 hp2 hT (DrawRun.sweep q2 q3).run).1
    unfold sumValue BModel.predictX
    congr 1
    exact List.map_congr_left (fun t ht => (predictX_rowValue hX (hM t ht) row).symm)
  · rw [List.getElem?_eq_none (by omega), List.getElem?_eq_none (by simpa using hj)]

theorem chain_predictions (hX : ∀ r, GoodRow (X r)) {s : SkModel K p} (hp1 : s.pGrow ≠ 0) (hp2 : s.pPrune ≠ 0) (hst : s.storePredictions = true) {y : Fin n → K} {r : Rand K}
    {o : ChainOut K p} (h : s.runChain X y r = .ok o) : o.predictions = o.models.map (fun x => List.ofFn (x.predictX X)) := by
  have hX' : NoNan X := fun r v => (hX r v).1
  obtain ⟨d, m, m', ch, r', e1, e2, rfl⟩ := runChain_spec h
  obtain ⟨-, -, -, hf, -⟩ := constructModel_spec e1
  obtain ⟨y', -, hI, -⟩ := reachable_model_inv (N := False) hX' (fun h => h.elim) hp1 hp2 hf (.nil m)
  have key := samples_predictions (c := s.sampleParams) hX (construct_reach hf) hI hp1 hp2 hst e2
  unfold ChainOut.predictions ChainOut.models
  simp only [key, List.map_map]
  rfl

/-- C49: with stored predictions, `predict()` after a fit is the same as `predict(X_train)`. -/
theorem C49_in_sample (hX : ∀ r, GoodRow (X r)) {s s' : SkModel K p} (hp1 : s.pGrow ≠ 0) (hp2 : s.pPrune ≠ 0) (hst : s.storePredictions = true) {y : Fin n → K}
    {rs : Nat → Rand K} (h : s.fit X y rs = .ok s') : s'.predict none = s'.predict (some ⟨n, X⟩) := by
  obtain ⟨d, m, os, c, e1, e2, e3, rfl⟩ := fit_spec h
  obtain ⟨c1, -, c3, -⟩ := C51_combine e3
  have key : c.predictions = c.models.map (fun x => List.ofFn (x.predictX X)) := by
    rw [c1, c3]
    clear e3 c1 c3 h
    generalize (List.range s.nChains).map rs = rl at e2
    induction e2 with
    | nil => rfl
    | cons e _ ih =>
      simp only [List.flatMap_cons, List.map_append]
      congr 1
      exact chain_predictions hX hp1 hp2 hst e
  unfold SkModel.predict SkModel.outOfSamplePredict
  simp only [hst, key, if_true]

/-- C49: and if `thin * n_samples` is such that something is stored, it is an array with one entry for each training row. -/
theorem C49_ok (hX : ∀ r, GoodRow (X r)) {s s' : SkModel K p} (hp1 : s.pGrow ≠ 0) (hp2 : s.pPrune ≠ 0) (hst : s.storePredictions = true) {y : Fin n → K}
    {rs : Nat → Rand K} (h : s.fit X y rs = .ok s') (hns : 0 < s.nSamples) :
    ∃ f : Fin n → K, s'.predict none = .ok (List.ofFn f) := by
  have hX' : NoNan X := fun r v => (hX r v).1
  rw [C49_in_sample hX hp1 hp2 hst h]
  obtain ⟨d, m, os, c, e1, e2, e3, rfl⟩ := fit_spec h
  obtain ⟨-, -, hd, -⟩ := constructModel_spec e1
  have hne : c.models ≠ [] := by
    obtain ⟨-, -, -, l1, -⟩ := C51_combine e3
    intro h0
    rw [h0] at l1
    clear h
    generalize (List.range s.nChains).map rs = rl at e2
    cases os with
    | nil => unfold combineChains at e3; cases e3
    | cons o os =>
      cases e2 with
      | cons e _ =>
        obtain ⟨-, h2, -⟩ := chain_facts hX' hp1 hp2 e
        have : 0 ∈ storedTimes s.nSamples s.thin := by
          unfold storedTimes
          classical
          simp only [List.mem_filter, List.mem_range, decide_eq_true_eq]
          exact ⟨hns, 0, by simp⟩
        have := List.length_pos_of_mem this
        simp only [List.length_nil, List.map_cons, List.sum_cons] at l1
        omega
  obtain ⟨lo, hi, ⟨r1, h1⟩, ⟨r2, h2⟩, h3, -⟩ := convertData_spec hd
  obtain ⟨f, hf, -⟩ := C48_predict hd (s := { s with data := some ⟨n, d⟩, model := some ⟨n, m⟩, samples := some c, extract := some os }) rfl rfl hne
    (lo := lo) (hi := hi) ⟨⟨r1, h1⟩, by rintro _ ⟨r, rfl⟩; exact (h3 r).1⟩ ⟨⟨r2, h2⟩, by rintro _ ⟨r, rfl⟩; exact (h3 r).2⟩ X
  exact ⟨f, hf⟩

end C49

/-! ### C50 -/

/-- C50: residuals and squared errors. -/
theorem C50_residuals {s : SkModel K p} {Z : Option (Covariates K p)} {f y : List K} (h : s.predict Z = .ok f) (hl : y.length = f.length) :
    ∃ l, s.residuals Z (some y) = .ok l ∧ l.length = y.length ∧ (∀ (r : Nat) (h1 : r < l.length) (h2 : r < y.length) (h3 : r < f.length), l[r] = y[r] - f[r]) ∧
      s.l2Error Z (some y) = .ok (l.map (fun x => x ^ 2)) := by
  have h1 : s.residuals Z (some y) = .ok (List.zipWith (· - ·) y f) := by
    unfold SkModel.residuals npSub
    simp only [h, if_pos hl]
  refine ⟨_, h1, by simp [hl], ?_, ?_⟩
  · intro r _ _ _; simp
  · unfold SkModel.l2Error
    rw [h1]
    simp only [sq]

/-- C51 for `fit`: the result of `fit` holds the samples of `n_chains` chains, chain `i` run with its own draws, one chain after the other; their number is `n_chains`
times the number of samples stored per chain. -/
theorem C51_fit_chains [MathFns K] [FloorRing K] (hX : NoNan X) {s s' : SkModel K p} (hp1 : s.pGrow ≠ 0) (hp2 : s.pPrune ≠ 0) {y : Fin n → K} {rs : Nat → Rand K} (h : s.fit X y rs = .ok s') :
    ∃ os c, s'.samples = some c ∧ s'.extract = some os ∧ os.length = s.nChains ∧ (∀ (i : Nat) o, os[i]? = some o → s.runChain X y (rs i) = .ok o) ∧
      c.models = os.flatMap (fun o => o.chain.model.map (fun x => ⟨o.n, o.live, x⟩)) ∧ c.acceptance = os.flatMap (fun o => o.chain.acceptance) ∧
      c.predictions = os.flatMap (fun o => o.chain.predictions.map List.ofFn) ∧
      c.models.length = s.nChains * (storedTimes s.nSamples s.thin).length := by
  obtain ⟨d, m, os, c, e1, e2, e3, rfl⟩ := fit_spec h
  obtain ⟨c1, c2, c3, c4, -⟩ := C51_combine e3
  have hlen : os.length = s.nChains := by simpa using e2.length_eq.symm
  have hall : ∀ o ∈ os, o.chain.model.length = (storedTimes s.nSamples s.thin).length := by
    clear hlen e3 c1 c2 c3 c4 h
    generalize (List.range s.nChains).map rs = rl at e2
    induction e2 with
    | nil => simp
    | cons e _ ih =>
      intro o ho
      rcases List.mem_cons.1 ho with rfl | ho
      · exact (chain_facts hX hp1 hp2 e).2.1
      · exact ih o ho
  refine ⟨os, c, rfl, rfl, hlen, fun i o ho => ?_, c1, c2, c3, ?_⟩
  · obtain ⟨hi, rfl⟩ := List.getElem?_eq_some_iff.1 ho
    have := (List.forall₂_iff_get.1 e2).2 i (by simpa [← hlen] using hi) hi
    simpa using this
  · rw [c4, List.map_congr_left (g := fun _ => (storedTimes s.nSamples s.thin).length) hall]
    simp [hlen]

/-- C98: `fit_predict(X, y)` is `fit(X, y)` followed by `predict(X)`, whether in-sample predictions are stored or not; it raises exactly what these two raise. -/
theorem C98_fit_predict [MathFns K] [FloorRing K] (hX : ∀ r, GoodRow (X r)) (s : SkModel K p) (hp1 : s.pGrow ≠ 0) (hp2 : s.pPrune ≠ 0) (y : Fin n → K) (rs : Nat → Rand K) :
    s.fitPredict X y rs = match s.fit X y rs with
      | .error e => .error e
      | .ok s' => match s'.predict (some ⟨n, X⟩) with
        | .error e => .error e
        | .ok f => .ok (f, s') := by
  unfold SkModel.fitPredict
  cases h : s.fit X y rs with
  | error e => rfl
  | ok s' =>
    have hs : s'.storePredictions = s.storePredictions := by
      obtain ⟨d, m, os, c, -, -, -, rfl⟩ := fit_spec h
      rfl
    cases hst : s.storePredictions with
    | false =>
      simp only [hs, hst, Bool.false_eq_true, if_false]
      cases s'.predict (some ⟨n, X⟩) <;> rfl
    | true =>
      simp only [hs, hst, if_true, C49_in_sample hX hp1 hp2 hst h]
      cases s'.predict (some ⟨n, X⟩) <;> rfl

/-- C50: without `y`, the residuals are those of the training target (of length `n`). -/
theorem C50_training_target [MathFns K] [FloorRing K] {s s' : SkModel K p} {y : Fin n → K} {rs : Nat → Rand K} (h : s.fit X y rs = .ok s') (Z : Option (Covariates K p)) :
    s'.residuals Z none = s'.residuals Z (some (List.ofFn y)) := by
  obtain ⟨d, m, os, c, e1, e2, e3, rfl⟩ := fit_spec h
  obtain ⟨-, -, hd, -, hm, -⟩ := constructModel_spec e1
  obtain ⟨-, -, -, -, -, hu, -⟩ := convertData_spec hd
  unfold SkModel.residuals
  simp only [hm, hu]

/-- C50, what `rmse` computes: the root of the sum of the squared errors, that is `sqrt(number of rows)` times the root mean squared error. -/
theorem C50_rmse_partial {s : SkModel ℝ p} {Z : Option (Covariates ℝ p)} {l y : List ℝ} (h : s.residuals Z (some y) = .ok l) (hl : l ≠ []) :
    s.rmse Z (some y) = .ok (.fin (Real.sqrt l.length * Real.sqrt (mean (l.map (fun x => x ^ 2))))) := by
  unfold SkModel.rmse SkModel.l2Error
  rw [h]
  simp only [MathFns.sqrt]
  have h0 : 0 ≤ (l.map (fun x => x * x)).sum := by
    apply List.sum_nonneg
    intro x hx
    obtain ⟨z, -, rfl⟩ := List.mem_map.1 hx
    exact mul_self_nonneg z
  have hpos : (0 : ℝ) < l.length := by
    have : 0 < l.length := List.length_pos_iff.2 hl
    exact_mod_cast this
  rw [if_pos h0]
  congr 2
  rw [← Real.sqrt_mul hpos.le]
  congr 1
  unfold mean
  simp only [List.length_map, sq]
  field_simp

/-- C50 is false: whenever there are at least two rows and some error is not zero, `rmse` is not the root of the mean squared error. -/
theorem C50_refuted {s : SkModel ℝ p} {Z : Option (Covariates ℝ p)} {l y : List ℝ} (h : s.residuals Z (some y) = .ok l) (hl : 2 ≤ l.length) {e : ℝ} (he : e ∈ l) (h0 : e ≠ 0) :
    s.rmse Z (some y) ≠ .ok (.fin (Real.sqrt (mean (l.map (fun x => x ^ 2))))) := by
  rw [C50_rmse_partial h (by rintro rfl; simp at hl)]
  intro hc
  injection hc with hc
  injection hc with hc
  have h2 : (2 : ℝ) ≤ l.length := by exact_mod_cast hl
  have hs : (1 : ℝ) < Real.sqrt l.length := by
    rw [show (1 : ℝ) = Real.sqrt 1 by simp]
    exact Real.sqrt_lt_sqrt (by norm_num) (by linarith)
  have hm : 0 < mean (l.map (fun x => x ^ 2)) := by
    unfold mean
    apply div_pos
    · have : e ^ 2 ≤ (l.map (fun x => x ^ 2)).sum := List.single_le_sum (by
        intro x hx
        obtain ⟨z, -, rfl⟩ := List.mem_map.1 hx
        positivity) _ (List.mem_map.2 ⟨e, he, rfl⟩)
      have : 0 < e ^ 2 := by positivity
      linarith
    · simp only [List.length_map]; linarith
  have := Real.sqrt_pos.2 hm
  nlinarith

/-! ### C52, C53 -/

/-- C52: `predict()` without stored predictions is a ValueError. -/
theorem C52_predict (s : SkModel K p) (h : s.storePredictions = false) : s.predict none = .error .valueError := by
  unfold SkModel.predict; simp [h]

/-- C52: fitting an empty matrix is a ValueError. -/
theorem C52_fit [MathFns K] [FloorRing K] (s : SkModel K p) (X : Fin n → Fin p → Fl K) (y : Fin n → K) (rs : Nat → Rand K) (h : n = 0 ∨ p = 0) :
    s.fit X y rs = .error .valueError := by
  unfold SkModel.fit SkModel.constructModel
  simp [h]

/-- C53 is false: `prediction_samples` ends in a RecursionError, for every model and every recursion limit. -/
theorem C53_refuted (s : SkModel K p) (limit : Nat) : s.predictionSamples limit = .error .recursionError := by
  induction limit with
  | zero => rfl
  | succ k ih => exact ih

end Bart
