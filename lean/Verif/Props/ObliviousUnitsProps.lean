import Verif.Props.ObliviousReferenceProps
import Verif.Props.RunLengthProps
import Verif.Props.InvarianceProps

/-! Fits with the oblivious tree sampler: what a fit that returns needs (C126), the units of the target and the number of chains (C128). -/

set_option linter.unusedSectionVars false

namespace Bart.Oblivious
open Bart Spec Reference
variable {K : Type} [Field K] [LinearOrder K] [IsStrictOrderedRing K] {n p : Nat} {X : Fin n → Fin p → Fl K} [MathFns K] [FloorRing K]

/-! ### C126 -/

/-- C126: a fit that returns has built the model, has at least one chain, and `thin` is not 0. -/
theorem C126_required {s : SkModel K p} {y : Fin n → K} {rs : Nat → Rand K} {f : SkModel K p} (h : fit s X y rs = .ok f) :
    (∃ d m, s.constructModel X y = .ok (d, m)) ∧ 0 < s.nChains ∧ s.thin ≠ 0 := by
  unfold fit at h
  cases hc : s.constructModel X y with
  | error e => rw [hc] at h; cases h
  | ok q =>
    obtain ⟨d, m⟩ := q
    simp only [hc] at h
    refine ⟨⟨d, m, rfl⟩, ?_⟩
    cases hk : s.nChains with
    | zero => rw [hk] at h; cases h
    | succ k =>
      refine ⟨Nat.succ_pos k, fun hth => ?_⟩
      rw [hk, List.range_succ_eq_map, List.map_cons] at h
      have h1 : ∃ e, runChain s X y (rs 0) = .error e := by
        unfold runChain
        simp only [hc]
        unfold samples
        cases eb : burn s.sampleParams s.nBurn m (rs 0) with
        | error e => exact ⟨e, rfl⟩
        | ok q =>
          simp only
          rw [if_pos (show s.sampleParams.thin = 0 from hth)]
          exact ⟨_, rfl⟩
      obtain ⟨e, he⟩ := h1
      simp only [runChains, he] at h
      cases h

/-- C126: if no column has two values after the first row, a fit whose first proposal is to grow raises AttributeError. -/
theorem C126_constant (hX : ∀ r, GoodRow (X r)) {s : SkModel K p} (hp : 0 < p) (hp1 : s.pGrow ≠ 0) (hp2 : s.pPrune ≠ 0) (hth : s.thin ≠ 0) (hch : 0 < s.nChains) (htr : 0 < s.nTrees)
    (hsw : 0 < s.nBurn + s.nSamples) {y : Fin n → K} (hy : ∃ i j, y i ≠ y j) (hj : ∀ j, ¬ HasTwoValues (column X (fun _ => true) j).tail) {rs : Nat → Rand K} {ms : List Method}
    (hg : (rs 0).methods = .grow :: ms) : fit s X y rs = .error .attributeError := by
  obtain ⟨lo, hi, hlo, hhi, hlt⟩ := exists_range hy
  have h := C127_fit hX hp hp1 hp2 hth hch hlo hhi hlt rs
  have hcol : columns X (Layers.rowsOn X []) = [] := by
    unfold columns
    rw [List.filter_eq_nil_iff]
    intro j _ h1
    apply hj j
    obtain ⟨a, ha, h2⟩ := List.any_eq_true.1 h1
    obtain ⟨b, hb, h3⟩ := List.any_eq_true.1 h2
    exact ⟨a, ha, b, hb, by simpa using h3⟩
  have hfit : Layers.fit s.config X lo hi y rs = .error .attributeError := by
    unfold Layers.fit
    rw [show s.config.nChains = s.nChains from rfl]
    obtain ⟨k, hk⟩ := Nat.exists_eq_succ_of_ne_zero hch.ne'
    rw [hk, List.range_succ_eq_map, List.map_cons]
    have h1 : Layers.chain s.config X (scaled lo hi y) (rs 0) = .error .attributeError := by
      unfold Layers.chain
      obtain ⟨w, hw⟩ := Nat.exists_eq_succ_of_ne_zero hsw.ne'
      rw [show s.config.nBurn + s.config.nSamples = w + 1 from hw]
      obtain ⟨t, ht⟩ := Nat.exists_eq_succ_of_ne_zero htr.ne'
      have hst : (Layers.start s.config.toSettings : Layers.State K p).trees = Layers.LTree.root :: List.replicate t Layers.LTree.root := by
        unfold Layers.start
        rw [show s.config.toSettings.nTrees = t + 1 from ht, List.replicate_succ]
      have hstep : ∀ P (y' : Fin n → K), Layers.treeBody P s.config.pGrow s.config.pPrune X y' Layers.LTree.root (rs 0) = .error .attributeError := by
        intro P y'
        unfold Layers.treeBody Layers.treeStep
        simp only [hg, Layers.propose, Layers.LTree.root, Layers.paths, Layers.growRules, Layers.growRule, hcol, if_true, List.zipWith_cons_cons, List.zipWith_nil_left, Layers.growTerm, Layers.counted,
          List.getLast?_nil, Option.map_none, Layers.sumTerms]
      have hsweep : Layers.sweep s.config.toSettings X (scaled lo hi y) (Layers.start s.config.toSettings) (rs 0) = .error .attributeError := by
        unfold Layers.sweep
        rw [hst]
        unfold Layers.sweepTrees
        rw [hstep]
      simp only [Layers.sweeps, hsweep]
    simp only [Layers.chains, h1]
  cases e : fit s X y rs with
  | error er => rw [e] at h; simp only at h; rw [hfit] at h; injection h with h; rw [h]
  | ok f => rw [e] at h; obtain ⟨sm, c, a1, -⟩ := h; rw [hfit] at a1; cases a1

/-! ### C128 -/

theorem layer_chains_split {c : Config K} {y : Fin n → K} : ∀ {rs : List (Rand K)} {ls : List (List Bool × Layers.State K p)}, Layers.chains c X y rs = .ok ls ↔
    ∃ L, List.Forall₂ (fun r l => Layers.chain c X y r = .ok l) rs L ∧ ls = L.flatten := by
  intro rs
  induction rs with
  | nil =>
    intro ls
    constructor
    · intro h; injection h with h; exact ⟨[], .nil, h.symm⟩
    · rintro ⟨L, h, rfl⟩; cases h; rfl
  | cons r rs ih =>
    intro ls
    constructor
    · intro h
      unfold Layers.chains at h
      split at h
      · cases h
      · next l e =>
        split at h
        · cases h
        · next ls' e' =>
          injection h with h
          obtain ⟨L, h1, rfl⟩ := ih.1 e'
          exact ⟨l :: L, .cons e h1, by rw [← h]; rfl⟩
    · rintro ⟨L, h, rfl⟩
      cases h with
      | cons e h =>
        unfold Layers.chains
        rw [e]
        simp only [ih.2 ⟨_, h, rfl⟩]
        rfl

theorem layer_chain_length {c : Config K} {y : Fin n → K} {r : Rand K} {l : List (List Bool × Layers.State K p)} (h : Layers.chain c X y r = .ok l) :
    l.length = (storedTimes c.nSamples c.thin).length := by
  unfold Layers.chain at h
  split at h
  · cases h
  · next l' s1 r1 e =>
    injection h with h
    have e1 := layer_sweeps_length _ _ _ _ e
    rw [← h]
    have : ∀ (ts : List Nat), (∀ t ∈ ts, t < c.nSamples) → (ts.filterMap (fun t => l'[c.nBurn + t]?)).length = ts.length := by
      intro ts
      induction ts with
      | nil => intro _; rfl
      | cons t ts ih =>
        intro ht
        have h1 : c.nBurn + t < l'.length := by have := ht t (by simp); omega
        rw [List.filterMap_cons, List.getElem?_eq_getElem h1]
        simp only [List.length_cons, ih (fun t h => ht t (by simp [h]))]
    exact this _ fun t ht => storedTimes_lt ht

theorem layer_fit_nonempty {s : SkModel K p} (hch : 0 < s.nChains) (hns : 0 < s.nSamples) {lo hi : K} {y : Fin n → K} {rs : Nat → Rand K} {l : List (List Bool × Layers.State K p)}
    (h : Layers.fit s.config X lo hi y rs = .ok l) : l ≠ [] := by
  obtain ⟨L, h1, rfl⟩ := layer_chains_split.1 h
  obtain ⟨k, hk⟩ := Nat.exists_eq_succ_of_ne_zero hch.ne'
  rw [show s.config.nChains = k + 1 from hk, List.range_succ_eq_map, List.map_cons] at h1
  cases h1 with
  | @cons _ b _ _ e _ =>
    intro h0
    have h2 := layer_chain_length e
    have h3 := storedTimes_pos hns s.thin
    rw [List.flatten_eq_nil_iff.1 h0 b (by simp)] at h2
    change 0 = (storedTimes s.nSamples s.thin).length at h2
    omega

theorem layer_single {s : SkModel K p} {lo hi : K} {y : Fin n → K} {r : Rand K} {l : List (List Bool × Layers.State K p)} :
    Layers.fit ({ s with nChains := 1 } : SkModel K p).config X lo hi y (fun _ => r) = .ok l ↔ Layers.chain s.config X (scaled lo hi y) r = .ok l := by
  unfold Layers.fit
  rw [show (List.range ({ s with nChains := 1 } : SkModel K p).config.nChains).map (fun _ => r) = [r] from rfl, layer_chains_split]
  constructor
  · rintro ⟨L, h1, rfl⟩
    cases h1 with
    | cons e h =>
      cases h
      simp only [List.flatten_cons, List.flatten_nil, List.append_nil]
      exact e
  · intro h
    exact ⟨[l], .cons h .nil, by simp⟩

/-- C128: a target in other units, `a * y + b` with `a > 0`, and the same draws: a fit with the oblivious tree sampler raises the same exception or both fits return. Then the samples have the same
trees, the same leaf values and the same sigma, and the predictions are `a * f + b` with `f` the predictions of the first fit. -/
theorem C128_units (hX : ∀ r, GoodRow (X r)) {a : K} (ha : 0 < a) (b : K) {s : SkModel K p} (hp : 0 < p) (hp1 : s.pGrow ≠ 0) (hp2 : s.pPrune ≠ 0) (hth : s.thin ≠ 0) (hch : 0 < s.nChains)
    (hns : 0 < s.nSamples) {y : Fin n → K} (hy : ∃ i j, y i ≠ y j) (rs : Nat → Rand K) :
    SameUpTo (fun f g => ∃ c d, f.samples = some c ∧ g.samples = some d ∧ d.models.map (fun x => x.trees.map leavesOf) = c.models.map (fun x => x.trees.map leavesOf) ∧
        d.models.map (fun x => (x.live.storedSigma x.stored).current) = c.models.map (fun x => (x.live.storedSigma x.stored).current) ∧
        (∀ {q : Nat} (Z : Fin q → Fin p → Fl K), (∀ r, GoodRow (Z r)) → ∃ v, f.predict (some ⟨q, Z⟩) = .ok v ∧ g.predict (some ⟨q, Z⟩) = .ok (v.map (fun z => a * z + b))) ∧
        (s.storePredictions = true → ∃ v, f.predict none = .ok v ∧ g.predict none = .ok (v.map (fun z => a * z + b))))
      (fit s X y rs) (fit s X (rescaled a b y) rs) := by
  obtain ⟨lo, hi, hlo, hhi, hlt⟩ := exists_range hy
  have h1 := C127_fit hX hp hp1 hp2 hth hch hlo hhi hlt rs
  have hlo' : IsLeast (Set.range (rescaled a b y)) (a * lo + b) := by
    obtain ⟨⟨i, hi'⟩, h⟩ := hlo
    refine ⟨⟨i, by simp [rescaled, hi']⟩, ?_⟩
    rintro _ ⟨j, rfl⟩
    have := h ⟨j, rfl⟩
    simp only [rescaled]
    nlinarith
  have hhi' : IsGreatest (Set.range (rescaled a b y)) (a * hi + b) := by
    obtain ⟨⟨i, hi'⟩, h⟩ := hhi
    refine ⟨⟨i, by simp [rescaled, hi']⟩, ?_⟩
    rintro _ ⟨j, rfl⟩
    have := h ⟨j, rfl⟩
    simp only [rescaled]
    nlinarith
  have h2 := C127_fit hX hp hp1 hp2 hth hch hlo' hhi' (by nlinarith) rs
  have hsc : scaled (a * lo + b) (a * hi + b) (rescaled a b y) = scaled lo hi y := by
    funext i
    unfold scaled rescaled
    have h3 : hi - lo ≠ 0 := by rw [sub_ne_zero]; exact hlt.ne'
    rw [show a * y i + b - (a * lo + b) = a * (y i - lo) by ring, show a * hi + b - (a * lo + b) = a * (hi - lo) by ring, mul_div_mul_left _ _ ha.ne']
  have h3 : Layers.fit s.config X (a * lo + b) (a * hi + b) (rescaled a b y) rs = Layers.fit s.config X lo hi y rs := by
    unfold Layers.fit
    rw [hsc]
  rw [h3] at h2
  have hpr : ∀ (l : List (List Bool × Layers.State K p)) (x : Fin p → Fl K), Layers.prediction (a * lo + b) (a * hi + b) l x = a * Layers.prediction lo hi l x + b := by
    intro l x
    unfold Layers.prediction
    ring
  generalize fit s X y rs = A at h1 ⊢
  generalize fit s X (rescaled a b y) rs = A' at h2 ⊢
  cases A with
  | error e =>
    simp only at h1
    rw [h1] at h2
    cases A' with
    | error e' => simp only [Except.error.injEq] at h2; exact h2
    | ok f' => obtain ⟨l', c', a1, -⟩ := h2; cases a1
  | ok f =>
    obtain ⟨l, c, a1, a2, -, a4, a5, -, -, -, a8⟩ := h1
    rw [a1] at h2
    cases A' with
    | error e' => cases h2
    | ok f' =>
      obtain ⟨l', c', b1, b2, -, b4, b5, -, -, -, b8⟩ := h2
      injection b1 with b1
      subst b1
      have hl := layer_fit_nonempty hch hns a1
      refine ⟨c, c', a2, b2, by rw [a4, b4], by rw [a5, b5], fun {q} Z hZ => ⟨_, (a8 hl).1 Z hZ, ?_⟩, fun hs => ⟨_, (a8 hl).2 hs, ?_⟩⟩
      · rw [(b8 hl).1 Z hZ, List.map_ofFn]
        congr 2
        funext r
        exact hpr l (Z r)
      · rw [(b8 hl).2 hs, List.map_ofFn]
        congr 2
        funext r
        exact hpr l (X r)

/-- C128: a fit with several chains of the oblivious tree sampler has as its predictions the averages of the predictions of the fits with one chain each that use the draws of one of the chains; these return
if and only if the fit with several chains does. -/
theorem C128_chains (hX : ∀ r, GoodRow (X r)) {s : SkModel K p} (hp : 0 < p) (hp1 : s.pGrow ≠ 0) (hp2 : s.pPrune ≠ 0) (hth : s.thin ≠ 0) (hch : 0 < s.nChains) (hns : 0 < s.nSamples) {y : Fin n → K}
    (hy : ∃ i j, y i ≠ y j) (rs : Nat → Rand K) :
    ((∃ f, fit s X y rs = .ok f) ↔ ∀ i < s.nChains, ∃ f, fit ({ s with nChains := 1 } : SkModel K p) X y (fun _ => rs i) = .ok f) ∧
    ∀ {f : SkModel K p} {fs : Fin s.nChains → SkModel K p}, fit s X y rs = .ok f → (∀ i : Fin s.nChains, fit ({ s with nChains := 1 } : SkModel K p) X y (fun _ => rs i) = .ok (fs i)) →
      ∀ {q : Nat} (Z : Fin q → Fin p → Fl K), (∀ r, GoodRow (Z r)) →
        ∃ v : Fin s.nChains → Fin q → K, (∀ i, (fs i).predict (some ⟨q, Z⟩) = .ok (List.ofFn (v i))) ∧ f.predict (some ⟨q, Z⟩) = .ok (List.ofFn fun r => (∑ i, v i r) / (s.nChains : K)) := by
  obtain ⟨lo, hi, hlo, hhi, hlt⟩ := exists_range hy
  have hiff : ∀ {s' : SkModel K p} {rs' : Nat → Rand K}, s'.pGrow ≠ 0 → s'.pPrune ≠ 0 → s'.thin ≠ 0 → 0 < s'.nChains →
      ((∃ f, fit s' X y rs' = .ok f) ↔ ∃ l, Layers.fit s'.config X lo hi y rs' = .ok l) := by
    intro s' rs' g1 g2 g3 g4
    have h := C127_fit hX hp g1 g2 g3 g4 hlo hhi hlt rs'
    cases hf : fit s' X y rs' with
    | error e' => rw [hf] at h; simp only at h; rw [h]; simp
    | ok f =>
      rw [hf] at h
      obtain ⟨l, _, h, -⟩ := h
      rw [h]; simp
  have hfitL : ∀ {l : Fin s.nChains → List (List Bool × Layers.State K p)}, (∀ i : Fin s.nChains, Layers.chain s.config X (scaled lo hi y) (rs i) = .ok (l i)) →
      Layers.fit s.config X lo hi y rs = .ok (List.ofFn l).flatten := by
    intro l hl
    refine layer_chains_split.2 ⟨List.ofFn l, ?_, rfl⟩
    rw [List.forall₂_iff_get]
    refine ⟨by simp [SkModel.config], fun i h1 h2 => ?_⟩
    simp only [List.get_eq_getElem, List.getElem_map, List.getElem_range, List.getElem_ofFn]
    exact hl ⟨i, by simpa using h2⟩
  have hone1 : ∀ i, (∃ f, fit ({ s with nChains := 1 } : SkModel K p) X y (fun _ => rs i) = .ok f) ↔ ∃ l, Layers.chain s.config X (scaled lo hi y) (rs i) = .ok l := by
    intro i
    rw [hiff (s' := { s with nChains := 1 }) hp1 hp2 hth (by norm_num)]
    simp only [layer_single]
  refine ⟨?_, ?_⟩
  · rw [hiff hp1 hp2 hth hch]
    simp only [hone1]
    constructor
    · rintro ⟨l, hl⟩ i hi'
      obtain ⟨L, h1, -⟩ := layer_chains_split.1 hl
      have h2 := List.forall₂_iff_get.1 h1
      have hlen : i < ((List.range s.config.nChains).map rs).length := by simpa [SkModel.config] using hi'
      have h3 := h2.2 i hlen (by rw [← h2.1]; exact hlen)
      simp only [List.get_eq_getElem, List.getElem_map, List.getElem_range] at h3
      exact ⟨_, h3⟩
    · intro h
      have h' : ∀ i : Fin s.nChains, ∃ l, Layers.chain s.config X (scaled lo hi y) (rs i) = .ok l := fun i => h i i.2
      choose l hl using h'
      exact ⟨_, hfitL hl⟩
  · intro f fs h hs q Z hZ
    have hone : ∀ i : Fin s.nChains, ∃ l, Layers.chain s.config X (scaled lo hi y) (rs i) = .ok l ∧ l.length = (storedTimes s.nSamples s.thin).length ∧
        (fs i).predict (some ⟨q, Z⟩) = .ok (List.ofFn (fun r => Layers.prediction lo hi l (Z r))) := by
      intro i
      have h1 := C127_fit hX (s := { s with nChains := 1 }) hp hp1 hp2 hth (by norm_num) hlo hhi hlt (fun _ => rs i)
      rw [hs i] at h1
      obtain ⟨l, c, a1, -, -, -, -, -, -, -, a7⟩ := h1
      have e := layer_single.1 a1
      exact ⟨l, e, layer_chain_length e, (a7 (layer_fit_nonempty (s := { s with nChains := 1 }) (by norm_num) hns a1)).1 Z hZ⟩
    choose l e1 e2 e3 using hone
    have h2 := C127_fit hX hp hp1 hp2 hth hch hlo hhi hlt rs
    rw [h] at h2
    obtain ⟨sm, c, d1, -, -, -, -, -, -, -, d7⟩ := h2
    have hne := layer_fit_nonempty hch hns d1
    rw [hfitL e1] at d1; injection d1 with d1; subst d1
    have hpos := storedTimes_pos hns s.thin
    refine ⟨fun i r => Layers.prediction lo hi (l i) (Z r), e3, ?_⟩
    rw [(d7 hne).1 Z hZ]
    congr 2
    funext r
    simp only [layer_prediction_eq]
    rw [List.map_flatten, mean_flatten hpos (by
      intro x hx
      obtain ⟨x', hx', rfl⟩ := List.mem_map.1 hx
      obtain ⟨i, rfl⟩ := List.mem_ofFn.1 hx'
      rw [List.length_map, e2]), originalScale_mean (by
        intro h0
        have := congrArg List.length h0
        simp at this
        omega)]
    unfold mean
    simp only [List.length_map, List.length_ofFn, List.map_ofFn, List.sum_ofFn, Function.comp_def]

/-! ### concrete cases -/

section examples
attribute [local instance] exFns

/-- C126, the example: a table with a constant column and draws that begin with a grow proposal. -/
example : (match fit exSkf (fun _ _ => .fin 1) exYf (fun _ => exRf) with | .error e => decide (e = .attributeError) | .ok _ => false) = true ∧ exRf.methods.head? = some .grow ∧ 0 < exSkf.nTrees ∧
    0 < exSkf.nBurn + exSkf.nSamples ∧ exSkf.thin ≠ 0 := by decide +kernel

/-- C128, the example: the target of the example in other units, the predictions for the row 3. -/
example : (match exFitf, fit exSkf exXf (rescaled 2 5 exYf) (fun _ => exRf) with
    | .ok f, .ok g => (match f.predict (some ⟨1, fun _ => exXf 3⟩), g.predict (some ⟨1, fun _ => exXf 3⟩) with
      | .ok [a], .ok [b] => decide (b = 2 * a + 5 ∧ a ≠ 0)
      | _, _ => false)
    | _, _ => false) = true ∧ 0 < exSkf.nSamples ∧ exYf 0 ≠ exYf 2 := by decide +kernel

end examples
end Bart.Oblivious
