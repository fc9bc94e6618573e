import Verif.Props.OrderProps
import Verif.Spec.RunLength

/-! Property theorems C109 (chains are averaged) and C86 for a whole fit (burn-in, thinning and the number of samples only select samples). -/

set_option linter.unusedSectionVars false

namespace Bart
open Spec Reference
variable {K : Type} [Field K] [LinearOrder K] [IsStrictOrderedRing K] [MathFns K] [FloorRing K] {n p : Nat} {X : Fin n → Fin p → Fl K}

/-! ### reference sampler -/

theorem sweeps_take {c : Reference.Settings K} {y : Fin n → K} : ∀ {N : Nat} {st st' : State K p} {r r' : Rand K} {l : List (List Bool × State K p)}, sweeps c X y N st r = .ok (l, st', r') →
    l.length = N ∧ ∀ k ≤ N, ∃ s1 r1, sweeps c X y k st r = .ok (l.take k, s1, r1) := by
  intro N
  induction N with
  | zero =>
    intro st st' r r' l h
    injection h with h; injection h with h1 h2; subst h1
    refine ⟨rfl, fun k hk => ?_⟩
    obtain rfl : k = 0 := by omega
    exact ⟨st, r, rfl⟩
  | succ N ih =>
    intro st st' r r' l h
    unfold sweeps at h
    split at h
    · cases h
    · next bs s1 r1 e1 =>
      split at h
      · cases h
      · next l' s2 r2 e2 =>
        injection h with h; injection h with h1 h2; subst h1
        obtain ⟨i1, i2⟩ := ih e2
        refine ⟨by simp [i1], fun k hk => ?_⟩
        cases k with
        | zero => exact ⟨st, r, rfl⟩
        | succ k =>
          obtain ⟨s3, r3, e3⟩ := i2 k (by omega)
          refine ⟨s3, r3, ?_⟩
          unfold sweeps
          rw [e1]
          simp only [e3, List.take_succ_cons]

theorem storedTimes_one (N : Nat) : storedTimes N (1 : K) = List.range N := by
  unfold storedTimes
  rw [List.filter_eq_self]
  intro a _
  simp only [decide_eq_true_eq]
  exact ⟨a, by simp⟩

theorem storedTimes_lt {N t : Nat} {thin : K} (h : t ∈ storedTimes N thin) : t < N := by
  unfold storedTimes at h
  simpa using (List.mem_filter.1 h).1

/-- A chain of the reference sampler is a selection from a longer one without burn-in and thinning. -/
theorem chain_select {c : Config K} {N : Nat} (hN : c.nBurn + c.nSamples ≤ N) {y : Fin n → K} {r : Rand K} {full : List (List Bool × State K p)}
    (h : chain { c with nBurn := 0, nSamples := N, thin := 1 } X y r = .ok full) :
    full.length = N ∧ chain c X y r = .ok ((storedTimes c.nSamples c.thin).filterMap (fun t => full[c.nBurn + t]?)) := by
  unfold chain at h
  split at h
  · cases h
  · next l s1 r1 e =>
    injection h with h
    simp only [Nat.zero_add] at e h
    obtain ⟨e1, e2⟩ := sweeps_take e
    have hf : full = l := by
      rw [← h, storedTimes_one]
      apply List.ext_getElem?
      intro i
      have : (List.range N).filterMap (fun t => l[t]?) = l := by
        rw [← e1]
        clear e h e1 e2
        induction l with
        | nil => rfl
        | cons a l ih =>
          rw [List.length_cons, List.range_succ_eq_map, List.filterMap_cons]
          simp only [List.getElem?_cons_zero, List.filterMap_map, Function.comp_def, List.getElem?_cons_succ]
          rw [ih]
      rw [this]
    subst hf
    refine ⟨e1, ?_⟩
    obtain ⟨s3, r3, e3⟩ := e2 _ hN
    unfold chain
    rw [show c.toSettings = ({ c with nBurn := 0, nSamples := N, thin := 1 } : Config K).toSettings from rfl, e3]
    simp only []
    congr 1
    apply List.filterMap_congr
    intro t ht
    have := storedTimes_lt ht
    rw [List.getElem?_take_of_lt (by omega)]

theorem chains_split {c : Config K} {y : Fin n → K} : ∀ {rs : List (Rand K)} {ls : List (List Bool × State K p)}, chains c X y rs = .ok ls ↔
    ∃ L, List.Forall₂ (fun r l => chain c X y r = .ok l) rs L ∧ ls = L.flatten := by
  intro rs
  induction rs with
  | nil =>
    intro ls
    constructor
    · intro h; injection h with h; exact ⟨[], .nil, h.symm⟩
    · rintro ⟨L, h, rfl⟩; cases h; rfl
  | cons r rs ih =>
    intro ls
    constructor
    · intro h
      unfold chains at h
      split at h
      · cases h
      · next l e =>
        split at h
        · cases h
        · next ls' e' =>
          injection h with h
          obtain ⟨L, h1, rfl⟩ := ih.1 e'
          exact ⟨l :: L, .cons e h1, by rw [← h]; rfl⟩
    · rintro ⟨L, h, rfl⟩
      cases h with
      | cons e h =>
        unfold chains
        rw [e]
        simp only [ih.2 ⟨_, h, rfl⟩]
        rfl

/-- The number of samples of a chain. -/
theorem chain_length {c : Config K} {y : Fin n → K} {r : Rand K} {l : List (List Bool × State K p)} (h : chain c X y r = .ok l) : l.length = (storedTimes c.nSamples c.thin).length := by
  unfold chain at h
  split at h
  · cases h
  · next l' s1 r1 e =>
    injection h with h
    obtain ⟨e1, -⟩ := sweeps_take e
    rw [← h]
    have : ∀ (ts : List Nat), (∀ t ∈ ts, t < c.nSamples) → (ts.filterMap (fun t => l'[c.nBurn + t]?)).length = ts.length := by
      intro ts
      induction ts with
      | nil => intro _; rfl
      | cons t ts ih =>
        intro ht
        have h1 : c.nBurn + t < l'.length := by have := ht t (by simp); omega
        rw [List.filterMap_cons, List.getElem?_eq_getElem h1]
        simp only [List.length_cons, ih (fun t h => ht t (by simp [h]))]
    exact this _ fun t ht => storedTimes_lt ht

/-! ### C86 -/

theorem selected_map {α β : Type} (nBurn nSamples : Nat) (thin : K) (g : α → β) (l : List α) : selected nBurn nSamples thin (l.map g) = (selected nBurn nSamples thin l).map g := by
  unfold selected
  rw [List.map_filterMap]
  apply List.filterMap_congr
  intro t _
  rw [List.getElem?_map]

/-- C86: compare a fit with one chain with one that has no burn-in and no thinning and at least as many sweeps, with the same draws. If the latter returns then so does the former, and its samples are
selected from the others: `n_burn` samples are left out, and of the following `n_samples` those are kept whose number is a multiple of `1 / thin`. -/
theorem C86_fit_selected (hX : NoNan X) {s : SkModel K p} (hp : 0 < p) (hp1 : s.pGrow ≠ 0) (hp2 : s.pPrune ≠ 0) (hth : s.thin ≠ 0) (hch : s.nChains = 1) {y : Fin n → K} (hy : ∃ i j, y i ≠ y j)
    {N : Nat} (hN : s.nBurn + s.nSamples ≤ N) {rs : Nat → Rand K} {F : SkModel K p} (hF : ({ s with nBurn := 0, nSamples := N, thin := 1 } : SkModel K p).fit X y rs = .ok F) :
    ∃ f c C, s.fit X y rs = .ok f ∧ f.samples = some c ∧ F.samples = some C ∧ C.models.length = N ∧
      c.models.map (fun x => (x.live.storedSigma x.stored).current) = selected s.nBurn s.nSamples s.thin (C.models.map (fun x => (x.live.storedSigma x.stored).current)) ∧
      (∀ {q : Nat} (Z : Fin q → Fin p → Fl K), (∀ r, GoodRow (Z r)) →
        c.models.map (fun x => List.ofFn (x.predictX Z)) = selected s.nBurn s.nSamples s.thin (C.models.map (fun x => List.ofFn (x.predictX Z)))) ∧
      (s.storePredictions = true → c.predictions = selected s.nBurn s.nSamples s.thin C.predictions) ∧
      (s.storeAcceptance = true → c.acceptance = selected s.nBurn s.nSamples s.thin C.acceptance) := by
  obtain ⟨lo, hi, hlo, hhi, hlt⟩ := exists_range hy
  have h1 := C103_fit hX (s := { s with nBurn := 0, nSamples := N, thin := 1 }) hp hp1 hp2 one_ne_zero (by simp only [hch]; norm_num) hlo hhi hlt rs
  have h2 := C103_fit hX (s := s) hp hp1 hp2 hth (by omega) hlo hhi hlt rs
  rw [hF] at h1
  obtain ⟨full, C, a1, a2, a3, a4, a5, a6, a7, -⟩ := h1
  obtain ⟨L, l1, l2⟩ := chains_split.1 a1
  rw [show ((List.range ({ s with nBurn := 0, nSamples := N, thin := 1 } : SkModel K p).config.nChains).map rs) = [rs 0] by
    change (List.range s.nChains).map rs = _; rw [hch]; rfl] at l1
  cases l1 with
  | @cons _ l _ L' e1 e2 =>
    cases e2
    obtain rfl : full = l := by rw [l2]; simp
    obtain ⟨b1, b2⟩ := chain_select (c := s.config) (N := N) hN e1
    have hfit : Reference.fit s.config X lo hi y rs = .ok (selected s.nBurn s.nSamples s.thin full) := by
      refine chains_split.2 ⟨[selected s.nBurn s.nSamples s.thin full], ?_, by simp⟩
      rw [show (List.range s.config.nChains).map rs = [rs 0] by change (List.range s.nChains).map rs = _; rw [hch]; rfl]
      exact .cons b2 .nil
    cases e : s.fit X y rs with
    | error er => rw [e] at h2; simp only [hfit] at h2; cases h2
    | ok f =>
      rw [e] at h2
      obtain ⟨sm, c, d1, d2, d3, d4, d5, d6, d7, -⟩ := h2
      rw [hfit] at d1; injection d1 with d1; subst d1
      refine ⟨f, c, C, rfl, d2, a2, by rw [a3, b1], ?_, ?_, ?_, ?_⟩
      · rw [d4, a4, selected_map]
      · intro q Z hZ; rw [d5 Z hZ, a5 Z hZ, selected_map]
      · intro h; rw [d6 h, a6 h, selected_map]
      · intro h; rw [d7 h, a7 h, selected_map]

theorem chain_error {c : Config K} {y : Fin n → K} {r : Rand K} {e : PyErr} : chain c X y r = .error e ↔ sweeps c.toSettings X y (c.nBurn + c.nSamples) (start c.toSettings) r = .error e := by
  unfold chain
  split
  · next e' he => simp [he]
  · next he => simp [he]

theorem chains_single_error {c : Config K} {y : Fin n → K} {r : Rand K} {e : PyErr} : chains c X y [r] = .error e ↔ chain c X y r = .error e := by
  unfold chains
  split
  · next he => simp [he]
  · next he => simp [chains, he]

theorem fit_error_iff (hX : NoNan X) {s : SkModel K p} (hp : 0 < p) (hp1 : s.pGrow ≠ 0) (hp2 : s.pPrune ≠ 0) (hth : s.thin ≠ 0) (hch : 0 < s.nChains) {y : Fin n → K} {lo hi : K}
    (hlo : IsLeast (Set.range y) lo) (hhi : IsGreatest (Set.range y) hi) (hlt : lo < hi) {rs : Nat → Rand K} {e : PyErr} : s.fit X y rs = .error e ↔ Reference.fit s.config X lo hi y rs = .error e := by
  have h := C103_fit hX hp hp1 hp2 hth hch hlo hhi hlt rs
  cases hf : s.fit X y rs with
  | error e' => rw [hf] at h; simp only at h; rw [h]; simp
  | ok f =>
    rw [hf] at h
    obtain ⟨_, _, h, -⟩ := h
    rw [h]; simp

/-- C86: and if it has just as many sweeps, then both raise the same exception or both return. -/
theorem C86_fit_same_error (hX : NoNan X) {s : SkModel K p} (hp : 0 < p) (hp1 : s.pGrow ≠ 0) (hp2 : s.pPrune ≠ 0) (hth : s.thin ≠ 0) (hch : s.nChains = 1) {y : Fin n → K} (hy : ∃ i j, y i ≠ y j)
    (rs : Nat → Rand K) (e : PyErr) :
    s.fit X y rs = .error e ↔ ({ s with nBurn := 0, nSamples := s.nBurn + s.nSamples, thin := 1 } : SkModel K p).fit X y rs = .error e := by
  obtain ⟨lo, hi, hlo, hhi, hlt⟩ := exists_range hy
  rw [fit_error_iff hX hp hp1 hp2 hth (by omega) hlo hhi hlt, fit_error_iff hX (s := { s with nBurn := 0, nSamples := s.nBurn + s.nSamples, thin := 1 }) hp hp1 hp2 one_ne_zero
    (by simp only [hch]; norm_num) hlo hhi hlt]
  unfold Reference.fit
  rw [show (List.range s.config.nChains).map rs = [rs 0] by change (List.range s.nChains).map rs = _; rw [hch]; rfl,
    show ((List.range ({ s with nBurn := 0, nSamples := s.nBurn + s.nSamples, thin := 1 } : SkModel K p).config.nChains).map rs) = [rs 0] by
      change (List.range s.nChains).map rs = _; rw [hch]; rfl, chains_single_error, chains_single_error, chain_error, chain_error]
  change sweeps s.config.toSettings X _ (s.nBurn + s.nSamples) _ _ = _ ↔ sweeps s.config.toSettings X _ (0 + (s.nBurn + s.nSamples)) _ _ = _
  rw [Nat.zero_add]
  exact Iff.rfl

/-! ### C109 -/

/-- The mean of lists of equal length, one after the other, is the mean of their means. -/
theorem mean_flatten {k : Nat} (hk : 0 < k) : ∀ {L : List (List K)}, (∀ l ∈ L, l.length = k) → mean L.flatten = mean (L.map mean) := by
  intro L h
  have hsum : L.flatten.sum = (L.map mean).sum * k := by
    induction L with
    | nil => simp
    | cons l L ih =>
      have h1 := h l (by simp)
      have hk' : (k : K) ≠ 0 := by exact_mod_cast hk.ne'
      rw [List.flatten_cons, List.sum_append, ih (fun l hl => h l (by simp [hl])), List.map_cons, List.sum_cons, add_mul]
      congr 1
      unfold mean
      rw [h1]; field_simp
  have hlen : L.flatten.length = L.length * k := by
    rw [List.length_flatten, List.map_congr_left h]; simp
  unfold mean
  rw [hsum, hlen, List.length_map]
  have hk' : (k : K) ≠ 0 := by exact_mod_cast hk.ne'
  push_cast
  rw [mul_div_mul_right _ _ hk']
  rfl

theorem originalScale_mean {lo hi : K} {l : List K} (hl : l ≠ []) : originalScale lo hi (mean l) = mean (l.map (originalScale lo hi)) := by
  have hk : ((l.length : Nat) : K) ≠ 0 := by
    have := List.length_pos_iff.2 hl
    exact_mod_cast this.ne'
  have : ∀ l : List K, (l.map (originalScale lo hi)).sum = l.sum * (hi - lo) + l.length * originalScale lo hi 0 := by
    intro l
    induction l with
    | nil => simp
    | cons a l ih => simp only [List.map_cons, List.sum_cons, ih, List.length_cons]; unfold originalScale; push_cast; ring
  unfold mean
  rw [this, List.length_map]
  unfold originalScale
  field_simp
  ring

theorem storedTimes_pos {N : Nat} (hN : 0 < N) (thin : K) : 0 < (storedTimes N thin).length := by
  apply List.length_pos_of_mem (a := 0)
  unfold storedTimes
  simp only [List.mem_filter, List.mem_range, decide_eq_true_eq]
  exact ⟨hN, 0, by simp⟩

theorem fit_ok_iff (hX : NoNan X) {s : SkModel K p} (hp : 0 < p) (hp1 : s.pGrow ≠ 0) (hp2 : s.pPrune ≠ 0) (hth : s.thin ≠ 0) (hch : 0 < s.nChains) {y : Fin n → K} {lo hi : K}
    (hlo : IsLeast (Set.range y) lo) (hhi : IsGreatest (Set.range y) hi) (hlt : lo < hi) {rs : Nat → Rand K} : (∃ f, s.fit X y rs = .ok f) ↔ ∃ l, Reference.fit s.config X lo hi y rs = .ok l := by
  have h := C103_fit hX hp hp1 hp2 hth hch hlo hhi hlt rs
  cases hf : s.fit X y rs with
  | error e' => rw [hf] at h; simp only at h; rw [h]; simp
  | ok f =>
    rw [hf] at h
    obtain ⟨l, _, h, -⟩ := h
    rw [h]; simp

theorem ref_single {s : SkModel K p} {lo hi : K} {y : Fin n → K} {r : Rand K} {l : List (List Bool × State K p)} :
    Reference.fit ({ s with nChains := 1 } : SkModel K p).config X lo hi y (fun _ => r) = .ok l ↔ chain s.config X (scaled lo hi y) r = .ok l := by
  unfold Reference.fit
  rw [show (List.range ({ s with nChains := 1 } : SkModel K p).config.nChains).map (fun _ => r) = [r] from rfl, chains_split]
  constructor
  · rintro ⟨L, h1, rfl⟩
    cases h1 with
    | cons e h =>
      cases h
      simp only [List.flatten_cons, List.flatten_nil, List.append_nil]
      exact e
  · intro h
    exact ⟨[l], .cons h .nil, by simp⟩

/-- C109: a fit with several chains returns if and only if the fits with one chain each return that use the draws of one of the chains. -/
theorem C109_returns (hX : NoNan X) {s : SkModel K p} (hp : 0 < p) (hp1 : s.pGrow ≠ 0) (hp2 : s.pPrune ≠ 0) (hth : s.thin ≠ 0) (hch : 0 < s.nChains) {y : Fin n → K} (hy : ∃ i j, y i ≠ y j)
    (rs : Nat → Rand K) :
    (∃ f, s.fit X y rs = .ok f) ↔ ∀ i < s.nChains, ∃ f, ({ s with nChains := 1 } : SkModel K p).fit X y (fun _ => rs i) = .ok f := by
  obtain ⟨lo, hi, hlo, hhi, hlt⟩ := exists_range hy
  rw [fit_ok_iff hX hp hp1 hp2 hth hch hlo hhi hlt]
  have h1 : ∀ i, (∃ f, ({ s with nChains := 1 } : SkModel K p).fit X y (fun _ => rs i) = .ok f) ↔ ∃ l, chain s.config X (scaled lo hi y) (rs i) = .ok l := by
    intro i
    rw [fit_ok_iff hX (s := { s with nChains := 1 }) hp hp1 hp2 hth (by norm_num) hlo hhi hlt]
    simp only [ref_single]
  simp only [h1]
  unfold Reference.fit
  simp only [chains_split]
  constructor
  · rintro ⟨_, L, h, -⟩ i hi
    have hm : rs i ∈ (List.range s.config.nChains).map rs := List.mem_map.2 ⟨i, List.mem_range.2 hi, rfl⟩
    generalize (List.range s.config.nChains).map rs = rl at h hm
    induction h with
    | nil => cases hm
    | cons e _ ih =>
      rcases List.mem_cons.1 hm with hm | hm
      · rw [hm]; exact ⟨_, e⟩
      · exact ih hm
  · intro h
    have hall : ∀ r ∈ (List.range s.config.nChains).map rs, ∃ l, chain s.config X (scaled lo hi y) r = .ok l := by
      intro r hr
      obtain ⟨i, hi, rfl⟩ := List.mem_map.1 hr
      exact h i (List.mem_range.1 hi)
    obtain ⟨L, hL⟩ := forall₂_of_forall hall
    exact ⟨L.flatten, L, hL, rfl⟩

/-- C109: and then its predictions are the averages of their predictions. -/
theorem C109_average (hX : NoNan X) {s : SkModel K p} (hp : 0 < p) (hp1 : s.pGrow ≠ 0) (hp2 : s.pPrune ≠ 0) (hth : s.thin ≠ 0) (hns : 0 < s.nSamples) {y : Fin n → K} (hy : ∃ i j, y i ≠ y j)
    {rs : Nat → Rand K} {f : SkModel K p} (h : s.fit X y rs = .ok f) {fs : Fin s.nChains → SkModel K p} (hs : ∀ i : Fin s.nChains, ({ s with nChains := 1 } : SkModel K p).fit X y (fun _ => rs i) = .ok (fs i))
    {q : Nat} (Z : Fin q → Fin p → Fl K) (hZ : ∀ r, GoodRow (Z r)) :
    ∃ v : Fin s.nChains → Fin q → K, (∀ i, (fs i).predict (some ⟨q, Z⟩) = .ok (List.ofFn (v i))) ∧ f.predict (some ⟨q, Z⟩) = .ok (List.ofFn fun r => (∑ i, v i r) / (s.nChains : K)) := by
  obtain ⟨lo, hi, hlo, hhi, hlt⟩ := exists_range hy
  have hch : 0 < s.nChains := by
    by_contra h0
    have h0 : s.nChains = 0 := by omega
    obtain ⟨d, m, os, c, e1, e2, e3, -⟩ := fit_spec h
    rw [h0] at e2
    cases e2
    unfold combineChains at e3; cases e3
  have hone : ∀ i : Fin s.nChains, ∃ l, chain s.config X (scaled lo hi y) (rs i) = .ok l ∧ l.length = (storedTimes s.nSamples s.thin).length ∧
      (fs i).predict (some ⟨q, Z⟩) = .ok (List.ofFn (fun r => prediction lo hi l (Z r))) := by
    intro i
    have h1 := C103_fit hX (s := { s with nChains := 1 }) hp hp1 hp2 hth (by norm_num) hlo hhi hlt (fun _ => rs i)
    rw [hs i] at h1
    obtain ⟨l, c, a1, -, -, -, -, -, -, a7⟩ := h1
    have e := ref_single.1 a1
    have hl := chain_length e
    refine ⟨l, e, hl, (a7 ?_).1 Z hZ⟩
    rintro rfl
    have := storedTimes_pos hns s.thin
    have hl' : (storedTimes s.nSamples s.thin).length = 0 := hl.symm
    omega
  choose l e1 e2 e3 using hone
  have hfit : Reference.fit s.config X lo hi y rs = .ok (List.ofFn l).flatten := by
    refine chains_split.2 ⟨List.ofFn l, ?_, rfl⟩
    rw [List.forall₂_iff_get]
    refine ⟨by simp [SkModel.config], fun i h1 h2 => ?_⟩
    simp only [List.get_eq_getElem, List.getElem_map, List.getElem_range, List.getElem_ofFn]
    exact e1 ⟨i, by simpa using h2⟩
  have h2 := C103_fit hX hp hp1 hp2 hth hch hlo hhi hlt rs
  rw [h] at h2
  obtain ⟨sm, c, d1, -, -, -, -, -, -, d7⟩ := h2
  rw [hfit] at d1; injection d1 with d1; subst d1
  have hpos := storedTimes_pos hns s.thin
  refine ⟨fun i r => prediction lo hi (l i) (Z r), e3, ?_⟩
  rw [(d7 ?_).1 Z hZ]
  · congr 2
    funext r
    simp only [prediction_eq]
    rw [List.map_flatten, mean_flatten hpos (by
      intro x hx
      obtain ⟨x', hx', rfl⟩ := List.mem_map.1 hx
      obtain ⟨i, rfl⟩ := List.mem_ofFn.1 hx'
      rw [List.length_map, e2]), originalScale_mean (by
        intro h0
        have := congrArg List.length h0
        simp at this
        omega)]
    unfold mean
    simp only [List.map_map, List.length_map, List.length_ofFn, List.map_ofFn, List.sum_ofFn, Function.comp_def]
  · intro h0
    have hm : l ⟨0, hch⟩ ∈ List.ofFn l := List.mem_ofFn.2 ⟨_, rfl⟩
    have := List.flatten_eq_nil_iff.1 h0 _ hm
    have h3 := e2 ⟨0, hch⟩
    rw [this] at h3
    simp at h3
    rw [h3] at hpos
    simp at hpos

/-! ### concrete cases -/

section examples
attribute [local instance] exFns

/-- C109, the example: two chains with different predictions for the row 2, and their average. -/
example : (match exFit true, ({ exSk true with nChains := 1 } : SkModel ℚ 1).fit exX exY (fun _ => exRs 0), ({ exSk true with nChains := 1 } : SkModel ℚ 1).fit exX exY (fun _ => exRs 1) with
    | .ok f, .ok f0, .ok f1 => (match f.predict (some ⟨1, fun _ _ => .fin 2⟩), f0.predict (some ⟨1, fun _ _ => .fin 2⟩), f1.predict (some ⟨1, fun _ _ => .fin 2⟩) with
      | .ok [a], .ok [b], .ok [c] => decide (a = (b + c) / 2 ∧ b ≠ c)
      | _, _, _ => false)
    | _, _, _ => false) = true ∧ NoNan exX ∧ (exSk true).pGrow ≠ 0 ∧ (exSk true).pPrune ≠ 0 ∧ (exSk true).thin ≠ 0 ∧ 0 < (exSk true).nSamples ∧ ∃ i j, exY i ≠ exY j := by
  refine ⟨by decide +kernel, by unfold NoNan; decide +kernel, by decide +kernel, by decide +kernel, by decide +kernel, by decide, 0, 1, by decide +kernel⟩

/-- The values of sigma that a fit has kept. -/
def exSigmas (f : Except PyErr (SkModel ℚ 1)) : List ℚ :=
  match f with
  | .ok f => (match f.samples with | some c => c.models.map (fun x => (x.live.storedSigma x.stored).current) | none => [])
  | .error _ => []

/-- C86, the example: the burn-in leaves out the first of four values of sigma, and thinning the third. -/
example : let a := exSigmas (({ exSk true with nChains := 1 } : SkModel ℚ 1).fit exX exY exRs)
    let b := exSigmas (({ exSk true with nChains := 1, nBurn := 0, nSamples := 4, thin := 1 } : SkModel ℚ 1).fit exX exY exRs)
    b.length = 4 ∧ a.length = 2 ∧ a[0]? = b[1]? ∧ a[1]? = b[3]? ∧ b.Nodup := by
  decide +kernel

end examples

end Bart
