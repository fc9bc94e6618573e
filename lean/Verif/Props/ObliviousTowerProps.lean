import Verif.Proofs.LayerTower
import Verif.Props.ObliviousReferenceProps
import Verif.Props.RunLengthProps

/-! C136: the size of the trees of the oblivious tree sampler is not bounded by the data. -/

set_option linter.unusedSectionVars false

namespace Bart.Oblivious
open Bart Spec Reference LayerTower LayerReturns Lik

section general
variable {K : Type} [Field K] [LinearOrder K] [IsStrictOrderedRing K] {n p : Nat} {X : Fin n → Fin p → Fl K} [MathFns K] [FloorRing K]

theorem sweeps_heights {c : Settings K} {y : Fin n → K} : ∀ (k d : ℕ) {s : Layers.State K p} {r : Rand K} {l st r'}, (∀ t ∈ s.trees, t.layers.length ≤ d) →
    Layers.sweeps c X y k s r = .ok (l, st, r') → ∀ i q, l[i]? = some q → ∀ t ∈ q.2.trees, t.layers.length ≤ d + i + 1 := by
  intro k
  induction k with
  | zero => intro d s r l st r' _ h i q hq; simp only [Layers.sweeps] at h; cases h; simp at hq
  | succ k ih =>
    intro d s r l st r' hs h i q hq t ht
    simp only [Layers.sweeps] at h
    split at h
    · cases h
    · next bs s1 r1 e1 =>
      split at h
      · cases h
      · next l1 s2 r2 e2 =>
        cases h
        obtain ⟨h1, -⟩ := sweep_shape hs e1
        cases i with
        | zero => simp only [List.getElem?_cons_zero, Option.some.injEq] at hq; subst hq; exact h1 t ht
        | succ i =>
          have := ih (d + 1) h1 e2 i q (by simpa using hq) t ht
          omega

theorem chain_heights {c : Config K} {y : Fin n → K} {r : Rand K} {l} (h : Layers.chain c X y r = .ok l) : ∀ q ∈ l, ∀ t ∈ q.2.trees, t.layers.length ≤ c.nBurn + c.nSamples := by
  unfold Layers.chain at h
  split at h
  · cases h
  · next l1 st r' e =>
    cases h
    intro q hq t ht
    obtain ⟨i, hi, hq⟩ := List.mem_filterMap.1 hq
    have hi : i < c.nSamples := by
      unfold storedTimes at hi
      exact List.mem_range.1 (List.mem_filter.1 hi).1
    have := sweeps_heights _ 0 (fun t ht => by
      unfold Layers.start at ht
      rw [List.eq_of_mem_replicate ht]; exact le_refl 0) e (c.nBurn + i) q hq t ht
    omega

theorem chains_heights {c : Config K} {y : Fin n → K} : ∀ (rs : List (Rand K)) {l}, Layers.chains c X y rs = .ok l → ∀ q ∈ l, ∀ t ∈ q.2.trees, t.layers.length ≤ c.nBurn + c.nSamples := by
  intro rs
  induction rs with
  | nil => intro l h; simp only [Layers.chains] at h; cases h; simp
  | cons r rs ih =>
    intro l h
    simp only [Layers.chains] at h
    split at h
    · cases h
    · next l1 e1 =>
      split at h
      · cases h
      · next l2 e2 =>
        cases h
        intro q hq
        rcases List.mem_append.1 hq with hq | hq
        · exact chain_heights e1 q hq
        · exact ih e2 q hq

/-- C136, what is true: after `n_burn + n_samples` sweeps a tree has at most `2 ^ (n_burn + n_samples)` leaves. Missing: a bound in terms of the training data (there is none, see `C136_unbounded`). -/
theorem C136_leaves_partial (hX : ∀ r, GoodRow (X r)) {s s' : SkModel K p} (hp : 0 < p) (hp1 : s.pGrow ≠ 0) (hp2 : s.pPrune ≠ 0) (hth : s.thin ≠ 0) (hch : 0 < s.nChains) {y : Fin n → K} {a b : Fin n}
    (hy : y a ≠ y b) {rs : Nat → Rand K} (h : fit s X y rs = .ok s') {c : Combined K p} (hc : s'.samples = some c) {x : Sample K p} (hx : x ∈ c.models) {t : Tree K x.n p} (ht : t ∈ x.trees) :
    t.leafNodes.length ≤ 2 ^ (s.nBurn + s.nSamples) := by
  have : Nonempty (Fin n) := ⟨a⟩
  obtain ⟨i, hi⟩ := Finite.exists_min y
  obtain ⟨j, hj⟩ := Finite.exists_max y
  have hlt : y i < y j := by
    rcases lt_or_gt_of_ne hy with h | h
    · exact lt_of_le_of_lt (hi a) (lt_of_lt_of_le h (hj b))
    · exact lt_of_le_of_lt (hi b) (lt_of_lt_of_le h (hj a))
  have h1 := C127_fit hX hp hp1 hp2 hth hch (lo := y i) (hi := y j) ⟨⟨i, rfl⟩, by rintro _ ⟨r, rfl⟩; exact hi r⟩ ⟨⟨j, rfl⟩, by rintro _ ⟨r, rfl⟩; exact hj r⟩ hlt rs
  rw [h] at h1
  obtain ⟨l, c', e1, e2, -, e3, -⟩ := h1
  rw [hc] at e2
  cases e2
  have hm : x.trees.map leavesOf ∈ c.models.map (fun x => x.trees.map leavesOf) := List.mem_map_of_mem hx
  rw [e3] at hm
  obtain ⟨q, hq, e4⟩ := List.mem_map.1 hm
  have hm2 : leavesOf t ∈ x.trees.map leavesOf := List.mem_map_of_mem ht
  rw [← e4] at hm2
  obtain ⟨T, hT, e5⟩ := List.mem_map.1 hm2
  have hh := chains_heights _ e1 q hq T hT
  have : t.leafNodes.length = (layerLeaves T).length := by rw [e5]; simp [leavesOf]
  rw [this]
  unfold layerLeaves
  rw [List.length_zip]
  exact le_trans (Nat.min_le_left _ _) (le_trans (paths_length _) (Nat.pow_le_pow_right (by norm_num) hh))

end general

/-- The target of the data with which the trees grow without end. -/
def target : Fin 3 → ℝ := ![0, 1, 2]

theorem scaled_target : scaled 0 2 target = ys := by
  funext i
  fin_cases i <;> simp [scaled, target, ys] <;> norm_num

theorem filterMap_range {α : Type} (l : List α) : (List.range l.length).filterMap (fun t => l[t]?) = l := by
  induction l with
  | nil => rfl
  | cons a l ih =>
    rw [List.length_cons, List.range_succ_eq_map, List.filterMap_cons]
    simp only [List.getElem?_cons_zero, List.filterMap_map, Function.comp_def, List.getElem?_cons_succ]
    rw [ih]

theorem chain_grow {c : Config ℝ} (hk : 0 < c.k) (hT : c.nTrees = 1) (hB : c.nBurn = 0) (hth : c.thin = 1) {D : ℕ} (hN : c.nSamples = D + 1) (ha0 : 0 < c.alpha) (ha1 : c.alpha < 1) (hbe : 0 ≤ c.beta)
    (hg : 0 < c.pGrow) (hp : 0 < c.pPrune) (hA : 0 ≤ c.sigmaA) (hB' : 0 ≤ c.sigmaB) :
    ∃ x : ℝ, 1 ≤ x ∧ ∀ us zs : List ℝ, (∀ u ∈ us, u < 1) → D + 1 ≤ us.length → 2 ^ (D + 1) ≤ zs.length →
      ∃ L, Layers.chain c (rampX 3) ys ⟨.prune :: List.replicate D .grow, [0, 0], us, zs, List.replicate (D + 1) (x ^ 2)⟩ = .ok L ∧ ∀ i ≤ D, ∃ q, L[i]? = some q ∧ AtHeight x i q := by
  have gp : GoodParams (c.params 1) := ⟨one_pos, hk, by show 0 < c.nTrees; omega⟩
  have gpr : GoodPrior (c.params 1) := ⟨ha0, ha1, hbe⟩
  obtain ⟨x, hx, hgain⟩ := tower_gain gp gpr hg hp D
  refine ⟨x, hx, fun us zs hu hul hzl => ?_⟩
  have hgain' : ∀ e, e < 0 + D → ∃ w : ℝ, 1 ≤ w ∧ ∀ us, Layers.propose (c.params (1 / x)) c.pGrow c.pPrune (rampX 3) ys (tower e) .grow (picksFor e us) = .ok (tower (e + 1), .fin w, us) :=
    fun e h => hgain e (by omega)
  cases us with
  | nil => simp at hul
  | cons u uu =>
    obtain ⟨b, vs, e1, hv⟩ := sweep_first c.toSettings hk hT hA hB' (x := x) (by linarith) (List.replicate D .grow) [0, 0] u uu (zs := zs) (le_trans Nat.one_le_two_pow hzl) (List.replicate D (x ^ 2))
    have hz2 : 2 ^ (0 + D + 1) ≤ (zs.drop 1).length + 2 ^ (0 + 1) := by rw [List.length_drop, zero_add]; omega
    obtain ⟨l, st, r, e2, hlen, hall⟩ := sweeps_grow c.toSettings hk hT hA hB' hx D 0 hgain' uu (zs.drop 1) vs (fun v h => hu v (by simp [h])) (by simpa using hul) hz2
    have hLi : ∀ i ≤ D, ∃ q, (([b], (⟨[⟨tower 0, vs⟩], 1 / x⟩ : Layers.State ℝ 1)) :: l)[i]? = some q ∧ AtHeight x i q := by
      intro i hi
      cases i with
      | zero => exact ⟨_, rfl, vs, rfl, by rw [hv, pow_zero]⟩
      | succ i =>
        obtain ⟨q, h1, h2⟩ := hall i (by omega)
        exact ⟨q, by rw [List.getElem?_cons_succ]; exact h1, by rw [show i + 1 = 0 + i + 1 by omega]; exact h2⟩
    refine ⟨_, ?_, hLi⟩
    have hsw : Layers.sweeps c.toSettings (rampX 3) ys (D + 1) (Layers.start c.toSettings) ⟨.prune :: List.replicate D .grow, [0, 0], u :: uu, zs, List.replicate (D + 1) (x ^ 2)⟩ =
        .ok (([b], (⟨[⟨tower 0, vs⟩], 1 / x⟩ : Layers.State ℝ 1)) :: l, st, r) := by
      simp only [Layers.sweeps, List.replicate_succ]
      rw [e1]
      simp only [picksFor] at e2 ⊢
      rw [e2]
    unfold Layers.chain
    rw [show c.nBurn + c.nSamples = D + 1 by omega, hsw]
    simp only
    rw [hN, hth, storedTimes_one, hB]
    congr 1
    simp only [zero_add]
    have := filterMap_range (([b], (⟨[⟨tower 0, vs⟩], 1 / x⟩ : Layers.State ℝ 1)) :: l)
    rw [List.length_cons, hlen] at this
    exact this

/-- C136 is false: with three rows of training data and any number `D`, there are draws for which a fit with one tree returns, and sample number `i` has a tree with `2 ^ i` leaves, for all `i ≤ D`.
All that is asked of the uniform draws is to be less than 1, and there are no conditions on the normal draws. -/
theorem C136_unbounded {s : SkModel ℝ 1} (hT : s.nTrees = 1) (hC : s.nChains = 1) (hB : s.nBurn = 0) (hth : s.thin = 1) {D : ℕ} (hN : s.nSamples = D + 1) (ha0 : 0 < s.alpha) (ha1 : s.alpha < 1) (hbe : 0 ≤ s.beta)
    (hg : 0 < s.pGrow) (hp : 0 < s.pPrune) (hA : 0 ≤ s.sigmaA) (hB' : 0 ≤ s.sigmaB) :
    ∃ g : ℝ, 0 < g ∧ ∀ us zs : List ℝ, (∀ u ∈ us, u < 1) → D + 1 ≤ us.length → 2 ^ (D + 1) ≤ zs.length →
      ∃ s' c, fit s (rampX 3) target (fun _ => ⟨.prune :: List.replicate D .grow, [0, 0], us, zs, List.replicate (D + 1) g⟩) = .ok s' ∧ s'.samples = some c ∧
        ∀ i ≤ D, ∃ x, c.models[i]? = some x ∧ x.trees.map (fun t => t.leafNodes.length) = [2 ^ i] := by
  obtain ⟨x, hx, hchain⟩ := chain_grow (c := s.config) (by show (0 : ℝ) < 2; norm_num) hT hB hth hN ha0 ha1 hbe hg hp hA hB'
  refine ⟨x ^ 2, by positivity, fun us zs hu hul hzl => ?_⟩
  obtain ⟨L, hL, hall⟩ := hchain us zs hu hul hzl
  have h1 := C127_fit (X := rampX 3) (s := s) (fun r j => by simp [rampX]) one_pos hg.ne' hp.ne' (by rw [hth]; exact one_ne_zero) (by omega) (y := target) (lo := 0) (hi := 2)
    ⟨⟨0, rfl⟩, by rintro _ ⟨r, rfl⟩; fin_cases r <;> simp [target]⟩ ⟨⟨2, rfl⟩, by rintro _ ⟨r, rfl⟩; fin_cases r <;> simp [target]⟩ (by norm_num)
    (fun _ => ⟨.prune :: List.replicate D .grow, [0, 0], us, zs, List.replicate (D + 1) (x ^ 2)⟩)
  have hfit : Layers.fit s.config (rampX 3) 0 2 target (fun _ => ⟨.prune :: List.replicate D .grow, [0, 0], us, zs, List.replicate (D + 1) (x ^ 2)⟩) = .ok L := by
    unfold Layers.fit
    rw [scaled_target, show s.config.nChains = 1 from hC]
    simp only [List.range_one, List.map_cons, List.map_nil, Layers.chains]
    rw [hL]
    simp
  cases e : fit s (rampX 3) target (fun _ => ⟨.prune :: List.replicate D .grow, [0, 0], us, zs, List.replicate (D + 1) (x ^ 2)⟩) with
  | error er => rw [e] at h1; simp only at h1; rw [hfit] at h1; cases h1
  | ok s' =>
    rw [e] at h1
    obtain ⟨l, c, e1, e2, e3, e4, -⟩ := h1
    rw [hfit] at e1
    cases e1
    refine ⟨s', c, rfl, e2, fun i hi => ?_⟩
    obtain ⟨q, hq, vs, hq2, hvs⟩ := hall i hi
    have h5 := congrArg (fun l => l[i]?) e4
    simp only [List.getElem?_map, hq, Option.map_some, Option.map_eq_some_iff] at h5
    obtain ⟨smp, h6, h7⟩ := h5
    refine ⟨smp, h6, ?_⟩
    rw [hq2] at h7
    have h8 := congrArg (List.map List.length) h7
    simp only [List.map_map, List.map_cons, List.map_nil, layerLeaves, List.length_zip, tower_leaves, hvs, min_self] at h8
    rw [← h8]
    apply List.map_congr_left
    intro t _
    simp [leavesOf]

/-- C136, the example: with the default settings except one tree, one chain, eleven samples and no burn-in, three rows of data can give a tree of 1024 leaves. -/
example {s : SkModel ℝ 1} (hT : s.nTrees = 1) (hC : s.nChains = 1) (hB : s.nBurn = 0) (hth : s.thin = 1) (hN : s.nSamples = 11) (ha : s.alpha = 95 / 100) (hb : s.beta = 2) (hg : s.pGrow = 1 / 2)
    (hp : s.pPrune = 1 / 2) (hA : s.sigmaA = 1 / 1000) (hB' : s.sigmaB = 1 / 1000) :
    ∃ rs s' c x, fit s (rampX 3) target rs = .ok s' ∧ s'.samples = some c ∧ x ∈ c.models ∧ x.trees.map (fun t => t.leafNodes.length) = [1024] := by
  obtain ⟨g, -, h⟩ := C136_unbounded (D := 10) hT hC hB hth hN (by rw [ha]; norm_num) (by rw [ha]; norm_num) (by rw [hb]; norm_num) (by rw [hg]; norm_num) (by rw [hp]; norm_num) (by rw [hA]; norm_num)
    (by rw [hB']; norm_num)
  obtain ⟨s', c, e1, e2, e3⟩ := h (List.replicate 11 0) (List.replicate (2 ^ 11) 0) (fun u hu => by rw [List.eq_of_mem_replicate hu]; norm_num) (by simp) (by rw [List.length_replicate])
  obtain ⟨x, h1, h2⟩ := e3 10 (le_refl _)
  exact ⟨_, s', c, x, e1, e2, List.mem_of_getElem? h1, by rw [h2]; rfl⟩

end Bart.Oblivious
