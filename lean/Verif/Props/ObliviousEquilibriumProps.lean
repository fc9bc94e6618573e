import Verif.Spec.ObliviousEquilibrium
import Verif.Props.ObliviousProposalProps
import Verif.Props.EquilibriumProps

/-! Property theorem C138: a step of the oblivious tree sampler makes each change with the probability of its proposal times that of its acceptance; which distributions it leaves unchanged. -/

set_option linter.unusedSectionVars false
set_option linter.unusedVariables false

namespace Bart

/-- Steps that never lead back to a label that was left: a distribution that is left unchanged is one under which nothing happens. -/
theorem kernel_stays {T S : Type} (lab : T → S) (w : T → ENNReal) (k : T → S → ENNReal) (R : S → S → Prop) (tot : ∑' t, w t = 1) (hk : ∀ t, w t ≠ 0 → ∑' s, k t s = 1)
    (hR : ∀ t s, w t ≠ 0 → k t s ≠ 0 → R (lab t) s) (acyc : ∀ a b, R a b → Relation.ReflTransGen R b a → b = a)
    (stat : ∀ s, ∑' t, w t * k t s = ∑' t, (open Classical in if lab t = s then w t else 0)) {t0 : T} (h0 : w t0 ≠ 0) {S0 : S} (hS : S0 ≠ lab t0) : k t0 S0 = 0 := by
  classical
  by_contra hne
  have hstep := hR t0 S0 h0 hne
  let D : Set S := {s | Relation.ReflTransGen R S0 s}
  have hS0 : S0 ∈ D := Relation.ReflTransGen.refl
  have ht0 : lab t0 ∉ D := fun h => hS (acyc _ _ hstep h)
  let B := ∑' t, if lab t ∈ D then w t else 0
  have hB : B ≤ 1 := by
    rw [← tot]
    refine ENNReal.tsum_le_tsum fun t => ?_
    split <;> simp
  have hsum : ∑' t, w t * ∑' s : D, k t s = B := by
    simp only [← ENNReal.tsum_mul_left]
    rw [ENNReal.tsum_comm]
    have : ∀ s : D, ∑' t, w t * k t s = ∑' t, if lab t = s then w t else 0 := fun s => by rw [stat s.1]
    simp only [this]
    rw [ENNReal.tsum_comm]
    refine tsum_congr fun t => ?_
    by_cases hD : lab t ∈ D
    · rw [if_pos hD, tsum_eq_single (⟨_, hD⟩ : D) (fun s hs => if_neg fun h => hs (Subtype.ext h.symm)), if_pos rfl]
    · rw [if_neg hD, ENNReal.tsum_eq_zero]
      rintro ⟨s, hs⟩
      exact if_neg fun h => hD (by rw [h]; exact hs)
  have hge : ∑' t, ((if lab t ∈ D then w t else 0) + if t = t0 then w t0 * k t0 S0 else 0) ≤ ∑' t, w t * ∑' s : D, k t s := by
    refine ENNReal.tsum_le_tsum fun t => ?_
    by_cases hwt : w t = 0
    · have : t ≠ t0 := by rintro rfl; exact h0 hwt
      simp [hwt, this]
    by_cases hD : lab t ∈ D
    · have : t ≠ t0 := by rintro rfl; exact ht0 hD
      rw [if_pos hD, if_neg this, add_zero]
      have htot := hk t hwt
      rw [← tsum_subtype_eq_of_support_subset (s := D)] at htot
      · rw [htot, mul_one]
      · intro s hs
        exact Relation.ReflTransGen.tail hD (hR t s hwt hs)
    · rw [if_neg hD, zero_add]
      split
      · next h =>
        subst h
        exact mul_le_mul_right (ENNReal.le_tsum (⟨S0, hS0⟩ : D)) _
      · exact zero_le
  rw [ENNReal.tsum_add, tsum_eq_single t0 (fun t ht => if_neg ht), if_pos rfl, hsum] at hge
  have hfin : B ≠ ⊤ := ne_top_of_le_ne_top ENNReal.one_ne_top hB
  have : w t0 * k t0 S0 = 0 := by
    by_contra hpos
    exact absurd hge (not_le.2 (ENNReal.lt_add_right hfin hpos))
  exact (mul_ne_zero h0 hne) this

end Bart

namespace Bart.Oblivious
open Bart Spec Reference Lik LayerRecur
open scoped ENNReal

variable {n p : Nat} {X : Fin n → Fin p → Fl ℝ} {y : Fin n → ℝ} {N : Nat} {m : Params ℝ} {pGrow pPrune : ℝ} {t : Tree ℝ n p} {layers : List (List (Layers.Rule ℝ p))}

/-- What happens to the leaves in a step with given draws. -/
theorem ostep_iff (hX : NoNan X) (hS : Seen X (some y) t layers) (hg : 0 < pGrow) (hp : 0 < pPrune) (us : List Nat) (ms : List Method) (u : ℝ) (q : List (List (Cond ℝ p))) :
    (∃ mus t' r', treeStep m pGrow pPrune t ⟨ms, us, [u], [], []⟩ = .ok (mus, t', r') ∧ r'.methods = [] ∧ r'.picks = [] ∧ leafPaths t' = q) ↔
      ∃ me proposed ratio, ms = [me] ∧ Layers.propose m pGrow pPrune X y layers me us = .ok (proposed, ratio, []) ∧
        if Fl.lt (.fin u) ratio = true then Layers.paths proposed = q else Layers.paths layers = q := by
  constructor
  · rintro ⟨mus, t', r', e, e1, e2, e3⟩
    obtain ⟨layers', e4, hS'⟩ := hS.step hX m hg.ne' hp.ne' e
    rw [hS'.paths] at e3
    unfold Layers.treeStep at e4
    dsimp only at e4
    cases ms with
    | nil => cases e4
    | cons me ms =>
      dsimp only at e4
      cases e5 : Layers.propose m pGrow pPrune X y layers me us with
      | error er => rw [e5] at e4; cases e4
      | ok z =>
        obtain ⟨proposed, ratio, us1⟩ := z
        rw [e5] at e4
        dsimp only at e4
        injection e4 with e4; injection e4 with _ e4; injection e4 with e6 e7
        subst e7
        dsimp only at e1 e2
        subst e1 e2
        refine ⟨me, proposed, ratio, rfl, e5, ?_⟩
        subst e6
        split
        · next h => rw [if_pos h] at e3; exact e3
        · next h => rw [if_neg h] at e3; exact e3
  · rintro ⟨me, proposed, ratio, rfl, e5, h⟩
    obtain ⟨mus, t', e6, hS'⟩ := model_step (m := m) (b := Fl.lt (.fin u) ratio) (layers' := if Fl.lt (.fin u) ratio then proposed else layers) (r := ⟨[me], us, [u], [], []⟩) (r' := ⟨[], [], [], [], []⟩)
      hX hS hg.ne' hp.ne' (by unfold Layers.treeStep; simp only [e5])
    refine ⟨mus, t', _, e6, rfl, rfl, ?_⟩
    rw [hS'.paths]
    split
    · next h' => rw [if_pos h'] at h; exact h
    · next h' => rw [if_neg h'] at h; exact h

open Classical in
/-- The measure of the uniform numbers for which a step with given draws leads to the leaves `q`. -/
theorem ostep_volume (hX : NoNan X) (hS : Seen X (some y) t layers) (hg : 0 < pGrow) (hp : 0 < pPrune) {us : List Nat} {me : Method} {proposed : List (List (Layers.Rule ℝ p))} {ratio : Fl ℝ}
    (hpr : Layers.propose m pGrow pPrune X y layers me us = .ok (proposed, ratio, [])) (q : List (List (Cond ℝ p))) :
    MeasureTheory.volume {u : ℝ | 0 ≤ u ∧ u < 1 ∧ ∃ mus t' r', treeStep m pGrow pPrune t ⟨[me], us, [u], [], []⟩ = .ok (mus, t', r') ∧ r'.methods = [] ∧ r'.picks = [] ∧ leafPaths t' = q} =
      (if Layers.paths proposed = q then ENNReal.ofReal (acceptProb ratio) else 0) + (if Layers.paths layers = q then 1 - ENNReal.ofReal (acceptProb ratio) else 0) := by
  have key : ∀ u, (∃ mus t' r', treeStep m pGrow pPrune t ⟨[me], us, [u], [], []⟩ = .ok (mus, t', r') ∧ r'.methods = [] ∧ r'.picks = [] ∧ leafPaths t' = q) ↔
      if Fl.lt (.fin u) ratio = true then Layers.paths proposed = q else Layers.paths layers = q := by
    intro u
    rw [ostep_iff hX hS hg hp]
    constructor
    · rintro ⟨me', proposed', ratio', h0, h1, h2⟩
      injection h0 with h0; subst h0
      rw [hpr] at h1; injection h1 with h1; injection h1 with h1 h3; injection h3 with h3 _; subst h1 h3
      exact h2
    · intro h; exact ⟨me, proposed, ratio, rfl, hpr, h⟩
  simp only [key]
  by_cases h1 : Layers.paths proposed = q
  · by_cases h2 : Layers.paths layers = q
    · rw [if_pos h1, if_pos h2, add_tsub_cancel_of_le (ENNReal.ofReal_le_one.2 (acceptProb_le_one _))]
      simp only [h1, h2, ite_self, and_true]
      rw [show {u : ℝ | 0 ≤ u ∧ u < 1} = Set.Ico 0 1 from rfl, Real.volume_Ico]
      simp
    · rw [if_pos h1, if_neg h2, add_zero, ← acceptProb_measure]
      congr 1
      ext u
      simp [h1, h2]
  · rw [if_neg h1, zero_add]
    by_cases h2 : Layers.paths layers = q
    · rw [if_pos h2, ← reject_measure]
      congr 1
      ext u
      simp [h1, h2]
    · rw [if_neg h2]
      refine (congrArg MeasureTheory.volume (?_ : _ = (∅ : Set ℝ))).trans MeasureTheory.measure_empty
      ext u
      simp [h1, h2]

theorem ostep_volume_zero (hX : NoNan X) (hS : Seen X (some y) t layers) (hg : 0 < pGrow) (hp : 0 < pPrune) {us : List Nat} {ms : List Method}
    (hpr : ∀ me proposed ratio, ms = [me] → Layers.propose m pGrow pPrune X y layers me us ≠ .ok (proposed, ratio, [])) (q : List (List (Cond ℝ p))) :
    MeasureTheory.volume {u : ℝ | 0 ≤ u ∧ u < 1 ∧ ∃ mus t' r', treeStep m pGrow pPrune t ⟨ms, us, [u], [], []⟩ = .ok (mus, t', r') ∧ r'.methods = [] ∧ r'.picks = [] ∧ leafPaths t' = q} = 0 := by
  refine (congrArg MeasureTheory.volume (?_ : _ = (∅ : Set ℝ))).trans MeasureTheory.measure_empty
  ext u
  simp only [Set.mem_ofPred_eq, Set.mem_empty_iff_false, iff_false, not_and]
  intro _ _
  rw [ostep_iff hX hS hg hp]
  rintro ⟨me, proposed, ratio, h0, h1, -⟩
  exact hpr me proposed ratio h0 h1

/-- A tree of one node over data that can be split can be split. -/
theorem unsplittable_root (hX : NoNan X) (hc : columns X (fun _ => true) ≠ []) {s : Shape} {d : Nat} (hT : OTree X (some y) t s d) (hv : View t layers) {i : NodeId} (hi : t.nodes = [i])
    (hcol : ∀ j, isNotConstant (column X (rowsOf (t.heap.dataOf i)) j) = false) : False := by
  have hd := hT.depth_of hv
  have hl := hT.leaves
  have hle : t.leafNodes.length ≤ 1 := by
    have : t.leafNodes.length ≤ t.nodes.length := List.length_filter_le _ _
    rw [hi] at this; exact this
  have hd0 : d = 0 := by
    by_contra h0
    have := Nat.one_lt_two_pow h0
    omega
  subst hd0
  obtain rfl : layers = [] := List.eq_nil_of_length_eq_zero (by omega)
  have hpth := hv.1.paths
  have hin : i ∈ t.nodes := by rw [hi]; simp
  have hpi : pathOf t.heap i = [] := by
    have h0 : (idsAt t 0).map (pathOf t.heap) = [[]] := hpth
    have h1 : idsAt t 0 ≠ [] := by intro h; rw [h] at h0; cases h0
    obtain ⟨k, hk⟩ := List.exists_mem_of_ne_nil _ h1
    have h2 : k ∈ t.nodes := (List.mem_filter.1 hk).1
    rw [hi, List.mem_singleton] at h2
    subst h2
    have h3 : pathOf t.heap k ∈ (idsAt t 0).map (pathOf t.heap) := List.mem_map_of_mem hk
    rw [h0] at h3
    simpa using h3
  obtain ⟨kq, kc⟩ := hT.inv.nodeOk hin
  have hrows := (hT.inv.good hin).rows hX kc
  rw [hpi] at hrows
  have hall : Layers.rowsOn X ([] : List (Cond ℝ p)) = fun _ => true := by funext r; rfl
  rw [hall] at hrows
  rw [hrows] at hcol
  obtain ⟨j, hj⟩ := List.exists_mem_of_ne_nil _ hc
  rw [columns_eq hX] at hj
  have := (List.mem_filter.1 hj).2
  rw [hcol j] at this
  cases this

/-- The proposals and their log ratios: if the data can be split, the reference sampler proposes whenever the model does, with the same log ratio. -/
theorem ratio_ref (hX : NoNan X) (hc : columns X (fun _ => true) ≠ []) (hS : Seen X (some y) t layers) (m : Params ℝ) (hg : 0 < pGrow) (hp : 0 < pPrune) (us : List Nat) (me : Method) (ms : List Method) :
    match propose t us (me :: ms) with
    | .error e => Layers.propose m pGrow pPrune X y layers me us = .error e
    | .ok (mus, t1, us1, ms1) => ms1 = ms ∧ ∃ proposed ratio h2 t', Layers.propose m pGrow pPrune X y layers me us = .ok (proposed, ratio, us1) ∧
        sumRatios m pGrow pPrune mus t1.heap = .ok (ratio, h2) ∧ mutateAll mus t1 = .ok t' ∧ Seen X (some y) t' proposed := by
  have h0 := proposal_ref hX hc hS us me ms
  have hSee := hS
  obtain ⟨s, d, hT, hv⟩ := hS
  have h1 := propose_ref hX hT hv m hg.ne' hp.ne' us me ms
  cases e1 : propose t us (me :: ms) with
  | error e => rw [e1] at h1; exact h1
  | ok q =>
    obtain ⟨mus, t1, us1, ms1⟩ := q
    rw [e1] at h0 h1
    obtain ⟨rfl, proposed, t', a1, a2, a3⟩ := h0
    obtain ⟨-, he, proposed', terms, hf, hpr, -, -⟩ := h1
    have hs := sumRatios_ref hf
    refine ⟨rfl, ?_⟩
    cases e2 : sumRatios m pGrow pPrune mus t1.heap with
    | error e =>
      exfalso
      have ho := opropose_spec hX hT.inv us (me :: ms1)
      rw [e1] at ho
      obtain ⟨-, me', hme, hmv⟩ := ho
      injection hme with hme
      subst hme
      have hst := otreeStep_spec hX hT m pGrow pPrune ⟨me :: ms1, us, [0], [], []⟩
      unfold treeStep treeSample at hst
      dsimp only at hst
      rw [e1] at hst
      dsimp only at hst
      rw [e2] at hst
      dsimp only at hst
      have hrated : ∀ mu ∈ mus, ∃ c d l r, Rated X y t1.heap mu c d l r := by
        intro mu hmu
        cases hmv with
        | grow qs a b c =>
          obtain ⟨q, hq, rfl⟩ := List.mem_map.1 hmu
          exact ⟨_, _, _, _, (c q hq).rated⟩
        | prune qs a b c =>
          obtain ⟨q, hq, rfl⟩ := List.mem_map.1 hmu
          exact ⟨_, _, _, _, (c q hq).1.rated⟩
      have hs' := sumRatios_spec m pGrow pPrune mus hrated
      rw [e2] at hs'
      rcases hs' with ⟨rfl, -⟩ | ⟨-, h | h⟩
      · rcases hst with h | h | ⟨-, h⟩
        · cases h
        · cases h.1
        · obtain ⟨-, i, hi, hcol⟩ := h
          exact unsplittable_root hX hc hT hv hi hcol
      · exact hg.ne' h
      · exact hp.ne' h
    | ok z =>
      obtain ⟨ratio, h2⟩ := z
      rw [e2] at hs
      rw [hs.1] at hpr
      simp only at hpr
      have := layerProposal_of hpr
      rw [a1] at this
      injection this with this; injection this with this
      subst this
      exact ⟨proposed, ratio, h2, t', hpr, rfl, a2, a3⟩

/-- The log ratio is determined by what is proposed. -/
theorem ratio_unique {me me' : Method} {us us' us1 us1' : List Nat} {proposed : List (List (Layers.Rule ℝ p))} {l l' : Fl ℝ} (hne : proposed ≠ layers)
    (h : Layers.propose m pGrow pPrune X y layers me us = .ok (proposed, l, us1)) (h' : Layers.propose m pGrow pPrune X y layers me' us' = .ok (proposed, l', us1')) : l = l' := by
  have grow : ∀ {us us1 : List Nat} {l : Fl ℝ}, Layers.propose m pGrow pPrune X y layers .grow us = .ok (proposed, l, us1) → ∃ rules, proposed = rules :: layers ∧ growSum m pGrow pPrune X y rules layers = .ok l := by
    intro us us1 l h
    simp only [Layers.propose] at h
    cases eg : Layers.growRules X (Layers.paths layers) us with
    | error e => rw [eg] at h; cases h
    | ok g =>
      obtain ⟨rules, us2⟩ := g
      rw [eg] at h
      dsimp only at h
      cases es : Layers.sumTerms (List.zipWith (Layers.growTerm m pGrow pPrune X y layers.length) (Layers.paths layers) rules) with
      | error e => rw [es] at h; cases h
      | ok ratio =>
        rw [es] at h
        injection h with h; injection h with h1 h; injection h with h2 h3
        subst h2
        exact ⟨rules, h1.symm, es⟩
  have prune : ∀ {us us1 : List Nat} {l : Fl ℝ}, Layers.propose m pGrow pPrune X y layers .prune us = .ok (proposed, l, us1) → proposed = layers.tail ∧ Layers.propose m pGrow pPrune X y layers .prune [] = .ok (proposed, l, []) := by
    intro us us1 l h
    simp only [Layers.propose] at h ⊢
    cases layers with
    | nil =>
      dsimp only at h ⊢
      injection h with h; injection h with h1 h; injection h with h2 h3
      subst h1 h2
      exact ⟨rfl, rfl⟩
    | cons rules rest =>
      dsimp only at h ⊢
      split at h
      · cases h
      · next es =>
        injection h with h; injection h with h1 h; injection h with h2 h3
        subst h1 h2
        exact ⟨rfl, rfl⟩
  have len : ∀ rules : List (Layers.Rule ℝ p), rules :: layers ≠ layers.tail := by
    intro rules h
    have := congrArg List.length h
    simp at this
    omega
  cases me with
  | grow =>
    obtain ⟨rules, e1, e2⟩ := grow h
    cases me' with
    | grow =>
      obtain ⟨rules', e3, e4⟩ := grow h'
      rw [e1] at e3; injection e3 with e3 _; subst e3
      rw [e2] at e4; injection e4
    | prune =>
      obtain ⟨e3, -⟩ := prune h'
      rw [e1] at e3
      exact absurd e3 (len _)
  | prune =>
    obtain ⟨e1, e2⟩ := prune h
    cases me' with
    | grow =>
      obtain ⟨rules', e3, e4⟩ := grow h'
      rw [e1] at e3
      exact absurd e3.symm (len _)
    | prune =>
      obtain ⟨e3, e4⟩ := prune h'
      rw [e2] at e4
      injection e4 with e4; injection e4 with _ e4; injection e4

theorem full_propose (hf : Full layers) {me : Method} {us us1 : List Nat} {proposed : List (List (Layers.Rule ℝ p))} (h : layerProposal X layers me us = .ok (proposed, us1)) : Full proposed := by
  unfold layerProposal at h
  cases me with
  | grow =>
    dsimp only at h
    cases e : Layers.growRules X (Layers.paths layers) us with
    | error er => rw [e] at h; cases h
    | ok g =>
      obtain ⟨rules, us2⟩ := g
      rw [e] at h
      injection h with h; injection h with h _; subst h
      exact ⟨hf, (growRules_length e).symm.trans hf.paths_length⟩
  | prune =>
    injection h with h; injection h with h _; subst h
    cases layers with
    | nil => trivial
    | cons a l => exact hf.1

/-- Every draw that proposes something, as a proposal of the reference sampler. -/
theorem proposes_iff_layers (hX : NoNan X) (hc : columns X (fun _ => true) ≠ []) (hS : Seen X (some y) t layers) (m : Params ℝ) (hg : 0 < pGrow) (hp : 0 < pPrune) (us : List Nat) (ms : List Method) :
    ObliviousProposes t us ms ↔ ∃ me proposed ratio, ms = [me] ∧ Layers.propose m pGrow pPrune X y layers me us = .ok (proposed, ratio, []) := by
  constructor
  · rintro ⟨mus, t1, e⟩
    obtain ⟨me, rfl⟩ := one_kind hX hS e
    have h := ratio_ref hX hc hS m hg hp us me []
    rw [e] at h
    obtain ⟨-, proposed, ratio, h2, t', e1, -⟩ := h
    exact ⟨me, proposed, ratio, rfl, e1⟩
  · rintro ⟨me, proposed, ratio, rfl, e⟩
    have h := ratio_ref hX hc hS m hg hp us me []
    cases e1 : propose t us [me] with
    | error er => rw [e1] at h; simp only at h; rw [e] at h; cases h
    | ok q =>
      obtain ⟨mus, t1, us1, ms1⟩ := q
      rw [e1] at h
      obtain ⟨rfl, proposed', ratio', h2, t', e2, -⟩ := h
      rw [e] at e2; injection e2 with e2; injection e2 with _ e2; injection e2 with _ e2
      subst e2
      exact ⟨mus, t1, e1⟩

/-- A step leads somewhere with probability 1. -/
theorem ostepProb_total (hX : NoNan X) (hc : columns X (fun _ => true) ≠ []) (ht : ObliviousWork X t) (hS : Seen X (some y) t layers) (hy : HasTarget t y) (hN : DividesAll n p N) (hg : 0 < pGrow) (hp : 0 < pPrune)
    (h1 : pGrow + pPrune = 1) : ∑' q, obliviousStepProb m N pGrow pPrune t q = 1 := by
  classical
  have htot := C137_total hX hc ht hy hN hg hp h1
  unfold proposalProb at htot
  rw [ENNReal.toReal_eq_one_iff] at htot
  rw [← htot]
  unfold obliviousStepProb drawsProb
  rw [ENNReal.tsum_comm]
  refine tsum_congr fun ms => ?_
  rw [ENNReal.tsum_mul_left]
  congr 1
  rw [ENNReal.tsum_comm, prob]
  refine tsum_congr fun us => ?_
  rw [ENNReal.tsum_mul_left]
  by_cases h : ObliviousProposes t (us.map Fin.val) ms
  · rw [if_pos h]
    obtain ⟨me, proposed, ratio, rfl, hpr⟩ := (proposes_iff_layers hX hc hS m hg hp _ _).1 h
    simp only [ostep_volume hX hS hg hp hpr]
    rw [ENNReal.tsum_add, tsum_eq_single (Layers.paths proposed) (fun q hq => if_neg (Ne.symm hq)), if_pos rfl,
      tsum_eq_single (Layers.paths layers) (fun q hq => if_neg (Ne.symm hq)), if_pos rfl, add_tsub_cancel_of_le, mul_one]
    exact ENNReal.ofReal_le_one.2 (acceptProb_le_one _)
  · rw [if_neg h]
    have : ∀ me proposed ratio, ms = [me] → Layers.propose m pGrow pPrune X y layers me (us.map Fin.val) ≠ .ok (proposed, ratio, []) :=
      fun me proposed ratio h1 e => h ((proposes_iff_layers hX hc hS m hg hp _ _).2 ⟨me, proposed, ratio, h1, e⟩)
    simp only [ostep_volume_zero hX hS hg hp this]
    simp

/-- A change is made with the probability of proposing it times that of accepting it. -/
theorem ostepProb_move (hX : NoNan X) (hc : columns X (fun _ => true) ≠ []) (hS : Seen X (some y) t layers) (hg : 0 < pGrow) (hp : 0 < pPrune) {me : Method} {us0 us1 : List Nat}
    {proposed : List (List (Layers.Rule ℝ p))} {l : Fl ℝ} (hpr : Layers.propose m pGrow pPrune X y layers me us0 = .ok (proposed, l, us1)) (hne : proposed ≠ layers) :
    obliviousStepProb m N pGrow pPrune t (Layers.paths proposed) =
      drawsProb N (ENNReal.ofReal pGrow) (ENNReal.ofReal pPrune) (ProposesLeaves t (Layers.paths proposed)) * ENNReal.ofReal (acceptProb l) := by
  classical
  have hfp := full_propose hS.full (layerProposal_of hpr)
  have hne' : Layers.paths layers ≠ Layers.paths proposed := fun h => hne (paths_injective hfp hS.full h.symm)
  unfold obliviousStepProb drawsProb
  rw [← ENNReal.tsum_mul_right]
  refine tsum_congr fun ms => ?_
  rw [mul_assoc]
  congr 1
  rw [prob, ← ENNReal.tsum_mul_right]
  refine tsum_congr fun us => ?_
  by_cases h : ProposesLeaves t (Layers.paths proposed) (us.map Fin.val) ms
  · rw [if_pos h]
    have hk : ∃ me, ms = [me] := by obtain ⟨mus, t1, t', e, -⟩ := h; exact one_kind hX hS e
    obtain ⟨me', rfl⟩ := hk
    obtain ⟨mus, t1, t', e, e2, e3⟩ := h
    have hr := ratio_ref hX hc hS m hg hp (us.map Fin.val) me' []
    rw [e] at hr
    obtain ⟨-, proposed', l', h2, t'', e4, -, e5, hS'⟩ := hr
    rw [e2] at e5; injection e5 with e5; subst e5
    rw [hS'.paths] at e3
    obtain rfl := paths_injective hS'.full hfp e3
    obtain rfl := ratio_unique hne hpr e4
    rw [ostep_volume hX hS hg hp e4, if_pos rfl, if_neg hne', add_zero]
  · rw [if_neg h, zero_mul]
    by_cases h' : ∃ me' proposed' l', ms = [me'] ∧ Layers.propose m pGrow pPrune X y layers me' (us.map Fin.val) = .ok (proposed', l', [])
    · obtain ⟨me', proposed', l', rfl, e⟩ := h'
      rw [ostep_volume hX hS hg hp e, if_neg hne', if_neg]
      · simp
      · intro e'
        exact h ((proposesLeaves_iff hX hc hS _ _ _).2 ⟨proposed', layerProposal_of e, e'⟩)
    · rw [ostep_volume_zero hX hS hg hp (fun me' proposed' l' h1 h2 => h' ⟨me', proposed', l', h1, h2⟩), mul_zero]

/-! ### Steps never lead back -/

/-- A step can lead from the leaves `q` to the leaves `q'`. -/
def CanMove (X : Fin n → Fin p → Fl ℝ) (y : Fin n → ℝ) (m : Params ℝ) (pGrow pPrune : ℝ) (q q' : List (List (Cond ℝ p))) : Prop :=
  ∃ layers layers', LayerRecur.Move m pGrow pPrune X y layers layers' ∧ Full layers ∧ Full layers' ∧ Layers.paths layers = q ∧ Layers.paths layers' = q'

theorem canMove_acyclic {a b : List (List (Cond ℝ p))} (h : CanMove X y m pGrow pPrune a b) (hb : Relation.ReflTransGen (CanMove X y m pGrow pPrune) b a) : b = a := by
  have key : ∀ {a b : List (List (Cond ℝ p))}, Relation.ReflTransGen (CanMove X y m pGrow pPrune) a b → ∀ layers, Full layers → Layers.paths layers = a →
      ∃ layers', Full layers' ∧ Layers.paths layers' = b ∧ gains m pGrow pPrune X y layers ≤ gains m pGrow pPrune X y layers' := by
    intro a b h
    induction h with
    | refl => intro layers hf e; exact ⟨layers, hf, e, le_refl _⟩
    | tail _ hbc ih =>
      intro layers hf e
      obtain ⟨l1, f1, e1, g1⟩ := ih layers hf e
      obtain ⟨l2, l3, hm, f2, f3, e2, e3⟩ := hbc
      obtain rfl := paths_injective f1 f2 (e1.trans e2.symm)
      exact ⟨l3, f3, e3, g1.trans hm.gains.1⟩
  obtain ⟨l1, l2, hm, f1, f2, rfl, rfl⟩ := h
  obtain ⟨l3, f3, e3, g⟩ := key hb l2 f2 rfl
  obtain rfl := paths_injective f3 f1 e3
  rw [hm.gains.2 (le_antisymm hm.gains.1 g)]

theorem canMove_of (hX : NoNan X) (h1 : GoodParams m) (h2 : GoodPrior m) (hg : 0 < pGrow) (hp : 0 < pPrune) (ht : ObliviousWork X t) (hy : HasTarget t y) {q : List (List (Cond ℝ p))}
    (h : obliviousStepProb m N pGrow pPrune t q ≠ 0) : CanMove X y m pGrow pPrune (leafPaths t) q := by
  unfold obliviousStepProb at h
  obtain ⟨ms, h⟩ := not_forall.1 (mt ENNReal.tsum_eq_zero.2 h)
  obtain ⟨us, h⟩ := not_forall.1 (mt ENNReal.tsum_eq_zero.2 (right_ne_zero_of_mul h))
  obtain ⟨u, hu0, -, mus, t', r', e, -, -, e3⟩ := MeasureTheory.nonempty_of_measure_ne_zero (right_ne_zero_of_mul h)
  obtain ⟨layers, hS⟩ := seen_of hX ht hy
  obtain ⟨layers', hm, hS'⟩ := fixed_move hX h1 h2 hg hp hS (.tree (by simpa using hu0) e)
  exact ⟨layers, layers', hm, hS.full, hS'.full, hS.paths.symm, by rw [← hS'.paths]; exact e3⟩

/-- Every proposal that changes something has positive probability. -/
theorem opropose_pos (hX : NoNan X) (hc : columns X (fun _ => true) ≠ []) (hS : Seen X (some y) t layers) (hN : DividesAll n p N) (hg : 0 < pGrow) (hp : 0 < pPrune) {me : Method} {us us1 : List Nat}
    {proposed : List (List (Layers.Rule ℝ p))} (h : layerProposal X layers me us = .ok (proposed, us1)) (hne : proposed ≠ layers) :
    drawsProb N (ENNReal.ofReal pGrow) (ENNReal.ofReal pPrune) (ProposesLeaves t (Layers.paths proposed)) ≠ 0 := by
  intro h0
  suffices 0 < proposalProb N pGrow pPrune (ProposesLeaves t (Layers.paths proposed)) by
    unfold proposalProb at this
    rw [h0] at this
    simp at this
  unfold layerProposal at h
  cases me with
  | grow =>
    dsimp only at h
    cases e : Layers.growRules X (Layers.paths layers) us with
    | error er => rw [e] at h; cases h
    | ok g =>
      obtain ⟨rules, us2⟩ := g
      rw [e] at h
      injection h with h; injection h with h _; subst h
      have hr : List.Forall₂ (CanBecome X) (leafPaths t) rules := by
        rw [hS.paths]
        exact (Layers.growRules_possible e).imp (fun a b h => possible_iff.1 h)
      have := grow_prob hX hc hS hN hg hp hr
      rw [hS.paths] at this hr
      have e' : Layers.paths (rules :: layers) = grown (Layers.paths layers) rules := rfl
      rw [e', this]
      refine mul_pos hg (List.prod_pos fun x hx => ?_)
      have key : ∀ {ps : List (List (Cond ℝ p))} {rs : List (Layers.Rule ℝ p)}, List.Forall₂ (CanBecome X) ps rs → ∀ x ∈ List.zipWith (leafProb X) ps rs, 0 < x := by
        intro ps rs h
        induction h with
        | nil => intro x hx; simp at hx
        | @cons path rule _ _ hd _ ih =>
          intro x hx
          rw [List.zipWith_cons_cons, List.mem_cons] at hx
          rcases hx with rfl | hx
          · cases rule with
            | none => exact one_pos
            | some z =>
              obtain ⟨j, v⟩ := z
              obtain ⟨hj, hv, hlt⟩ := possible_iff.2 hd
              obtain ⟨-, a1, a2⟩ := cutProb_real hv hlt
              have a3 := (frequency_value hX hv).2
              have a4 : (0 : ℝ) < (columns X (Layers.rowsOn X path)).length := by exact_mod_cast List.length_pos_of_mem hj
              have a5 : 0 < 1 - shareOfLargest X (Layers.rowsOn X path) j := by linarith
              unfold leafProb
              positivity
          · exact ih x hx
      exact key hr x hx
  | prune =>
    injection h with h; injection h with h _; subst h
    cases layers with
    | nil => exact absurd rfl hne
    | cons rules rest =>
      have hl := hS.full
      rw [List.tail_cons, prune_prob hX hc hS hN.1 hg hp (rules := rules) (by rw [hl.1.paths_length]; exact hl.2.symm) hS.paths]
      exact hp

/-! ### C138

Full statement: at a fixed target and noise level a step of the oblivious tree sampler leaves the posterior distribution of the tree unchanged. It is false (`C138_refuted`). -/

/-- C138. A step leads to some tree with probability 1. -/
theorem C138_total (hX : NoNan X) (hc : columns X (fun _ => true) ≠ []) (ht : ObliviousWork X t) (hy : HasTarget t y) (hN : DividesAll n p N) (hg : 0 < pGrow) (hp : 0 < pPrune)
    (h1 : pGrow + pPrune = 1) : ∑' q, obliviousStepProb m N pGrow pPrune t q = 1 := by
  obtain ⟨layers, hS⟩ := seen_of hX ht hy
  exact ostepProb_total hX hc ht hS hy hN hg hp h1

/-- C138. A growth, or the removal of the last growth, is made in a step with the probability of its proposal (C137) times the probability of its acceptance, that a uniform number is less than the
sum of the log ratios of the leaves. -/
theorem C138_change (hX : NoNan X) (hc : columns X (fun _ => true) ≠ []) (ht : ObliviousWork X t) (hy : HasTarget t y) (hg : 0 < pGrow) (hp : 0 < pPrune) {us us' : List Nat} {ms ms' : List Method}
    {mus : List TreeMutation} {t1 t' : Tree ℝ n p} {l : Fl ℝ} {h' : Heap ℝ n p} (hpr : propose t us ms = .ok (mus, t1, us', ms')) (hm : mutateAll mus t1 = .ok t')
    (hl : sumRatios m pGrow pPrune mus t1.heap = .ok (l, h')) (hne : leafPaths t' ≠ leafPaths t) :
    obliviousStepProb m N pGrow pPrune t (leafPaths t') = drawsProb N (ENNReal.ofReal pGrow) (ENNReal.ofReal pPrune) (ProposesLeaves t (leafPaths t')) * ENNReal.ofReal (acceptProb l) := by
  obtain ⟨layers, hS⟩ := seen_of hX ht hy
  cases ms with
  | nil => cases hpr
  | cons me ms =>
    have h := ratio_ref hX hc hS m hg hp us me ms
    rw [hpr] at h
    obtain ⟨-, proposed, ratio, h2, t'', e1, e2, e3, hS'⟩ := h
    rw [hm] at e3; injection e3 with e3; subst e3
    rw [hl] at e2; injection e2 with e2; injection e2 with e2 _; subst e2
    rw [hS'.paths]
    rw [hS'.paths, hS.paths] at hne
    exact ostepProb_move hX hc hS hg hp e1 (fun h => hne (by rw [h]))

/-- C138. The distributions of a random tree that a step of the oblivious tree sampler leaves unchanged are exactly those under which no tree with positive probability has a proposal with positive log
ratio; then steps do not change the leaves at all. -/
theorem C138_unchanged (hX : NoNan X) (hc : columns X (fun _ => true) ≠ []) (h1 : GoodParams m) (h2 : GoodPrior m) (hN : DividesAll n p N) (hg : 0 < pGrow) (hp : 0 < pPrune) (hs : pGrow + pPrune = 1)
    {w : Tree ℝ n p → ℝ≥0∞} (hw : ObliviousRandomTree X y w) :
    (ObliviousStationary m N pGrow pPrune w ↔ ∀ t, w t ≠ 0 → ∀ us ms mus t1 us' ms' l h', propose t us ms = .ok (mus, t1, us', ms') → sumRatios m pGrow pPrune mus t1.heap = .ok (l, h') →
      Fl.lt (.fin 0) l = false) ∧
    (ObliviousStationary m N pGrow pPrune w ↔ ∀ t, w t ≠ 0 → obliviousStepProb m N pGrow pPrune t (leafPaths t) = 1) := by
  classical
  have total : ∀ t, w t ≠ 0 → ∑' q, obliviousStepProb m N pGrow pPrune t q = 1 := fun t h => C138_total hX hc (hw.reach t h) (hw.target t h) hN hg hp hs
  have stays : ObliviousStationary m N pGrow pPrune w → ∀ t, w t ≠ 0 → ∀ q, q ≠ leafPaths t → obliviousStepProb m N pGrow pPrune t q = 0 := fun hu t ht q hq =>
    kernel_stays leafPaths w (obliviousStepProb m N pGrow pPrune) (CanMove X y m pGrow pPrune) hw.total total (fun t s h h' => canMove_of hX h1 h2 hg hp (hw.reach t h) (hw.target t h) h')
      (fun a b => canMove_acyclic) (fun s => (hu s).trans (tsum_congr fun t => by congr)) ht hq
  have stay : (∀ t, w t ≠ 0 → ∀ q, q ≠ leafPaths t → obliviousStepProb m N pGrow pPrune t q = 0) → ∀ t, w t ≠ 0 → obliviousStepProb m N pGrow pPrune t (leafPaths t) = 1 := by
    intro h t ht
    rw [← total t ht, tsum_eq_single (leafPaths t) (fun q hq => h t ht q hq)]
  have back : (∀ t, w t ≠ 0 → obliviousStepProb m N pGrow pPrune t (leafPaths t) = 1) → ObliviousStationary m N pGrow pPrune w := by
    intro h q
    refine tsum_congr fun t => ?_
    by_cases hwt : w t = 0
    · simp [hwt]
    split
    · next e => rw [← e, h t hwt, mul_one]
    · next e =>
      have h3 := total t hwt
      have h4 : obliviousStepProb m N pGrow pPrune t (leafPaths t) + obliviousStepProb m N pGrow pPrune t q ≤ 1 := by
        rw [← h3, ← Finset.sum_pair e]
        exact ENNReal.sum_le_tsum _
      rw [h t hwt] at h4
      have : obliviousStepProb m N pGrow pPrune t q = 0 := by
        by_contra hpos
        exact absurd h4 (not_le.2 (ENNReal.lt_add_right ENNReal.one_ne_top hpos))
      rw [this, mul_zero]
  refine ⟨⟨?_, ?_⟩, ⟨fun hu => stay (stays hu), back⟩⟩
  · intro hu t hwt us ms mus t1 us' ms' l h' hpr hl
    obtain ⟨layers, hS⟩ := seen_of hX (hw.reach t hwt) (hw.target t hwt)
    cases ms with
    | nil => cases hpr
    | cons me ms =>
      have h := ratio_ref hX hc hS m hg hp us me ms
      rw [hpr] at h
      obtain ⟨-, proposed, ratio, h3, t', e1, e2, e3, hS'⟩ := h
      rw [hl] at e2; injection e2 with e2; injection e2 with e2 _; subst e2
      by_cases hne : proposed = layers
      · have hlen := congrArg List.length hne
        have hl0 : l = .fin 0 := by
          cases me with
          | grow =>
            have e4 := layerProposal_of e1
            unfold layerProposal at e4
            dsimp only at e4
            split at e4
            · cases e4
            · injection e4 with e4; injection e4 with e4 _
              rw [← e4, List.length_cons] at hlen
              omega
          | prune =>
            simp only [Layers.propose] at e1
            cases layers with
            | nil => dsimp only at e1; injection e1 with e1; injection e1 with _ e1; injection e1 with e1 _; exact e1.symm
            | cons rules rest =>
              dsimp only at e1
              split at e1
              · cases e1
              · injection e1 with e1; injection e1 with e1 _
                rw [← e1, List.length_cons] at hlen
                omega
        rw [hl0]; simp [Fl.lt]
      · have h0 := stays hu t hwt (Layers.paths proposed) (by
          rw [hS.paths]
          exact fun h => hne (paths_injective hS'.full hS.full h))
        rw [ostepProb_move hX hc hS hg hp e1 hne] at h0
        exact acceptProb_zero.1 ((mul_eq_zero.1 h0).resolve_left (opropose_pos hX hc hS hN hg hp (layerProposal_of e1) hne))
  · intro h
    refine back (stay fun t hwt q hq => ?_)
    obtain ⟨layers, hS⟩ := seen_of hX (hw.reach t hwt) (hw.target t hwt)
    unfold obliviousStepProb
    rw [ENNReal.tsum_eq_zero]
    intro ms
    refine mul_eq_zero_of_right _ (ENNReal.tsum_eq_zero.2 fun us => mul_eq_zero_of_right _ ?_)
    by_cases hex : ∃ me proposed ratio, ms = [me] ∧ Layers.propose m pGrow pPrune X y layers me (us.map Fin.val) = .ok (proposed, ratio, [])
    · obtain ⟨me, proposed, ratio, rfl, e1⟩ := hex
      have hr := ratio_ref hX hc hS m hg hp (us.map Fin.val) me []
      cases e2 : propose t (us.map Fin.val) [me] with
      | error er => rw [e2] at hr; simp only at hr; rw [e1] at hr; cases hr
      | ok z =>
        obtain ⟨mus, t1, us1, ms1⟩ := z
        rw [e2] at hr
        obtain ⟨-, proposed', ratio', h3, t', e3, e4, -⟩ := hr
        rw [e1] at e3; injection e3 with e3; injection e3 with a1 e3; injection e3 with a2 a3
        subst a1 a2 a3
        have h0 := acceptProb_zero.2 (h t hwt _ _ _ _ _ _ _ _ e2 e4)
        rw [hS.paths] at hq
        rw [ostep_volume hX hS hg hp e1, h0, if_neg (Ne.symm hq)]
        simp
    · exact ostep_volume_zero hX hS hg hp (fun me proposed ratio a b => hex ⟨me, proposed, ratio, a, b⟩) q

/-! ### the rows 0, 1, 2 -/

theorem ramp_columns : columns (rampX 3) (fun _ => true) ≠ [] := by
  have := LayerTower.columns_root
  rw [show Layers.rowsOn (rampX 3) [] = fun _ => true from by funext r; rfl] at this
  rw [this]; simp

/-- The log ratio of the first growth over the rows 0, 1, 2. -/
theorem ramp_first (h1 : GoodParams m) (h2 : GoodPrior m) (y : Fin 3 → ℝ) {v : Fl ℝ} (hv : v ∈ column (rampX 3) (Layers.rowsOn (rampX 3) []) 0) :
    ∃ c : ℝ, ∀ {pGrow pPrune : ℝ}, 0 < pGrow → 0 < pPrune → growSum m pGrow pPrune (rampX 3) y [some (0, v)] [] = .ok (.fin (Real.log (pPrune / pGrow) + c)) := by
  obtain ⟨l, hl⟩ := likelihoodOf_fin (X := rampX 3) (y := y) h1 [] (some (0, v))
  refine ⟨l + LayerTower.priorTerm m 0, fun hg hp => ?_⟩
  unfold growSum
  rw [show Layers.paths ([] : List (List (Layers.Rule ℝ 1))) = [[]] from rfl, List.zipWith_cons_cons, List.zipWith_nil_left,
    LayerTower.growTerm_value h2 hg hp (by rfl) (frequency_value (rampX_noNan 3) hv).1 hl]
  simp only [Layers.sumTerms, Fl.add_fin, List.length_nil]
  congr 2
  ring

theorem ramp_single (y : Fin 3 → ℝ) : ∃ t : Tree ℝ 3 1, ObliviousWork (rampX 3) t ∧ HasTarget t y ∧ Seen (rampX 3) (some y) t [] := by
  obtain ⟨t, hF, hR, hT, hlf, -⟩ := exists_fresh (rampX 3) y
  have hn : t.nodes.length = 1 := by
    obtain ⟨⟨y2, hI2⟩, -⟩ := fresh_tree_inv hF
    have := hI2.perm.length_eq
    simpa [Shape.ids] using this
  obtain ⟨y0, s, hI⟩ := reachable_tree_inv (rampX_noNan 3) hR
  obtain ⟨o1, o2⟩ := single_tree hI hn
  obtain rfl := target_of o1 hT
  exact ⟨t, .single hR hn, hT, s, 0, o1, o2⟩

/-- C138 is false, whatever the (proper) parameters and the target: for the training rows 0, 1, 2 and suitable proposal probabilities no distribution under which trees with a single leaf have positive
probability (as they have under the posterior) is left unchanged by a step; there are such distributions. -/
theorem C138_refuted (h1 : GoodParams m) (h2 : GoodPrior m) (y : Fin 3 → ℝ) :
    ∃ pGrow pPrune : ℝ, 0 < pGrow ∧ 0 < pPrune ∧ pGrow + pPrune = 1 ∧
      (∀ N w, DividesAll 3 1 N → ObliviousRandomTree (rampX 3) y w → ∀ t, w t ≠ 0 → leafPaths t = [[]] → ¬ ObliviousStationary m N pGrow pPrune w) ∧
      ∃ N w t, DividesAll 3 1 N ∧ ObliviousRandomTree (rampX 3) y w ∧ w t ≠ 0 ∧ leafPaths t = [[]] := by
  classical
  have hX := rampX_noNan 3
  have hc := ramp_columns
  obtain ⟨c, hcc⟩ := ramp_first h1 h2 y (v := .fin 0) (by rw [LayerTower.column_root]; simp)
  let e := Real.exp (1 - c)
  have he : 0 < e := Real.exp_pos _
  have hg : 0 < 1 / (1 + e) := by positivity
  have hp : 0 < e / (1 + e) := by positivity
  have hs : 1 / (1 + e) + e / (1 + e) = 1 := by rw [← add_div, div_self (by positivity)]
  refine ⟨1 / (1 + e), e / (1 + e), hg, hp, hs, ?_, ?_⟩
  · intro N w hN hw t hwt hsp hu
    obtain ⟨layers, hS⟩ := seen_of hX (hw.reach t hwt) (hw.target t hwt)
    obtain rfl : layers = [] := paths_injective hS.full trivial (by rw [← hS.paths, hsp]; rfl)
    have hq : e / (1 + e) / (1 / (1 + e)) = e := by field_simp
    have hpr : Layers.propose m (1 / (1 + e)) (e / (1 + e)) (rampX 3) y [] .grow [0, 0] = .ok ([[LayerTower.cut]], .fin 1, []) := by
      have h3 := hcc hg hp
      rw [hq, Real.log_exp] at h3
      unfold growSum at h3
      unfold Layers.propose
      dsimp only
      rw [show Layers.paths ([] : List (List (Layers.Rule ℝ 1))) = [[]] from rfl] at h3 ⊢
      rw [LayerTower.grow_root]
      dsimp only
      rw [show LayerTower.cut = some (0, .fin 0) from rfl, h3]
      norm_num
    have hr := ratio_ref hX hc hS m hg hp [0, 0] .grow []
    cases e2 : propose t [0, 0] [.grow] with
    | error er => rw [e2] at hr; simp only at hr; rw [hpr] at hr; cases hr
    | ok z =>
      obtain ⟨mus, t1, us1, ms1⟩ := z
      rw [e2] at hr
      obtain ⟨-, proposed', ratio', h3, t', e3, e4, -⟩ := hr
      rw [hpr] at e3; injection e3 with e3; injection e3 with a1 e3; injection e3 with a2 a3
      subst a2
      have := (C138_unchanged hX hc h1 h2 hN hg hp hs hw).1.1 hu t hwt _ _ _ _ _ _ _ _ e2 e4
      simp [Fl.lt] at this
  · obtain ⟨N, hN⟩ := exists_dividesAll 3 1
    obtain ⟨t, hW, hT, hS⟩ := ramp_single y
    refine ⟨N, fun t' => if t' = t then 1 else 0, t, hN, ⟨by rw [tsum_ite_eq], ?_, ?_⟩, by simp, hS.paths⟩
    · intro t' h; obtain rfl : t' = t := by by_contra hc; exact h (if_neg hc)
      exact hW
    · intro t' h; obtain rfl : t' = t := by by_contra hc; exact h (if_neg hc)
      exact hT

/-- There are also distributions that are left unchanged: with other proposal probabilities no first growth over the rows 0, 1, 2 has a positive log ratio. -/
example (h1 : GoodParams m) (h2 : GoodPrior m) (y : Fin 3 → ℝ) :
    ∃ pGrow pPrune : ℝ, 0 < pGrow ∧ 0 < pPrune ∧ pGrow + pPrune = 1 ∧
      ∃ N w t, DividesAll 3 1 N ∧ ObliviousRandomTree (rampX 3) y w ∧ w t ≠ 0 ∧ leafPaths t = [[]] ∧ ObliviousStationary m N pGrow pPrune w := by
  classical
  have hX := rampX_noNan 3
  have hc := ramp_columns
  have hall : ∀ l : List (Fl ℝ), (∀ v ∈ l, v ∈ column (rampX 3) (Layers.rowsOn (rampX 3) []) 0) → ∃ C : ℝ, ∀ v ∈ l, ∃ c ≤ C, ∀ {pGrow pPrune : ℝ}, 0 < pGrow → 0 < pPrune →
      growSum m pGrow pPrune (rampX 3) y [some (0, v)] [] = .ok (.fin (Real.log (pPrune / pGrow) + c)) := by
    intro l
    induction l with
    | nil => intro _; exact ⟨0, fun v hv => by simp at hv⟩
    | cons a l ih =>
      intro h
      obtain ⟨C, hC⟩ := ih (fun v hv => h v (by simp [hv]))
      obtain ⟨c, hc'⟩ := ramp_first h1 h2 y (h a (by simp))
      refine ⟨max C c, fun v hv => ?_⟩
      rcases List.mem_cons.1 hv with rfl | hv
      · exact ⟨c, le_max_right _ _, hc'⟩
      · obtain ⟨c', h3, h4⟩ := hC v hv
        exact ⟨c', h3.trans (le_max_left _ _), h4⟩
  obtain ⟨C, hC⟩ := hall _ (fun v hv => hv)
  let e := Real.exp (-C)
  have he : 0 < e := Real.exp_pos _
  have hg : 0 < 1 / (1 + e) := by positivity
  have hp : 0 < e / (1 + e) := by positivity
  have hs : 1 / (1 + e) + e / (1 + e) = 1 := by rw [← add_div, div_self (by positivity)]
  have hq : e / (1 + e) / (1 / (1 + e)) = e := by field_simp
  obtain ⟨N, hN⟩ := exists_dividesAll 3 1
  obtain ⟨t, hW, hT, hS⟩ := ramp_single y
  have hw : ObliviousRandomTree (rampX 3) y (fun t' => if t' = t then 1 else 0) := by
    refine ⟨by rw [tsum_ite_eq], ?_, ?_⟩
    · intro t' h; obtain rfl : t' = t := by by_contra hc; exact h (if_neg hc)
      exact hW
    · intro t' h; obtain rfl : t' = t := by by_contra hc; exact h (if_neg hc)
      exact hT
  refine ⟨1 / (1 + e), e / (1 + e), hg, hp, hs, N, _, t, hN, hw, by simp, hS.paths, (C138_unchanged hX hc h1 h2 hN hg hp hs hw).1.2 ?_⟩
  intro t' h us ms mus t1 us' ms' l h' hpr hl
  obtain rfl : t' = t := by by_contra hc; exact h (if_neg hc)
  cases ms with
  | nil => cases hpr
  | cons me ms =>
    have h := ratio_ref hX hc hS m hg hp us me ms
    rw [hpr] at h
    obtain ⟨-, proposed, ratio, h3, t', e1, e2, e3, hS'⟩ := h
    rw [hl] at e2; injection e2 with e2; injection e2 with e2 _; subst e2
    cases me with
    | prune =>
      simp only [Layers.propose] at e1
      injection e1 with e1; injection e1 with _ e1; injection e1 with e1 _
      rw [← e1]; simp [Fl.lt]
    | grow =>
      simp only [Layers.propose] at e1
      cases eg : Layers.growRules (rampX 3) (Layers.paths []) us with
      | error er => rw [eg] at e1; cases e1
      | ok g =>
        obtain ⟨rules, us2⟩ := g
        rw [eg] at e1
        dsimp only at e1
        have hpos := Layers.growRules_possible eg
        rw [show Layers.paths ([] : List (List (Layers.Rule ℝ 1))) = [[]] from rfl] at hpos e1
        cases hpos with
        | @cons _ rule _ _ hd tl =>
          cases tl
          cases rule with
          | none =>
            have : columns (rampX 3) (Layers.rowsOn (rampX 3) []) = [] := hd
            rw [LayerTower.columns_root] at this; cases this
          | some z =>
            obtain ⟨j, v⟩ := z
            obtain rfl : j = 0 := Subsingleton.elim _ _
            obtain ⟨c, hcC, hsum⟩ := hC v hd.2.1
            have h5 := hsum hg hp
            rw [hq, Real.log_exp] at h5
            unfold growSum at h5
            rw [show Layers.paths ([] : List (List (Layers.Rule ℝ 1))) = [[]] from rfl] at h5
            rw [h5] at e1
            injection e1 with e1; injection e1 with _ e1; injection e1 with e1 _
            rw [← e1]
            simp only [Fl.lt, decide_eq_false_iff_not, not_lt]
            linarith

/-- C138, the example: a tree of one leaf over the rows 0, 1, 2 and a growth that is proposed for it. -/
example (h1 : GoodParams m) (h2 : GoodPrior m) (y : Fin 3 → ℝ) : ∃ (t t1 t' : Tree ℝ 3 1) (N : Nat) (mus : List TreeMutation) (l : Fl ℝ) (h' : Heap ℝ 3 1), DividesAll 3 1 N ∧
    columns (rampX 3) (fun _ => true) ≠ [] ∧ ObliviousWork (rampX 3) t ∧ HasTarget t y ∧ propose t [0, 0] [.grow] = .ok (mus, t1, [], []) ∧ mutateAll mus t1 = .ok t' ∧
    sumRatios m (1 / 2) (1 / 2) mus t1.heap = .ok (l, h') ∧ leafPaths t' ≠ leafPaths t := by
  have hX := rampX_noNan 3
  obtain ⟨N, hN⟩ := exists_dividesAll 3 1
  obtain ⟨t, hW, hT, hS⟩ := ramp_single y
  have hr := ratio_ref hX ramp_columns hS m (pGrow := 1 / 2) (pPrune := 1 / 2) (by norm_num) (by norm_num) [0, 0] .grow []
  have h0 := proposal_ref hX ramp_columns hS [0, 0] .grow []
  have hlp : layerProposal (rampX 3) [] .grow [0, 0] = .ok ([[LayerTower.cut]], []) := by
    unfold layerProposal
    rw [show Layers.paths ([] : List (List (Layers.Rule ℝ 1))) = [[]] from rfl, LayerTower.grow_root]
  cases e2 : propose t [0, 0] [.grow] with
  | error er => rw [e2] at h0; simp only at h0; rw [hlp] at h0; cases h0
  | ok z =>
    obtain ⟨mus, t1, us1, ms1⟩ := z
    rw [e2] at hr h0
    obtain ⟨rfl, proposed', ratio', h3, t', e3, e4, e5, hS'⟩ := hr
    have e6 := layerProposal_of e3
    rw [hlp] at e6; injection e6 with e6; injection e6 with e6 e7
    subst e6 e7
    refine ⟨t, t1, t', N, mus, ratio', h3, hN, ramp_columns, hW, hT, e2, e5, e4, ?_⟩
    rw [hS'.paths, hS.paths]
    intro h
    have := congrArg List.length h
    simp [Layers.paths, Layers.expand, LayerTower.cut] at this

end Bart.Oblivious
