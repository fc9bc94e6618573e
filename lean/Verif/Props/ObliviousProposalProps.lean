import Verif.Proofs.LayerProposal
import Verif.Props.ObliviousRecurProps
import Verif.Props.ProposalProps

/-! Property theorem C137: the probabilities of the proposals of the oblivious sampler, and the transition ratio that it uses. -/

set_option linter.unusedSectionVars false
set_option linter.unusedVariables false

namespace Bart.Oblivious
open Bart Spec Reference Lik LayerRecur
open scoped ENNReal

variable {n p : Nat} {X : Fin n → Fin p → Fl ℝ} {y : Fin n → ℝ} {N : Nat}

/-- Exactly one kind of move is drawn. -/
theorem drawsProb_one {a b : ℝ≥0∞} {E : List Nat → List Method → Prop} (h : ∀ us ms, E us ms → ∃ me, ms = [me]) :
    drawsProb N a b E = a * prob (uniform N) (fun us => E (us.map Fin.val) [.grow]) + b * prob (uniform N) (fun us => E (us.map Fin.val) [.prune]) := by
  unfold drawsProb
  rw [tsum_eq_sum (s := {[Method.grow], [Method.prune]})]
  · rw [Finset.sum_pair (by simp)]
    simp [methodProb]
  · intro ms hms
    simp only [Finset.mem_insert, Finset.mem_singleton, not_or] at hms
    rw [prob_eq_zero, mul_zero]
    intro us hE
    obtain ⟨me, rfl⟩ := h _ _ hE
    cases me
    · exact hms.1 rfl
    · exact hms.2 rfl

theorem seen_of (hX : NoNan X) {t : Tree ℝ n p} (ht : ObliviousWork X t) (hy : HasTarget t y) : ∃ layers, Seen X (some y) t layers := by
  obtain ⟨y0, layers, s, d, hT, hv⟩ := work_seen hX ht
  obtain rfl := target_of hT hy
  exact ⟨layers, s, d, hT, hv⟩

/-- A proposal uses one kind of move. -/
theorem one_kind (hX : NoNan X) {t : Tree ℝ n p} {layers : List (List (Layers.Rule ℝ p))} (hS : Seen X (some y) t layers) {us : List Nat} {ms : List Method} {mus : List TreeMutation} {t1 : Tree ℝ n p}
    (h : propose t us ms = .ok (mus, t1, [], [])) : ∃ me, ms = [me] := by
  obtain ⟨s, d, hT, hv⟩ := hS
  have := opropose_spec hX hT.inv us ms
  rw [h] at this
  obtain ⟨-, me, e, -⟩ := this
  exact ⟨me, e⟩

/-- The proposals of growths. -/
theorem proposesLeaves_iff (hX : NoNan X) (hc : columns X (fun _ => true) ≠ []) {t : Tree ℝ n p} {layers : List (List (Layers.Rule ℝ p))} (hS : Seen X (some y) t layers) (q : List (List (Cond ℝ p)))
    (us : List Nat) (me : Method) : ProposesLeaves t q us [me] ↔ ∃ proposed, layerProposal X layers me us = .ok (proposed, []) ∧ Layers.paths proposed = q := by
  have h := proposal_ref hX hc hS us me []
  constructor
  · rintro ⟨mus, t1, t', e1, e2, rfl⟩
    rw [e1] at h
    obtain ⟨-, proposed, t'', e3, e4, hS'⟩ := h
    rw [e2] at e4
    injection e4 with e4
    subst e4
    exact ⟨proposed, e3, hS'.paths.symm⟩
  · rintro ⟨proposed, e, rfl⟩
    cases e1 : propose t us [me] with
    | error er => rw [e1] at h; simp only at h; rw [e] at h; cases h
    | ok r =>
      obtain ⟨mus, t1, us1, ms1⟩ := r
      rw [e1] at h
      obtain ⟨rfl, proposed', t', e3, e4, hS'⟩ := h
      rw [e] at e3
      injection e3 with e3; injection e3 with a b
      subst a b
      exact ⟨mus, t1, t', e1, e4, hS'.paths⟩

theorem growRules_length {ps : List (List (Cond ℝ p))} {rs : List (Layers.Rule ℝ p)} {us rest : List Nat} (h : Layers.growRules X ps us = .ok (rs, rest)) : ps.length = rs.length :=
  (Layers.growRules_possible h).length_eq

theorem possible_iff {path : List (Cond ℝ p)} {rule : Layers.Rule ℝ p} : Layers.Possible X path rule ↔ CanBecome X path rule := by
  cases rule with
  | none => exact Iff.rfl
  | some q =>
    obtain ⟨j, v⟩ := q
    unfold Layers.Possible CanBecome
    refine and_congr_right fun _ => ?_
    constructor
    · rintro ⟨hv, m, hm, hlt⟩
      obtain ⟨r, hr, e⟩ := mem_column.1 hv
      obtain ⟨r', hr', rfl⟩ := mem_column.1 hm
      exact ⟨r, r', hr, hr', e, hlt⟩
    · rintro ⟨r, r', hr, hr', e, hlt⟩
      exact ⟨mem_column.2 ⟨r, hr, e⟩, _, mem_column.2 ⟨r', hr', rfl⟩, hlt⟩

theorem leafProb_real {path : List (Cond ℝ p)} {rule : Layers.Rule ℝ p} (h : CanBecome X path rule) : (Layers.ruleProb X path rule).toReal = leafProb X path rule := by
  cases rule with
  | none => simp [Layers.ruleProb, leafProb]
  | some q =>
    obtain ⟨j, v⟩ := q
    obtain ⟨hj, hv, hlt⟩ := possible_iff.2 h
    unfold Layers.ruleProb leafProb
    rw [ENNReal.toReal_mul, (cutProb_real hv hlt).1, ENNReal.toReal_div]
    simp

theorem rulesProb_real : ∀ {ps : List (List (Cond ℝ p))} {rs : List (Layers.Rule ℝ p)}, List.Forall₂ (CanBecome X) ps rs →
    (Layers.rulesProb X ps rs).toReal = (List.zipWith (leafProb X) ps rs).prod := by
  intro ps rs h
  induction h with
  | nil => simp [Layers.rulesProb]
  | cons hd tl ih =>
    unfold Layers.rulesProb at ih ⊢
    rw [List.zipWith_cons_cons, List.zipWith_cons_cons, List.prod_cons, List.prod_cons, ENNReal.toReal_mul, ih, leafProb_real hd]

/-! ### C137, the probabilities -/

theorem grow_prob (hX : NoNan X) (hc : columns X (fun _ => true) ≠ []) {t : Tree ℝ n p} {layers : List (List (Layers.Rule ℝ p))} (hS : Seen X (some y) t layers) (hN : DividesAll n p N) {pGrow pPrune : ℝ}
    (hg : 0 < pGrow) (hp : 0 < pPrune) {rules : List (Layers.Rule ℝ p)} (hr : List.Forall₂ (CanBecome X) (leafPaths t) rules) :
    proposalProb N pGrow pPrune (ProposesLeaves t (grown (leafPaths t) rules)) = pGrow * (List.zipWith (leafProb X) (leafPaths t) rules).prod := by
  have hpl := hS.full.paths_length
  rw [hS.paths] at hr ⊢
  unfold proposalProb
  rw [drawsProb_one (fun us ms h => by obtain ⟨mus, t1, t', e, -⟩ := h; exact one_kind hX hS e)]
  rw [prob_congr (E' := fun us => Layers.growRules X (Layers.paths layers) (us.map Fin.val) = .ok (rules, [])) (fun us => ?_),
    prob_eq_zero (E := fun us : List (Fin N) => ProposesLeaves t (grown (Layers.paths layers) rules) (us.map Fin.val) [.prune]) (fun us => ?_), mul_zero, add_zero,
    Layers.prob_growRules hN (hr.imp (fun a b h => possible_iff.2 h)), ENNReal.toReal_mul, ENNReal.toReal_ofReal hg.le, rulesProb_real hr]
  · rw [proposesLeaves_iff hX hc hS]
    rintro ⟨proposed, e, e'⟩
    unfold layerProposal at e
    injection e with e; injection e with a b
    subst a
    have hf : Full (rules :: layers) := ⟨hS.full, hr.length_eq.symm.trans hpl⟩
    have hl := congrArg List.length e'
    have hfl : (grown (Layers.paths layers) rules).length = 2 ^ (layers.length + 1) := hf.paths_length
    rw [hfl] at hl
    have hft : Full layers.tail := by
      have := hS.full
      cases layers with
      | nil => trivial
      | cons a l => exact this.1
    rw [hft.paths_length] at hl
    have := Nat.pow_right_injective (le_refl 2) hl
    simp only [List.length_tail] at this
    omega
  · rw [proposesLeaves_iff hX hc hS]
    unfold layerProposal
    constructor
    · rintro ⟨proposed, e, e'⟩
      dsimp only at e
      cases e1 : Layers.growRules X (Layers.paths layers) (us.map Fin.val) with
      | error er => rw [e1] at e; cases e
      | ok q =>
        obtain ⟨rules', us1⟩ := q
        rw [e1] at e
        injection e with e; injection e with a b
        subst a b
        have h1 := growRules_length e1
        obtain ⟨-, rfl⟩ := flatten_injective _ _ _ _ h1 hr.length_eq e'
        rfl
    · intro e
      exact ⟨rules :: layers, by simp only [e], rfl⟩

/-- C137. A growth is proposed with probability `p_grow` times the product of the probabilities of what becomes of the leaves. -/
theorem C137_grow (hX : NoNan X) (hc : columns X (fun _ => true) ≠ []) {t : Tree ℝ n p} (ht : ObliviousWork X t) (hy : HasTarget t y) (hN : DividesAll n p N) {pGrow pPrune : ℝ}
    (hg : 0 < pGrow) (hp : 0 < pPrune) {rules : List (Layers.Rule ℝ p)} (hr : List.Forall₂ (CanBecome X) (leafPaths t) rules) :
    proposalProb N pGrow pPrune (ProposesLeaves t (grown (leafPaths t) rules)) = pGrow * (List.zipWith (leafProb X) (leafPaths t) rules).prod := by
  obtain ⟨layers, hS⟩ := seen_of hX ht hy
  exact grow_prob hX hc hS hN hg hp hr

/-- C137. Only growths and the removal of the last growth are proposed. -/
theorem C137_only (hX : NoNan X) (hc : columns X (fun _ => true) ≠ []) {t : Tree ℝ n p} (ht : ObliviousWork X t) (hy : HasTarget t y) {q : List (List (Cond ℝ p))} {us : List Nat} {ms : List Method}
    (h : ProposesLeaves t q us ms) : (ms = [.grow] ∧ ∃ rules, List.Forall₂ (CanBecome X) (leafPaths t) rules ∧ q = grown (leafPaths t) rules) ∨
      (ms = [.prune] ∧ us = [] ∧ ((q = leafPaths t ∧ q.length = 1) ∨ ∃ rules, q.length = rules.length ∧ leafPaths t = grown q rules)) := by
  obtain ⟨layers, hS⟩ := seen_of hX ht hy
  have hk : ∃ me, ms = [me] := by obtain ⟨mus, t1, t', e, -⟩ := h; exact one_kind hX hS e
  obtain ⟨me, rfl⟩ := hk
  rw [proposesLeaves_iff hX hc hS] at h
  obtain ⟨proposed, e, rfl⟩ := h
  rw [hS.paths]
  unfold layerProposal at e
  cases me with
  | grow =>
    left
    dsimp only at e
    cases e1 : Layers.growRules X (Layers.paths layers) us with
    | error er => rw [e1] at e; cases e
    | ok q =>
      obtain ⟨rules', us1⟩ := q
      rw [e1] at e
      injection e with e; injection e with a b
      subst a
      exact ⟨rfl, rules', (Layers.growRules_possible e1).imp (fun a b h => possible_iff.1 h), rfl⟩
  | prune =>
    right
    injection e with e; injection e with a b
    subst a b
    refine ⟨rfl, rfl, ?_⟩
    have hf := hS.full
    cases layers with
    | nil => exact .inl ⟨rfl, rfl⟩
    | cons r l => exact .inr ⟨r, by rw [List.tail_cons, hf.1.paths_length]; exact hf.2.symm, rfl⟩

theorem prune_prob (hX : NoNan X) (hc : columns X (fun _ => true) ≠ []) {t : Tree ℝ n p} {layers : List (List (Layers.Rule ℝ p))} (hS : Seen X (some y) t layers) (hN : 0 < N) {pGrow pPrune : ℝ}
    (hg : 0 < pGrow) (hp : 0 < pPrune) {q : List (List (Cond ℝ p))} {rules : List (Layers.Rule ℝ p)} (hl : q.length = rules.length) (hq : leafPaths t = grown q rules) :
    proposalProb N pGrow pPrune (ProposesLeaves t q) = pPrune := by
  have hpl := hS.full.paths_length
  have hf := hS.full
  rw [hS.paths] at hq
  have key : ∃ rest, layers = rules :: rest ∧ q = Layers.paths rest := by
    cases layers with
    | nil =>
      exfalso
      have h1 := congrArg List.length hq
      rw [show (grown q rules).length = 2 * q.length from ?_] at h1
      · simp [Layers.paths] at h1; omega
      · clear h1 hq hpl hf hS
        unfold grown
        induction q generalizing rules with
        | nil => simp
        | cons a q ih =>
          cases rules with
          | nil => cases hl
          | cons r rules =>
            rw [List.zipWith_cons_cons, List.flatten_cons, List.length_append, ih (by simpa using hl), expand_length, List.length_cons]
            ring
    | cons r rest =>
      obtain ⟨a, b⟩ := flatten_injective _ _ _ _ (by rw [hf.1.paths_length]; exact hf.2.symm) hl hq
      exact ⟨rest, by rw [b], a.symm⟩
  obtain ⟨rest, rfl, rfl⟩ := key
  unfold proposalProb
  rw [drawsProb_one (fun us ms h => by obtain ⟨mus, t1, t', e, -⟩ := h; exact one_kind hX hS e)]
  rw [prob_congr (E := fun us : List (Fin N) => ProposesLeaves t (Layers.paths rest) (us.map Fin.val) [.prune]) (E' := fun us => us = []) (fun us => ?_),
    prob_eq_zero (E := fun us : List (Fin N) => ProposesLeaves t (Layers.paths rest) (us.map Fin.val) [.grow]) (fun us => ?_), mul_zero, zero_add, prob_nil, mul_one,
    ENNReal.toReal_ofReal hp.le]
  · rw [proposesLeaves_iff hX hc hS]
    rintro ⟨proposed, e, e'⟩
    unfold layerProposal at e
    dsimp only at e
    cases e1 : Layers.growRules X (Layers.paths (rules :: rest)) (us.map Fin.val) with
    | error er => rw [e1] at e; cases e
    | ok q =>
      obtain ⟨rules', us1⟩ := q
      rw [e1] at e
      injection e with e; injection e with a b
      subst a b
      have h1 := growRules_length e1
      rw [hpl] at h1
      have hf' : Full (rules' :: rules :: rest) := ⟨hf, h1.symm⟩
      have := paths_injective hf' hf.1 e'
      have := congrArg List.length this
      simp only [List.length_cons] at this
      omega
  · rw [proposesLeaves_iff hX hc hS]
    unfold layerProposal
    simp only [List.tail_cons, Except.ok.injEq, Prod.mk.injEq, List.map_eq_nil_iff]
    constructor
    · rintro ⟨_, ⟨-, h⟩, -⟩; exact h
    · rintro rfl; exact ⟨_, ⟨rfl, rfl⟩, rfl⟩

/-- C137. The removal of the last growth is proposed with probability `p_prune`. -/
theorem C137_prune (hX : NoNan X) (hc : columns X (fun _ => true) ≠ []) {t : Tree ℝ n p} (ht : ObliviousWork X t) (hy : HasTarget t y) (hN : 0 < N) {pGrow pPrune : ℝ}
    (hg : 0 < pGrow) (hp : 0 < pPrune) {q : List (List (Cond ℝ p))} {rules : List (Layers.Rule ℝ p)} (hl : q.length = rules.length) (hq : leafPaths t = grown q rules) :
    proposalProb N pGrow pPrune (ProposesLeaves t q) = pPrune := by
  obtain ⟨layers, hS⟩ := seen_of hX ht hy
  exact prune_prob hX hc hS hN hg hp hl hq

/-- C137. Some proposal is made, with probability 1. -/
theorem C137_total (hX : NoNan X) (hc : columns X (fun _ => true) ≠ []) {t : Tree ℝ n p} (ht : ObliviousWork X t) (hy : HasTarget t y) (hN : DividesAll n p N) {pGrow pPrune : ℝ}
    (hg : 0 < pGrow) (hp : 0 < pPrune) (h1 : pGrow + pPrune = 1) : proposalProb N pGrow pPrune (ObliviousProposes t) = 1 := by
  obtain ⟨layers, hS⟩ := seen_of hX ht hy
  have hiff : ∀ us me, ObliviousProposes t us [me] ↔ ∃ proposed, layerProposal X layers me us = .ok (proposed, []) := by
    intro us me
    have h := proposal_ref hX hc hS us me []
    constructor
    · rintro ⟨mus, t1, e1⟩
      rw [e1] at h
      obtain ⟨-, proposed, t'', e3, -⟩ := h
      exact ⟨proposed, e3⟩
    · rintro ⟨proposed, e⟩
      cases e1 : propose t us [me] with
      | error er => rw [e1] at h; simp only at h; rw [e] at h; cases h
      | ok r =>
        obtain ⟨mus, t1, us1, ms1⟩ := r
        rw [e1] at h
        obtain ⟨rfl, proposed', t', e3, e4, hS'⟩ := h
        rw [e] at e3
        injection e3 with e3; injection e3 with a b
        subst a b
        exact ⟨mus, t1, e1⟩
  unfold proposalProb
  rw [drawsProb_one (fun us ms h => by obtain ⟨mus, t1, e⟩ := h; exact one_kind hX hS e)]
  rw [prob_congr (E := fun us : List (Fin N) => ObliviousProposes t (us.map Fin.val) [.prune]) (E' := fun us => us = []) (fun us => ?_), prob_nil,
    prob_congr (E := fun us : List (Fin N) => ObliviousProposes t (us.map Fin.val) [.grow]) (E' := fun us => ∃ rs, Layers.growRules X (Layers.paths layers) (us.map Fin.val) = .ok (rs, [])) (fun us => ?_),
    Layers.prob_growRules_any hN, mul_one, mul_one, ← ENNReal.ofReal_add hg.le hp.le, h1, ENNReal.ofReal_one, ENNReal.toReal_one]
  · intro path _ j hj
    obtain ⟨a, ha, b, hb, hab⟩ := columns_two hj
    have hna : a ≠ .nan := by obtain ⟨r, -, rfl⟩ := mem_column.1 ha; exact hX r j
    have hnb : b ≠ .nan := by obtain ⟨r, -, rfl⟩ := mem_column.1 hb; exact hX r j
    cases h' : Fl.lt a b with
    | true => exact ⟨a, ha, isMax_eq_false.2 ⟨b, hb, h'⟩⟩
    | false => exact ⟨b, hb, isMax_eq_false.2 ⟨a, ha, Fl.lt_of_le_of_ne (Fl.le_of_not_lt hna hnb h') hab.symm⟩⟩
  · rw [hiff]
    unfold layerProposal
    constructor
    · rintro ⟨proposed, e⟩
      dsimp only at e
      cases e1 : Layers.growRules X (Layers.paths layers) (us.map Fin.val) with
      | error er => rw [e1] at e; cases e
      | ok q =>
        obtain ⟨rules', us1⟩ := q
        rw [e1] at e
        injection e with e; injection e with a b
        subst b
        exact ⟨_, rfl⟩
    · rintro ⟨rs, e⟩
      exact ⟨rs :: layers, by simp only [e]⟩
  · rw [hiff]
    unfold layerProposal
    simp

/-! ### C137, the transition ratio

Full statement: the transition ratio of a proposal is the logarithm of the probability of the proposal that undoes it divided by the probability of the proposal. It is false (`C137_refuted`). -/

theorem frequency_value (hX : NoNan X) {rows : Fin n → Bool} {j : Fin p} {v : Fl ℝ} (hv : v ∈ column X rows j) :
    Fl.log (frequency X rows j v) = .fin (Real.log (shareOf X rows j v)) ∧ 0 < shareOf X rows j v := by
  have hn : 0 < count rows := by rw [← column_length X rows j]; exact List.length_pos_of_mem hv
  have hcv : (column X rows j).countP (fun x => Fl.eq x v) = count (fun r => rows r && decide (X r j = v)) := by
    rw [column_countP]
    congr 1
    funext r
    congr 1
    rw [Bool.eq_iff_iff, Fl.eq_iff, decide_eq_true_eq]
    exact ⟨fun h => h.2, fun h => ⟨hX r j, h⟩⟩
  have hcp : 0 < count (fun r => rows r && decide (X r j = v)) := by
    obtain ⟨r, hr, hrv⟩ := mem_column.1 hv
    exact Finset.card_pos.2 ⟨r, by simp [hr, hrv]⟩
  have hf : (if (column X rows j).Nodup then 1 else (column X rows j).countP (fun x => Fl.eq x v)) = count (fun r => rows r && decide (X r j = v)) := by
    split
    · next hnd =>
      have := List.count_eq_one_of_mem hnd hv
      have h2 : (column X rows j).countP (fun x => decide (x = v)) = 1 := by
        rw [← this, List.count]
        exact List.countP_congr fun a _ => by simp
      rw [column_countP] at h2
      exact h2.symm
    · exact hcv
  have p1 : (0 : ℝ) < count (fun r => rows r && decide (X r j = v)) := by exact_mod_cast hcp
  have p2 : (0 : ℝ) < count rows := by exact_mod_cast hn
  refine ⟨?_, by unfold shareOf; positivity⟩
  unfold frequency Fl.ofInt shareOf
  simp only [hf, Int.cast_natCast]
  rw [Fl.div_fin _ p2.ne', Fl.log_fin (by positivity)]

theorem shareOfLargest_pos (hX : NoNan X) {rows : Fin n → Bool} {j : Fin p} {v : Fl ℝ} (hv : v ∈ column X rows j) : 0 < shareOfLargest X rows j := by
  unfold shareOfLargest
  obtain ⟨m, hm⟩ := npMaxList_ok (List.ne_nil_of_mem hv)
  obtain ⟨mm, ml⟩ := npMaxList_spec (fun x hx => by obtain ⟨r, -, rfl⟩ := mem_column.1 hx; exact hX r j) hm
  obtain ⟨r, hr, hrm⟩ := mem_column.1 mm
  have h1 : 0 < count (fun r => rows r && decide (∀ r', rows r' = true → Fl.lt (X r j) (X r' j) = false)) := by
    refine Finset.card_pos.2 ⟨r, ?_⟩
    simp only [Finset.mem_filter, Finset.mem_univ, true_and, Bool.and_eq_true, decide_eq_true_eq]
    refine ⟨hr, fun r' hr' => ?_⟩
    rw [hrm]
    exact not_lt_of_le (ml _ (mem_column.2 ⟨r', hr', rfl⟩))
  have h2 : 0 < count rows := Finset.card_pos.2 ⟨r, by simpa using hr⟩
  have h1' : (0 : ℝ) < count (fun r => rows r && decide (∀ r', rows r' = true → Fl.lt (X r j) (X r' j) = false)) := by exact_mod_cast h1
  have h2' : (0 : ℝ) < count rows := by exact_mod_cast h2
  positivity

/-- What the transition ratio leaves out for a leaf: the number of columns that it can be split by, and that the largest value of the column is drawn again. -/
noncomputable def leftOut (X : Fin n → Fin p → Fl ℝ) (path : List (Cond ℝ p)) : Layers.Rule ℝ p → ℝ
  | none => 1
  | some (j, _) => (columns X (Layers.rowsOn X path)).length * (1 - shareOfLargest X (Layers.rowsOn X path) j)

theorem columns_more {rows : Fin n → Bool} {j : Fin p} (hj : j ∈ columns X rows) : j ∈ columns X (fun _ => true) := by
  have key : ∀ l : List (Fin n), ∀ x ∈ (l.filter rows).tail, x ∈ l.tail := by
    intro l
    cases l with
    | nil => intro x hx; simp at hx
    | cons a l =>
      intro x hx
      rw [List.filter_cons] at hx
      split at hx
      · exact (List.mem_filter.1 hx).1
      · exact (List.mem_filter.1 (List.mem_of_mem_tail hx)).1
  have hsub : ∀ x ∈ (column X rows j).tail, x ∈ (column X (fun _ => true) j).tail := by
    intro x hx
    unfold column at hx ⊢
    rw [← List.map_tail, List.mem_map] at hx ⊢
    obtain ⟨r, hr, e⟩ := hx
    refine ⟨r, ?_, e⟩
    rw [List.filter_true]
    exact key _ r hr
  unfold columns at hj ⊢
  rw [List.mem_filter] at hj ⊢
  refine ⟨hj.1, ?_⟩
  have h := hj.2
  rw [List.any_eq_true] at h ⊢
  obtain ⟨a, ha, h⟩ := h
  rw [List.any_eq_true] at h
  obtain ⟨b, hb, h⟩ := h
  exact ⟨a, hsub a ha, by rw [List.any_eq_true]; exact ⟨b, hsub b hb, h⟩⟩

theorem leaf_transition (hX : NoNan X) {pGrow pPrune : ℝ} (hg : 0 < pGrow) (hp : 0 < pPrune) {path : List (Cond ℝ p)} {rule : Layers.Rule ℝ p} (h : CanBecome X path rule)
    (hs : columns X (Layers.rowsOn X path) ≠ []) :
    ∃ a : ℝ, growTransition pGrow pPrune X path rule = .ok (.fin a) ∧ Real.exp a * leftOut X path rule * leafProb X path rule * (pGrow / pPrune) = 1 ∧ 0 < leafProb X path rule ∧
      0 < leftOut X path rule ∧ leftOut X path rule < p := by
  cases rule with
  | none => exact absurd h hs
  | some q =>
    obtain ⟨j, v⟩ := q
    obtain ⟨hj, hv, hlt⟩ := possible_iff.2 h
    obtain ⟨f1, f2⟩ := frequency_value hX hv
    obtain ⟨-, -, hq1⟩ := cutProb_real hv hlt
    have hq0 := shareOfLargest_pos hX hv
    have hC : (0 : ℝ) < (columns X (Layers.rowsOn X path)).length := by exact_mod_cast List.length_pos_of_mem hj
    have hCp : ((columns X (Layers.rowsOn X path)).length : ℝ) ≤ p := by exact_mod_cast columns_le _
    have b5 : 0 < 1 - shareOfLargest X (Layers.rowsOn X path) j := by linarith
    refine ⟨Real.log (pPrune / pGrow) - Real.log (shareOf X (Layers.rowsOn X path) j v), ?_, ?_, ?_, ?_, ?_⟩
    · unfold growTransition
      simp only [Layers.counted, f1]
      rw [Fl.log_fin (by positivity), Fl.log_fin one_pos]
      simp [sub_eq_add_neg]
    · unfold leftOut leafProb
      dsimp only
      rw [Real.exp_sub, Real.exp_log (by positivity), Real.exp_log f2]
      field_simp
    · unfold leafProb
      positivity
    · unfold leftOut
      positivity
    · unfold leftOut
      dsimp only
      nlinarith

theorem leaves_transition (hX : NoNan X) {pGrow pPrune : ℝ} (hg : 0 < pGrow) (hp : 0 < pPrune) : ∀ {ps : List (List (Cond ℝ p))} {rules : List (Layers.Rule ℝ p)}, List.Forall₂ (CanBecome X) ps rules →
    (∀ path ∈ ps, columns X (Layers.rowsOn X path) ≠ []) →
    ∃ a : ℝ, Layers.sumTerms (List.zipWith (growTransition pGrow pPrune X) ps rules) = .ok (.fin a) ∧
      Real.exp a * (List.zipWith (leftOut X) ps rules).prod * (List.zipWith (leafProb X) ps rules).prod * (pGrow / pPrune) ^ ps.length = 1 ∧ 0 < (List.zipWith (leafProb X) ps rules).prod := by
  intro ps rules h
  induction h with
  | nil => intro _; exact ⟨0, rfl, by simp, by simp⟩
  | @cons path rule ps rules hd tl ih =>
    intro hs
    obtain ⟨a, a1, a2, a3, a4, -⟩ := leaf_transition hX hg hp hd (hs path (by simp))
    obtain ⟨b, b1, b2, b3⟩ := ih (fun q hq => hs q (by simp [hq]))
    refine ⟨a + b, ?_, ?_, ?_⟩
    · rw [List.zipWith_cons_cons, a1]
      simp only [Layers.sumTerms, b1, Fl.add_fin]
    · rw [List.zipWith_cons_cons, List.zipWith_cons_cons, List.prod_cons, List.prod_cons, Real.exp_add, List.length_cons, pow_succ]
      calc _ = (Real.exp a * leftOut X path rule * leafProb X path rule * (pGrow / pPrune)) *
          (Real.exp b * (List.zipWith (leftOut X) ps rules).prod * (List.zipWith (leafProb X) ps rules).prod * (pGrow / pPrune) ^ ps.length) := by ring
        _ = 1 := by rw [a2, b2, one_mul]
    · rw [List.zipWith_cons_cons, List.prod_cons]
      positivity

/-- C137, what holds if all leaves can be split: the true ratio of the probabilities of a growth and of its removal is the exponential of the transition ratio times `(p_grow / p_prune) ^ (k - 1)`
for `k` leaves, and times, for each leaf, the number of columns that it can be split by times `1 - q` (`q` the share of rows of the leaf with the largest value of the column). -/
theorem C137_transition_partial (hX : NoNan X) {t t1 t' : Tree ℝ n p} (ht : ObliviousWork X t) (hy : HasTarget t y) (hN : DividesAll n p N) {pGrow pPrune : ℝ} (hg : 0 < pGrow) (hp : 0 < pPrune)
    {us : List Nat} {mus : List TreeMutation} (hpr : propose t us [.grow] = .ok (mus, t1, [], [])) (hm : mutateAll mus t1 = .ok t')
    (hs : ∀ path ∈ leafPaths t, columns X (Layers.rowsOn X path) ≠ []) :
    ∃ rules a h', List.Forall₂ (CanBecome X) (leafPaths t) rules ∧ leafPaths t' = grown (leafPaths t) rules ∧ transitionSum pGrow pPrune mus t1.heap = .ok (.fin a, h') ∧
      0 < proposalProb N pGrow pPrune (ProposesLeaves t (leafPaths t')) ∧
      proposalProb N pGrow pPrune (ProposesLeaves t' (leafPaths t)) / proposalProb N pGrow pPrune (ProposesLeaves t (leafPaths t')) =
        Real.exp a * (pGrow / pPrune) ^ ((leafPaths t).length - 1) * (List.zipWith (leftOut X) (leafPaths t) rules).prod := by
  obtain ⟨layers, hS⟩ := seen_of hX ht hy
  have hlen : 0 < (leafPaths t).length := by rw [hS.paths, hS.full.paths_length]; positivity
  have hc : columns X (fun _ => true) ≠ [] := by
    obtain ⟨path, hpath⟩ := List.exists_mem_of_length_pos hlen
    intro h0
    apply hs path hpath
    rw [List.eq_nil_iff_forall_not_mem]
    intro j hj
    have := columns_more hj
    rw [h0] at this
    cases this
  obtain ⟨rules, e1, e2⟩ := transition_ref hX hS hpr (pPrune := pPrune) hg.ne'
  have hr : List.Forall₂ (CanBecome X) (leafPaths t) rules := (Layers.growRules_possible e1).imp (fun a b h => possible_iff.1 h)
  have href := proposal_ref hX hc hS us .grow []
  rw [hpr] at href
  obtain ⟨-, proposed, t'', e3, e4, hS'⟩ := href
  rw [hm] at e4
  injection e4 with e4
  subst e4
  have hprop : proposed = rules :: layers := by
    unfold layerProposal at e3
    rw [← hS.paths, e1] at e3
    injection e3 with e3; injection e3 with e3
    exact e3.symm
  subst hprop
  have hgr : leafPaths t' = grown (leafPaths t) rules := by rw [hS'.paths, hS.paths]; rfl
  obtain ⟨a, a1, a2, a3⟩ := leaves_transition hX hg hp hr hs
  obtain ⟨h', e5⟩ := e2 _ a1
  have f1 := grow_prob hX hc hS hN hg hp hr
  have f2 := prune_prob hX hc hS' hN.1 hg hp hr.length_eq hgr
  refine ⟨rules, a, h', hr, hgr, e5, ?_, ?_⟩
  · rw [hgr, f1]; positivity
  · rw [f2, hgr, f1]
    obtain ⟨k, hk⟩ : ∃ k, (leafPaths t).length = k + 1 := ⟨_, (Nat.succ_pred_eq_of_pos hlen).symm⟩
    rw [hk, pow_succ] at a2
    rw [hk, Nat.add_sub_cancel, div_eq_iff (by positivity)]
    field_simp at a2 ⊢
    nlinarith

/-- With a single column and `p_grow <= p_prune`, the transition ratio of a growth is too large. -/
theorem C137_too_large_partial {X : Fin n → Fin 1 → Fl ℝ} (hX : NoNan X) {t t1 t' : Tree ℝ n 1} (ht : ObliviousWork X t) (hy : HasTarget t y) (hN : DividesAll n 1 N) {pGrow pPrune : ℝ}
    (hg : 0 < pGrow) (hgp : pGrow ≤ pPrune) {us : List Nat} {mus : List TreeMutation} (hpr : propose t us [.grow] = .ok (mus, t1, [], [])) (hm : mutateAll mus t1 = .ok t')
    (hs : ∀ path ∈ leafPaths t, columns X (Layers.rowsOn X path) ≠ []) :
    ∃ a h', transitionSum pGrow pPrune mus t1.heap = .ok (.fin a, h') ∧
      proposalProb N pGrow pPrune (ProposesLeaves t' (leafPaths t)) / proposalProb N pGrow pPrune (ProposesLeaves t (leafPaths t')) < Real.exp a := by
  have hp : 0 < pPrune := hg.trans_le hgp
  obtain ⟨rules, a, h', hr, -, e, -, e2⟩ := C137_transition_partial hX ht hy hN hg hp hpr hm hs
  refine ⟨a, h', e, ?_⟩
  have key : ∀ {ps : List (List (Cond ℝ 1))} {rules : List (Layers.Rule ℝ 1)}, List.Forall₂ (CanBecome X) ps rules → (∀ path ∈ ps, columns X (Layers.rowsOn X path) ≠ []) →
      0 < (List.zipWith (leftOut X) ps rules).prod ∧ (List.zipWith (leftOut X) ps rules).prod ≤ 1 ∧ (ps ≠ [] → (List.zipWith (leftOut X) ps rules).prod < 1) := by
    intro ps rules h
    induction h with
    | nil => intro _; simp
    | @cons path rule ps rules hd tl ih =>
      intro hs
      obtain ⟨-, -, -, -, a4, a5⟩ := leaf_transition hX hg hp hd (hs path (by simp))
      rw [Nat.cast_one] at a5
      obtain ⟨b1, b2, -⟩ := ih (fun q hq => hs q (by simp [hq]))
      rw [List.zipWith_cons_cons, List.prod_cons]
      refine ⟨by positivity, by nlinarith, fun _ => by nlinarith⟩
  obtain ⟨layers, hS⟩ := seen_of hX ht hy
  have hne : leafPaths t ≠ [] := by
    intro h0
    have h1 := hS.full.paths_length
    rw [← hS.paths, h0] at h1
    have : 0 < 2 ^ layers.length := by positivity
    simp at h1
    omega
  obtain ⟨k1, -, k3⟩ := key hr hs
  have k4 := k3 hne
  have q0 : 0 ≤ pGrow / pPrune := by positivity
  have q1 : pGrow / pPrune ≤ 1 := (div_le_one hp).2 hgp
  have q2 : (pGrow / pPrune) ^ ((leafPaths t).length - 1) ≤ 1 := pow_le_one₀ q0 q1
  have q3 : 0 < (pGrow / pPrune) ^ ((leafPaths t).length - 1) := by positivity
  have ha := Real.exp_pos a
  rw [e2]
  calc Real.exp a * (pGrow / pPrune) ^ ((leafPaths t).length - 1) * (List.zipWith (leftOut X) (leafPaths t) rules).prod
      ≤ Real.exp a * 1 * (List.zipWith (leftOut X) (leafPaths t) rules).prod := by
        apply mul_le_mul_of_nonneg_right _ k1.le
        exact mul_le_mul_of_nonneg_left q2 ha.le
    _ < Real.exp a := by nlinarith

theorem exists_dividesAll (n p : Nat) : ∃ N, DividesAll n p N :=
  ⟨(n + p).factorial, Nat.factorial_pos _, fun L h1 h2 => Nat.dvd_factorial h1 (by omega)⟩

/-- C137 is false, for all `p_grow` and `p_prune`: for the first growth of a tree over the rows 0, 1, 2 (at the value 0) the true ratio is the exponential of the transition ratio times `2/3`. -/
theorem C137_refuted (y : Fin 3 → ℝ) {pGrow pPrune : ℝ} (hg : 0 < pGrow) (hp : 0 < pPrune) :
    ∃ (t t1 t' : Tree ℝ 3 1) (N : Nat) (us : List Nat) (mus : List TreeMutation) (a : ℝ) (h' : Heap ℝ 3 1), ObliviousWork (rampX 3) t ∧ HasTarget t y ∧ DividesAll 3 1 N ∧
      (∀ path ∈ leafPaths t, columns (rampX 3) (Layers.rowsOn (rampX 3) path) ≠ []) ∧
      propose t us [.grow] = .ok (mus, t1, [], []) ∧ mutateAll mus t1 = .ok t' ∧ transitionSum pGrow pPrune mus t1.heap = .ok (.fin a, h') ∧
      proposalProb N pGrow pPrune (ProposesLeaves t (leafPaths t')) = pGrow * (1 / 2) ∧ proposalProb N pGrow pPrune (ProposesLeaves t' (leafPaths t)) = pPrune ∧
      proposalProb N pGrow pPrune (ProposesLeaves t' (leafPaths t)) / proposalProb N pGrow pPrune (ProposesLeaves t (leafPaths t')) = Real.exp a * (2 / 3) := by
  obtain ⟨t, hF, hR, hT, hlf, -⟩ := exists_fresh (rampX 3) y
  obtain ⟨N, hN⟩ := exists_dividesAll 3 1
  have hn : t.nodes.length = 1 := by
    obtain ⟨⟨y2, hI2⟩, -⟩ := fresh_tree_inv hF
    have := hI2.perm.length_eq
    simpa [Shape.ids] using this
  have hW : ObliviousWork (rampX 3) t := .single hR hn
  have hX := rampX_noNan 3
  have hc : columns (rampX 3) (fun _ => true) ≠ [] := by
    have := LayerTower.columns_root
    rw [show Layers.rowsOn (rampX 3) [] = fun _ => true from by funext r; rfl] at this
    rw [this]; simp
  obtain ⟨y0, s, hI⟩ := reachable_tree_inv hX hR
  obtain ⟨o1, o2⟩ := single_tree hI hn
  obtain rfl := target_of o1 hT
  have hS : Seen (rampX 3) (some y) t [] := ⟨s, 0, o1, o2⟩
  have hpaths : leafPaths t = [[]] := hS.paths
  have hs : ∀ path ∈ leafPaths t, columns (rampX 3) (Layers.rowsOn (rampX 3) path) ≠ [] := by
    rw [hpaths]
    intro path h
    obtain rfl : path = [] := by simpa using h
    rw [LayerTower.columns_root]; simp
  have href := proposal_ref hX hc hS [0, 0] .grow []
  have hgr := LayerTower.grow_root []
  have hlp : layerProposal (rampX 3) [] .grow [0, 0] = .ok ([[LayerTower.cut]], []) := by
    unfold layerProposal
    rw [show Layers.paths ([] : List (List (Layers.Rule ℝ 1))) = [[]] from rfl, hgr]
  cases e1 : propose t [0, 0] [.grow] with
  | error e => rw [e1] at href; simp only at href; rw [hlp] at href; cases href
  | ok q =>
    obtain ⟨mus, t1, us1, ms1⟩ := q
    rw [e1] at href
    obtain ⟨rfl, proposed, t', e3, e4, hS'⟩ := href
    rw [hlp] at e3
    injection e3 with e3; injection e3 with e3 e5
    subst e3 e5
    obtain ⟨rules, a, h', hr, hgr', e6, e7, e8⟩ := C137_transition_partial hX hW hT hN hg hp e1 e4 hs
    have hcan : CanBecome (rampX 3) [] LayerTower.cut := by
      have := (Layers.growRules_possible hgr)
      cases this with
      | cons a _ => exact possible_iff.1 a
    have hrules : rules = [LayerTower.cut] := by
      have h1 : leafPaths t' = grown (leafPaths t) [LayerTower.cut] := by rw [hS'.paths, hS.paths]; rfl
      rw [hgr'] at h1
      exact (flatten_injective _ _ _ _ hr.length_eq (by rw [hpaths]; rfl) h1).2
    subst hrules
    have hL : shareOfLargest (rampX 3) (Layers.rowsOn (rampX 3) []) 0 = 1 / 3 := by
      unfold shareOfLargest
      rw [LayerTower.count_root]
      rw [LayerTower.rows_root]
      simp only [ramp_lt]
      rw [show count (fun r : Fin 3 => true && decide (∀ r' : Fin 3, True → decide (r < r') = false)) = 1 by decide]
      norm_num
    have hsh : shareOf (rampX 3) (Layers.rowsOn (rampX 3) []) 0 (.fin 0) = 1 / 3 := by
      have h3 := column_countP (X := rampX 3) (Layers.rowsOn (rampX 3) []) 0 (fun x => decide (x = .fin 0))
      rw [LayerTower.column_root] at h3
      unfold shareOf
      rw [LayerTower.count_root, ← h3]
      simp
    have hlo : (List.zipWith (leftOut (rampX 3)) (leafPaths t) [LayerTower.cut]).prod = 2 / 3 := by
      rw [hpaths]
      simp only [List.zipWith_cons_cons, List.zipWith_nil_left, List.prod_cons, List.prod_nil, LayerTower.cut, leftOut]
      rw [hL, LayerTower.columns_root]
      norm_num
    have hlp2 : (List.zipWith (leafProb (rampX 3)) (leafPaths t) [LayerTower.cut]).prod = 1 / 2 := by
      rw [hpaths]
      simp only [List.zipWith_cons_cons, List.zipWith_nil_left, List.prod_cons, List.prod_nil, LayerTower.cut, leafProb]
      rw [hL, hsh, LayerTower.columns_root]
      norm_num
    refine ⟨t, t1, t', N, [0, 0], mus, a, h', hW, hT, hN, hs, e1, e4, e6, ?_, ?_, ?_⟩
    · rw [hgr', grow_prob hX hc hS hN hg hp hr, hlp2]
    · exact prune_prob hX hc hS' hN.1 hg hp hr.length_eq hgr'
    · rw [e8, hlo, hpaths]
      simp

/-- C137, the examples: a tree of one leaf and a tree of two leaves over the rows 0, 1, 2, the growths and the removal that are proposed for them. -/
example : ∃ (t t2 : Tree ℝ 3 1) (N : Nat) (q : List (List (Cond ℝ 1))) (rules : List (Layers.Rule ℝ 1)), DividesAll 3 1 N ∧ columns (rampX 3) (fun _ => true) ≠ [] ∧
    ObliviousWork (rampX 3) t ∧ HasTarget t LayerTower.ys ∧ List.Forall₂ (CanBecome (rampX 3)) (leafPaths t) [some (0, .fin 0)] ∧
    ObliviousWork (rampX 3) t2 ∧ HasTarget t2 LayerTower.ys ∧ t2.leafNodes.length = 2 ∧ q.length = rules.length ∧ leafPaths t2 = grown q rules ∧
    proposalProb N (1 / 2) (1 / 2) (ProposesLeaves t2 q) = 1 / 2 ∧ proposalProb N (1 / 2) (1 / 2) (ObliviousProposes t2) = 1 := by
  obtain ⟨x, f, hx, hR, hn, hT, hstep, hlen⟩ := exGrowing (m := ⟨95 / 100, 2, 2, 1, 1⟩) ⟨by norm_num, by norm_num, by norm_num⟩ ⟨by norm_num, by norm_num, by norm_num⟩
    (pGrow := 1 / 2) (pPrune := 1 / 2) (by norm_num) (by norm_num) 1
  obtain ⟨N, hN⟩ := exists_dividesAll 3 1
  have hX := rampX_noNan 3
  have hW : ObliviousWork (rampX 3) (f 0) := .single hR hn
  have hc : columns (rampX 3) (fun _ => true) ≠ [] := by
    have := LayerTower.columns_root
    rw [show Layers.rowsOn (rampX 3) [] = fun _ => true from by funext r; rfl] at this
    rw [this]; simp
  have hl0 : (f 0).leafNodes.length = 1 := hlen 0 (by omega)
  have hl1 : (f 1).leafNodes.length = 2 := hlen 1 (by omega)
  have h01 : ObliviousWork (rampX 3) (f 1) ∧ HasTarget (f 1) LayerTower.ys := by
    obtain ⟨layers, hS⟩ := seen_of hX hW hT
    cases hstep 0 (by omega) with
    | tree hu e =>
      obtain ⟨l', -, s', d', hT', -⟩ := hS.step hX _ (by norm_num) (by norm_num) e
      exact ⟨.tree realFns _ hW ⟨_, hT⟩ (by norm_num) (by norm_num) e, hasTarget_of hT'⟩
    | leaf hi e =>
      obtain ⟨s', d', hT', -⟩ := hS.leaf _ hi e
      exact ⟨.leaf realFns _ hW ⟨_, hT⟩ hi e, hasTarget_of hT'⟩
    | target e =>
      obtain ⟨s', d', hT', -⟩ := hS.target e
      exact ⟨.target hW e, hasTarget_of hT'⟩
    | predict e =>
      obtain ⟨s', d', hT', -⟩ := hS.predict e
      exact ⟨.predict hW e, hasTarget_of hT'⟩
  obtain ⟨layers0, hS0⟩ := seen_of hX hW hT
  have e0 : layers0 = [] := by
    have h1 := hS0.full.paths_length
    rw [← hS0.paths, leafPaths, List.length_map, hl0] at h1
    cases layers0 with
    | nil => rfl
    | cons a l => rw [List.length_cons, pow_succ] at h1; omega
  subst e0
  obtain ⟨layers, hS⟩ := seen_of hX h01.1 h01.2
  have hf := hS.full
  have hpl := hf.paths_length
  rw [← hS.paths, leafPaths, List.length_map, hl1] at hpl
  have key : ∃ q rules, q.length = rules.length ∧ leafPaths (f 1) = grown q rules := by
    cases layers with
    | nil => simp at hpl
    | cons r l => exact ⟨Layers.paths l, r, by rw [hf.1.paths_length]; exact hf.2.symm, hS.paths⟩
  obtain ⟨q, rules, hq, hg⟩ := key
  refine ⟨f 0, f 1, N, q, rules, hN, hc, hW, hT, ?_, h01.1, h01.2, hl1, hq, hg, C137_prune hX hc h01.1 h01.2 hN.1 (by norm_num) (by norm_num) hq hg,
    C137_total hX hc h01.1 h01.2 hN (by norm_num) (by norm_num) (by norm_num)⟩
  rw [hS0.paths]
  exact (Layers.growRules_possible (LayerTower.grow_root [])).imp (fun a b h => possible_iff.1 h)

end Bart.Oblivious
