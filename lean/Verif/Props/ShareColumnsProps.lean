import Verif.Proofs.RefRecode
import Verif.Props.ShareInvarianceProps

/-! C149: a constant column has the share 0, and neither constant columns nor the units of the features change the shares of the other columns, with both samplers. -/

set_option linter.unusedSectionVars false

namespace Bart
open Spec Reference Oblivious

/-! ### numbers of splits of recoded trees -/

section
variable {K : Type} [Field K] [LinearOrder K] {n p p' : Nat} (g : Recode K p p')

theorem splitsOn_recode (t : RTree K p) (j : Fin p) : Spec.splitsOn (g.rtree t) (g.at' j) = Spec.splitsOn t j := by
  unfold Spec.splitsOn Recode.rtree
  rw [List.countP_map]
  apply List.countP_congr
  intro nd _
  rcases nd with ⟨path, v | ⟨i, v⟩⟩ <;> simp [Recode.rnode, Recode.content, g.mono.injective.eq_iff]

theorem splitsOn_extra (t : RTree K p) {j : Fin p'} (hj : ∀ v, g.at' v ≠ j) : Spec.splitsOn (g.rtree t) j = 0 := by
  unfold Spec.splitsOn Recode.rtree
  rw [List.countP_map, List.countP_eq_zero]
  intro nd _
  rcases nd with ⟨path, v | ⟨i, v⟩⟩
  · simp [Recode.rnode, Recode.content]
  · simpa [Recode.rnode, Recode.content] using hj i

theorem totalSplitsOn_recode (l : List (List Bool × Reference.State K p)) (j : Fin p) : totalSplitsOn ((l.map g.rsample).map Prod.snd) (g.at' j) = totalSplitsOn (l.map Prod.snd) j := by
  unfold totalSplitsOn
  rw [List.map_map, List.map_map, List.map_map]
  congr 2
  funext a
  simp [Recode.rsample, Recode.rstate, Function.comp_def, splitsOn_recode]

theorem totalSplitsOn_extra (l : List (List Bool × Reference.State K p)) {j : Fin p'} (hj : ∀ v, g.at' v ≠ j) : totalSplitsOn ((l.map g.rsample).map Prod.snd) j = 0 := by
  unfold totalSplitsOn
  rw [List.map_map, List.map_map]
  apply List.sum_eq_zero
  intro k hk
  obtain ⟨a, -, rfl⟩ := List.mem_map.1 hk
  apply List.sum_eq_zero
  intro k hk
  obtain ⟨t, ht, rfl⟩ := List.mem_map.1 hk
  obtain ⟨t', -, rfl⟩ := List.mem_map.1 ht
  exact splitsOn_extra g t' hj

theorem nodesIn_recode (l : List (List Bool × Reference.State K p)) : Spec.nodesIn ((l.map g.rsample).map Prod.snd) = Spec.nodesIn (l.map Prod.snd) := by
  unfold Spec.nodesIn
  rw [List.map_map, List.map_map, List.map_map]
  congr 2
  funext a
  simp [Recode.rsample, Recode.rstate, Recode.rtree, Function.comp_def]

namespace Oblivious

theorem layer_splitsOn_recode (L : List (List (Layers.Rule K p))) (j : Fin p) : Layers.splitsOn (g.layers L) (g.at' j) = Layers.splitsOn L j := by
  unfold Layers.splitsOn Recode.layers
  rw [← List.map_flatten, List.countP_map]
  apply List.countP_congr
  intro r _
  rcases r with _ | ⟨i, v⟩ <;> simp [Recode.rule, g.mono.injective.eq_iff]

theorem layer_splitsOn_extra (L : List (List (Layers.Rule K p))) {j : Fin p'} (hj : ∀ v, g.at' v ≠ j) : Layers.splitsOn (g.layers L) j = 0 := by
  unfold Layers.splitsOn Recode.layers
  rw [← List.map_flatten, List.countP_map, List.countP_eq_zero]
  intro r _
  rcases r with _ | ⟨i, v⟩
  · simp [Recode.rule]
  · simpa [Recode.rule] using hj i

theorem layer_doublingsOn_recode (L : List (List (Layers.Rule K p))) (j : Fin p) : Layers.doublingsOn (g.layers L) (g.at' j) = Layers.doublingsOn L j := by
  induction L with
  | nil => rfl
  | cons rules rest ih =>
    rw [show g.layers (rules :: rest) = rules.map g.rule :: g.layers rest from rfl]
    simp only [Layers.doublingsOn, ih, Nat.add_left_cancel_iff, g.paths]
    rw [List.zip_map, List.countP_map]
    apply List.countP_congr
    intro q _
    rcases q with ⟨path, _ | r⟩
    · rcases h : path.getLast? with _ | ⟨i, v, b⟩ <;> simp [Recode.rule, Recode.path, List.getLast?_map, h, Recode.cond, g.mono.injective.eq_iff]
    · simp [Recode.rule]

theorem layer_doublingsOn_extra (L : List (List (Layers.Rule K p))) {j : Fin p'} (hj : ∀ v, g.at' v ≠ j) : Layers.doublingsOn (g.layers L) j = 0 := by
  induction L with
  | nil => rfl
  | cons rules rest ih =>
    rw [show g.layers (rules :: rest) = rules.map g.rule :: g.layers rest from rfl]
    simp only [Layers.doublingsOn, ih, Nat.zero_add, g.paths]
    rw [List.zip_map, List.countP_map, List.countP_eq_zero]
    intro q _
    rcases q with ⟨path, _ | r⟩
    · rcases h : path.getLast? with _ | ⟨i, v, b⟩
      · simp [Recode.rule, Recode.path, List.getLast?_map, h]
      · simpa [Recode.rule, Recode.path, List.getLast?_map, h, Recode.cond] using hj i
    · simp [Recode.rule]

theorem tally_recode (l : List (List Bool × Layers.State K p)) (j : Fin p) :
    splitsIn (l.map g.sample) (g.at' j) + doublingsIn (l.map g.sample) (g.at' j) = splitsIn l j + doublingsIn l j := by
  unfold splitsIn doublingsIn
  simp only [List.flatMap_map, Recode.sample, Recode.state, List.map_map, Function.comp_def, Recode.tree, layer_splitsOn_recode, layer_doublingsOn_recode]

theorem tally_extra (l : List (List Bool × Layers.State K p)) {j : Fin p'} (hj : ∀ v, g.at' v ≠ j) : splitsIn (l.map g.sample) j + doublingsIn (l.map g.sample) j = 0 := by
  have h : ∀ f : List (List (Layers.Rule K p')) → Nat, (∀ L, f (g.layers L) = 0) → ((l.map g.sample).flatMap fun st => st.2.trees.map fun T => f T.layers).sum = 0 := by
    intro f hf
    apply List.sum_eq_zero
    intro k hk
    obtain ⟨a, ha, hk⟩ := List.mem_flatMap.1 hk
    obtain ⟨a', -, rfl⟩ := List.mem_map.1 ha
    obtain ⟨t, ht, rfl⟩ := List.mem_map.1 hk
    obtain ⟨t', -, rfl⟩ := List.mem_map.1 ht
    exact hf t'.layers
  unfold splitsIn doublingsIn
  rw [h (fun L => Layers.splitsOn L j) fun L => layer_splitsOn_extra g L hj, h (fun L => Layers.doublingsOn L j) fun L => layer_doublingsOn_extra g L hj]

theorem nodesIn_recode (l : List (List Bool × Layers.State K p)) : nodesIn (l.map g.sample) = nodesIn l := by
  unfold nodesIn
  simp only [List.flatMap_map, Recode.sample, Recode.state, List.map_map, Function.comp_def, Recode.tree, Recode.layers, List.length_map]

end Oblivious
end

variable {K : Type} [Field K] [LinearOrder K] [IsStrictOrderedRing K] {n p p' : Nat} {X : Fin n → Fin p → Fl K} [MathFns K] [FloorRing K]

omit [IsStrictOrderedRing K] [MathFns K] [FloorRing K] in
/-- The table without its column `j`, which is constant. -/
theorem table_without {X : Fin n → Fin (p + 1) → Fl K} {j : Fin (p + 1)} {a : Fl K} (hj : ∀ r, X r j = a) :
    (recodeOf (Fin.strictMono_succAbove j) (g := fun _ => id) fun _ => strictMono_id).Table (fun r v => X r (j.succAbove v)) X := by
  refine ⟨fun r v => ?_, fun i hi => ⟨a, ?_⟩⟩
  · simp only [recodeOf, recodeEntry_eq]
    cases X r (j.succAbove v) <;> rfl
  · have : i = j := by
      by_contra h
      obtain ⟨v, hv⟩ := Fin.exists_succAbove_eq h
      exact hi v hv
    rw [this]
    exact hj

/-- C149: a column that is constant in the training data has the share 0 in every fit. -/
theorem C149_constant (hX : NoNan X) {j : Fin p} {a : Fl K} (hj : ∀ r, X r j = a) {s f : SkModel K p} (hp1 : s.pGrow ≠ 0) (hp2 : s.pPrune ≠ 0) (hth : s.thin ≠ 0) (hch : 0 < s.nChains)
    {y : Fin n → K} (hy : ∃ i j, y i ≠ y j) {rs : Nat → Rand K} (hf : s.fit X y rs = .ok f) : splitShareOf (.ok f) j = .ok 0 := by
  obtain ⟨lo, hi, hlo, hhi, hlt⟩ := exists_range hy
  obtain _ | p := p
  · exact j.elim0
  have h := splitShareOf_fit hX (Fin.pos j) hp1 hp2 hth hch hlo hhi hlt rs j
  obtain ⟨l, m, a1, -⟩ := fit_samples hX (Fin.pos j) hp1 hp2 hth hch hlo hhi hlt hf
  have h3 := (table_without hj).rfit s.config lo hi y rs
  rw [hf, a1] at h
  rw [a1] at h3
  cases e : Reference.fit s.config (fun r v => X r (j.succAbove v)) lo hi y rs with
  | error e' => rw [e] at h3; cases h3
  | ok l' =>
    rw [e] at h3
    simp only [Except.map, Except.ok.injEq] at h3
    have h4 := totalSplitsOn_extra (recodeOf (Fin.strictMono_succAbove j) (g := fun _ => id) fun _ => strictMono_id) l' (j := j) fun v => Fin.succAbove_ne j v
    rw [← h3] at h4
    simp only [h, h4, Nat.cast_zero, mul_zero, zero_div]

/-- C149: the columns replaced by strictly increasing functions of them and put among further columns that are constant in the training data. With the same draws each column has the same share as before,
or the fits raise the same exception; the further columns have the share 0. -/
theorem C149_features (hX : NoNan X) {X' : Fin n → Fin p' → Fl K} (hX' : NoNan X') (hp : 0 < p) {γ : Fin p → Fin p'} (hγ : StrictMono γ) {g : Fin p → K → K} (hg : ∀ j, StrictMono (g j))
    (hc : ∀ r v, X' r (γ v) = recodeEntry (g v) (X r v)) (hex : ∀ j, j ∉ Set.range γ → ∃ a, ∀ r, X' r j = a) {s : SkModel K p} {s' : SkModel K p'} (hs : SameSampling s s') (hl : SameLength s s')
    (hp1 : s.pGrow ≠ 0) (hp2 : s.pPrune ≠ 0) (hth : s.thin ≠ 0) (hch : 0 < s.nChains) {y : Fin n → K} (hy : ∃ i j, y i ≠ y j) (rs : Nat → Rand K) :
    (∀ j, splitShareOf (s'.fit X' y rs) (γ j) = splitShareOf (s.fit X y rs) j) ∧ ∀ j, j ∉ Set.range γ → ∀ f', s'.fit X' y rs = .ok f' → splitShareOf (.ok f') j = .ok 0 := by
  have g1 : s'.pGrow ≠ 0 := by rw [hs.pGrow]; exact hp1
  have g2 : s'.pPrune ≠ 0 := by rw [hs.pPrune]; exact hp2
  have g3 : s'.thin ≠ 0 := by rw [hl.thin]; exact hth
  have g4 : 0 < s'.nChains := by rw [hs.nChains]; exact hch
  refine ⟨fun j => ?_, fun j hj f' hf' => ?_⟩
  · obtain ⟨lo, hi, hlo, hhi, hlt⟩ := exists_range hy
    have hp' : 0 < p' := Fin.pos_iff_nonempty.2 ⟨γ ⟨0, hp⟩⟩
    have hconf : s'.config = s.config := by
      unfold SkModel.config
      rw [hs.nTrees, hs.nChains, hs.sigmaA, hs.sigmaB, hs.alpha, hs.beta, hs.pGrow, hs.pPrune, hl.nSamples, hl.nBurn, hl.thin]
    have hT : (recodeOf hγ hg).Table X X' := ⟨fun r j => hc r j, fun j hj => hex j (by rintro ⟨v, hv⟩; exact hj v hv)⟩
    rw [splitShareOf_fit hX' hp' g1 g2 g3 g4 hlo hhi hlt, splitShareOf_fit hX hp hp1 hp2 hth hch hlo hhi hlt, hconf, hT.rfit s.config lo hi y rs]
    cases Reference.fit s.config X lo hi y rs with
    | error e => rfl
    | ok l => simp only [Except.map, show γ j = (recodeOf hγ hg).at' j from rfl, totalSplitsOn_recode, nodesIn_recode]
  · obtain ⟨a, ha⟩ := hex j hj
    exact C149_constant hX' ha g1 g2 g3 g4 hy hf'

namespace Oblivious

/-- C149 with the oblivious tree sampler: a constant column has the share 0. -/
theorem C149_constant (hX : ∀ r, GoodRow (X r)) {j : Fin p} {a : Fl K} (hj : ∀ r, X r j = a) {s f : SkModel K p} (hp1 : s.pGrow ≠ 0) (hp2 : s.pPrune ≠ 0) (hth : s.thin ≠ 0) (hch : 0 < s.nChains)
    {y : Fin n → K} (hy : ∃ i j, y i ≠ y j) {rs : Nat → Rand K} (hf : fit s X y rs = .ok f) : splitShareOf (.ok f) j = .ok 0 := by
  obtain ⟨lo, hi, hlo, hhi, hlt⟩ := exists_range hy
  obtain _ | p := p
  · exact j.elim0
  have h := layer_share_fit hX (Fin.pos j) hp1 hp2 hth hch hlo hhi hlt rs j
  obtain ⟨l, m, a1, -⟩ := ofit_samples hX (Fin.pos j) hp1 hp2 hth hlo hhi hlt hf
  have h3 := (table_without hj).fit s.config lo hi y rs
  rw [hf, a1] at h
  rw [a1] at h3
  cases e : Layers.fit s.config (fun r v => X r (j.succAbove v)) lo hi y rs with
  | error e' => rw [e] at h3; cases h3
  | ok l' =>
    rw [e] at h3
    simp only [Except.map, Except.ok.injEq] at h3
    have h4 := tally_extra (recodeOf (Fin.strictMono_succAbove j) (g := fun _ => id) fun _ => strictMono_id) l' (j := j) fun v => Fin.succAbove_ne j v
    rw [← h3] at h4
    simp only [h, ← Nat.cast_add, h4, Nat.cast_zero, mul_zero, zero_div]

/-- C149 with the oblivious tree sampler: increasing functions of the columns and further constant columns. -/
theorem C149_features (hX : ∀ r, GoodRow (X r)) {X' : Fin n → Fin p' → Fl K} (hX' : ∀ r, GoodRow (X' r)) (hp : 0 < p) {γ : Fin p → Fin p'} (hγ : StrictMono γ) {g : Fin p → K → K}
    (hg : ∀ j, StrictMono (g j)) (hc : ∀ r v, X' r (γ v) = recodeEntry (g v) (X r v)) (hex : ∀ j, j ∉ Set.range γ → ∃ a, ∀ r, X' r j = a) {s : SkModel K p} {s' : SkModel K p'}
    (hs : SameSampling s s') (hl : SameLength s s') (hp1 : s.pGrow ≠ 0) (hp2 : s.pPrune ≠ 0) (hth : s.thin ≠ 0) (hch : 0 < s.nChains) {y : Fin n → K} (hy : ∃ i j, y i ≠ y j) (rs : Nat → Rand K) :
    (∀ j, splitShareOf (fit s' X' y rs) (γ j) = splitShareOf (fit s X y rs) j) ∧ ∀ j, j ∉ Set.range γ → ∀ f', fit s' X' y rs = .ok f' → splitShareOf (.ok f') j = .ok 0 := by
  have g1 : s'.pGrow ≠ 0 := by rw [hs.pGrow]; exact hp1
  have g2 : s'.pPrune ≠ 0 := by rw [hs.pPrune]; exact hp2
  have g3 : s'.thin ≠ 0 := by rw [hl.thin]; exact hth
  have g4 : 0 < s'.nChains := by rw [hs.nChains]; exact hch
  refine ⟨fun j => ?_, fun j hj f' hf' => ?_⟩
  · obtain ⟨lo, hi, hlo, hhi, hlt⟩ := exists_range hy
    have hp' : 0 < p' := Fin.pos_iff_nonempty.2 ⟨γ ⟨0, hp⟩⟩
    have hconf : s'.config = s.config := by
      unfold SkModel.config
      rw [hs.nTrees, hs.nChains, hs.sigmaA, hs.sigmaB, hs.alpha, hs.beta, hs.pGrow, hs.pPrune, hl.nSamples, hl.nBurn, hl.thin]
    have hT : (recodeOf hγ hg).Table X X' := ⟨fun r j => hc r j, fun j hj => hex j (by rintro ⟨v, hv⟩; exact hj v hv)⟩
    rw [layer_share_fit hX' hp' g1 g2 g3 g4 hlo hhi hlt, layer_share_fit hX hp hp1 hp2 hth hch hlo hhi hlt, hconf, hT.fit s.config lo hi y rs]
    cases Layers.fit s.config X lo hi y rs with
    | error e => rfl
    | ok l => simp only [Except.map, show γ j = (recodeOf hγ hg).at' j from rfl, ← Nat.cast_add, tally_recode, nodesIn_recode]
  · obtain ⟨a, ha⟩ := hex j hj
    exact C149_constant hX' ha g1 g2 g3 g4 hy hf'

end Oblivious

/-! ### concrete cases -/

section examples
attribute [local instance] exFns

/-- C149, the hypotheses are met by the example of C87: a column of 7s before the only column. The fits return, the shares are 0 and that of the fit without the constant column. -/
example : NoNan exX ∧ NoNan (exXc (.fin 7)) ∧ (∀ r v, exXc (.fin 7) r ((fun _ : Fin 1 => (1 : Fin 2)) v) = recodeEntry id (exX r v)) ∧ (∀ r, exXc (.fin 7) r 0 = .fin 7) ∧
    SameSampling (exSk true) exSkc ∧ SameLength (exSk true) exSkc ∧ exSkc.pGrow ≠ 0 ∧ exSkc.pPrune ≠ 0 ∧ exSkc.thin ≠ 0 ∧ 0 < exSkc.nChains ∧ exY 0 ≠ exY 1 ∧
    [0].map (fun j => shareNumber (splitShareOf ((exSk true).fit exX exY exRs) j)) = [2/3] ∧
    [0, 1].map (fun j => splitShareOf (exSkc.fit (exXc (.fin 7)) exY exRs) j) = [.ok 0, .ok (2/3)] := by
  refine ⟨exX_noNan, ?_, ?_, ?_, ⟨rfl, rfl, rfl, rfl, rfl, rfl, rfl, rfl⟩, ⟨rfl, rfl, rfl⟩, ?_⟩
  · unfold NoNan; decide +kernel
  · decide +kernel
  · decide +kernel
  · decide +kernel

namespace Oblivious

/-- C149 with the oblivious tree sampler, in the example of C131: a column of 7s, and the other column doubled. -/
example : (∀ r, GoodRow (exXf r)) ∧ (∀ r, GoodRow (exXg r)) ∧ (∀ r, exXg r 0 = .fin 7) ∧ SameSampling exSkf exSkg ∧ SameLength exSkf exSkg ∧
    [0].map (fun j => shareNumber (splitShareOf (fit exSkf exXf exYf (fun _ => exRf)) j)) = [22/25] ∧
    [0, 1].map (fun j => splitShareOf (fit exSkg exXg exYf (fun _ => exRf)) j) = [.ok 0, .ok (22/25)] := by
  refine ⟨?_, ?_, ?_, ⟨rfl, rfl, rfl, rfl, rfl, rfl, rfl, rfl⟩, ⟨rfl, rfl, rfl⟩, ?_⟩
  · unfold GoodRow; decide +kernel
  · unfold GoodRow; decide +kernel
  · decide +kernel
  · decide +kernel

end Oblivious
end examples
end Bart
