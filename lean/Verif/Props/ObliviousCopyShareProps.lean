import Verif.Props.CopyShareProps
import Verif.Props.ObliviousCopyProps
import Verif.Props.ObliviousFeatureProps

/-! C147: the copies of a column divide its share of the splits among them, with the oblivious tree sampler. -/

set_option linter.unusedSectionVars false

namespace Bart.Oblivious
open Bart Spec Reference Translate

/-! ### what is counted for a column -/

section
variable {K : Type} [Field K] [LinearOrder K] {n p p' : Nat} {c : Fin p' → Fin p}

theorem layer_splitsOn_merge (L : List (List (Layers.Rule K p'))) (j : Fin p) : Layers.splitsOn (Layers.mergeLayers c L) j = ∑ j' with c j' = j, Layers.splitsOn L j' := by
  unfold Layers.splitsOn Layers.mergeLayers
  rw [← List.map_flatten]
  generalize L.flatten = l
  induction l with
  | nil => simp
  | cons r l ih =>
    simp only [List.map_cons, List.countP_cons, ih, Finset.sum_add_distrib, Nat.add_left_cancel_iff]
    rcases r with _ | ⟨i, v⟩
    · simp [Layers.Rule.merge]
    · simp [Layers.Rule.merge, Finset.sum_ite_eq]

theorem layer_doublingsOn_merge (L : List (List (Layers.Rule K p'))) (j : Fin p) : Layers.doublingsOn (Layers.mergeLayers c L) j = ∑ j' with c j' = j, Layers.doublingsOn L j' := by
  induction L with
  | nil => simp [Layers.doublingsOn]
  | cons rules rest ih =>
    rw [show Layers.mergeLayers c (rules :: rest) = rules.map (Layers.Rule.merge c) :: Layers.mergeLayers c rest from rfl]
    simp only [Layers.doublingsOn, ih, Finset.sum_add_distrib, Nat.add_left_cancel_iff, Layers.paths_merge]
    rw [List.zip_map]
    generalize (Layers.paths rest).zip rules = l
    induction l with
    | nil => simp
    | cons q l ih2 =>
      simp only [List.map_cons, List.countP_cons, ih2, Finset.sum_add_distrib, Nat.add_left_cancel_iff]
      rcases q with ⟨path, _ | r⟩
      · rcases h : path.getLast? with _ | ⟨i, v, b⟩
        · simp [Layers.Rule.merge, List.getLast?_map, h]
        · simp [Layers.Rule.merge, List.getLast?_map, h, Cond.merge, Finset.sum_ite_eq]
      · simp [Layers.Rule.merge]

theorem tally_merge (l : List (List Bool × Layers.State K p')) (j : Fin p) :
    splitsIn (l.map fun a => (a.1, a.2.merge c)) j + doublingsIn (l.map fun a => (a.1, a.2.merge c)) j = ∑ j' with c j' = j, (splitsIn l j' + doublingsIn l j') := by
  have h : ∀ (f : List (List (Layers.Rule K p)) → Nat) (g : List (List (Layers.Rule K p')) → Fin p' → Nat), (∀ L, f (Layers.mergeLayers c L) = ∑ j' with c j' = j, g L j') →
      ((l.map fun a => (a.1, a.2.merge c)).flatMap fun st => st.2.trees.map fun T => f T.layers).sum = ∑ j' with c j' = j, (l.flatMap fun st => st.2.trees.map fun T => g T.layers j').sum := by
    intro f g hfg
    induction l with
    | nil => simp
    | cons a l ih =>
      simp only [List.map_cons, List.flatMap_cons, List.sum_append, Finset.sum_add_distrib, ih, Nat.add_right_cancel_iff]
      simp only [Layers.State.merge, List.map_map]
      generalize a.2.trees = ts
      induction ts with
      | nil => simp
      | cons t ts ih2 => simp only [List.map_cons, List.sum_cons, ih2, Finset.sum_add_distrib, Function.comp_apply, Layers.LTree.merge, hfg]
  unfold splitsIn doublingsIn
  rw [h (fun L => Layers.splitsOn L j) Layers.splitsOn fun L => layer_splitsOn_merge L j, h (fun L => Layers.doublingsOn L j) Layers.doublingsOn fun L => layer_doublingsOn_merge L j,
    ← Finset.sum_add_distrib]

theorem nodesIn_merge (l : List (List Bool × Layers.State K p')) : nodesIn (l.map fun a => (a.1, a.2.merge c)) = nodesIn l := by
  unfold nodesIn
  rw [List.flatMap_map]
  congr 2
  funext a
  simp [Layers.State.merge, Layers.LTree.merge, Layers.mergeLayers, Function.comp_def]

theorem layer_splitsOn_relabel (σ : Equiv.Perm (Fin p)) (L : List (List (Layers.Rule K p))) (j : Fin p) : Layers.splitsOn (L.map (List.map (Layers.Rule.relabel σ))) j = Layers.splitsOn L (σ j) := by
  unfold Layers.splitsOn
  rw [← List.map_flatten, List.countP_map]
  apply List.countP_congr
  intro r _
  rcases r with _ | ⟨i, v⟩ <;> simp [Layers.Rule.relabel, Equiv.symm_apply_eq]

theorem layer_doublingsOn_relabel (σ : Equiv.Perm (Fin p)) (L : List (List (Layers.Rule K p))) (j : Fin p) :
    Layers.doublingsOn (L.map (List.map (Layers.Rule.relabel σ))) j = Layers.doublingsOn L (σ j) := by
  induction L with
  | nil => rfl
  | cons rules rest ih =>
    simp only [List.map_cons, Layers.doublingsOn, ih, Nat.add_left_cancel_iff, Layers.paths_relabel]
    rw [List.zip_map, List.countP_map]
    apply List.countP_congr
    intro q _
    rcases q with ⟨path, _ | r⟩
    · rcases h : path.getLast? with _ | ⟨i, v, b⟩ <;> simp [Layers.Rule.relabel, Layers.relPath, List.getLast?_map, h, Cond.relabel, Equiv.symm_apply_eq]
    · simp [Layers.Rule.relabel]

theorem tally_relabel (σ : Equiv.Perm (Fin p)) (l : List (List Bool × Layers.State K p)) (j : Fin p) :
    splitsIn (l.map fun a => (a.1, a.2.relabel σ)) j + doublingsIn (l.map fun a => (a.1, a.2.relabel σ)) j = splitsIn l (σ j) + doublingsIn l (σ j) := by
  unfold splitsIn doublingsIn
  simp only [List.flatMap_map, Layers.State.relabel, List.map_map, Function.comp_def, Layers.LTree.relabel, layer_splitsOn_relabel, layer_doublingsOn_relabel]

theorem nodesIn_relabel (σ : Equiv.Perm (Fin p)) (l : List (List Bool × Layers.State K p)) : nodesIn (l.map fun a => (a.1, a.2.relabel σ)) = nodesIn l := by
  unfold nodesIn
  simp only [List.flatMap_map, Layers.State.relabel, List.map_map, Function.comp_def, Layers.LTree.relabel, List.length_map]

end

variable {K : Type} [Field K] [LinearOrder K] [IsStrictOrderedRing K] {n p p' : Nat} {X : Fin n → Fin p → Fl K} [MathFns K] [FloorRing K] {c : Fin p' → Fin p} {k : Nat}

/-- The share of a column in the samples of the reference sampler. -/
theorem layer_share_fit (hX : ∀ r, GoodRow (X r)) {s : SkModel K p} (hp : 0 < p) (hp1 : s.pGrow ≠ 0) (hp2 : s.pPrune ≠ 0) (hth : s.thin ≠ 0) (hch : 0 < s.nChains) {y : Fin n → K} {lo hi : K}
    (hlo : IsLeast (Set.range y) lo) (hhi : IsGreatest (Set.range y) hi) (hlt : lo < hi) (rs : Nat → Rand K) (j : Fin p) :
    splitShareOf (fit s X y rs) j = match Layers.fit s.config X lo hi y rs with
      | .error e => .error e
      | .ok l => .ok ((2 * (splitsIn l j + doublingsIn l j) : K) / (nodesIn l : K)) := by
  cases hf : fit s X y rs with
  | error e =>
    have h1 := C127_fit hX hp hp1 hp2 hth hch hlo hhi hlt rs
    rw [hf] at h1
    simp only at h1
    rw [h1]
    rfl
  | ok f =>
    obtain ⟨l, m, a1, a2, a3⟩ := ofit_samples hX hp hp1 hp2 hth hlo hhi hlt hf
    obtain ⟨c1, c2⟩ := osamples_counts a3
    rw [a1]
    simp only [splitShareOf, SkModel.featureSplitProportions, a2]
    rw [featureSplitProportions_eq]
    simp only [Option.getD_some, List.foldl_cons, List.foldl_nil, Dict.set, Dict.get?, if_true]
    rw [c1, c2]
    push_cast
    rfl

/-- C147, the shares add up. The correspondence of C145 between the draws also relates the shares of the columns: the share of a column in the fit to X is the sum of the shares of its copies in the
fit to the data with the copies. -/
theorem C147_sum (hX : ∀ r, GoodRow (X r)) (hk : 0 < k) (hc : EqualCopies c k) {s : SkModel K p} {s' : SkModel K p'} (hs : SameSampling s s') (hsl : SameLength s s')
    (hst : s'.storePredictions = s.storePredictions ∧ s'.storeAcceptance = s.storeAcceptance) (hp : 0 < p) (hp1 : s.pGrow ≠ 0) (hp2 : s.pPrune ≠ 0) (hth : s.thin ≠ 0) (hch : 0 < s.nChains)
    (hns : 0 < s.nSamples) {y : Fin n → K} (hy : ∃ i j, y i ≠ y j) :
    ∃ T : Equiv.Perm (Rand K), OnlyPicks (max n p') T ∧ ∀ rs, SameUpTo (SameCopies c s.storePredictions s.storeAcceptance) (fit s' (copied c X) y rs) (fit s X y (T ∘ rs)) ∧
      ((∃ e, fit s' (copied c X) y rs = .error e ∧ fit s X y (T ∘ rs) = .error e) ∨
        ∃ v : Fin p' → K, (∀ j', splitShareOf (fit s' (copied c X) y rs) j' = .ok (v j')) ∧ ∀ j, splitShareOf (fit s X y (T ∘ rs)) j = .ok (∑ j' with c j' = j, v j')) := by
  obtain ⟨T, hT, h, lo, hi, hlo, hhi, hlt, hcfg, h3⟩ := layer_copies_reference (c := c) hX hk hc hs hsl hst hp hp1 hp2 hth hch hns hy
  refine ⟨T, hT, fun rs => ⟨h rs, ?_⟩⟩
  have hX' : ∀ r, GoodRow (copied c X r) := fun i j => hX _ _
  have hp' : 0 < p' := by
    have h1 := hc ⟨0, hp⟩
    rw [← h1, Fintype.card_pos_iff] at hk
    exact Fin.pos hk.some.1
  have e1 := layer_share_fit (s := s') hX' hp' (by rw [hs.pGrow]; exact hp1) (by rw [hs.pPrune]; exact hp2) (by rw [hsl.thin]; exact hth) (by rw [hs.nChains]; exact hch) hlo hhi hlt rs
  have e2 := layer_share_fit hX hp hp1 hp2 hth hch hlo hhi hlt (T ∘ rs)
  have h1 := C127_fit (s := s') hX' hp' (by rw [hs.pGrow]; exact hp1) (by rw [hs.pPrune]; exact hp2) (by rw [hsl.thin]; exact hth) (by rw [hs.nChains]; exact hch) hlo hhi hlt rs
  have h2 := h rs
  rw [hcfg] at e1 h1
  simp only [h3 rs] at e2
  cases hf : Layers.fit s.config (copied c X) lo hi y rs with
  | error e =>
    left
    cases hA : fit s' (copied c X) y rs with
    | ok f => rw [hA] at h1; obtain ⟨l, m, a1, -⟩ := h1; rw [a1] at hf; cases hf
    | error e' =>
      cases hB : fit s X y (T ∘ rs) with
      | ok f => rw [hA, hB] at h2; exact absurd h2 (by simp [SameUpTo])
      | error e'' => rw [hA, hB] at h2; simp only [SameUpTo] at h2; exact ⟨e', rfl, by rw [h2]⟩
  | ok l =>
    right
    simp only [hf] at e1 e2
    refine ⟨_, e1, fun j => ?_⟩
    rw [e2, ← Nat.cast_add, tally_merge, nodesIn_merge]
    push_cast
    rw [Finset.mul_sum, Finset.sum_div]

/-- The shares of exchanged columns. -/
theorem layer_share_reorder (hX : ∀ r, GoodRow (X r)) (σ : Equiv.Perm (Fin p)) {s : SkModel K p} (hp : 0 < p) (hp1 : s.pGrow ≠ 0) (hp2 : s.pPrune ≠ 0) (hth : s.thin ≠ 0) (hch : 0 < s.nChains) {y : Fin n → K}
    (hy : ∃ i j, y i ≠ y j) :
    ∃ T : Equiv.Perm (Rand K), OnlyPicks (max n p) T ∧ ∀ rs j, splitShareOf (fit s (reorder (Equiv.refl _) σ X) y (T ∘ rs)) j = splitShareOf (fit s X y rs) (σ j) := by
  obtain ⟨lo, hi, hlo, hhi, hlt⟩ := exists_range hy
  have hX' : ∀ r, GoodRow (reorder (Equiv.refl _) σ X r) := fun i j => hX _ _
  obtain ⟨T, hT, h⟩ := layer_chains_reorder (σ := σ) (sameColumns_refl (X := X)) s.config (scaled lo hi y)
  refine ⟨T, hT, fun rs j => ?_⟩
  rw [layer_share_fit hX' hp hp1 hp2 hth hch hlo hhi hlt, layer_share_fit hX hp hp1 hp2 hth hch hlo hhi hlt]
  have h3 : Layers.fit s.config (reorder (Equiv.refl _) σ X) lo hi y (T ∘ rs) = (Layers.fit s.config X lo hi y rs).map (List.map fun a => (a.1, a.2.relabel σ)) := by
    unfold Layers.fit
    rw [← List.map_map]
    exact h _
  rw [h3]
  cases Layers.fit s.config X lo hi y rs with
  | error e => rfl
  | ok l => simp only [Except.map, ← Nat.cast_add, tally_relabel, nodesIn_relabel]

/-- C147, the copies are alike: whatever the other draws, for picks uniformly from `0 .. N - 1` the shares of two equal columns have the same distribution. -/
theorem C147_alike (hX : ∀ r, GoodRow (X r)) {i j : Fin p} (hij : ∀ r, X r i = X r j) {s : SkModel K p} (hp1 : s.pGrow ≠ 0) (hp2 : s.pPrune ≠ 0) (hth : s.thin ≠ 0) (hch : 0 < s.nChains) {y : Fin n → K}
    (hy : ∃ i j, y i ≠ y j) {N m : Nat} (hN : ∀ L, 1 ≤ L → L ≤ max n p → L ∣ N) (other : Nat → Rand K) (A : Set (Except PyErr K)) :
    Nat.card {us : Fin s.nChains → Fin m → Fin N // splitShareOf (fit s X y (withPicks other us)) i ∈ A} =
      Nat.card {us : Fin s.nChains → Fin m → Fin N // splitShareOf (fit s X y (withPicks other us)) j ∈ A} := by
  obtain ⟨T, hT, h⟩ := layer_share_reorder hX (Equiv.swap i j) (Fin.pos i) hp1 hp2 hth hch hy
  have e : reorder (Equiv.refl _) (Equiv.swap i j) X = X := by
    funext r a
    simp only [reorder, Equiv.refl_apply]
    rcases eq_or_ne a i with rfl | h1
    · rw [Equiv.swap_apply_left, hij]
    · rcases eq_or_ne a j with rfl | h2
      · rw [Equiv.swap_apply_right, hij]
      · rw [Equiv.swap_apply_of_ne_of_ne h1 h2]
  rw [e] at h
  refine card_of_onlyPicks hT hN other (E := fun rs => splitShareOf (fit s X y rs) i ∈ A) (E' := fun rs => splitShareOf (fit s X y rs) j ∈ A) (fun rs => ?_) fun rs rs' hrs => by rw [ofit_draws_congr s _ hrs]
  rw [h rs j, Equiv.swap_apply_right]

/-- C147, the expected share: whatever the other draws, for picks uniformly from `0 .. N - 1` the mean share of each of the `k` copies of a column is the mean share of the column without copies divided
by `k` (runs that end with an exception count as 0 in both). -/
theorem C147_expected (hX : ∀ r, GoodRow (X r)) (hk : 0 < k) (hc : EqualCopies c k) {s : SkModel K p} {s' : SkModel K p'} (hs : SameSampling s s') (hsl : SameLength s s')
    (hst : s'.storePredictions = s.storePredictions ∧ s'.storeAcceptance = s.storeAcceptance) (hp : 0 < p) (hp1 : s.pGrow ≠ 0) (hp2 : s.pPrune ≠ 0) (hth : s.thin ≠ 0) (hch : 0 < s.nChains)
    (hns : 0 < s.nSamples) {y : Fin n → K} (hy : ∃ i j, y i ≠ y j) {N m : Nat} (hN : ∀ L, 1 ≤ L → L ≤ max n p' → L ∣ N) (other : Nat → Rand K) (j' : Fin p') :
    ∑ us : Fin s.nChains → Fin m → Fin N, shareNumber (splitShareOf (fit s' (copied c X) y (withPicks other us)) j') =
      (∑ us : Fin s.nChains → Fin m → Fin N, shareNumber (splitShareOf (fit s X y (withPicks other us)) (c j'))) / k := by
  have hX' : ∀ r, GoodRow (copied c X r) := fun i j => hX _ _
  obtain ⟨T, hT, h⟩ := C147_sum (c := c) hX hk hc hs hsl hst hp hp1 hp2 hth hch hns hy
  have h1 : ∑ us : Fin s.nChains → Fin m → Fin N, ∑ i with c i = c j', shareNumber (splitShareOf (fit s' (copied c X) y (withPicks other us)) i) =
      ∑ us : Fin s.nChains → Fin m → Fin N, shareNumber (splitShareOf (fit s X y (withPicks other us)) (c j')) := by
    refine sum_of_onlyPicks hT hN other (g := fun rs => ∑ i with c i = c j', shareNumber (splitShareOf (fit s' (copied c X) y rs) i)) (g' := fun rs => shareNumber (splitShareOf (fit s X y rs) (c j')))
      (fun rs => ?_) fun rs rs' hrs => by rw [ofit_draws_congr s _ hrs]
    rcases (h rs).2 with ⟨e, e1, e2⟩ | ⟨v, e1, e2⟩
    · simp only [e1, e2, splitShareOf, shareNumber, Finset.sum_const_zero]
    · simp only [e1, e2, shareNumber]
  have h2 : ∀ i, c i = c j' → ∑ us : Fin s.nChains → Fin m → Fin N, shareNumber (splitShareOf (fit s' (copied c X) y (withPicks other us)) i) =
      ∑ us : Fin s.nChains → Fin m → Fin N, shareNumber (splitShareOf (fit s' (copied c X) y (withPicks other us)) j') := by
    intro i hi
    obtain ⟨T, hT, h⟩ := layer_share_reorder hX' (Equiv.swap i j') (s := s') (Fin.pos i) (by rw [hs.pGrow]; exact hp1) (by rw [hs.pPrune]; exact hp2) (by rw [hsl.thin]; exact hth)
      (by rw [hs.nChains]; exact hch) hy
    have e : reorder (Equiv.refl _) (Equiv.swap i j') (copied c X) = copied c X := by
      funext r a
      simp only [reorder, Equiv.refl_apply, copied]
      rcases eq_or_ne a i with rfl | h1
      · rw [Equiv.swap_apply_left, hi]
      · rcases eq_or_ne a j' with rfl | h2
        · rw [Equiv.swap_apply_right, hi]
        · rw [Equiv.swap_apply_of_ne_of_ne h1 h2]
    rw [e] at h
    refine sum_of_onlyPicks hT hN other (g := fun rs => shareNumber (splitShareOf (fit s' (copied c X) y rs) i)) (g' := fun rs => shareNumber (splitShareOf (fit s' (copied c X) y rs) j')) (fun rs => ?_)
      fun rs rs' hrs => by rw [ofit_draws_congr s' _ (by rw [hs.nChains]; exact hrs)]
    simp only [h rs j', Equiv.swap_apply_right]
  rw [Finset.sum_comm, Finset.sum_congr rfl fun i hi => h2 i (Finset.mem_filter.1 hi).2, Finset.sum_const, nsmul_eq_mul] at h1
  have h3 : (Finset.univ.filter fun i => c i = c j').card = k := by
    rw [← hc (c j'), Fintype.card_subtype]
  rw [h3] at h1
  rw [← h1, mul_div_cancel_left₀ _ (by exact_mod_cast hk.ne')]

/-! ### a concrete case -/

section examples
attribute [local instance] exFns

/-- C147, the hypotheses are met (see the example of C145), and what the correspondence does: the second column has the share 22/25 in the fit to the data without copies, and its copies have 8/25 and
14/25 in the corresponding fit. -/
example : (∀ r, GoodRow (exXo r)) ∧ EqualCopies exTwice 2 ∧ SameSampling exSkg exSkc ∧ SameLength exSkg exSkc ∧ exSkg.pGrow ≠ 0 ∧ exSkg.pPrune ≠ 0 ∧ exSkg.thin ≠ 0 ∧ 0 < exSkg.nChains ∧
    0 < exSkg.nSamples ∧ exYf 0 ≠ exYf 2 ∧ (∀ r, copied exTwice exXo r 2 = copied exTwice exXo r 3) ∧
    [0, 1, 2, 3].map (fun j => shareNumber (splitShareOf (fit exSkc (copied exTwice exXo) exYf (exRo [2, 0, 3, 0, 2, 0, 3, 0, 2, 0, 3, 0])) j)) = [0, 0, 8/25, 14/25] ∧
    [0, 1].map (fun j => shareNumber (splitShareOf (fit exSkg exXo exYf (exRo [1, 0, 1, 0, 1, 0, 1, 0, 1, 0, 1, 0])) j)) = [0, 22/25] := by
  refine ⟨?_, ?_, ⟨rfl, rfl, rfl, rfl, rfl, rfl, rfl, rfl⟩, ⟨rfl, rfl, rfl⟩, ?_⟩
  · unfold GoodRow; decide +kernel
  · unfold EqualCopies; decide +kernel
  · decide +kernel

end examples
end Bart.Oblivious
