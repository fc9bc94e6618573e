import Verif.Spec.CopyShares
import Verif.Props.CopyProps
import Verif.Props.StoredTreesProps
import Mathlib.Algebra.BigOperators.Ring.Finset
import Mathlib.Algebra.BigOperators.Field

/-! C146: the copies of a column divide its share of the splits among them. -/

set_option linter.unusedSectionVars false

namespace Bart
open Spec Reference Translate

/-! ### numbers of splits -/

section
variable {K : Type} [Field K] [LinearOrder K] {n p p' : Nat} {c : Fin p' → Fin p}

theorem splitsOn_merge (t : RTree K p') (j : Fin p) : splitsOn (t.merge c) j = ∑ j' with c j' = j, splitsOn t j' := by
  unfold splitsOn RTree.merge
  induction t with
  | nil => simp
  | cons nd t ih =>
    simp only [List.map_cons, List.countP_cons, ih, Finset.sum_add_distrib, Nat.add_left_cancel_iff]
    rcases nd with ⟨path, v | ⟨i, v⟩⟩
    · simp [RNode.merge, Content.merge]
    · simp [RNode.merge, Content.merge, Finset.sum_ite_eq]

theorem totalSplitsOn_merge (l : List (List Bool × State K p')) (j : Fin p) :
    totalSplitsOn ((l.map fun a => (a.1, a.2.merge c)).map Prod.snd) j = ∑ j' with c j' = j, totalSplitsOn (l.map Prod.snd) j' := by
  have h : ∀ ts : List (RTree K p'), ((ts.map (RTree.merge c)).map fun t => splitsOn t j).sum = ∑ j' with c j' = j, (ts.map fun t => splitsOn t j').sum := by
    intro ts
    induction ts with
    | nil => simp
    | cons t ts ih => simp only [List.map_cons, List.sum_cons, ih, splitsOn_merge, Finset.sum_add_distrib]
  unfold totalSplitsOn
  induction l with
  | nil => simp
  | cons a l ih =>
    simp only [List.map_cons, List.sum_cons, Finset.sum_add_distrib, ih, Nat.add_right_cancel_iff]
    exact h a.2.trees

theorem nodesIn_merge (l : List (List Bool × State K p')) : nodesIn ((l.map fun a => (a.1, a.2.merge c)).map Prod.snd) = nodesIn (l.map Prod.snd) := by
  unfold nodesIn
  rw [List.map_map, List.map_map, List.map_map]
  congr 2
  funext a
  simp [State.merge, RTree.merge, Function.comp_def]

theorem splitsOn_relabel (σ : Equiv.Perm (Fin p)) (t : RTree K p) (j : Fin p) : splitsOn (t.relabel σ) j = splitsOn t (σ j) := by
  unfold splitsOn RTree.relabel
  rw [List.countP_map]
  apply List.countP_congr
  intro nd _
  rcases nd with ⟨path, v | ⟨i, v⟩⟩
  · simp [RNode.relabel, Content.relabel]
  · simp [RNode.relabel, Content.relabel, Equiv.symm_apply_eq]

theorem totalSplitsOn_relabel (σ : Equiv.Perm (Fin p)) (l : List (List Bool × State K p)) (j : Fin p) :
    totalSplitsOn ((l.map fun a => (a.1, a.2.relabel σ)).map Prod.snd) j = totalSplitsOn (l.map Prod.snd) (σ j) := by
  unfold totalSplitsOn
  rw [List.map_map, List.map_map, List.map_map]
  congr 2
  funext a
  simp [State.relabel, Function.comp_def, splitsOn_relabel]

theorem nodesIn_relabel (σ : Equiv.Perm (Fin p)) (l : List (List Bool × State K p)) : nodesIn ((l.map fun a => (a.1, a.2.relabel σ)).map Prod.snd) = nodesIn (l.map Prod.snd) := by
  unfold nodesIn
  rw [List.map_map, List.map_map, List.map_map]
  congr 2
  funext a
  simp [State.relabel, RTree.relabel, Function.comp_def]

end

variable {K : Type} [Field K] [LinearOrder K] [IsStrictOrderedRing K] {n p p' : Nat} {X : Fin n → Fin p → Fl K} [MathFns K] [FloorRing K] {c : Fin p' → Fin p} {k : Nat}

/-- The share of a column in the samples of the reference sampler. -/
theorem splitShareOf_fit (hX : NoNan X) {s : SkModel K p} (hp : 0 < p) (hp1 : s.pGrow ≠ 0) (hp2 : s.pPrune ≠ 0) (hth : s.thin ≠ 0) (hch : 0 < s.nChains) {y : Fin n → K} {lo hi : K}
    (hlo : IsLeast (Set.range y) lo) (hhi : IsGreatest (Set.range y) hi) (hlt : lo < hi) (rs : Nat → Rand K) (j : Fin p) :
    splitShareOf (s.fit X y rs) j = match Reference.fit s.config X lo hi y rs with
      | .error e => .error e
      | .ok l => .ok ((2 * totalSplitsOn (l.map Prod.snd) j : K) / (nodesIn (l.map Prod.snd) : K)) := by
  cases hf : s.fit X y rs with
  | error e =>
    have h1 := C103_fit hX hp hp1 hp2 hth hch hlo hhi hlt rs
    rw [hf] at h1
    simp only at h1
    rw [h1]
    rfl
  | ok f =>
    obtain ⟨l, m, a1, a2, a3⟩ := fit_samples hX hp hp1 hp2 hth hch hlo hhi hlt hf
    obtain ⟨c1, c2⟩ := samples_counts a3
    rw [a1]
    simp only [splitShareOf, SkModel.featureSplitProportions, a2]
    rw [featureSplitProportions_eq]
    simp only [Option.getD_some, List.foldl_cons, List.foldl_nil, Dict.set, Dict.get?, if_true]
    rw [c1, c2]
    push_cast
    rfl

/-- C146, the shares add up. The correspondence of C144 between the draws also relates the shares of the columns: the share of a column in the fit to X is the sum of the shares of its copies in the
fit to the data with the copies. -/
theorem C146_sum (hl : FiniteLogs K) (hX : NoNan X) (hk : 0 < k) (hc : EqualCopies c k) {s : SkModel K p} {s' : SkModel K p'} (hs : SameSampling s s') (hsl : SameLength s s')
    (hst : s'.storePredictions = s.storePredictions ∧ s'.storeAcceptance = s.storeAcceptance) (hp : 0 < p) (hp1 : s.pGrow ≠ 0) (hp2 : s.pPrune ≠ 0) (hth : s.thin ≠ 0) (hch : 0 < s.nChains)
    (hns : 0 < s.nSamples) {y : Fin n → K} (hy : ∃ i j, y i ≠ y j) :
    ∃ T : Equiv.Perm (Rand K), OnlyPicks (max n p') T ∧ ∀ rs, SameUpTo (SameCopies c s.storePredictions s.storeAcceptance) (s'.fit (copied c X) y rs) (s.fit X y (T ∘ rs)) ∧
      ((∃ e, s'.fit (copied c X) y rs = .error e ∧ s.fit X y (T ∘ rs) = .error e) ∨
        ∃ v : Fin p' → K, (∀ j', splitShareOf (s'.fit (copied c X) y rs) j' = .ok (v j')) ∧ ∀ j, splitShareOf (s.fit X y (T ∘ rs)) j = .ok (∑ j' with c j' = j, v j')) := by
  obtain ⟨T, hT, h, lo, hi, hlo, hhi, hlt, hcfg, h3⟩ := copies_reference (c := c) hl hX hk hc hs hsl hst hp hp1 hp2 hth hch hns hy
  refine ⟨T, hT, fun rs => ⟨h rs, ?_⟩⟩
  have hX' : NoNan (copied c X) := fun i j => hX _ _
  have hp' : 0 < p' := by
    have h1 := hc ⟨0, hp⟩
    rw [← h1, Fintype.card_pos_iff] at hk
    exact Fin.pos hk.some.1
  have e1 := splitShareOf_fit (s := s') hX' hp' (by rw [hs.pGrow]; exact hp1) (by rw [hs.pPrune]; exact hp2) (by rw [hsl.thin]; exact hth) (by rw [hs.nChains]; exact hch) hlo hhi hlt rs
  have e2 := splitShareOf_fit hX hp hp1 hp2 hth hch hlo hhi hlt (T ∘ rs)
  have h1 := C103_fit (s := s') hX' hp' (by rw [hs.pGrow]; exact hp1) (by rw [hs.pPrune]; exact hp2) (by rw [hsl.thin]; exact hth) (by rw [hs.nChains]; exact hch) hlo hhi hlt rs
  have h2 := h rs
  rw [hcfg] at e1 h1
  simp only [h3 rs] at e2
  cases hf : Reference.fit s.config (copied c X) lo hi y rs with
  | error e =>
    left
    cases hA : s'.fit (copied c X) y rs with
    | ok f => rw [hA] at h1; obtain ⟨l, m, a1, -⟩ := h1; rw [a1] at hf; cases hf
    | error e' =>
      cases hB : s.fit X y (T ∘ rs) with
      | ok f => rw [hA, hB] at h2; exact absurd h2 (by simp [SameUpTo])
      | error e'' => rw [hA, hB] at h2; simp only [SameUpTo] at h2; exact ⟨e', rfl, by rw [h2]⟩
  | ok l =>
    right
    simp only [hf] at e1 e2
    refine ⟨_, e1, fun j => ?_⟩
    rw [e2, totalSplitsOn_merge, nodesIn_merge]
    push_cast
    rw [Finset.mul_sum, Finset.sum_div]

/-- The shares of exchanged columns. -/
theorem splitShareOf_reorder (hX : NoNan X) (σ : Equiv.Perm (Fin p)) {s : SkModel K p} (hp : 0 < p) (hp1 : s.pGrow ≠ 0) (hp2 : s.pPrune ≠ 0) (hth : s.thin ≠ 0) (hch : 0 < s.nChains) {y : Fin n → K}
    (hy : ∃ i j, y i ≠ y j) :
    ∃ T : Equiv.Perm (Rand K), OnlyPicks (max n p) T ∧ ∀ rs j, splitShareOf (s.fit (reorder (Equiv.refl _) σ X) y (T ∘ rs)) j = splitShareOf (s.fit X y rs) (σ j) := by
  obtain ⟨lo, hi, hlo, hhi, hlt⟩ := exists_range hy
  have hX' : NoNan (reorder (Equiv.refl _) σ X) := fun i j => hX _ _
  obtain ⟨T, hT, h⟩ := chains_reorder (σ := σ) (sameColumns_refl (X := X)) s.config (scaled lo hi y)
  refine ⟨T, hT, fun rs j => ?_⟩
  rw [splitShareOf_fit hX' hp hp1 hp2 hth hch hlo hhi hlt, splitShareOf_fit hX hp hp1 hp2 hth hch hlo hhi hlt]
  have h3 : Reference.fit s.config (reorder (Equiv.refl _) σ X) lo hi y (T ∘ rs) = match Reference.fit s.config X lo hi y rs with
      | .error e => .error e
      | .ok l => .ok (l.map fun a => (a.1, a.2.relabel σ)) := by
    unfold Reference.fit
    rw [← List.map_map]
    exact h _
  rw [h3]
  cases Reference.fit s.config X lo hi y rs with
  | error e => rfl
  | ok l => simp only [totalSplitsOn_relabel, nodesIn_relabel]

/-- C146, the copies are alike: whatever the other draws, for picks uniformly from `0 .. N - 1` the shares of two equal columns have the same distribution. -/
theorem C146_alike (hX : NoNan X) {i j : Fin p} (hij : ∀ r, X r i = X r j) {s : SkModel K p} (hp1 : s.pGrow ≠ 0) (hp2 : s.pPrune ≠ 0) (hth : s.thin ≠ 0) (hch : 0 < s.nChains) {y : Fin n → K}
    (hy : ∃ i j, y i ≠ y j) {N m : Nat} (hN : ∀ L, 1 ≤ L → L ≤ max n p → L ∣ N) (other : Nat → Rand K) (A : Set (Except PyErr K)) :
    Nat.card {us : Fin s.nChains → Fin m → Fin N // splitShareOf (s.fit X y (withPicks other us)) i ∈ A} =
      Nat.card {us : Fin s.nChains → Fin m → Fin N // splitShareOf (s.fit X y (withPicks other us)) j ∈ A} := by
  obtain ⟨T, hT, h⟩ := splitShareOf_reorder hX (Equiv.swap i j) (Fin.pos i) hp1 hp2 hth hch hy
  have e : reorder (Equiv.refl _) (Equiv.swap i j) X = X := by
    funext r a
    simp only [reorder, Equiv.refl_apply]
    rcases eq_or_ne a i with rfl | h1
    · rw [Equiv.swap_apply_left, hij]
    · rcases eq_or_ne a j with rfl | h2
      · rw [Equiv.swap_apply_right, hij]
      · rw [Equiv.swap_apply_of_ne_of_ne h1 h2]
  rw [e] at h
  refine card_of_onlyPicks hT hN other (E := fun rs => splitShareOf (s.fit X y rs) i ∈ A) (E' := fun rs => splitShareOf (s.fit X y rs) j ∈ A) (fun rs => ?_) fun rs rs' hrs => by rw [fit_draws_congr s _ hrs]
  rw [h rs j, Equiv.swap_apply_right]

/-- Sums over all picks from a change of the draws. -/
theorem sum_of_onlyPicks {B m k N : Nat} {T : Equiv.Perm (Rand K)} (hT : OnlyPicks B T) (hN : ∀ L, 1 ≤ L → L ≤ B → L ∣ N) (other : Nat → Rand K) {g g' : (Nat → Rand K) → K}
    (hg : ∀ rs, g rs = g' (T ∘ rs)) (hc : ∀ rs rs' : Nat → Rand K, (∀ i < m, rs i = rs' i) → g' rs = g' rs') :
    ∑ us : Fin m → Fin k → Fin N, g (withPicks other us) = ∑ us : Fin m → Fin k → Fin N, g' (withPicks other us) := by
  obtain ⟨Φ, hΦ⟩ := picks_of_onlyPicks (m := m) (k := k) hT hN other
  rw [← Equiv.sum_comp Φ fun us => g' (withPicks other us)]
  refine Finset.sum_congr rfl fun us _ => ?_
  rw [hg]
  exact hc _ _ fun i hi => (hΦ us ⟨i, hi⟩).symm

/-- C146, the expected share: whatever the other draws, for picks uniformly from `0 .. N - 1` the mean share of each of the `k` copies of a column is the mean share of the column without copies divided
by `k` (runs that end with an exception count as 0 in both). -/
theorem C146_expected (hl : FiniteLogs K) (hX : NoNan X) (hk : 0 < k) (hc : EqualCopies c k) {s : SkModel K p} {s' : SkModel K p'} (hs : SameSampling s s') (hsl : SameLength s s')
    (hst : s'.storePredictions = s.storePredictions ∧ s'.storeAcceptance = s.storeAcceptance) (hp : 0 < p) (hp1 : s.pGrow ≠ 0) (hp2 : s.pPrune ≠ 0) (hth : s.thin ≠ 0) (hch : 0 < s.nChains)
    (hns : 0 < s.nSamples) {y : Fin n → K} (hy : ∃ i j, y i ≠ y j) {N m : Nat} (hN : ∀ L, 1 ≤ L → L ≤ max n p' → L ∣ N) (other : Nat → Rand K) (j' : Fin p') :
    ∑ us : Fin s.nChains → Fin m → Fin N, shareNumber (splitShareOf (s'.fit (copied c X) y (withPicks other us)) j') =
      (∑ us : Fin s.nChains → Fin m → Fin N, shareNumber (splitShareOf (s.fit X y (withPicks other us)) (c j'))) / k := by
  have hX' : NoNan (copied c X) := fun i j => hX _ _
  obtain ⟨T, hT, h⟩ := C146_sum (c := c) hl hX hk hc hs hsl hst hp hp1 hp2 hth hch hns hy
  have h1 : ∑ us : Fin s.nChains → Fin m → Fin N, ∑ i with c i = c j', shareNumber (splitShareOf (s'.fit (copied c X) y (withPicks other us)) i) =
      ∑ us : Fin s.nChains → Fin m → Fin N, shareNumber (splitShareOf (s.fit X y (withPicks other us)) (c j')) := by
    refine sum_of_onlyPicks hT hN other (g := fun rs => ∑ i with c i = c j', shareNumber (splitShareOf (s'.fit (copied c X) y rs) i)) (g' := fun rs => shareNumber (splitShareOf (s.fit X y rs) (c j')))
      (fun rs => ?_) fun rs rs' hrs => by rw [fit_draws_congr s _ hrs]
    rcases (h rs).2 with ⟨e, e1, e2⟩ | ⟨v, e1, e2⟩
    · simp only [e1, e2, splitShareOf, shareNumber, Finset.sum_const_zero]
    · simp only [e1, e2, shareNumber]
  have h2 : ∀ i, c i = c j' → ∑ us : Fin s.nChains → Fin m → Fin N, shareNumber (splitShareOf (s'.fit (copied c X) y (withPicks other us)) i) =
      ∑ us : Fin s.nChains → Fin m → Fin N, shareNumber (splitShareOf (s'.fit (copied c X) y (withPicks other us)) j') := by
    intro i hi
    obtain ⟨T, hT, h⟩ := splitShareOf_reorder hX' (Equiv.swap i j') (s := s') (Fin.pos i) (by rw [hs.pGrow]; exact hp1) (by rw [hs.pPrune]; exact hp2) (by rw [hsl.thin]; exact hth)
      (by rw [hs.nChains]; exact hch) hy
    have e : reorder (Equiv.refl _) (Equiv.swap i j') (copied c X) = copied c X := by
      funext r a
      simp only [reorder, Equiv.refl_apply, copied]
      rcases eq_or_ne a i with rfl | h1
      · rw [Equiv.swap_apply_left, hi]
      · rcases eq_or_ne a j' with rfl | h2
        · rw [Equiv.swap_apply_right, hi]
        · rw [Equiv.swap_apply_of_ne_of_ne h1 h2]
    rw [e] at h
    refine sum_of_onlyPicks hT hN other (g := fun rs => shareNumber (splitShareOf (s'.fit (copied c X) y rs) i)) (g' := fun rs => shareNumber (splitShareOf (s'.fit (copied c X) y rs) j')) (fun rs => ?_)
      fun rs rs' hrs => by rw [fit_draws_congr s' _ (by rw [hs.nChains]; exact hrs)]
    simp only [h rs j', Equiv.swap_apply_right]
  rw [Finset.sum_comm, Finset.sum_congr rfl fun i hi => h2 i (Finset.mem_filter.1 hi).2, Finset.sum_const, nsmul_eq_mul] at h1
  have h3 : (Finset.univ.filter fun i => c i = c j').card = k := by
    rw [← hc (c j'), Fintype.card_subtype]
  rw [h3] at h1
  rw [← h1, mul_div_cancel_left₀ _ (by exact_mod_cast hk.ne')]

/-! ### a concrete case -/

section examples
attribute [local instance] exFns

/-- C146, the hypotheses are met (see the example of C144), and what the correspondence does: the second column has the share 2/3 in the fit to the data without copies, and each of its copies 1/3 in the
corresponding fit. -/
example : FiniteLogs ℚ ∧ NoNan exOrd ∧ EqualCopies exTwice 2 ∧ SameSampling exSk2 exSk4 ∧ SameLength exSk2 exSk4 ∧ exSk2.pGrow ≠ 0 ∧ exSk2.pPrune ≠ 0 ∧ exSk2.thin ≠ 0 ∧ 0 < exSk2.nChains ∧
    0 < exSk2.nSamples ∧ exY 0 ≠ exY 1 ∧ (∀ r, copied exTwice exOrd r 2 = copied exTwice exOrd r 3) ∧
    [0, 1, 2, 3].map (fun j => shareNumber (splitShareOf (exSk4.fit (copied exTwice exOrd) exY exTwiceRs) j)) = [0, 0, 1/3, 1/3] ∧
    [0, 1].map (fun j => shareNumber (splitShareOf (exSk2.fit exOrd exY exOrdRs) j)) = [0, 2/3] := by
  refine ⟨finiteLogs_ex, ?_, ?_, ⟨rfl, rfl, rfl, rfl, rfl, rfl, rfl, rfl⟩, ⟨rfl, rfl, rfl⟩, ?_⟩
  · unfold NoNan; decide +kernel
  · unfold EqualCopies; decide +kernel
  · decide +kernel

end examples
end Bart
