import Verif.Spec.Draws
import Verif.Spec.Reference
import Verif.Proofs.FlLemmas
import Verif.Proofs.DataLemmas
import Mathlib.Analysis.SpecificLimits.Basic
import Mathlib.Tactic.Ring

/-! Sums over sequences of draws, and the probabilities of the proposals of the reference sampler. -/

set_option linter.unusedSectionVars false
set_option linter.unusedVariables false

namespace Bart
open Spec
open scoped ENNReal
variable {α : Type} [Fintype α] {w : α → ℝ≥0∞}

theorem prob_congr {E E' : List α → Prop} (h : ∀ l, E l ↔ E' l) : prob w E = prob w E' := by
  rw [show E = E' from funext fun l => propext (h l)]

theorem prob_cons (E : List α → Prop) : prob w E = (open Classical in if E [] then 1 else 0) + ∑ a, w a * prob w (fun l => E (a :: l)) := by
  classical
  unfold prob
  rw [ENNReal.tsum_eq_add_tsum_ite ([] : List α)]
  · congr 1
    have hinj : Function.Injective (fun q : α × List α => q.1 :: q.2) := by
      rintro ⟨a, l⟩ ⟨b, l'⟩ h
      simp only [List.cons.injEq] at h
      rw [h.1, h.2]
    have hsupp : Function.support (fun l : List α => if l = [] then (0 : ℝ≥0∞) else if E l then (l.map w).prod else 0) ⊆ Set.range (fun q : α × List α => q.1 :: q.2) := by
      intro l hl
      cases l with
      | nil => simp at hl
      | cons a l => exact ⟨(a, l), rfl⟩
    have := hinj.tsum_eq hsupp
    simp only [reduceCtorEq, if_false, List.map_cons, List.prod_cons] at this
    refine (tsum_congr fun l => by congr).trans (this.symm.trans ?_)
    rw [ENNReal.tsum_prod', tsum_fintype]
    refine Finset.sum_congr rfl fun a _ => ?_
    rw [← ENNReal.tsum_mul_left]
    refine tsum_congr fun l => ?_
    split <;> simp

theorem prob_levels (E : List α → Prop) : prob w E = ∑' k, prob w (fun l => l.length = k ∧ E l) := by
  classical
  unfold prob
  rw [ENNReal.tsum_comm]
  refine tsum_congr fun l => ?_
  rw [tsum_eq_single l.length]
  · simp
  · intro k hk
    rw [if_neg]
    exact fun h => hk h.1.symm

theorem level_zero (E : List α → Prop) : prob w (fun l => l.length = 0 ∧ E l) = (open Classical in if E [] then 1 else 0) := by
  classical
  rw [prob_cons]
  have : ∀ a, prob w (fun l => (a :: l).length = 0 ∧ E (a :: l)) = 0 := by
    intro a; unfold prob; simp
  simp only [this, mul_zero, Finset.sum_const_zero, add_zero, List.length_nil, true_and]

theorem level_succ (E : List α → Prop) (k : Nat) : prob w (fun l => l.length = k + 1 ∧ E l) = ∑ a, w a * prob w (fun l => l.length = k ∧ E (a :: l)) := by
  classical
  rw [prob_cons]
  simp

theorem prob_false : prob w (fun _ => False) = 0 := by unfold prob; simp

theorem prob_eq_zero {E : List α → Prop} (h : ∀ l, ¬ E l) : prob w E = 0 := by
  rw [prob_congr (E' := fun _ => False) fun l => ⟨h l, False.elim⟩, prob_false]

/-- The sequence is empty. -/
theorem prob_nil : prob w (fun l => l = []) = 1 := by
  rw [prob_cons]
  simp [prob_false]

/-- A loop: sequences of `k` draws in `B` and one in `G`, any `k`. -/
theorem prob_loop {E : List α → Prop} {B G : α → Prop} [DecidablePred B] [DecidablePred G] (h0 : ¬ E []) (hB : ∀ a l, B a → (E (a :: l) ↔ E l)) (hG : ∀ a l, G a → (E (a :: l) ↔ l = []))
    (hBG : ∀ a, B a → ¬ G a) (hn : ∀ a l, ¬ B a → ¬ G a → ¬ E (a :: l)) :
    prob w E = (∑ a with G a, w a) * (1 - ∑ a with B a, w a)⁻¹ := by
  classical
  have hlev : ∀ k, prob w (fun l => l.length = k + 1 ∧ E l) = (∑ a with B a, w a) ^ k * ∑ a with G a, w a := by
    intro k
    induction k with
    | zero =>
      rw [level_succ, pow_zero, one_mul, Finset.sum_filter]
      refine Finset.sum_congr rfl fun a _ => ?_
      rw [level_zero]
      by_cases hg : G a
      · simp [hg, (hG a [] hg).2 rfl]
      · rw [if_neg hg]
        by_cases hb : B a
        · rw [if_neg (fun h => h0 ((hB a [] hb).1 h)), mul_zero]
        · rw [if_neg (hn a [] hb hg), mul_zero]
    | succ k ih =>
      rw [level_succ, pow_succ, mul_comm (_ ^ k), mul_assoc, ← ih, Finset.sum_filter, Finset.sum_mul]
      refine Finset.sum_congr rfl fun a _ => ?_
      by_cases hb : B a
      · rw [if_pos hb, prob_congr fun l => and_congr_right fun _ => hB a l hb]
      · rw [if_neg hb, zero_mul]
        by_cases hg : G a
        · rw [prob_eq_zero, mul_zero]
          rintro l ⟨h1, h2⟩
          rw [(hG a l hg).1 h2] at h1
          cases h1
        · rw [prob_eq_zero, mul_zero]
          exact fun l h => hn a l hb hg h.2
  rw [prob_levels, tsum_eq_zero_add' ENNReal.summable, level_zero, if_neg h0, zero_add]
  simp_rw [hlev]
  rw [ENNReal.tsum_mul_right, ENNReal.tsum_geometric, mul_comm]


/-! ### Uniform picks -/

theorem sum_choice {β : Type} {l : List β} (hl : l ≠ []) {N : Nat} (hN : l.length ∣ N) (hN0 : 0 < N) (g : Except PyErr β → ℝ≥0∞) :
    ∑ u : Fin N, uniform N u * g (choice l u.val) = ∑ k : Fin l.length, (l.length : ℝ≥0∞)⁻¹ * g (.ok l[k.val]) := by
  obtain ⟨q, rfl⟩ := hN
  have hL : 0 < l.length := List.length_pos_iff.2 hl
  have hq : 0 < q := Nat.pos_of_mul_pos_left hN0
  rw [mul_comm l.length q] at *
  have hL0 : (l.length : ℝ≥0∞) ≠ 0 := by exact_mod_cast hL.ne'
  have hq0 : (q : ℝ≥0∞) ≠ 0 := by exact_mod_cast hq.ne'
  rw [← Equiv.sum_comp finProdFinEquiv, Fintype.sum_prod_type_right]
  refine Finset.sum_congr rfl fun k _ => ?_
  have : ∀ a : Fin q, choice l (finProdFinEquiv (a, k)).val = .ok l[k.val] := by
    intro a
    unfold choice
    simp only [finProdFinEquiv_apply_val]
    rw [Nat.add_mul_mod_self_left, Nat.mod_eq_of_lt k.isLt, List.getElem?_eq_getElem k.isLt]
  simp only [this, uniform, Finset.sum_const, Finset.card_univ, Fintype.card_fin, nsmul_eq_mul]
  rw [← mul_assoc, Nat.cast_mul, ENNReal.mul_inv (Or.inl hq0) (Or.inl (ENNReal.natCast_ne_top q)), ← mul_assoc,
    ENNReal.mul_inv_cancel hq0 (ENNReal.natCast_ne_top q), one_mul]

open Classical in
/-- The probability that the pick is an entry with `q`. -/
theorem sum_choice_pred {β : Type} {l : List β} (hl : l ≠ []) {N : Nat} (hN : l.length ∣ N) (hN0 : 0 < N) (q : β → Bool) :
    ∑ u : Fin N with (∃ x, choice l u.val = .ok x ∧ q x = true), uniform N u = (l.countP q : ℝ≥0∞) / l.length := by
  have := sum_choice hl hN hN0 (fun r => if ∃ x, r = .ok x ∧ q x = true then 1 else 0)
  simp only [mul_ite, mul_one, mul_zero] at this
  rw [Finset.sum_filter, this]
  simp only [Except.ok.injEq]
  rw [← Finset.sum_filter, Finset.sum_const, nsmul_eq_mul, ← CovariateMatrix.card_index_eq_countP, ENNReal.div_eq_inv_mul, mul_comm]
  congr 3
  ext k
  simp

end Bart

namespace Bart.Reference
open Spec
open scoped ENNReal
variable {K : Type} [Field K] [LinearOrder K] {n p : Nat} {X : Fin n → Fin p → Fl K} {t : RTree K p} {N : Nat}

/-- Is the entry the largest of the column? -/
def isMax (col : List (Fl K)) (x : Fl K) : Bool := !col.any (fun m => Fl.lt x m)

/-- The frequency of the entries with `A` that are not the largest, divided by the frequency of all entries that are not the largest. -/
noncomputable def cutProb (col : List (Fl K)) (A : Fl K → Bool) : ℝ≥0∞ :=
  (col.countP (fun x => A x && !isMax col x) : ℝ≥0∞) / col.length * (1 - (col.countP (isMax col) : ℝ≥0∞) / col.length)⁻¹

/-- The probability that the loop returns a value with `A`. -/
theorem prob_drawCut {col : List (Fl K)} (hc : col ≠ []) (hN : col.length ∣ N) (hN0 : 0 < N) (A : Fl K → Bool) :
    prob (uniform N) (fun us => ∃ v, A v = true ∧ drawCut col (us.map Fin.val) = .ok (v, [])) =
      cutProb col A := by
  classical
  unfold cutProb
  rw [← sum_choice_pred hc hN hN0, ← sum_choice_pred hc hN hN0]
  have key : ∀ (u : Fin N) (us : List (Fin N)), ∃ x, choice col u.val = .ok x ∧
      drawCut col ((u :: us).map Fin.val) = if isMax col x = true then drawCut col (us.map Fin.val) else .ok (x, us.map Fin.val) := by
    intro u us
    obtain ⟨x, -, hx⟩ := choice_ok_of_ne_nil hc u.val
    refine ⟨x, hx, ?_⟩
    rw [List.map_cons, drawCut, hx]
    simp only [isMax]
    by_cases h : col.any (fun m => Fl.lt x m) = true
    · simp only [h, if_true]; rfl
    · simp only [Bool.not_eq_true _ |>.mp h]; rfl
  refine prob_loop ?_ ?_ ?_ ?_ ?_
  · rintro ⟨v, -, h⟩; cases h
  · rintro u us ⟨x, hx, hm⟩
    obtain ⟨x', hx', h⟩ := key u us
    rw [hx] at hx'; injection hx' with hx'; subst hx'
    rw [h, if_pos hm]
  · rintro u us ⟨x, hx, hm⟩
    obtain ⟨x', hx', h⟩ := key u us
    rw [hx] at hx'; injection hx' with hx'; subst hx'
    rw [Bool.and_eq_true, Bool.not_eq_true'] at hm
    rw [h, hm.2]
    simp only [Bool.false_eq_true, if_false, Except.ok.injEq, Prod.mk.injEq, List.map_eq_nil_iff]
    exact ⟨fun ⟨_, _, _, h⟩ => h, fun h => ⟨x, hm.1, rfl, h⟩⟩
  · rintro u ⟨x, hx, hm⟩ ⟨x', hx', hm'⟩
    rw [hx] at hx'; injection hx' with hx'; subst hx'
    rw [hm] at hm'; simp at hm'
  · rintro u us hB hG ⟨v, hv, h⟩
    obtain ⟨x, hx, h'⟩ := key u us
    have hm : isMax col x ≠ true := fun hm => hB ⟨x, hx, hm⟩
    rw [h', if_neg hm] at h
    injection h with h; injection h with h1 h2; subst h1
    exact hG ⟨x, hx, by rw [hv, Bool.not_eq_true _ |>.mp hm]; rfl⟩


theorem sum_uniform (hN0 : 0 < N) : ∑ u : Fin N, uniform N u = 1 := by
  simp only [uniform, Finset.sum_const, Finset.card_univ, Fintype.card_fin, nsmul_eq_mul]
  exact ENNReal.mul_inv_cancel (by exact_mod_cast hN0.ne') (ENNReal.natCast_ne_top N)

/-- The loop returns a value if not all entries are the largest. -/
theorem prob_drawCut_any {col : List (Fl K)} (hc : ∃ x ∈ col, isMax col x = false) (hN : col.length ∣ N) (hN0 : 0 < N) :
    prob (uniform N) (fun us => ∃ v, drawCut col (us.map Fin.val) = .ok (v, [])) = 1 := by
  obtain ⟨x, hx, hm⟩ := hc
  have hne : col ≠ [] := List.ne_nil_of_mem hx
  have h := prob_drawCut hne hN hN0 (fun _ => true)
  simp only [true_and, Bool.true_and] at h
  rw [h, cutProb]
  simp only [Bool.true_and]
  have hL : (col.length : ℝ≥0∞) ≠ 0 := by exact_mod_cast (List.length_pos_iff.2 hne).ne'
  have hsum : (col.countP (fun x => !isMax col x) : ℝ≥0∞) / col.length + (col.countP (isMax col) : ℝ≥0∞) / col.length = 1 := by
    rw [ENNReal.div_add_div_same, ← Nat.cast_add, add_comm, show col.countP (isMax col) + col.countP (fun x => !isMax col x) = col.length from (by
      rw [List.length_eq_countP_add_countP (isMax col)]; congr 1; exact List.countP_congr fun x _ => by simp)]
    exact ENNReal.div_self hL (ENNReal.natCast_ne_top _)
  have hpos : (col.countP (fun x => !isMax col x) : ℝ≥0∞) ≠ 0 := by
    have : 0 < col.countP (fun x => !isMax col x) := List.countP_pos_iff.2 ⟨x, hx, show (!isMax col x) = true by rw [hm]; rfl⟩
    exact_mod_cast this.ne'
  have hfin : ∀ k : Nat, (k : ℝ≥0∞) / col.length ≠ ⊤ := fun k => ENNReal.div_ne_top (ENNReal.natCast_ne_top k) hL
  rw [show (1 : ℝ≥0∞) - (col.countP (isMax col) : ℝ≥0∞) / col.length = (col.countP (fun x => !isMax col x) : ℝ≥0∞) / col.length from by
    rw [← hsum]; exact ENNReal.add_sub_cancel_right (hfin _)]
  exact ENNReal.mul_inv_cancel (ENNReal.div_ne_zero.2 ⟨hpos, ENNReal.natCast_ne_top _⟩) (hfin _)

open Classical in
/-- One choice, then something that does not depend on it but through the entry. -/
theorem prob_choice {β : Type} {l : List β} (hl : l ≠ []) (hN : l.length ∣ N) (hN0 : 0 < N) {E : List (Fin N) → Prop} (h0 : ¬ E []) (q : β → Bool) {c : ℝ≥0∞}
    (h1 : ∀ u x, choice l u.val = .ok x → q x = true → prob (uniform N) (fun us => E (u :: us)) = c)
    (h2 : ∀ u x, choice l u.val = .ok x → q x = false → ∀ us, ¬ E (u :: us)) :
    prob (uniform N) E = (l.countP q : ℝ≥0∞) / l.length * c := by
  rw [prob_cons, if_neg h0, zero_add, ← sum_choice_pred hl hN hN0, Finset.sum_filter, Finset.sum_mul]
  refine Finset.sum_congr rfl fun u _ => ?_
  obtain ⟨x, -, hx⟩ := choice_ok_of_ne_nil hl u.val
  cases hq : q x with
  | true => rw [h1 u x hx hq, if_pos ⟨x, hx, hq⟩]
  | false =>
    rw [prob_eq_zero (h2 u x hx hq), mul_zero, if_neg, zero_mul]
    rintro ⟨x', hx', hq'⟩
    rw [hx] at hx'; injection hx' with hx'; subst hx'
    rw [hq] at hq'; cases hq'

/-- The probability of the proposal to split a leaf, if a split is to be proposed. -/
theorem prob_proposeGrow (hN0 : 0 < N) {nd : RNode K p} (hnd : nd ∈ t.splittable X) (huniq : (t.splittable X).countP (fun a => decide (a.path = nd.path)) = 1) {j : Fin p}
    (hj : j ∈ columns X (nd.rows X)) (h1 : (t.splittable X).length ∣ N) (h2 : (columns X (nd.rows X)).length ∣ N) (h3 : (column X (nd.rows X) j).length ∣ N)
    (hc : column X (nd.rows X) j ≠ []) (A : Fl K → Bool) :
    prob (uniform N) (fun us => ∃ v, A v = true ∧ proposeGrow X t (us.map Fin.val) = .ok (.grow nd.path j v, [])) =
      1 / (t.splittable X).length * (1 / (columns X (nd.rows X)).length * cutProb (column X (nd.rows X) j) A) := by
  have hrows : ∀ a : RNode K p, a.path = nd.path → a.rows X = nd.rows X := by
    intro a ha
    unfold RNode.rows RNode.reaches
    rw [ha]
  have hcj : (columns X (nd.rows X)).countP (fun a => decide (a = j)) = 1 := by
    have hnd : (columns X (nd.rows X)).Nodup := (List.nodup_finRange p).filter _
    have := List.count_eq_one_of_mem hnd hj
    rw [List.count] at this
    rw [← this]
    exact List.countP_congr fun a _ => by simp
  rw [prob_choice (l := t.splittable X) (List.ne_nil_of_mem hnd) h1 hN0 (E := fun us => ∃ v, A v = true ∧ proposeGrow X t (us.map Fin.val) = .ok (.grow nd.path j v, []))
    (by rintro ⟨v, -, h⟩; cases h) (fun a => decide (a.path = nd.path))
    (c := (1 / ((columns X (nd.rows X)).length : ℝ≥0∞) * cutProb (column X (nd.rows X) j) A)), huniq, Nat.cast_one]
  · intro u x hx hq
    have hp : x.path = nd.path := by simpa using hq
    rw [prob_choice (l := columns X (nd.rows X)) (List.ne_nil_of_mem hj) h2 hN0 (E := fun us => ∃ v, A v = true ∧ proposeGrow X t ((u :: us).map Fin.val) = .ok (.grow nd.path j v, []))
      (by rintro ⟨v, -, h⟩; cases h) (fun a => decide (a = j))
      (c := cutProb (column X (nd.rows X) j) A), hcj, Nat.cast_one]
    · intro u2 x2 hx2 hq2
      have hx2j : x2 = j := by simpa using hq2
      subst hx2j
      rw [← prob_drawCut hc h3 hN0]
      refine prob_congr fun us => ?_
      simp only [List.map_cons, proposeGrow, hx, hrows x hp, hx2]
      constructor
      · rintro ⟨v, hv, h⟩
        refine ⟨v, hv, ?_⟩
        split at h
        · cases h
        · next v' us' e =>
          injection h with h; injection h with h h'; injection h with _ _ h; subst h h'
          exact e
      · rintro ⟨v, hv, h⟩
        refine ⟨v, hv, ?_⟩
        rw [h]
        simp only [hp]
    · rintro u2 x2 hx2 hq2 us ⟨v, hv, h⟩
      have hx2j : x2 ≠ j := by simpa using hq2
      simp only [List.map_cons, proposeGrow, hx, hrows x hp, hx2] at h
      split at h
      · cases h
      · injection h with h; injection h with h h'; injection h with _ h _
        exact hx2j h
  · rintro u x hx hq us ⟨v, hv, h⟩
    have hp : x.path ≠ nd.path := by simpa using hq
    cases us with
    | nil => cases h
    | cons u2 us =>
      simp only [List.map_cons, proposeGrow, hx] at h
      split at h
      · cases h
      · split at h
        · cases h
        · injection h with h; injection h with h h'; injection h with h _ _
          exact hp h

/-- Some split is proposed, if one is to be proposed. -/
theorem prob_proposeGrow_any (hN0 : 0 < N) (hne : t.splittable X ≠ []) (h1 : (t.splittable X).length ∣ N) (h2 : ∀ nd ∈ t.splittable X, (columns X (nd.rows X)).length ∣ N)
    (h3 : ∀ nd ∈ t.splittable X, ∀ j, (column X (nd.rows X) j).length ∣ N)
    (h4 : ∀ nd ∈ t.splittable X, ∀ j ∈ columns X (nd.rows X), ∃ x ∈ column X (nd.rows X) j, isMax (column X (nd.rows X) j) x = false) :
    prob (uniform N) (fun us => ∃ mv, proposeGrow X t (us.map Fin.val) = .ok (mv, [])) = 1 := by
  have hone : ∀ {β : Type} {l : List β}, l ≠ [] → (l.countP (fun _ => true) : ℝ≥0∞) / l.length = 1 := by
    intro β l hl
    rw [List.countP_true]
    exact ENNReal.div_self (by exact_mod_cast (List.length_pos_iff.2 hl).ne') (ENNReal.natCast_ne_top _)
  rw [prob_choice (l := t.splittable X) hne h1 hN0 (by rintro ⟨mv, h⟩; cases h) (fun _ => true) (c := 1), hone hne, one_mul]
  · intro u nd hx _
    obtain ⟨nd', hnd, hx'⟩ := choice_ok_of_ne_nil hne u.val
    rw [hx] at hx'; injection hx' with hx'; subst hx'
    have hcne : columns X (nd.rows X) ≠ [] := by
      have := (List.mem_filter.1 hnd).2
      rw [Bool.and_eq_true] at this
      intro h0; rw [h0] at this; simp at this
    rw [prob_choice (l := columns X (nd.rows X)) hcne (h2 nd hnd) hN0 (by rintro ⟨mv, h⟩; cases h) (fun _ => true) (c := 1), hone hcne, one_mul]
    · intro u2 j hx2 _
      obtain ⟨j', hj, hx2'⟩ := choice_ok_of_ne_nil hcne u2.val
      rw [hx2] at hx2'; injection hx2' with hx2'; subst hx2'
      rw [← prob_drawCut_any (h4 nd hnd j hj) (h3 nd hnd j) hN0]
      refine prob_congr fun us => ?_
      simp only [List.map_cons, proposeGrow, hx, hx2]
      constructor
      · rintro ⟨mv, h⟩
        split at h
        · cases h
        · next v' us' e =>
          injection h with h; injection h with h h'; subst h'
          exact ⟨v', e⟩
      · rintro ⟨v, h⟩
        rw [h]
        exact ⟨_, rfl⟩
    · intro _ _ _ h; cases h
  · intro _ _ _ h; cases h

/-- The probability of the proposal to remove a split, if a removal is to be proposed. -/
theorem prob_proposePrune (hN0 : 0 < N) {path : List (Cond K p)} {j : Fin p} {v : Fl K} (hnd : (⟨path, .split j v⟩ : RNode K p) ∈ t.prunable)
    (huniq : t.prunable.countP (fun a => decide (a.path = path)) = 1) (h1 : t.prunable.length ∣ N) :
    prob (uniform N) (fun us => proposePrune t (us.map Fin.val) = .ok (.prune path j v, [])) = 1 / t.prunable.length := by
  rw [prob_choice (l := t.prunable) (List.ne_nil_of_mem hnd) h1 hN0 (E := fun us => proposePrune t (us.map Fin.val) = .ok (.prune path j v, [])) (by intro h; cases h)
    (fun a => decide (a.path = path)) (c := 1), huniq, Nat.cast_one, mul_one]
  · intro u x hx hq
    have hp : x.path = path := by simpa using hq
    obtain ⟨x', hm, hx'⟩ := choice_ok_of_ne_nil (List.ne_nil_of_mem hnd) u.val
    rw [hx] at hx'; injection hx' with hx'; subst hx'
    have hxe : x = ⟨path, .split j v⟩ := by
      have hu := huniq
      rw [List.countP_eq_length_filter, List.length_eq_one_iff] at hu
      obtain ⟨a, ha⟩ := hu
      have e1 : x ∈ t.prunable.filter (fun a => decide (a.path = path)) := List.mem_filter.2 ⟨hm, by simpa using hp⟩
      have e2 : (⟨path, .split j v⟩ : RNode K p) ∈ t.prunable.filter (fun a => decide (a.path = path)) := List.mem_filter.2 ⟨hnd, by simp⟩
      rw [ha, List.mem_singleton] at e1 e2
      rw [e1, e2]
    subst hxe
    rw [← prob_nil (w := uniform N)]
    refine prob_congr fun us => ?_
    simp only [List.map_cons, proposePrune, hx]
    simp
  · intro u x hx hq us h
    have hp : x.path ≠ path := by simpa using hq
    simp only [List.map_cons, proposePrune, hx] at h
    obtain ⟨xp, xc⟩ := x
    cases xc with
    | leaf a => cases h
    | split a b => injection h with h; injection h with h h'; injection h with h _ _; exact hp h

/-- Some removal is proposed, if one is to be proposed. -/
theorem prob_proposePrune_any (hN0 : 0 < N) (hne : t.prunable ≠ []) (h1 : t.prunable.length ∣ N) :
    prob (uniform N) (fun us => ∃ mv, proposePrune t (us.map Fin.val) = .ok (mv, [])) = 1 := by
  rw [prob_choice (l := t.prunable) hne h1 hN0 (by rintro ⟨mv, h⟩; cases h) (fun _ => true) (c := 1), List.countP_true, mul_one]
  · exact ENNReal.div_self (by exact_mod_cast (List.length_pos_iff.2 hne).ne') (ENNReal.natCast_ne_top _)
  · intro u x hx hq
    obtain ⟨x', hm, hx'⟩ := choice_ok_of_ne_nil hne u.val
    rw [hx] at hx'; injection hx' with hx'; subst hx'
    rw [← prob_nil (w := uniform N)]
    refine prob_congr fun us => ?_
    obtain ⟨xp, xc⟩ := x
    simp only [List.map_cons, proposePrune, hx]
    cases xc with
    | leaf a =>
      have := (List.mem_filter.1 hm).2
      simp at this
    | split a b => simp
  · intro _ _ _ h; cases h

/-! ### The kind of move -/

/-- Can a move of this kind be proposed? -/
def canMove (X : Fin n → Fin p → Fl K) (t : RTree K p) : Method → Bool
  | .grow => !(t.splittable X).isEmpty
  | .prune => !t.prunable.isEmpty

/-- The kinds of move drawn are used up by the first one that is possible, and that is `m`. -/
def first (ok : Method → Bool) (m : Method) : List Method → Prop
  | [] => False
  | a :: l => if ok a then a = m ∧ l = [] else first ok m l

instance : Fintype Method := ⟨{.grow, .prune}, fun m => by cases m <;> simp⟩

theorem prob_first {w : Method → ℝ≥0∞} (hw : w .grow + w .prune = 1) {ok : Method → Bool} {m : Method} (hm : ok m = true) (hpos : w m ≠ 0) :
    prob w (first ok m) = if ok .grow && ok .prune then w m else 1 := by
  have htop : ∀ a, w a ≠ ⊤ := by
    intro a ha
    cases a <;> simp [ha] at hw
  rw [prob_loop (B := fun a => ok a = false) (G := fun a => ok a = true ∧ a = m) (fun h => h) (fun a l h => by simp [first, h])
    (fun a l h => by obtain ⟨h1, rfl⟩ := h; simp [first, h1]) (fun a h h' => by rw [h] at h'; cases h'.1)
    (fun a l h1 h2 h3 => by
      have h1' : ok a = true := by simpa using h1
      simp only [first, h1', if_true] at h3
      exact h2 ⟨h1', h3.1⟩)]
  have hG : ∑ a with (ok a = true ∧ a = m), w a = w m := by
    rw [Finset.sum_eq_single_of_mem m (by simp [hm])]
    intro b hb hne
    simp at hb
    exact absurd hb.2 hne
  rw [hG, Finset.sum_filter]
  have huniv : ∀ f : Method → ℝ≥0∞, ∑ a, f a = f .grow + f .prune := by
    intro f
    rw [show (Finset.univ : Finset Method) = {.grow, .prune} from rfl, Finset.sum_pair (by decide)]
  rw [huniv]
  have cancel : w m * (w m)⁻¹ = 1 := ENNReal.mul_inv_cancel hpos (htop m)
  cases m with
  | grow =>
    cases hp : ok .prune
    · rw [hm]
      simp only [Bool.true_eq_false, if_false, if_true, zero_add, Bool.and_false, Bool.false_eq_true]
      rw [show (1 : ℝ≥0∞) - w .prune = w .grow from by rw [← hw]; exact ENNReal.add_sub_cancel_right (htop _)]
      exact cancel
    · simp [hm]
  | prune =>
    cases hp : ok .grow
    · rw [hm]
      simp only [Bool.true_eq_false, if_false, if_true, add_zero, Bool.false_and, Bool.false_eq_true]
      rw [show (1 : ℝ≥0∞) - w .grow = w .prune from by rw [← hw]; exact ENNReal.add_sub_cancel_left (htop _)]
      exact cancel
    · simp [hm]

/-- The proposal of one kind. -/
def proposeBy (X : Fin n → Fin p → Fl K) (t : RTree K p) (us : List Nat) : Method → Except PyErr (Move K p × List Nat)
  | .grow => proposeGrow X t us
  | .prune => proposePrune t us

theorem propose_first (us : List Nat) (mv : Move K p) : ∀ ms, propose X t us ms = .ok (mv, [], []) ↔ ∃ m, first (canMove X t) m ms ∧ proposeBy X t us m = .ok (mv, []) := by
  intro ms
  induction ms with
  | nil => constructor
           · intro h; cases h
           · rintro ⟨m, h, -⟩; cases h
  | cons a ms ih =>
    cases a with
    | grow =>
      rw [propose]
      by_cases h : t.splittable X = []
      · rw [if_pos h, ih]
        have : canMove X t .grow = false := by simp [canMove, h]
        simp [first, this]
      · rw [if_neg h]
        have hp : canMove X t .grow = true := by simp [canMove, h]
        simp only [first, hp, if_true]
        constructor
        · intro h'
          split at h'
          · cases h'
          · next mv' us' e =>
            injection h' with h'; injection h' with h1 h2; injection h2 with h2 h3; subst h1 h2 h3
            exact ⟨.grow, ⟨rfl, rfl⟩, e⟩
        · rintro ⟨m, ⟨rfl, rfl⟩, h'⟩
          simp only [proposeBy] at h'
          rw [h']
    | prune =>
      rw [propose]
      by_cases h : t.prunable = []
      · rw [if_pos h, ih]
        have : canMove X t .prune = false := by simp [canMove, h]
        simp [first, this]
      · rw [if_neg h]
        have hp : canMove X t .prune = true := by simp [canMove, h]
        simp only [first, hp, if_true]
        constructor
        · intro h'
          split at h'
          · cases h'
          · next mv' us' e =>
            injection h' with h'; injection h' with h1 h2; injection h2 with h2 h3; subst h1 h2 h3
            exact ⟨.prune, ⟨rfl, rfl⟩, e⟩
        · rintro ⟨m, ⟨rfl, rfl⟩, h'⟩
          simp only [proposeBy] at h'
          rw [h']

theorem first_unique {ok : Method → Bool} : ∀ {ms : List Method} {m m' : Method}, first ok m ms → first ok m' ms → m = m'
  | [], _, _, h, _ => h.elim
  | a :: l, m, m', h, h' => by
    simp only [first] at h h'
    split at h
    · next ho => rw [if_pos ho] at h'; exact h.1.symm.trans h'.1
    · next ho => rw [if_neg ho] at h'; exact first_unique h h'

/-- The probability of a set of proposals of one kind. -/
theorem drawsProb_kind {pGrow pPrune : ℝ≥0∞} (hw : pGrow + pPrune = 1) {m : Method} (hm : canMove X t m = true) (hpos : methodProb pGrow pPrune m ≠ 0) {A : Move K p → Prop}
    (hA : ∀ us mv us' m', A mv → proposeBy X t us m' = .ok (mv, us') → m' = m) :
    drawsProb N pGrow pPrune (fun us ms => ∃ mv, A mv ∧ propose X t us ms = .ok (mv, [], [])) =
      (if canMove X t .grow && canMove X t .prune then methodProb pGrow pPrune m else 1) * prob (uniform N) (fun us => ∃ mv, A mv ∧ proposeBy X t (us.map Fin.val) m = .ok (mv, [])) := by
  classical
  rw [← prob_first (w := methodProb pGrow pPrune) hw hm hpos]
  unfold drawsProb
  rw [prob, ← ENNReal.tsum_mul_right]
  refine tsum_congr fun ms => ?_
  by_cases hf : first (canMove X t) m ms
  · rw [if_pos hf]
    congr 1
    refine prob_congr fun us => exists_congr fun mv => and_congr_right fun _ => ?_
    rw [propose_first]
    exact ⟨fun ⟨m', h, h'⟩ => by rw [first_unique hf h]; exact h', fun h => ⟨m, hf, h⟩⟩
  · rw [if_neg hf, zero_mul, prob_eq_zero, mul_zero]
    rintro us ⟨mv, ha, h⟩
    obtain ⟨m', h1, h2⟩ := (propose_first _ _ _).1 h
    have := hA _ _ _ _ ha h2
    subst this
    exact hf h1

end Bart.Reference
