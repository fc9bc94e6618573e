import Verif.Proofs.DataRun
import Mathlib.Algebra.BigOperators.Fin
import Mathlib.Data.List.OfFn
import Mathlib.Data.Fintype.Card
import Mathlib.Data.Fintype.Pi
import Mathlib.Data.Rat.Defs
import Mathlib.Tactic.FieldSimp
import Mathlib.Algebra.Order.Field.Rat
import Mathlib.Data.Fin.Tuple.Basic
import Mathlib.Logic.Equiv.Fin.Basic

set_option linter.unusedSectionVars false

namespace Bart
open Spec
variable {K : Type} [Field K] [LinearOrder K] {n p : Nat}

/-! ### maxima -/

theorem Fl.npMax_spec {a b : Fl K} (ha : a ≠ .nan) (hb : b ≠ .nan) :
    (Fl.npMax a b = a ∨ Fl.npMax a b = b) ∧ Fl.le a (Fl.npMax a b) = true ∧ Fl.le b (Fl.npMax a b) = true := by
  have e : Fl.npMax a b = if Fl.lt a b then b else a := by
    cases a <;> cases b <;> simp_all [Fl.npMax]
  rw [e]
  cases h : Fl.lt a b with
  | true => simp [Fl.le_of_lt h, Fl.le_refl hb]
  | false => simp [Fl.le_refl ha, Fl.le_of_not_lt ha hb h]

theorem foldl_npMax_spec (l : List (Fl K)) : ∀ a : Fl K, a ≠ .nan → (∀ x ∈ l, x ≠ .nan) →
    (l.foldl Fl.npMax a ∈ a :: l) ∧ ∀ x ∈ a :: l, Fl.le x (l.foldl Fl.npMax a) = true := by
  induction l with
  | nil => intro a ha _; simp [Fl.le_refl ha]
  | cons b l ih =>
    intro a ha hl
    have hb := hl b (by simp)
    obtain ⟨h1, h2, h3⟩ := Fl.npMax_spec ha hb
    have hn : Fl.npMax a b ≠ .nan := by rcases h1 with h | h <;> rw [h] <;> assumption
    obtain ⟨m1, m2⟩ := ih (Fl.npMax a b) hn (fun x hx => hl x (by simp [hx]))
    simp only [List.foldl_cons]
    refine ⟨?_, ?_⟩
    · rcases List.mem_cons.1 m1 with h | h
      · rw [h]; rcases h1 with h | h <;> rw [h] <;> simp
      · simp [h]
    · intro x hx
      have hm := m2 (Fl.npMax a b) (by simp)
      rcases List.mem_cons.1 hx with rfl | hx
      · exact Fl.le_trans h2 hm
      rcases List.mem_cons.1 hx with rfl | hx
      · exact Fl.le_trans h3 hm
      · exact m2 x (by simp [hx])

theorem npMaxList_spec {l : List (Fl K)} (hn : ∀ x ∈ l, x ≠ .nan) {m : Fl K} (h : npMaxList l = .ok m) :
    m ∈ l ∧ ∀ x ∈ l, Fl.le x m = true := by
  cases l with
  | nil => simp [npMaxList] at h
  | cons a l =>
    simp only [npMaxList, Except.ok.injEq] at h
    rw [← h]
    exact foldl_npMax_spec l a (hn a (by simp)) (fun x hx => hn x (by simp [hx]))

theorem npMaxList_ok {l : List (Fl K)} (h : l ≠ []) : ∃ m, npMaxList l = .ok m := by
  cases l with
  | nil => exact absurd rfl h
  | cons a l => exact ⟨_, rfl⟩

/-! ### the rejection loop -/

namespace CovariateMatrix

theorem drawNonMax_ok {col : List (Fl K)} {m : Fl K} : ∀ {us : List Nat} {v : Fl K} {rest : List Nat},
    drawNonMax col m us = .ok (v, rest) → v ∈ col ∧ Fl.eq v m = false := by
  intro us
  induction us with
  | nil => intro v rest h; simp [drawNonMax] at h
  | cons u us ih =>
    intro v rest h
    simp only [drawNonMax] at h
    cases hc : choice col u with
    | error e => rw [hc] at h; simp at h
    | ok c =>
      rw [hc] at h
      simp only at h
      by_cases he : Fl.eq c m = true
      · rw [if_pos he] at h; exact ih h
      · rw [if_neg he] at h
        simp only [Except.ok.injEq, Prod.mk.injEq] at h
        rw [← h.1]
        exact ⟨choice_ok_mem hc, by simpa using he⟩

theorem drawNonMax_error {col : List (Fl K)} {m : Fl K} (hcol : col ≠ []) : ∀ {us : List Nat} {e : PyErr},
    drawNonMax col m us = .error e → e = .outOfDraws := by
  intro us
  induction us with
  | nil => intro e h; simp [drawNonMax] at h; exact h.symm
  | cons u us ih =>
    intro e h
    simp only [drawNonMax] at h
    obtain ⟨c, -, hc⟩ := choice_ok_of_ne_nil hcol u
    rw [hc] at h
    simp only at h
    by_cases he : Fl.eq c m = true
    · rw [if_pos he] at h; exact ih h
    · rw [if_neg he] at h; cases h

/-- Everything about `random_splittable_value` at once. -/
theorem randomSplittableValue_spec {c : CovariateMatrix K n p} (h : CMInv c) (hn : NoNan c.X) (i : Fin p) (draws : List Nat) :
    match c.randomSplittableValue i draws with
    | .error e => (e = .noSplittableVariable ∧ i ∉ c.refSplittable) ∨ (e = .outOfDraws ∧ i ∈ c.refSplittable)
    | .ok (v, _, c') => i ∈ c.refSplittable ∧ v ∈ c.col i ∧ (∃ m ∈ c.col i, Fl.lt v m = true) ∧ SameCM c c' ∧ CMInv c' := by
  obtain ⟨h1, h2, h3⟩ := splittable_spec h
  have hnc : ∀ x ∈ c.col i, x ≠ .nan := by
    intro x hx
    obtain ⟨r, -, hr⟩ := mem_column.1 hx
    rw [← hr]; exact hn r i
  unfold randomSplittableValue
  simp only [h1]
  by_cases hi : i ∈ c.refSplittable
  · simp only [hi, if_true]
    have hne : c.col i ≠ [] := by
      intro hnil
      simp [refSplittable, hnil, isNotConstant] at hi
    have hm := maxValueOfColumn_spec h3 i
    rw [h2.col] at hm
    cases e : c.splittable.2.maxValueOfColumn i with
    | error e' =>
      rw [e] at hm
      obtain ⟨m, hm'⟩ := npMaxList_ok hne
      simp only at hm
      rw [hm'] at hm; cases hm
    | ok q =>
      obtain ⟨m, c1⟩ := q
      rw [e] at hm
      obtain ⟨m1, m2, m3⟩ := hm
      obtain ⟨g1, g2, g3, -⟩ := getColumn_spec m3 i
      simp only [g1, m2.col, h2.col]
      obtain ⟨mm, ml⟩ := npMaxList_spec hnc m1
      cases hd : drawNonMax (c.col i) m draws with
      | error e' => right; exact ⟨drawNonMax_error hne hd, trivial⟩
      | ok q =>
        obtain ⟨v, rest⟩ := q
        obtain ⟨d1, d2⟩ := drawNonMax_ok hd
        refine ⟨trivial, d1, ⟨m, mm, ?_⟩, (h2.trans m2).trans g2, g3⟩
        refine Fl.lt_of_le_of_ne (ml v d1) ?_
        rintro rfl
        have := Fl.eq_iff.2 ⟨hnc v d1, rfl⟩
        rw [this] at d2; cases d2
  · simp only [hi, if_false]
    left; simp

theorem randomSplittableValue_exists {c : CovariateMatrix K n p} (h : CMInv c) (hn : NoNan c.X) {i : Fin p}
    (hi : i ∈ c.refSplittable) (rest : List Nat) :
    ∃ u v c', c.randomSplittableValue i (u :: rest) = .ok (v, rest, c') := by
  obtain ⟨h1, h2, h3⟩ := splittable_spec h
  have hnc : ∀ x ∈ c.col i, x ≠ .nan := by
    intro x hx
    obtain ⟨r, -, hr⟩ := mem_column.1 hx
    rw [← hr]; exact hn r i
  have hne : c.col i ≠ [] := by
    intro hnil
    simp [refSplittable, hnil, isNotConstant] at hi
  have hm := maxValueOfColumn_spec h3 i
  rw [h2.col] at hm
  unfold randomSplittableValue
  simp only [h1, hi, if_true]
  cases e : c.splittable.2.maxValueOfColumn i with
  | error e' =>
    rw [e] at hm
    obtain ⟨m, hm'⟩ := npMaxList_ok hne
    simp only at hm
    rw [hm'] at hm; cases hm
  | ok q =>
    obtain ⟨m, c1⟩ := q
    rw [e] at hm
    obtain ⟨m1, m2, m3⟩ := hm
    obtain ⟨g1, g2, g3, -⟩ := getColumn_spec m3 i
    simp only [g1, m2.col, h2.col]
    -- two distinct values, so one differs from the maximum
    have hin : isNotConstant (c.col i) = true := by simpa [refSplittable] using hi
    obtain ⟨a, ha, b, hb, hab⟩ := (isNotConstant_noNan hnc).1 hin
    have : ∃ x ∈ c.col i, x ≠ m := by
      by_cases ham : a = m
      · refine ⟨b, List.mem_of_mem_tail hb, ?_⟩
        rintro rfl; exact hab ham
      · exact ⟨a, List.mem_of_mem_tail ha, ham⟩
    obtain ⟨x, hx, hxm⟩ := this
    obtain ⟨u, hu⟩ := exists_choice_eq hx
    have hef : Fl.eq x m = false := by
      cases he : Fl.eq x m with
      | false => rfl
      | true => exact absurd (Fl.eq_iff.1 he).2 hxm
    refine ⟨u, x, (c1.getColumn i).2, ?_⟩
    simp [drawNonMax, hu, hef]

/-- `choice` on a list with a draw below its length is indexing. -/
theorem choice_fin {α : Type} (l : List α) (u : Fin l.length) : choice l u.val = .ok l[u.val] := by
  unfold choice
  rw [Nat.mod_eq_of_lt u.isLt, List.getElem?_eq_getElem u.isLt]

theorem card_index_eq_countP {α : Type} (l : List α) (P : α → Bool) :
    (Finset.univ.filter (fun u : Fin l.length => P l[u.val] = true)).card = l.countP P := by
  induction l with
  | nil => simp
  | cons a l ih =>
    rw [List.countP_cons, ← ih, Finset.card_filter, Finset.card_filter]
    erw [Fin.sum_univ_succ]
    simp [add_comm]
    rfl

/-- Number of draw sequences of length `k+1` on which the loop stops exactly at the last draw with the value `v`. -/
theorem card_draws {col : List (Fl K)} {m v : Fl K} (hv : Fl.eq v m = false) (k : Nat) :
    (Finset.univ.filter (fun us : Fin (k + 1) → Fin col.length =>
        drawNonMax col m (List.ofFn (fun i => (us i).val)) = .ok (v, []))).card
      = (col.countP (fun x => Fl.eq x m)) ^ k * col.countP (fun x => decide (x = v)) := by
  induction k with
  | zero =>
    rw [pow_zero, one_mul, ← card_index_eq_countP]
    apply Finset.card_bij (fun us _ => us 0)
    · intro us hus
      simp only [Finset.mem_filter, Finset.mem_univ, true_and, decide_eq_true_eq] at hus ⊢
      simp only [List.ofFn_succ, List.ofFn_zero, drawNonMax, choice_fin] at hus
      split at hus
      · cases hus
      · simp only [Except.ok.injEq, Prod.mk.injEq, and_true] at hus; exact hus
    · intro a _ b _ hab
      funext i
      have : i = 0 := Fin.ext (by have := i.isLt; simp at this; simpa using this)
      rw [this]; exact hab
    · intro u hu
      simp only [Finset.mem_filter, Finset.mem_univ, true_and, decide_eq_true_eq] at hu
      refine ⟨fun _ => u, ?_, rfl⟩
      simp only [Finset.mem_filter, Finset.mem_univ, true_and, List.ofFn_succ, List.ofFn_zero, drawNonMax, choice_fin, hu, hv]
      simp
  | succ k ih =>
    rw [pow_succ, mul_comm (_ ^ k), mul_assoc, ← ih, ← card_index_eq_countP, ← Finset.card_product]
    apply Finset.card_bij (fun us _ => (us 0, fun i => us i.succ))
    · intro us hus
      simp only [Finset.mem_filter, Finset.mem_univ, true_and, Finset.mem_product] at hus ⊢
      rw [List.ofFn_succ] at hus
      simp only [drawNonMax, choice_fin] at hus
      split at hus
      · next he => exact ⟨he, hus⟩
      · simp only [Except.ok.injEq, Prod.mk.injEq] at hus
        have := hus.2
        simp at this
    · intro a _ b _ hab
      simp only [Prod.mk.injEq] at hab
      funext i
      refine Fin.cases hab.1 (fun j => congrFun hab.2 j) i
    · rintro ⟨u, us⟩ hu
      simp only [Finset.mem_filter, Finset.mem_univ, true_and, Finset.mem_product] at hu
      refine ⟨Fin.cons u us, ?_, by simp⟩
      simp only [Finset.mem_filter, Finset.mem_univ, true_and]
      rw [List.ofFn_succ]
      simp only [Fin.cons_zero, Fin.cons_succ, drawNonMax, choice_fin, hu.1, if_true]
      exact hu.2

end CovariateMatrix

/-! ### normalisation -/
section
variable [IsStrictOrderedRing K]

theorem foldl_min_spec (l : List K) : ∀ a : K, l.foldl min a ∈ a :: l ∧ ∀ x ∈ a :: l, l.foldl min a ≤ x := by
  induction l with
  | nil => intro a; simp
  | cons b l ih =>
    intro a
    obtain ⟨h1, h2⟩ := ih (min a b)
    simp only [List.foldl_cons]
    refine ⟨?_, ?_⟩
    · rcases List.mem_cons.1 h1 with h | h
      · rw [h]; rcases min_choice a b with h | h <;> rw [h] <;> simp
      · simp [h]
    · intro x hx
      have hm := h2 (min a b) (by simp)
      rcases List.mem_cons.1 hx with rfl | hx
      · exact hm.trans (min_le_left _ _)
      rcases List.mem_cons.1 hx with rfl | hx
      · exact hm.trans (min_le_right _ _)
      · exact h2 x (by simp [hx])

theorem foldl_max_spec (l : List K) : ∀ a : K, l.foldl max a ∈ a :: l ∧ ∀ x ∈ a :: l, x ≤ l.foldl max a := by
  induction l with
  | nil => intro a; simp
  | cons b l ih =>
    intro a
    obtain ⟨h1, h2⟩ := ih (max a b)
    simp only [List.foldl_cons]
    refine ⟨?_, ?_⟩
    · rcases List.mem_cons.1 h1 with h | h
      · rw [h]; rcases max_choice a b with h | h <;> rw [h] <;> simp
      · simp [h]
    · intro x hx
      have hm := h2 (max a b) (by simp)
      rcases List.mem_cons.1 hx with rfl | hx
      · exact (le_max_left _ _).trans hm
      rcases List.mem_cons.1 hx with rfl | hx
      · exact (le_max_right _ _).trans hm
      · exact h2 x (by simp [hx])

theorem yMin_spec {y : Fin n → K} {lo : K} (h : Target.yMin y = .ok lo) : (∃ r, y r = lo) ∧ ∀ r, lo ≤ y r := by
  unfold Target.yMin at h
  split at h
  · cases h
  · next x xs hx =>
    simp only [Except.ok.injEq] at h
    obtain ⟨h1, h2⟩ := foldl_min_spec xs x
    rw [← hx, h] at h1 h2
    refine ⟨by simpa using h1, fun r => h2 _ (by simp)⟩

theorem yMax_spec {y : Fin n → K} {hi : K} (h : Target.yMax y = .ok hi) : (∃ r, y r = hi) ∧ ∀ r, y r ≤ hi := by
  unfold Target.yMax at h
  split at h
  · cases h
  · next x xs hx =>
    simp only [Except.ok.injEq] at h
    obtain ⟨h1, h2⟩ := foldl_max_spec xs x
    rw [← hx, h] at h1 h2
    refine ⟨by simpa using h1, fun r => h2 _ (by simp)⟩

theorem yMinMax_ok {y : Fin n → K} (r : Fin n) : (∃ lo, Target.yMin y = .ok lo) ∧ ∃ hi, Target.yMax y = .ok hi := by
  have : (List.finRange n).map y ≠ [] := by
    intro h
    have : y r ∈ (List.finRange n).map y := List.mem_map.2 ⟨r, List.mem_finRange r, rfl⟩
    rw [h] at this; simp at this
  unfold Target.yMin Target.yMax
  cases h : (List.finRange n).map y with
  | nil => exact absurd h this
  | cons a l => exact ⟨⟨_, rfl⟩, ⟨_, rfl⟩⟩

/-- The result of `Target(..., normalize=True)`. -/
theorem target_init_spec {y : Fin n → K} {mask : Fin n → Bool} {k : Int} {s : Option K} (r1 r2 : Fin n) (hne : y r1 ≠ y r2) :
    ∃ lo hi t, Target.init y mask k true s = .ok t ∧ lo < hi ∧ (∃ r, y r = lo) ∧ (∃ r, y r = hi) ∧
      (∀ r, lo ≤ y r ∧ y r ≤ hi) ∧ t.y = some (fun r => -(1/2) + (y r - lo) / (hi - lo)) ∧ t.originalRange = some (lo, hi) ∧
      t.mask = mask := by
  obtain ⟨⟨lo, hlo⟩, ⟨hi, hhi⟩⟩ := yMinMax_ok (y := y) r1
  obtain ⟨l1, l2⟩ := yMin_spec hlo
  obtain ⟨u1, u2⟩ := yMax_spec hhi
  have hlt : lo < hi := by
    rcases lt_or_eq_of_le ((l2 r1).trans (u2 r1)) with h | h
    · exact h
    · exfalso; apply hne
      have a1 : y r1 = lo := le_antisymm (h ▸ u2 r1) (l2 r1)
      have a2 : y r2 = lo := le_antisymm (h ▸ u2 r2) (l2 r2)
      rw [a1, a2]
  have hz : ¬ (hi - lo = 0) := by
    intro h; exact absurd (sub_eq_zero.1 h) (ne_of_gt hlt)
  have hnorm : Target.normalizeY y = .ok (fun r => -(1/2) + (y r - lo) / (hi - lo)) := by
    unfold Target.normalizeY
    rw [hlo, hhi]; simp only [if_neg hz]
  have hinit : Target.init y mask k true s = .ok
      { y := some (fun r => -(1/2) + (y r - lo) / (hi - lo)), mask := mask, nObsv := k, originalRange := some (lo, hi),
        sumCacheUpToDate := s.isSome, summedY := s } := by
    unfold Target.init
    rw [hlo, hhi, hnorm]; rfl
  exact ⟨lo, hi, _, hinit, hlt, l1, u1, fun r => ⟨l2 r, u2 r⟩, rfl, rfl, rfl⟩

end
end Bart
