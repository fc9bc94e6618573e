import Verif.Model.GlobalThresholds
import Verif.Props.FeatureProps

/-! `global_thresholds`: C155. -/

set_option linter.unusedSectionVars false

namespace Bart
open Spec
variable {K : Type} [Field K] [LinearOrder K] [IsStrictOrderedRing K] [FloorRing K]

/-! ### percentiles and order -/

theorem atMost_forall₂ {a b : List K} (h : List.Forall₂ (· ≤ ·) a b) (t : K) : atMost b t ≤ atMost a t := by
  induction h with
  | nil => exact le_refl _
  | @cons x y a b hxy _ ih =>
    unfold atMost at ih ⊢
    rw [List.filter_cons, List.filter_cons]
    by_cases hy : y ≤ t
    · rw [if_pos (by simpa using hy), if_pos (by simpa using hxy.trans hy), List.length_cons, List.length_cons]
      omega
    · rw [if_neg (by simpa using hy)]
      split
      · rw [List.length_cons]; omega
      · exact ih

/-- Order statistics are monotone. -/
theorem sorted_mono {l k : List K} (h : List.Forall₂ (· ≤ ·) l k) (i : Nat) : (l.insertionSort (· ≤ ·)).getD i 0 ≤ (k.insertionSort (· ≤ ·)).getD i 0 := by
  have pl : (l.insertionSort (· ≤ ·)).Perm l := List.perm_insertionSort _ _
  have pk : (k.insertionSort (· ≤ ·)).Perm k := List.perm_insertionSort _ _
  have sl : (l.insertionSort (· ≤ ·)).Pairwise (· ≤ ·) := List.pairwise_insertionSort _ _
  have sk : (k.insertionSort (· ≤ ·)).Pairwise (· ≤ ·) := List.pairwise_insertionSort _ _
  have e : (l.insertionSort (· ≤ ·)).length = (k.insertionSort (· ≤ ·)).length := by rw [pl.length_eq, pk.length_eq, h.length_eq]
  by_cases hi : i < (l.insertionSort (· ≤ ·)).length
  · have hi' := e ▸ hi
    rw [List.getD_eq_getElem?_getD, List.getD_eq_getElem?_getD, List.getElem?_eq_getElem hi, List.getElem?_eq_getElem hi', Option.getD_some, Option.getD_some]
    by_contra hlt
    have h1 := sorted_atMost sk hi' (le_refl _)
    have h2 := sorted_atMost_le sl hi (not_le.1 hlt)
    rw [atMost_perm pk] at h1
    rw [atMost_perm pl] at h2
    have := atMost_forall₂ h (k.insertionSort (· ≤ ·))[i]
    omega
  · rw [List.getD_eq_getElem?_getD, List.getD_eq_getElem?_getD, List.getElem?_eq_none (not_lt.1 hi), List.getElem?_eq_none (e ▸ not_lt.1 hi)]

/-- Percentiles are monotone. -/
theorem percentile_mono {l k : List K} (h : List.Forall₂ (· ≤ ·) l k) {q s t : K} (hs : percentile l q = .ok s) (ht : percentile k q = .ok t) : s ≤ t := by
  have e := h.length_eq
  unfold percentile at hs ht
  rw [← e] at ht
  by_cases c1 : q < 0 ∨ 100 < q
  · rw [if_pos c1] at hs; cases hs
  rw [if_neg c1] at hs ht
  by_cases c2 : l.length = 0
  · rw [if_pos c2] at hs; cases hs
  rw [if_neg c2] at hs ht
  push Not at c1
  injection hs with hs
  injection ht with ht
  have hpos : (1 : K) ≤ l.length := by exact_mod_cast Nat.pos_of_ne_zero c2
  have hv0 : 0 ≤ q / 100 * ((l.length : K) - 1) := by
    have : (0 : K) ≤ (l.length : K) - 1 := by linarith
    have := c1.1
    positivity
  generalize q / 100 * ((l.length : K) - 1) = v at hs ht hv0
  have hic : ((⌊v⌋.toNat : ℕ) : K) = (⌊v⌋ : K) := by
    have : ((⌊v⌋.toNat : ℤ) : K) = (⌊v⌋ : K) := by rw [Int.toNat_of_nonneg (Int.floor_nonneg.2 hv0)]
    exact_mod_cast this
  have w0 : 0 ≤ v - (⌊v⌋.toNat : K) := by rw [hic]; linarith [Int.floor_le v]
  have w1 : v - (⌊v⌋.toNat : K) ≤ 1 := by rw [hic]; linarith [Int.lt_floor_add_one v]
  have m1 := sorted_mono h ⌊v⌋.toNat
  have m2 := sorted_mono h (min (⌊v⌋.toNat + 1) (l.length - 1))
  rw [← hs, ← ht]
  generalize v - (⌊v⌋.toNat : K) = w at w0 w1
  nlinarith [mul_le_mul_of_nonneg_left m2 w0, mul_le_mul_of_nonneg_left m1 (sub_nonneg.2 w1)]

/-! ### row maxima -/

theorem foldl_max_greatest (l : List K) : ∀ a, IsGreatest {z | z = a ∨ z ∈ l} (l.foldl max a) := by
  induction l with
  | nil => intro a; exact ⟨Or.inl rfl, by rintro z (rfl | hz); exacts [le_refl _, by cases hz]⟩
  | cons b l ih =>
    intro a
    obtain ⟨h1, h2⟩ := ih (max a b)
    rw [List.foldl_cons]
    refine ⟨?_, ?_⟩
    · rcases h1 with h1 | h1
      · rcases max_choice a b with e | e
        · exact Or.inl (h1.trans e)
        · exact Or.inr (by rw [h1, e]; simp)
      · exact Or.inr (List.mem_cons_of_mem _ h1)
    · rintro z (rfl | hz)
      · exact (le_max_left _ _).trans (h2 (Or.inl rfl))
      · rcases List.mem_cons.1 hz with rfl | hz
        · exact (le_max_right _ _).trans (h2 (Or.inl rfl))
        · exact h2 (Or.inr hz)

theorem rowMax_greatest {l : List K} (h : l ≠ []) : ∃ t, rowMax l = .ok t ∧ IsGreatest {z | z ∈ l} t := by
  obtain ⟨a, l, rfl⟩ := List.exists_cons_of_ne_nil h
  refine ⟨_, rfl, ?_⟩
  have := foldl_max_greatest l a
  simpa only [List.mem_cons] using this

theorem mapM_rowMax {rows : List (List K)} (h : ∀ r ∈ rows, r ≠ []) : ∃ qs, rows.mapM rowMax = .ok qs ∧ List.Forall₂ (fun r t => IsGreatest {z | z ∈ r} t) rows qs := by
  induction rows with
  | nil => exact ⟨[], rfl, .nil⟩
  | cons r rows ih =>
    obtain ⟨t, e, ht⟩ := rowMax_greatest (h r (by simp))
    obtain ⟨qs, e', hq⟩ := ih (fun r hr => h r (List.mem_cons_of_mem _ hr))
    refine ⟨t :: qs, ?_, .cons ht hq⟩
    rw [List.mapM_cons, e]
    change (do let qs ← rows.mapM rowMax; pure (t :: qs)) = _
    rw [e']
    rfl

/-! ### C155 -/

/-- C155 is false: the DataFrame has no method `iter_rows`, so that no thresholds are returned, whatever the null distributions are. -/
theorem C155_refuted {κ : Type} (null : List (κ × List K)) (q : K) : (∀ th, globalThresholdsWith dataFrameIterators null q ≠ .ok th) ∧
    ((∀ x ∈ null, ∀ z ∈ null, x.2.length = z.2.length) → globalThresholdsWith dataFrameIterators null q = globalThresholds null q) := by
  have h : "iter_rows" ∉ dataFrameIterators := by decide
  refine ⟨?_, ?_⟩
  · intro th e
    unfold globalThresholdsWith at e
    cases h1 : frameRows null with
    | error a => rw [h1] at e; cases e
    | ok rows => rw [h1] at e; simp only [if_neg h] at e; cases e
  · intro hl
    have h1 : ∃ rows, frameRows null = .ok rows := by
      cases null with
      | nil => exact ⟨_, rfl⟩
      | cons x null =>
        unfold frameRows
        exact ⟨_, if_pos (List.all_eq_true.2 (fun z hz => by simpa using hl z hz x (by simp)))⟩
    obtain ⟨rows, h1⟩ := h1
    unfold globalThresholdsWith
    rw [h1]
    simp only [if_neg h]
    rfl

/-- C155 (partial), if the method existed: all features get the same threshold, the percentile of the largest null share in each permuted model, and `local_thresholds` never asks for more. -/
theorem C155_with_iterator_partial {κ : Type} {iterators : List String} (hi : "iter_rows" ∈ iterators) {null : List (κ × List K)} (hne : null ≠ []) {m : Nat} (hm : 0 < m) (hl : ∀ x ∈ null, x.2.length = m) {q : K}
    (h0 : 0 ≤ q) (h1 : q ≤ 100) : ∃ (t : K) (g : List K), globalThresholdsWith iterators null q = .ok (null.map (fun x => (x.1, t))) ∧ percentile g q = .ok t ∧ g.length = m ∧
      (∀ (i : Nat) (hg : i < g.length), IsGreatest {z | ∃ x ∈ null, x.2[i]? = some z} g[i]) ∧ ∀ th, localThresholds null q = .ok th → ∀ y ∈ th, y.2 ≤ t := by
  have hrows : frameRows null = .ok ((List.range m).map (fun i => null.map (fun z => z.2.getD i 0))) := by
    obtain ⟨x, null, rfl⟩ := List.exists_cons_of_ne_nil hne
    have hx := hl x (by simp)
    unfold frameRows
    simp only
    rw [if_pos (List.all_eq_true.2 (fun z hz => by simpa [hx] using hl z hz)), hx]
  obtain ⟨g, e, hg⟩ := mapM_rowMax (rows := (List.range m).map (fun i => null.map (fun z => z.2.getD i 0))) (by
    intro r hr
    obtain ⟨i, -, rfl⟩ := List.mem_map.1 hr
    simpa using hne)
  have hlen : g.length = m := by simpa using hg.length_eq.symm
  have hgi : ∀ (i : Nat) (hg : i < g.length), IsGreatest {z | ∃ x ∈ null, x.2[i]? = some z} g[i] := by
    intro i hi
    have := hg.get (i := i) (by simpa [hlen] using hi) hi
    simp only [List.get_eq_getElem, List.getElem_map, List.getElem_range] at this
    have es : {z : K | ∃ x ∈ null, x.2[i]? = some z} = {z | z ∈ null.map (fun z => z.2.getD i 0)} := by
      ext z
      simp only [Set.mem_ofPred_eq, List.mem_map]
      refine exists_congr (fun x => and_congr_right (fun hx => ?_))
      have hix : i < x.2.length := by rw [hl x hx, ← hlen]; exact hi
      rw [List.getD_eq_getElem?_getD, List.getElem?_eq_getElem hix, Option.getD_some, Option.some_inj]
    rw [es]
    exact this
  obtain ⟨t, a, i, _, _, et, -⟩ := percentile_spec (l := g) (by rintro rfl; simp at hlen; omega) h0 h1
  refine ⟨t, g, ?_, et, hlen, hgi, ?_⟩
  · unfold globalThresholdsWith
    rw [hrows]
    simp only [if_pos hi, e, et]
  · intro th hth y hy
    have hf := C60_local_partial hth
    obtain ⟨x, hx, -, hp⟩ : ∃ x ∈ null, y.1 = x.1 ∧ percentile x.2 q = .ok y.2 := by
      clear hth
      clear hl hgi hrows e hg hne
      induction hf with
      | nil => cases hy
      | @cons a b l k hab _ ih =>
        rcases List.mem_cons.1 hy with rfl | hy
        · exact ⟨a, by simp, hab⟩
        · obtain ⟨x, hx, h⟩ := ih hy
          exact ⟨x, List.mem_cons_of_mem _ hx, h⟩
    refine percentile_mono (List.forall₂_iff_get.2 ⟨by rw [hl x hx, hlen], fun i hi1 hi2 => ?_⟩) hp et
    exact (hgi i hi2).2 ⟨x, hx, by simp [hi1]⟩

/-- C155, an example: two features and three permuted models; the row maxima are 1/2, 3/4 and 1, the median is 3/4; the local thresholds are 1/4 and 1/2. -/
example : globalThresholdsWith ["iter_rows"] [(0, [1/4, 3/4, 0]), (1, [1/2, 1/4, 1])] (50 : ℚ) = .ok [((0 : ℕ), 3/4), (1, 3/4)] ∧
    localThresholds [(0, [1/4, 3/4, 0]), (1, [1/2, 1/4, 1])] (50 : ℚ) = .ok [((0 : ℕ), 1/4), (1, 1/2)] ∧
    globalThresholdsWith dataFrameIterators [(0, [1/4, 3/4, 0]), (1, [1/2, 1/4, 1])] (50 : ℚ) = (.error .attributeError : Except PyErr (List (ℕ × ℚ))) := by
  decide +kernel

end Bart
