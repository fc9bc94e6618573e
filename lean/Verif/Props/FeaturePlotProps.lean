import Verif.Model.FeaturePlots
import Verif.Props.SelectionProps

/-! The plots of the feature selectors: C100. -/

set_option linter.unusedSectionVars false

namespace Bart
open Spec
variable {K : Type} [Field K] [LinearOrder K] [IsStrictOrderedRing K] {n p : Nat} {X : Fin n → Fin p → Fl K}

theorem zip_keys_values {κ : Type} (l : List (κ × K)) : (Dict.keys l).zip ((l.map Prod.snd).map (fun x => x * 100)) = l.map (fun x => (x.1, x.2 * 100)) := by
  induction l with
  | nil => rfl
  | cons x l ih => simp only [Dict.keys, List.map_cons, List.zip_cons_cons] at ih ⊢; rw [ih]

/-- C100, `plot_feature_proportions_against_thresholds`: a black bar for each threshold, and for each proportion a point that is green if it exceeds the threshold of its feature and red otherwise; everything in percent. -/
theorem C100_thresholds {κ : Type} [LinearOrder κ] {props thresholds : List (κ × K)} (hp : IsDict props) (ht : IsDict thresholds) (hk : ∀ f ∈ Dict.keys props, f ∈ Dict.keys thresholds) :
    ∃ bars green red : List (κ × K), plotAgainstThresholds props thresholds = .ok (bars, green, red) ∧
      (∀ f v, (f, v) ∈ bars ↔ ∃ t, (f, t) ∈ thresholds ∧ v = 100 * t) ∧ bars.length = thresholds.length ∧
      (∀ f v, (f, v) ∈ green ↔ ∃ a t, (f, a) ∈ props ∧ (f, t) ∈ thresholds ∧ t < a ∧ v = 100 * a) ∧
      (∀ f v, (f, v) ∈ red ↔ ∃ a t, (f, a) ∈ props ∧ (f, t) ∈ thresholds ∧ a ≤ t ∧ v = 100 * a) ∧ green.length + red.length = props.length := by
  obtain ⟨l, passed, failed, -, -, -, h4, h5, h6⟩ := C58_kept hp ht hk
  have hlen : passed.length + failed.length = props.length := by
    unfold partitionFeatures at h4
    split at h4
    · cases h4
    · injection h4 with h4; injection h4 with h4 h4'; subst h4 h4'
      rw [← List.length_eq_length_filter_add]
  unfold plotAgainstThresholds
  rw [h4]
  refine ⟨_, _, _, rfl, ?_, by simp [Dict.keys], ?_, ?_, by simp [Dict.keys, hlen]⟩
  · intro f v
    rw [zip_keys_values, List.mem_map]
    constructor
    · rintro ⟨⟨a, t⟩, h1, h2⟩
      injection h2 with h2 h3; subst h2 h3
      exact ⟨t, h1, mul_comm _ _⟩
    · rintro ⟨t, h1, rfl⟩; exact ⟨(f, t), h1, by rw [mul_comm]⟩
  · intro f v
    rw [zip_keys_values, List.mem_map]
    constructor
    · rintro ⟨⟨a, b⟩, h1, h2⟩
      injection h2 with h2 h3; subst h2 h3
      obtain ⟨k1, t, k2, k3⟩ := (h5 _).1 h1
      exact ⟨b, t, k1, k2, k3, mul_comm _ _⟩
    · rintro ⟨a, t, k1, k2, k3, rfl⟩; exact ⟨(f, a), (h5 _).2 ⟨k1, t, k2, k3⟩, by rw [mul_comm]⟩
  · intro f v
    rw [zip_keys_values, List.mem_map]
    constructor
    · rintro ⟨⟨a, b⟩, h1, h2⟩
      injection h2 with h2 h3; subst h2 h3
      obtain ⟨k1, t, k2, k3⟩ := (h6 _).1 h1
      exact ⟨b, t, k1, k2, k3, mul_comm _ _⟩
    · rintro ⟨a, t, k1, k2, k3, rfl⟩; exact ⟨(f, a), (h6 _).2 ⟨k1, t, k2, k3⟩, by rw [mul_comm]⟩

variable [MathFns K] [FloorRing K]

/-- The columns that occur in the stored trees, in increasing order, with their share of the nodes. -/
theorem featureSplitProportions_occur (hX : NoNan X) {xs : List (Sample K p)} {Ms : List (BModel K n p)} (hM : ∀ t ∈ treesOf Ms, ReachableTree X t) (h : Show xs Ms) :
    featureSplitProportions xs none = ((List.finRange p).filter (fun j => decide (0 < totalDecisionsOn (treesOf Ms) j))).map
      (fun j => (j, (2 * totalDecisionsOn (treesOf Ms) j : K) / (totalNodes (treesOf Ms) : K))) := by
  obtain ⟨c1, c2, c3⟩ := count_flatMap_treeVars hX hM
  have hsv := splitVariables_show h
  rw [featureSplitProportions_eq, Option.getD_none, Dict.foldl_set_nodup _ _ _ ((List.nodup_finRange p).filter _) (by simp [Dict.keys]), List.nil_append]
  have hf : (fun j : Fin p => (splitVariables xs).contains (some j)) = fun j => decide (0 < totalDecisionsOn (treesOf Ms) j) := by
    funext j
    rw [Bool.eq_iff_iff, List.contains_iff_mem, decide_eq_true_iff, ← List.count_pos_iff, hsv, c1]
    omega
  rw [hf]
  apply List.map_congr_left
  intro j _
  simp only [hsv, c1, c3, Nat.cast_mul, Nat.cast_ofNat]

/-- C100, `plot_feature_split_proportions` of a fitted model: the bars are stacked from position 0 without gaps, labelled with the columns that are split on, in increasing order, and have the length of the share of the
column among the nodes of the stored trees. -/
theorem C100_proportions (hX : NoNan X) {s s' : SkModel K p} (hp1 : s.pGrow ≠ 0) (hp2 : s.pPrune ≠ 0) {y : Fin n → K} {rs : Nat → Rand K} (h : s.fit X y rs = .ok s') :
    ∃ (c : Combined K p) (Ms : List (BModel K n p)) (bars : List (Nat × Fin p × K)), s'.samples = some c ∧ Show c.models Ms ∧ plotFeatureSplitProportions s' = .ok bars ∧
      bars.map (fun b => b.1) = List.range bars.length ∧ (bars.map (fun b => b.2.1)).Pairwise (· < ·) ∧
      ∀ j v, (∃ i, (i, j, v) ∈ bars) ↔ 0 < totalDecisionsOn (treesOf Ms) j ∧ v = (2 * totalDecisionsOn (treesOf Ms) j : K) / (totalNodes (treesOf Ms) : K) := by
  obtain ⟨c, Ms, k1, k2, k3, k4, k5⟩ := C57_fit hX hp1 hp2 h
  have hprop := featureSplitProportions_occur hX k4 k2
  set d := featureSplitProportions c.models none with hd
  have hkeys : d.map Prod.fst = (List.finRange p).filter (fun j => decide (0 < totalDecisionsOn (treesOf Ms) j)) := by
    rw [hprop, List.map_map]; exact List.map_id _
  have hinc : (d.map Prod.fst).Pairwise (· < ·) := by
    rw [hkeys]
    exact List.Pairwise.filter _ (List.pairwise_lt_finRange p)
  have hsort : d.insertionSort (fun a b => a.1 ≤ b.1) = d := by
    apply List.Pairwise.insertionSort_eq
    rw [List.pairwise_map] at hinc
    exact hinc.imp (fun h => le_of_lt h)
  have hplot : plotFeatureSplitProportions s' = .ok ((List.range d.length).zip d) := by
    unfold plotFeatureSplitProportions
    rw [k5]
    simp only [← hd, hsort]
  have h1 : ((List.range d.length).zip d).map Prod.fst = List.range d.length := List.map_fst_zip (by simp)
  have h2 : ((List.range d.length).zip d).map Prod.snd = d := List.map_snd_zip (by simp)
  refine ⟨c, Ms, _, k1, k2, hplot, ?_, ?_, ?_⟩
  · rw [h1]; simp
  · have : (fun b : Nat × Fin p × K => b.2.1) = Prod.fst ∘ Prod.snd := rfl
    rw [this, ← List.map_map, h2]
    exact hinc
  · intro j v
    have hex : (∃ i, (i, j, v) ∈ (List.range d.length).zip d) ↔ (j, v) ∈ d := by
      conv_rhs => rw [← h2]
      rw [List.mem_map]
      exact ⟨fun ⟨i, hi⟩ => ⟨_, hi, rfl⟩, by rintro ⟨⟨i, x⟩, hx, rfl⟩; exact ⟨i, hx⟩⟩
    rw [hex, hprop, List.mem_map]
    constructor
    · rintro ⟨j', hj', e⟩
      injection e with e1 e2; subst e1
      exact ⟨by simpa using hj', e2.symm⟩
    · rintro ⟨a1, rfl⟩; exact ⟨j, by simpa using a1, rfl⟩

/-- C100, `plot` of a fitted `SelectNullDistributionThreshold` with local thresholds: it does not raise; there is one bar for each column; the green points are the selected features (those for which the mask says true)
and the red points those that the mask rejects, at 100 times their proportion; the box plot has for each column one value for each permutation, those of the null distribution. -/
theorem C100_null_selector (hX : NoNan X) {s : SkModel K p} (hk : 0 < s.nChains) (hp1 : s.pGrow ≠ 0) (hp2 : s.pPrune ≠ 0) {q : K} {y : Fin n → K}
    {perms : List (Equiv.Perm (Fin n))} (hne : perms ≠ []) {rs : Nat → Rand K} {rs' : Nat → Nat → Rand K} {f : NullSelector K p}
    (h : nullSelectorFit localThresholds s q X y perms rs rs' = .ok f) :
    ∃ (bars green red box : List (Fin p × K)) (fs : List (Fin p)) (bs : List Bool), f.plot = .ok ((bars, green, red), box) ∧ f.mask = .ok bs ∧
      fs.Pairwise (· < ·) ∧ (∀ j, j ∈ fs ↔ ∃ a, (j, a) ∈ f.featureProportions) ∧ bs.length = fs.length ∧
      (∀ (i : Nat) j b, fs[i]? = some j → bs[i]? = some b → ∃ a, (j, a) ∈ f.featureProportions ∧ ((j, 100 * a) ∈ green ↔ b = true) ∧ ((j, 100 * a) ∈ red ↔ b = false)) ∧
      green.length + red.length = fs.length ∧
      bars.map Prod.fst = List.finRange p ∧ (∀ j v, (j, v) ∈ bars ↔ ∃ t, (j, t) ∈ f.thresholds ∧ v = 100 * t) ∧
      ∀ j, ∃ l, (j, l) ∈ f.nullDistribution ∧ l.length = perms.length ∧ (box.filter (fun x => x.1 = j)).map Prod.snd = l := by
  obtain ⟨s1, c0, cs, cl, h1, h2, h3, h4, h5, h6⟩ := C56_swapped_partial hk hne h
  have hth : Dict.keys f.thresholds = List.finRange p := by
    have hloc : localThresholds f.nullDistribution q = .ok f.thresholds := by
      unfold nullSelectorFit at h
      split at h
      · cases h
      · split at h
        · cases h
        · split at h
          · cases h
          · next e3 =>
            split at h
            · cases h
            · injection h with h; subst h; exact e3
    have h7 := C60_local_partial hloc
    have : ∀ {a : List (Fin p × List K)} {b : List (Fin p × K)}, List.Forall₂ (fun x y => y.1 = x.1 ∧ percentile x.2 q = .ok y.2) a b → Dict.keys b = a.map Prod.fst := by
      intro a b hab
      induction hab with
      | nil => rfl
      | cons e _ ih => simp only [Dict.keys, List.map_cons] at ih ⊢; rw [e.1, ih]
    rw [this h7, h6, List.map_map]
    exact List.map_id _
  have hdt : IsDict f.thresholds := by
    have : f.thresholds.map Prod.fst = List.finRange p := hth
    unfold IsDict; rw [this]; exact List.nodup_finRange p
  have hd : IsDict f.featureProportions := by
    rw [h5, featureSplitProportions_eq, Option.getD_none]
    exact (Dict.foldl_set _ _ [] (by simp [IsDict]) (by simp)).1
  have hkeys : ∀ j ∈ Dict.keys f.featureProportions, j ∈ Dict.keys f.thresholds := fun j _ => by rw [hth]; exact List.mem_finRange j
  obtain ⟨fs, bs, b1, -, b3, b4, b5, b6⟩ := C58_is_kept hd hdt hkeys
  obtain ⟨bars, green, red, p1, p2, p3, p4, p5, p6⟩ := C100_thresholds hd hdt hkeys
  have hnull : plotNullDistributions f.nullDistribution = .ok (f.nullDistribution.flatMap (fun x => x.2.map (fun v => (x.1, v)))) := by
    unfold plotNullDistributions
    rw [if_pos]
    rw [h6]
    simp
  have hcount : fs.length = f.featureProportions.length := by
    have hnd : fs.Nodup := b3.imp (fun h => ne_of_lt h)
    have : fs.Perm (f.featureProportions.map Prod.fst) := by
      rw [List.perm_ext_iff_of_nodup hnd hd]
      intro j
      rw [b4, List.mem_map]
      exact ⟨fun ⟨a, ha⟩ => ⟨_, ha, rfl⟩, by rintro ⟨⟨a, b⟩, hx, rfl⟩; exact ⟨b, hx⟩⟩
    rw [this.length_eq, List.length_map]
  refine ⟨bars, green, red, f.nullDistribution.flatMap (fun x => x.2.map (fun v => (x.1, v))), fs, bs, ?_, b1, b3, b4, b5, ?_, by rw [p6, hcount], ?_, p2, ?_⟩
  · unfold NullSelector.plot
    rw [p1, hnull]
  · intro i j b hj hb
    obtain ⟨a, ha⟩ := (b4 j).1 (List.mem_of_getElem? hj)
    obtain ⟨t, -, ht⟩ := Dict.get?_of_mem hdt (by rw [hth]; exact List.mem_finRange j : j ∈ Dict.keys f.thresholds)
    have huniq : ∀ {d : List (Fin p × K)} (_ : IsDict d) {j a a'}, (j, a) ∈ d → (j, a') ∈ d → a = a' := by
      intro d hd j a a' e1 e2
      have := (Dict.get?_eq_some hd).2 e1
      rw [(Dict.get?_eq_some hd).2 e2] at this; injection this with this; exact this.symm
    have hb' : b = true ↔ t < a := by
      rw [b6 i j b hj hb]
      constructor
      · rintro ⟨a', t', e1, e2, e3⟩
        rw [huniq hd ha e1, huniq hdt ht e2]; exact e3
      · intro e; exact ⟨a, t, ha, ht, e⟩
    refine ⟨a, ha, ?_, ?_⟩
    · rw [p4, hb']
      constructor
      · rintro ⟨a', t', e1, e2, e3, -⟩
        rw [huniq hd ha e1, huniq hdt ht e2]; exact e3
      · intro e; exact ⟨a, t, ha, ht, e, rfl⟩
    · rw [p5, ← Bool.not_eq_true, hb', not_lt]
      constructor
      · rintro ⟨a', t', e1, e2, e3, -⟩
        rw [huniq hd ha e1, huniq hdt ht e2]; exact e3
      · intro e; exact ⟨a, t, ha, ht, e, rfl⟩
  · unfold plotAgainstThresholds at p1
    split at p1
    · cases p1
    · injection p1 with p1; injection p1 with p1 _; subst p1
      rw [zip_keys_values, List.map_map]
      exact hth
  · intro j
    refine ⟨(c0 :: cs).map (fun c => proportionOf c.models j), ?_, ?_, ?_⟩
    · rw [h6]
      exact List.mem_map.2 ⟨j, List.mem_finRange j, rfl⟩
    · rw [← h3]; simp
    · rw [h6, List.flatMap_map, List.filter_flatMap, List.map_flatMap]
      have : ∀ k : Fin p, List.map Prod.snd (List.filter (fun x : Fin p × K => decide (x.1 = j)) (List.map (fun v => (k, v)) ((c0 :: cs).map (fun c => proportionOf c.models k)))) =
          if k = j then (c0 :: cs).map (fun c => proportionOf c.models j) else [] := by
        intro k
        rw [List.filter_map, List.map_map]
        by_cases hkj : k = j
        · subst hkj
          rw [if_pos rfl, List.filter_eq_self.2 (by intro a _; simp)]
          exact List.map_id _
        · rw [if_neg hkj, List.filter_eq_nil_iff.2 (by intro a _; simpa using hkj)]
          rfl
      simp only [this]
      have hone : ∀ l : List (Fin p), l.Nodup → (l.flatMap (fun k => if k = j then (c0 :: cs).map (fun c => proportionOf c.models j) else [])) =
          if j ∈ l then (c0 :: cs).map (fun c => proportionOf c.models j) else [] := by
        intro l
        induction l with
        | nil => intro _; rfl
        | cons a l ih =>
          intro hnd
          rw [List.nodup_cons] at hnd
          rw [List.flatMap_cons, ih hnd.2]
          by_cases ha : a = j
          · subst ha
            simp [hnd.1]
          · simp [ha, Ne.symm ha]
      rw [hone _ (List.nodup_finRange p), if_pos (List.mem_finRange j)]

section ex
attribute [local instance] exFns

/-- C100, the examples: the bar of a fitted model; the plot of a selector, in which the only column that is used is rejected. -/
example : (match exFit true with
    | .ok s => decide (plotFeatureSplitProportions s = .ok [(0, 0, 2/3)])
    | .error _ => false) = true ∧
    (match nullSelectorFit localThresholds exSk2 (95/100) exX2 exY [Equiv.swap 0 1, Equiv.swap 0 2] exRs (fun _ => exRs) with
    | .ok f => (match f.plot with
      | .ok ((bars, green, red), box) => decide (bars = [(0, 200/3), (1, 0)] ∧ green = [] ∧ red = [(0, 200/3)] ∧ box = [(0, 2/3), (0, 2/3), (1, 0), (1, 0)])
      | .error _ => false)
    | .error _ => false) = true := by
  constructor <;> decide +kernel

/-- C100, an example with a point of each colour. -/
example : plotAgainstThresholds [((0 : ℕ), (1/2 : ℚ)), (2, 1/10)] [(0, 1/5), (1, 0), (2, 1/10)] = .ok ([(0, 20), (1, 0), (2, 10)], [(0, 50)], [(2, 10)]) := by
  decide +kernel

end ex

end Bart
