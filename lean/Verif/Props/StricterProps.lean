import Verif.Props.GlobalThresholdProps
import Verif.Props.SelectionProps

/-! A higher percentile never selects more features: C156. -/

set_option linter.unusedSectionVars false

namespace Bart
open Spec
variable {K : Type} [Field K] [LinearOrder K] [IsStrictOrderedRing K] [FloorRing K]

/-! ### percentiles -/

theorem sorted_getD_mono {a : List K} (ha : a.Pairwise (· ≤ ·)) {i j : Nat} (hij : i ≤ j) (hj : j < a.length) : a.getD i 0 ≤ a.getD j 0 := by
  have hi : i < a.length := lt_of_le_of_lt hij hj
  rw [List.getD_eq_getElem?_getD, List.getD_eq_getElem?_getD, List.getElem?_eq_getElem hi, List.getElem?_eq_getElem hj, Option.getD_some, Option.getD_some]
  rcases Nat.lt_or_ge i j with h | h
  · exact List.pairwise_iff_getElem.1 ha _ _ hi hj h
  · have : i = j := by omega
    subst this; exact le_refl _

/-- A higher percentile is not smaller. -/
theorem percentile_mono_arg {l : List K} {q q' s t : K} (h : q ≤ q') (hs : percentile l q = .ok s) (ht : percentile l q' = .ok t) : s ≤ t := by
  unfold percentile at hs ht
  by_cases c1 : q < 0 ∨ 100 < q
  · rw [if_pos c1] at hs; cases hs
  by_cases c1' : q' < 0 ∨ 100 < q'
  · rw [if_pos c1'] at ht; cases ht
  rw [if_neg c1] at hs
  rw [if_neg c1'] at ht
  by_cases c2 : l.length = 0
  · rw [if_pos c2] at hs; cases hs
  rw [if_neg c2] at hs ht
  push Not at c1 c1'
  injection hs with hs
  injection ht with ht
  have hlen : (l.insertionSort (· ≤ ·)).length = l.length := (List.perm_insertionSort _ _).length_eq
  have hsort : (l.insertionSort (· ≤ ·)).Pairwise (· ≤ ·) := List.pairwise_insertionSort _ _
  have hpos : (0 : K) ≤ (l.length : K) - 1 := by
    have : (1 : K) ≤ l.length := by exact_mod_cast Nat.pos_of_ne_zero c2
    linarith
  have hv0 : 0 ≤ q / 100 * ((l.length : K) - 1) := mul_nonneg (div_nonneg c1.1 (by norm_num)) hpos
  have hvv : q / 100 * ((l.length : K) - 1) ≤ q' / 100 * ((l.length : K) - 1) := mul_le_mul_of_nonneg_right (by linarith) hpos
  have hv1 : q' / 100 * ((l.length : K) - 1) ≤ (l.length : K) - 1 := by
    have : q' / 100 ≤ 1 := by rw [div_le_one (by norm_num)]; exact c1'.2
    nlinarith
  generalize q / 100 * ((l.length : K) - 1) = v at hs hv0 hvv
  generalize q' / 100 * ((l.length : K) - 1) = v' at ht hvv hv1
  generalize l.insertionSort (· ≤ ·) = a at hs ht hlen hsort
  have cast : ∀ x : K, 0 ≤ x → ((⌊x⌋.toNat : ℕ) : K) = (⌊x⌋ : K) := by
    intro x hx
    have : ((⌊x⌋.toNat : ℤ) : K) = (⌊x⌋ : K) := by rw [Int.toNat_of_nonneg (Int.floor_nonneg.2 hx)]
    exact_mod_cast this
  have hii : ⌊v⌋.toNat ≤ ⌊v'⌋.toNat := Int.toNat_le_toNat (Int.floor_mono hvv)
  have e := cast v hv0
  have e' := cast v' (hv0.trans hvv)
  have a0 : (⌊v⌋.toNat : K) ≤ v := by rw [e]; exact Int.floor_le v
  have a1 : v < ⌊v⌋.toNat + 1 := by rw [e]; exact Int.lt_floor_add_one v
  have b0 : (⌊v'⌋.toNat : K) ≤ v' := by rw [e']; exact Int.floor_le v'
  have b1 : v' < ⌊v'⌋.toNat + 1 := by rw [e']; exact Int.lt_floor_add_one v'
  generalize ⌊v⌋.toNat = i at hs hii a0 a1
  generalize ⌊v'⌋.toNat = i' at ht hii b0 b1
  have hi' : i' < l.length := by
    have : (i' : K) < (l.length : K) := by linarith
    exact_mod_cast this
  have m1 : a.getD i 0 ≤ a.getD (min (i + 1) (l.length - 1)) 0 := sorted_getD_mono hsort (by omega) (by omega)
  have m2 : a.getD i' 0 ≤ a.getD (min (i' + 1) (l.length - 1)) 0 := sorted_getD_mono hsort (by omega) (by omega)
  rw [← hs, ← ht]
  rcases Nat.lt_or_ge i i' with hlt | hge
  · have m3 : a.getD (min (i + 1) (l.length - 1)) 0 ≤ a.getD i' 0 := sorted_getD_mono hsort (by omega) (by omega)
    nlinarith [mul_nonneg (sub_nonneg.2 m2) (sub_nonneg.2 b0), mul_nonneg (sub_nonneg.2 m1) (sub_nonneg.2 a1.le)]
  · have : i = i' := le_antisymm hii hge
    subst this
    nlinarith [mul_le_mul_of_nonneg_left (sub_le_sub_right hvv (i : K)) (sub_nonneg.2 m1)]

/-! ### thresholds -/

section
variable {κ : Type}

theorem localThresholds_mono {null : List (κ × List K)} {q q' : K} (h : q ≤ q') {th th' : List (κ × K)} (e : localThresholds null q = .ok th) (e' : localThresholds null q' = .ok th') :
    List.Forall₂ (fun x y => x.1 = y.1 ∧ x.2 ≤ y.2) th th' := by
  have h1 := C60_local_partial e
  have h2 := C60_local_partial e'
  clear e e'
  induction h1 generalizing th' with
  | nil => cases h2; exact .nil
  | cons a _ ih =>
    cases h2 with
    | cons b hb => exact .cons ⟨a.1.trans b.1.symm, percentile_mono_arg h a.2 b.2⟩ (ih hb)

theorem localThresholds_ok {null : List (κ × List K)} {q q' : K} (h0 : 0 ≤ q') (h1 : q' ≤ 100) {th : List (κ × K)} (e : localThresholds null q = .ok th) : ∃ th', localThresholds null q' = .ok th' := by
  have h2 := C60_local_partial e
  clear e
  induction h2 with
  | nil => exact ⟨[], rfl⟩
  | @cons x y l k a _ ih =>
    obtain ⟨th', e⟩ := ih
    have hne : x.2 ≠ [] := by
      intro hx
      have := a.2
      rw [hx] at this
      unfold percentile at this
      split at this
      · cases this
      · cases this
    obtain ⟨t, _, _, _, _, et, -⟩ := percentile_spec hne h0 h1
    refine ⟨(x.1, t) :: th', ?_⟩
    unfold localThresholds at e ⊢
    rw [List.mapM_cons, et, e]
    rfl

theorem get?_mono [DecidableEq κ] {th th' : List (κ × K)} (h : List.Forall₂ (fun x y => x.1 = y.1 ∧ x.2 ≤ y.2) th th') (f : κ) :
    (Dict.get? th f = none ∧ Dict.get? th' f = none) ∨ ∃ b b', Dict.get? th f = some b ∧ Dict.get? th' f = some b' ∧ b ≤ b' := by
  induction h with
  | nil => exact Or.inl ⟨rfl, rfl⟩
  | @cons x y l k a _ ih =>
    obtain ⟨x1, x2⟩ := x
    obtain ⟨y1, y2⟩ := y
    obtain ⟨rfl, h2⟩ := a
    unfold Dict.get?
    by_cases hx : x1 = f
    · simp only [hx, if_true]; exact Or.inr ⟨_, _, rfl, rfl, h2⟩
    · simp only [hx, if_false]; exact ih

end

theorem isKept_mono {κ : Type} [LinearOrder κ] {props th th' : List (κ × K)} (h : List.Forall₂ (fun x y => x.1 = y.1 ∧ x.2 ≤ y.2) th th') {bs : List Bool} (e : isKept props th = .ok bs) :
    ∃ bs', isKept props th' = .ok bs' ∧ List.Forall₂ (fun b b' => b' = true → b = true) bs bs' := by
  unfold isKept at e ⊢
  generalize (Dict.keys props).insertionSort (· ≤ ·) = ks at e ⊢
  have h1 := mapM_forall₂ e
  clear e
  induction h1 with
  | nil => exact ⟨[], rfl, .nil⟩
  | @cons f b l k a _ ih =>
    obtain ⟨bs', e, hb⟩ := ih
    rcases get?_mono h f with ⟨g1, -⟩ | ⟨c, c', g1, g2, hc⟩
    · cases g : Dict.get? props f <;> rw [g, g1] at a <;> cases a
    · cases g : Dict.get? props f with
      | none => rw [g, g1] at a; cases a
      | some z =>
        rw [g, g1] at a
        injection a with a
        refine ⟨decide (c' < z) :: bs', ?_, .cons ?_ hb⟩
        · rw [List.mapM_cons, g, g2, e]; rfl
        · intro hz
          rw [← a]
          exact decide_eq_true (hc.trans_lt (of_decide_eq_true hz))

/-! ### C156 -/

section
variable [MathFns K] {n p : Nat}

/-- C156: with a higher percentile `SelectNullDistributionThreshold`, fitted with the same draws, keeps no feature that it would not have kept before. -/
theorem C156_selector {s : SkModel K p} {q q' : K} (hq : q ≤ q') (h1 : q' ≤ 100) {X : Fin n → Fin p → Fl K} {y : Fin n → K} {perms : List (Equiv.Perm (Fin n))} {rs : Nat → Rand K} {rs' : Nat → Nat → Rand K}
    {f : NullSelector K p} (h0 : 0 ≤ q) (h : nullSelectorFit localThresholds s q X y perms rs rs' = .ok f) {bs : List Bool} (hb : f.mask = .ok bs) :
    ∃ f' bs', nullSelectorFit localThresholds s q' X y perms rs rs' = .ok f' ∧ f'.mask = .ok bs' ∧ f'.featureProportions = f.featureProportions ∧ bs'.length = bs.length ∧
      ∀ i : Nat, bs'[i]? = some true → bs[i]? = some true := by
  unfold nullSelectorFit at h ⊢
  cases e1 : s.fit X y rs with
  | error a => rw [e1] at h; cases h
  | ok s1 =>
    rw [e1] at h
    simp only at h ⊢
    cases e2 : nullFeatureSplitProportions s1 X y perms rs' with
    | error a => rw [e2] at h; cases h
    | ok z =>
      obtain ⟨null, s2⟩ := z
      rw [e2] at h
      simp only at h ⊢
      cases e3 : localThresholds null q with
      | error a => rw [e3] at h; cases h
      | ok th =>
        rw [e3] at h
        simp only at h
        obtain ⟨th', e3'⟩ := localThresholds_ok (h0.trans hq) h1 e3
        rw [e3']
        simp only
        cases e4 : s2.featureSplitProportions none with
        | error a => rw [e4] at h; cases h
        | ok d =>
          rw [e4] at h
          injection h with h
          subst h
          obtain ⟨bs', e5, hf⟩ := isKept_mono (localThresholds_mono hq e3 e3') hb
          refine ⟨_, bs', rfl, e5, rfl, hf.length_eq.symm, ?_⟩
          intro i hi
          obtain ⟨hi1, hi2⟩ := List.getElem?_eq_some_iff.1 hi
          have hi3 : i < bs.length := by rw [hf.length_eq]; exact hi1
          have := hf.get hi3 hi1
          simp only [List.get_eq_getElem] at this
          rw [List.getElem?_eq_getElem hi3, this hi2]

end

/-- C156 for the functions: `kept_features` with the `local_thresholds` of a higher percentile keeps nothing new. -/
theorem C156_kept {κ : Type} [LinearOrder κ] {null : List (κ × List K)} {q q' : K} (h : q ≤ q') {th th' props : List (κ × K)} (e : localThresholds null q = .ok th) (e' : localThresholds null q' = .ok th')
    {ks : List κ} (hk : keptFeatures props th = .ok ks) : ∃ ks', keptFeatures props th' = .ok ks' ∧ ks'.Sublist ks := by
  unfold keptFeatures at hk ⊢
  cases e1 : isKept props th with
  | error a => rw [e1] at hk; cases hk
  | ok bs =>
    rw [e1] at hk
    injection hk with hk
    obtain ⟨bs', e2, hf⟩ := isKept_mono (localThresholds_mono h e e') e1
    refine ⟨_, by rw [e2], ?_⟩
    rw [← hk]
    generalize (Dict.keys props).insertionSort (· ≤ ·) = l
    clear e1 e2 hk
    induction hf generalizing l with
    | nil => simp
    | @cons b b' bs bs' hb _ ih =>
      cases l with
      | nil => simp
      | cons x l =>
        rw [List.zip_cons_cons, List.zip_cons_cons]
        have := ih l
        cases b' with
        | true =>
          rw [hb rfl]
          simpa using this
        | false =>
          cases b with
          | true => simpa using this.cons x
          | false => simpa using this

/-- C156 for `SelectSplitProportionThreshold`. -/
theorem C156_proportion {p : Nat} {q q' : K} (h : q ≤ q') (props : List (Fin p × K)) (i : Nat) (hi : (selectProportionMask props q')[i]? = some true) : (selectProportionMask props q)[i]? = some true := by
  unfold selectProportionMask at hi ⊢
  rw [List.getElem?_map, Option.map_eq_some_iff] at hi ⊢
  obtain ⟨x, hx, hd⟩ := hi
  exact ⟨x, hx, decide_eq_true (h.trans_lt (of_decide_eq_true hd))⟩

section ex
attribute [local instance] exFns

/-- C156, the examples: with percentile 0 a feature is kept that is not kept with 95; the selector works for both. -/
example : localThresholds [(0, [1/4, 3/4, 0]), (1, [1/2, 1/4, 1])] (0 : ℚ) = .ok [((0 : ℕ), 0), (1, 1/4)] ∧ localThresholds [(0, [1/4, 3/4, 0]), (1, [1/2, 1/4, 1])] (50 : ℚ) = .ok [((0 : ℕ), 1/4), (1, 1/2)] ∧
    keptFeatures [((0 : ℕ), (2/3 : ℚ)), (1, 1/3)] [(0, 0), (1, 1/4)] = .ok [0, 1] ∧ keptFeatures [((0 : ℕ), (2/3 : ℚ)), (1, 1/3)] [(0, 1/4), (1, 1/2)] = .ok [0] ∧
    selectProportionMask [((0 : Fin 2), (2/3 : ℚ)), (1, 1/3)] (1/5) = [true, true] ∧ selectProportionMask [((0 : Fin 2), (2/3 : ℚ)), (1, 1/3)] (1/2) = [true, false] := by
  decide +kernel

example : (match nullSelectorFit localThresholds exSk2 (95/100) exX2 exY [Equiv.swap 0 1, Equiv.swap 0 2] exRs (fun _ => exRs), nullSelectorFit localThresholds exSk2 95 exX2 exY [Equiv.swap 0 1, Equiv.swap 0 2] exRs (fun _ => exRs) with
    | .ok f, .ok f' => f.mask.isOk && f'.mask.isOk
    | _, _ => false) = true := by
  decide +kernel

end ex

end Bart
