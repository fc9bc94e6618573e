import Verif.Props.FeatureProps

/-! Feature selection and permutation importance: C56, C59, C61, C71; examples for C56 - C61. -/

set_option linter.unusedSectionVars false

namespace Bart
open Spec
variable {K : Type} [Field K] [LinearOrder K] [IsStrictOrderedRing K] {n p : Nat} {X : Fin n → Fin p → Fl K}
variable [MathFns K] [FloorRing K]

/-! ### C59 -/

/-- C59, the mask of `SelectSplitProportionThreshold`: one entry for each column on which some stored tree has a split, in increasing order of the columns. -/
theorem C59_mask_partial (hX : NoNan X) {s s' : SkModel K p} (hp1 : s.pGrow ≠ 0) (hp2 : s.pPrune ≠ 0) {y : Fin n → K} {rs : Nat → Rand K} {props : List (Fin p × K)}
    (h : selectProportionFit s X y rs = .ok (s', props)) (threshold : K) :
    ∃ (c : Combined K p) (Ms : List (BModel K n p)), s'.samples = some c ∧ Show c.models Ms ∧ (∀ M ∈ Ms, ReachableModel X M ∧ M.trees.length = s.nTrees) ∧
      selectProportionMask props threshold = ((List.finRange p).filter (fun j => decide (0 < totalDecisionsOn (treesOf Ms) j))).map
        (fun j => decide (threshold < (2 * totalDecisionsOn (treesOf Ms) j : K) / (totalNodes (treesOf Ms) : K))) ∧
      ((selectProportionMask props threshold).length = p ↔ ∀ j, 0 < totalDecisionsOn (treesOf Ms) j) := by
  unfold selectProportionFit at h
  split at h
  · cases h
  · next s1 e1 =>
    split at h
    · cases h
    · next d e2 =>
      injection h with h; injection h with h1 h2; subst h1 h2
      obtain ⟨c, Ms, k1, k2, k3, k4, k5⟩ := C57_fit hX hp1 hp2 e1
      rw [k5] at e2
      injection e2 with e2; subst e2
      obtain ⟨c1, c2, c3⟩ := count_flatMap_treeVars hX k4
      have hs := splitVariables_show k2
      have hmask : selectProportionMask (featureSplitProportions c.models none) threshold = ((List.finRange p).filter (fun j => decide (0 < totalDecisionsOn (treesOf Ms) j))).map
          (fun j => decide (threshold < (2 * totalDecisionsOn (treesOf Ms) j : K) / (totalNodes (treesOf Ms) : K))) := by
        rw [featureSplitProportions_eq, Option.getD_none, Dict.foldl_set_nodup _ _ _ ((List.nodup_finRange p).filter _) (by simp [Dict.keys])]
        unfold selectProportionMask
        rw [List.nil_append, List.map_map]
        have hf : (fun j : Fin p => (splitVariables c.models).contains (some j)) = fun j => decide (0 < totalDecisionsOn (treesOf Ms) j) := by
          funext j
          rw [Bool.eq_iff_iff, List.contains_iff_mem, decide_eq_true_iff, ← List.count_pos_iff, hs, c1]
          omega
        rw [hf]
        apply List.map_congr_left
        intro j _
        simp only [Function.comp_apply, hs, c1, c3, Nat.cast_mul, Nat.cast_ofNat]
      refine ⟨c, Ms, k1, k2, k3, hmask, ?_⟩
      rw [hmask, List.length_map]
      have hl : (List.finRange p).length = p := List.length_finRange
      constructor
      · intro hlen j
        have := List.filter_eq_self.1 (List.filter_sublist.eq_of_length (hlen.trans hl.symm) : (List.finRange p).filter (fun j => decide (0 < totalDecisionsOn (treesOf Ms) j)) = _) j (by simp)
        simpa using this
      · intro hall
        rw [List.filter_eq_self.2 (fun j _ => by simpa using hall j)]
        exact hl

/-- C72: a decision node of a model that the sampler has worked on separates training rows: of the rows in the node at least one is at most the cut and at least one is above it. -/
theorem C72_splits_separate (hX : NoNan X) (hn : 0 < n) {m : BModel K n p} (h : ReachableModel X m) {t : Tree K n p} (ht : t ∈ m.trees) {i : NodeId} (hi : i ∈ t.decisionNodes) :
    ∃ j v, rule t.heap i = some (j, v) ∧ (∃ r, t.heap.inSample (t.heap.node i).split r = true ∧ Fl.le (X r j) v = true) ∧
      ∃ r, t.heap.inSample (t.heap.node i).split r = true ∧ Fl.gt (X r j) v = true := by
  obtain ⟨y, hI⟩ := h.inv hX hn
  obtain ⟨y', fl, hG, -⟩ := hI.fitted t ht
  obtain ⟨s, hT⟩ := hG.inv
  have his : i ∈ s.ids := s.decisions_subset (hT.mem_decisionNodes.1 hi)
  obtain ⟨u, hu, hur⟩ := Shape.exists_sub his
  obtain ⟨q, d, hR⟩ := hT.repr.sub hu
  have hsub := hu.ids_subset
  cases u with
  | leaf k =>
    simp only [Shape.root] at hur; subst hur
    have := hR.1
    unfold Tree.decisionNodes at hi
    rw [List.mem_filter, this] at hi
    simp at hi
  | node k l r =>
    simp only [Shape.root] at hur; subst hur
    obtain ⟨r1, r2, r3, r4, r5, cl, cr, hp, hl, hr⟩ := hR
    have hrule : rule t.heap k = some (cl.splittingVariable, cl.splittingValue) := by
      unfold rule
      rw [r2]
      simp only [hl.rootOk.combined, CombinedCondition.init]
      simp
    have child : ∀ {w : Shape} {c : SplitCondition K p} {d : Nat}, Repr X y' t.heap w (q ++ [c]) d → w.root ∈ s.ids →
        ∃ r, t.heap.inSample (t.heap.node k).split r = true ∧ sat c (X r) = true := by
      intro w c d hw hws
      obtain ⟨r, hr⟩ := hG.ne trivial w.root (hT.perm.mem_iff.2 hws)
      rw [hw.rootOk.rows, List.all_append, Bool.and_eq_true] at hr
      exact ⟨r, by rw [inSample_eq, r5.rows]; exact hr.1, by simpa using hr.2⟩
    refine ⟨_, _, hrule, ?_, ?_⟩
    · obtain ⟨r', h1, h2⟩ := child hl (hsub _ (by simp only [Shape.ids, List.mem_cons, List.mem_append]; exact Or.inr (Or.inl l.root_mem)))
      exact ⟨r', h1, by rwa [sat_le hp.opl] at h2⟩
    · obtain ⟨r', h1, h2⟩ := child hr (hsub _ (by simp only [Shape.ids, List.mem_cons, List.mem_append]; exact Or.inr (Or.inr r.root_mem)))
      refine ⟨r', h1, ?_⟩
      rw [sat_gt hp.opr, hp.var, hp.val] at h2
      exact h2

/-- A column that is constant is never split on. -/
theorem constant_unused (hX : NoNan X) (hn : 0 < n) {m : BModel K n p} (h : ReachableModel X m) {t : Tree K n p} (ht : t ∈ m.trees) {j : Fin p} (hj : ∀ r r', X r j = X r' j) :
    decisionsOn t j = 0 := by
  unfold decisionsOn
  rw [List.length_eq_zero_iff, List.filter_eq_nil_iff]
  intro i hi hc
  obtain ⟨j', v, e, ⟨r, -, h1⟩, ⟨r', -, h2⟩⟩ := C72_splits_separate hX hn h ht hi
  rw [e] at hc
  simp only [Option.map_some, Option.some.injEq, decide_eq_true_eq] at hc
  subst hc
  rw [hj r r'] at h1
  revert h1 h2
  cases X r' j' <;> cases v <;> simp [Fl.le, Fl.gt, Fl.lt] <;> intros <;> order

/-- C59 is false whenever a column is constant: the mask has fewer entries than there are columns. -/
theorem C59_refuted (hX : NoNan X) (hn : 0 < n) {s s' : SkModel K p} (hp1 : s.pGrow ≠ 0) (hp2 : s.pPrune ≠ 0) {y : Fin n → K} {rs : Nat → Rand K} {props : List (Fin p × K)}
    (h : selectProportionFit s X y rs = .ok (s', props)) {j : Fin p} (hj : ∀ r r', X r j = X r' j) (threshold : K) : (selectProportionMask props threshold).length < p := by
  obtain ⟨c, Ms, -, -, h3, h4, h5⟩ := C59_mask_partial hX hp1 hp2 h threshold
  have h0 : totalDecisionsOn (treesOf Ms) j = 0 := by
    unfold totalDecisionsOn
    rw [List.sum_eq_zero_iff]
    intro x hx
    obtain ⟨t, ht, rfl⟩ := List.mem_map.1 hx
    obtain ⟨M, hM, ht⟩ := List.mem_flatMap.1 ht
    exact constant_unused hX hn (h3 M hM).1 ht hj
  refine lt_of_le_of_ne ?_ (fun hc => ?_)
  · rw [h4, List.length_map]
    exact (List.length_filter_le _ _).trans (by simp)
  · have := h5.1 hc j
    omega

/-! ### C56 -/

theorem Dict.get?_map {κ α : Type} [DecidableEq κ] (L : κ → α) {cols : List κ} {j : κ} (h : j ∈ cols) : Dict.get? (cols.map (fun j => (j, L j))) j = some (L j) := by
  induction cols with
  | nil => simp at h
  | cons k cols ih =>
    simp only [List.map_cons, Dict.get?]
    by_cases hk : k = j
    · simp [hk]
    · rw [if_neg hk, ih]
      simpa [Ne.symm hk] using h

theorem Dict.set_map {κ α : Type} [DecidableEq κ] (L : κ → α) {cols : List κ} (hn : cols.Nodup) {j : κ} (h : j ∈ cols) (w : α) :
    Dict.set (cols.map (fun j => (j, L j))) j w = cols.map (fun k => (k, if k = j then w else L k)) := by
  induction cols with
  | nil => simp at h
  | cons k cols ih =>
    rw [List.nodup_cons] at hn
    simp only [List.map_cons, Dict.set]
    by_cases hk : k = j
    · subst hk
      rw [if_pos rfl, if_pos rfl]
      congr 1
      apply List.map_congr_left
      intro k' hk'
      have : k' ≠ k := fun e => hn.1 (e ▸ hk')
      rw [if_neg this]
    · rw [if_neg hk, if_neg hk, ih hn.2]
      simpa [Ne.symm hk] using h

theorem appendAll_spec {cols : List (Fin p)} (hn : cols.Nodup) (v : Fin p → K) : ∀ (l : List (Fin p)) (L : Fin p → List K), l.Nodup → (∀ j ∈ l, j ∈ cols) →
    appendAll (cols.map (fun j => (j, L j))) (l.map (fun j => (j, v j))) = .ok (cols.map (fun j => (j, if j ∈ l then L j ++ [v j] else L j))) := by
  intro l
  induction l with
  | nil => intro L _ _; simp [appendAll]
  | cons a l ih =>
    intro L h1 h2
    rw [List.nodup_cons] at h1
    simp only [List.map_cons, appendAll, Dict.get?_map L (h2 a (by simp)), Dict.set_map L hn (h2 a (by simp))]
    rw [ih (fun k => if k = a then L a ++ [v a] else L k) h1.2 (fun j hj => h2 j (by simp [hj]))]
    congr 1
    apply List.map_congr_left
    intro j _
    by_cases hja : j = a
    · subst hja; simp [h1.1]
    · simp [hja]

/-- The proportion that `feature_split_proportions` computes for column `j`. -/
def proportionOf (xs : List (Sample K p)) (j : Fin p) : K := ((splitVariables xs).count (some j) : K) / ((splitVariables xs).length : K)

theorem featureSplitProportions_all (xs : List (Sample K p)) : featureSplitProportions xs (some (List.finRange p)) = (List.finRange p).map (fun j => (j, proportionOf xs j)) := by
  rw [featureSplitProportions_eq, Option.getD_some, Dict.foldl_set_nodup _ _ _ (List.nodup_finRange p) (by simp [Dict.keys])]
  rfl

theorem nullLoop_spec : ∀ {fits : List (SkModel K p)} {L : Fin p → List K} {D : List (Fin p × List K)}, nullLoop ((List.finRange p).map (fun j => (j, L j))) fits = .ok D →
    ∃ cs : List (Combined K p), List.Forall₂ (fun (m : SkModel K p) c => m.samples = some c) fits cs ∧ D = (List.finRange p).map (fun j => (j, L j ++ cs.map (fun c => proportionOf c.models j))) := by
  intro fits
  induction fits with
  | nil => intro L D h; injection h with h; subst h; exact ⟨[], .nil, by simp⟩
  | cons m fits ih =>
    intro L D h
    unfold nullLoop SkModel.featureSplitProportions at h
    cases hs : m.samples with
    | none => rw [hs] at h; cases h
    | some c =>
      rw [hs] at h
      simp only [featureSplitProportions_all] at h
      rw [appendAll_spec (List.nodup_finRange p) _ _ L (List.nodup_finRange p) (fun j _ => List.mem_finRange j)] at h
      simp only [List.mem_finRange, if_true] at h
      obtain ⟨cs, k1, k2⟩ := ih h
      refine ⟨c :: cs, .cons hs k1, ?_⟩
      rw [k2]
      simp

/-- C56, what happens in `SelectNullDistributionThreshold.fit`: the proportions that are compared with the thresholds are those of the run on the last permuted target; those of the
model that was fitted to the real target are the first entries of the null distribution, and the other entries are those of all permutations but the last. -/
theorem C56_swapped_partial {method : List (Fin p × List K) → K → Except PyErr (List (Fin p × K))} {s : SkModel K p} (hk : 0 < s.nChains) {q : K} {y : Fin n → K}
    {perms : List (Equiv.Perm (Fin n))} (hne : perms ≠ []) {rs : Nat → Rand K} {rs' : Nat → Nat → Rand K} {f : NullSelector K p} (h : nullSelectorFit method s q X y perms rs rs' = .ok f) :
    ∃ (s1 : SkModel K p) (c0 : Combined K p) (cs : List (Combined K p)) (cl : Combined K p), s.fit X y rs = .ok s1 ∧ s1.samples = some c0 ∧ (cs ++ [cl]).length = perms.length ∧
      (∀ (i : Nat) (π : Equiv.Perm (Fin n)) c, perms[i]? = some π → (cs ++ [cl])[i]? = some c → ∃ os, combineChains os = .ok c ∧
        List.Forall₂ (fun r o => s1.runChain X (fun r => y (π r)) r = .ok o) ((List.range s.nChains).map (rs' i)) os) ∧
      f.featureProportions = featureSplitProportions cl.models none ∧
      f.nullDistribution = (List.finRange p).map (fun j => (j, (c0 :: cs).map (fun c => proportionOf c.models j))) := by
  unfold nullSelectorFit at h
  split at h
  · cases h
  · next s1 e1 =>
    split at h
    · cases h
    · next null s2 e2 =>
      split at h
      · cases h
      · next th e3 =>
        split at h
        · cases h
        · next d e4 =>
          injection h with h; subst h
          obtain ⟨dd, m, os0, c0, f1, f2, f3, f4⟩ := fit_spec e1
          have hn1 : s1.nChains = s.nChains := by rw [f4]
          have hsam : s1.samples = some c0 := by rw [f4]
          unfold nullFeatureSplitProportions at e2
          split at e2
          · cases e2
          · next s2' fits e5 =>
            split at e2
            · cases e2
            · next D e6 =>
              injection e2 with e2; injection e2 with e2 e2'; subst e2 e2'
              obtain ⟨groups, g1, g2, g3⟩ := C54_run_models (by rw [hn1]; exact hk) e5
              obtain ⟨t1, t2, t3, t4⟩ := C55_shifted_partial g1
              obtain ⟨cs, n1, n2⟩ := nullLoop_spec (L := fun _ => []) e6
              have hlz : (groups.zip (perms.map (fun π => (⟨n, X, fun r => y (π r)⟩ : DataSet K p)))).length = perms.length := by
                rw [List.length_zip, g2]; simp
              have hzip : ∀ (i : Nat) (π : Equiv.Perm (Fin n)), perms[i]? = some π → ∃ os, (groups.zip (perms.map (fun π => (⟨n, X, fun r => y (π r)⟩ : DataSet K p))))[i]? =
                  some (os, ⟨n, X, fun r => y (π r)⟩) ∧ List.Forall₂ (fun r o => s1.runChain X (fun r => y (π r)) r = .ok o) ((List.range s1.nChains).map (rs' i)) os := by
                intro i π hπ
                have hd : (perms.map (fun π => (⟨n, X, fun r => y (π r)⟩ : DataSet K p)))[i]? = some ⟨n, X, fun r => y (π r)⟩ := by rw [List.getElem?_map, hπ]; rfl
                obtain ⟨os, o1, -, o2⟩ := g3 i _ hd
                refine ⟨os, ?_, o2⟩
                rw [List.getElem?_zip_eq_some]
                exact ⟨o1, hd⟩
              have hlen := n1.length_eq
              rw [t1, hlz] at hlen
              cases cs with
              | nil => simp at hlen; exact absurd hlen hne
              | cons c1 cs =>
                obtain ⟨π, hπ⟩ : ∃ π, perms.getLast? = some π := by
                  cases hl : perms.getLast? with
                  | none => exact absurd (List.getLast?_eq_none_iff.1 hl) hne
                  | some π => exact ⟨π, rfl⟩
                rw [List.getLast?_eq_getElem?] at hπ
                obtain ⟨osl, ol1, ol2⟩ := hzip _ π hπ
                have hlast : (groups.zip (perms.map (fun π => (⟨n, X, fun r => y (π r)⟩ : DataSet K p)))).getLast? = some (osl, ⟨n, X, fun r => y (π r)⟩) := by
                  rw [List.getLast?_eq_getElem?, hlz]; exact ol1
                obtain ⟨cl, cl1, cl2⟩ := t4 _ _ hlast
                have hget : ∀ i : Nat, i < fits.length → ∃ m c, fits[i]? = some m ∧ (c1 :: cs)[i]? = some c ∧ m.samples = some c := by
                  intro i hi
                  have hi' : i < (c1 :: cs).length := by rw [← n1.length_eq]; exact hi
                  exact ⟨_, _, List.getElem?_eq_getElem hi, List.getElem?_eq_getElem hi', n1.get hi hi'⟩
                have hc1 : c1 = c0 := by
                  obtain ⟨m, c, k1, k2, k3⟩ := hget 0 (by rw [t1, hlz]; exact List.length_pos_iff.2 hne)
                  have := t2 m k1
                  rw [k3, hsam] at this
                  simp only [List.getElem?_cons_zero, Option.some.injEq] at k2
                  rw [k2]; injection this
                subst hc1
                refine ⟨s1, c1, cs, cl, e1, hsam, by simp only [List.length_append, List.length_cons, List.length_nil] at hlen ⊢; omega, ?_, ?_, ?_⟩
                · intro i π' c hπ' hc
                  rw [← hn1]
                  obtain ⟨os, o1, o2⟩ := hzip i π' hπ'
                  refine ⟨os, ?_, o2⟩
                  rcases Nat.lt_or_ge i cs.length with hi | hi
                  · rw [List.getElem?_append_left hi] at hc
                    simp only [List.length_cons] at hlen
                    obtain ⟨m, c', k1, k2, k3⟩ := hget (i + 1) (by rw [t1, hlz]; omega)
                    obtain ⟨c'', h1, h2⟩ := t3 i _ _ _ o1 k1
                    rw [List.getElem?_cons_succ, hc] at k2
                    injection k2 with k2; subst k2
                    rw [k3] at h2; injection h2 with h2; subst h2
                    exact h1
                  · rw [List.getElem?_append_right hi] at hc
                    have hi2 : i = perms.length - 1 := by
                      have := (List.getElem?_eq_some_iff.1 hc).1
                      simp only [List.length_cons, List.length_nil] at hlen this; omega
                    have : i - cs.length = 0 := by simp only [List.length_cons] at hlen; omega
                    rw [this] at hc
                    simp only [List.getElem?_cons_zero, Option.some.injEq] at hc
                    subst hc
                    subst hi2
                    rw [o1] at ol1
                    injection ol1 with ol1; injection ol1 with ol1 _; subst ol1
                    exact cl1
                · unfold SkModel.featureSplitProportions at e4
                  rw [cl2] at e4
                  injection e4 with e4
                  exact e4.symm
                · rw [n2]; simp

/-! ### C59 for the other selector -/

/-- C59, the mask of `SelectNullDistributionThreshold` with local thresholds: one entry for each column on which some tree of the run on the last permuted target has a split, in increasing order of the
columns, true iff the proportion exceeds the threshold; it has one entry for each column only if each column is split on. -/
theorem C59_null_mask_partial (hX : NoNan X) {s : SkModel K p} (hk : 0 < s.nChains) (hp1 : s.pGrow ≠ 0) (hp2 : s.pPrune ≠ 0) {q : K} {y : Fin n → K}
    {perms : List (Equiv.Perm (Fin n))} (hne : perms ≠ []) {rs : Nat → Rand K} {rs' : Nat → Nat → Rand K} {f : NullSelector K p}
    (h : nullSelectorFit localThresholds s q X y perms rs rs' = .ok f) :
    ∃ (cl : Combined K p) (Ms : List (BModel K n p)) (fs : List (Fin p)) (bs : List Bool), f.featureProportions = featureSplitProportions cl.models none ∧ Show cl.models Ms ∧
      (∀ M ∈ Ms, ReachableModel X M ∧ M.trees.length = s.nTrees) ∧
      f.mask = .ok bs ∧ fs.Pairwise (· < ·) ∧ (∀ j, j ∈ fs ↔ 0 < totalDecisionsOn (treesOf Ms) j) ∧ bs.length = fs.length ∧
      (∀ (i : Nat) j b, fs[i]? = some j → bs[i]? = some b → ∃ t, (j, t) ∈ f.thresholds ∧ (b = true ↔ t < (2 * totalDecisionsOn (treesOf Ms) j : K) / (totalNodes (treesOf Ms) : K))) ∧
      (bs.length = p ↔ ∀ j, 0 < totalDecisionsOn (treesOf Ms) j) := by
  obtain ⟨s1, c0, cs, cl, h1, h2, h3, h4, h5, h6⟩ := C56_swapped_partial hk hne h
  have hs1 : s1.pGrow = s.pGrow ∧ s1.pPrune = s.pPrune ∧ s1.nTrees = s.nTrees := by
    obtain ⟨d, m, os, c, -, -, -, rfl⟩ := fit_spec h1
    exact ⟨rfl, rfl, rfl⟩
  have hth : Dict.keys f.thresholds = List.finRange p := by
    have hloc : localThresholds f.nullDistribution q = .ok f.thresholds := by
      unfold nullSelectorFit at h
      split at h
      · cases h
      · split at h
        · cases h
        · split at h
          · cases h
          · next e3 =>
            split at h
            · cases h
            · injection h with h; subst h; exact e3
    have h7 := C60_local_partial hloc
    have : ∀ {a : List (Fin p × List K)} {b : List (Fin p × K)}, List.Forall₂ (fun x y => y.1 = x.1 ∧ percentile x.2 q = .ok y.2) a b → Dict.keys b = a.map Prod.fst := by
      intro a b hab
      induction hab with
      | nil => rfl
      | cons e _ ih => simp only [Dict.keys, List.map_cons] at ih ⊢; rw [e.1, ih]
    rw [this h7, h6, List.map_map]
    exact List.map_id _
  have hlast : (cs ++ [cl])[cs.length]? = some cl := by simp
  have hpl : cs.length < perms.length := by rw [← h3]; simp
  obtain ⟨os, o1, o2⟩ := h4 cs.length perms[cs.length] cl (List.getElem?_eq_getElem hpl) hlast
  obtain ⟨Ms, m1, m2, m3⟩ := chains_show hX (by rw [hs1.1]; exact hp1) (by rw [hs1.2.1]; exact hp2) o2 o1
  obtain ⟨c1, c2, c3⟩ := count_flatMap_treeVars hX m3
  have hsv := splitVariables_show m1
  have hprop : f.featureProportions = ((List.finRange p).filter (fun j => decide (0 < totalDecisionsOn (treesOf Ms) j))).map
      (fun j => (j, (2 * totalDecisionsOn (treesOf Ms) j : K) / (totalNodes (treesOf Ms) : K))) := by
    rw [h5, featureSplitProportions_eq, Option.getD_none, Dict.foldl_set_nodup _ _ _ ((List.nodup_finRange p).filter _) (by simp [Dict.keys]), List.nil_append]
    have hf : (fun j : Fin p => (splitVariables cl.models).contains (some j)) = fun j => decide (0 < totalDecisionsOn (treesOf Ms) j) := by
      funext j
      rw [Bool.eq_iff_iff, List.contains_iff_mem, decide_eq_true_iff, ← List.count_pos_iff, hsv, c1]
      omega
    rw [hf]
    apply List.map_congr_left
    intro j _
    simp only [hsv, c1, c3, Nat.cast_mul, Nat.cast_ofNat]
  have hpk : f.featureProportions.map Prod.fst = (List.finRange p).filter (fun j => decide (0 < totalDecisionsOn (treesOf Ms) j)) := by
    rw [hprop, List.map_map]; exact List.map_id _
  have hd : IsDict f.featureProportions := by
    unfold IsDict; rw [hpk]; exact (List.nodup_finRange p).filter _
  have hdt : IsDict f.thresholds := by
    have : f.thresholds.map Prod.fst = List.finRange p := hth
    unfold IsDict; rw [this]; exact List.nodup_finRange p
  obtain ⟨fs, bs, k1, -, k3, k4, k5, k6⟩ := C58_is_kept hd hdt (fun j _ => by rw [hth]; exact List.mem_finRange j)
  have hmem : ∀ j a, (j, a) ∈ f.featureProportions ↔ 0 < totalDecisionsOn (treesOf Ms) j ∧ a = (2 * totalDecisionsOn (treesOf Ms) j : K) / (totalNodes (treesOf Ms) : K) := by
    intro j a
    rw [hprop, List.mem_map]
    constructor
    · rintro ⟨j', hj', e⟩
      injection e with e1 e2; subst e1
      exact ⟨by simpa using hj', e2.symm⟩
    · rintro ⟨a1, rfl⟩; exact ⟨j, by simpa using a1, rfl⟩
  have hfs : ∀ j, j ∈ fs ↔ 0 < totalDecisionsOn (treesOf Ms) j := by
    intro j
    rw [k4]
    exact ⟨fun ⟨a, ha⟩ => ((hmem j a).1 ha).1, fun hj => ⟨_, (hmem j _).2 ⟨hj, rfl⟩⟩⟩
  refine ⟨cl, Ms, fs, bs, h5, m1, fun M hM => ⟨(m2 M hM).1, by rw [(m2 M hM).2, hs1.2.2]⟩, k1, k3, hfs, k5, ?_, ?_⟩
  · intro i j b hj hb
    obtain ⟨t, -, ht⟩ := Dict.get?_of_mem hdt (by rw [hth]; exact List.mem_finRange j : j ∈ Dict.keys f.thresholds)
    refine ⟨t, ht, ?_⟩
    rw [k6 i j b hj hb]
    constructor
    · rintro ⟨a, t', e1, e2, e3⟩
      have := (Dict.get?_eq_some hdt).2 e2
      rw [(Dict.get?_eq_some hdt).2 ht] at this; injection this with this; subst this
      rw [((hmem j a).1 e1).2] at e3
      exact e3
    · intro e
      exact ⟨_, t, (hmem j _).2 ⟨(hfs j).1 (List.mem_of_getElem? hj), rfl⟩, ht, e⟩
  · have hnd : fs.Nodup := k3.imp (fun h => ne_of_lt h)
    rw [k5]
    constructor
    · intro hlen j
      rw [← hfs]
      have hcard : fs.toFinset = Finset.univ := by
        rw [← Finset.card_eq_iff_eq_univ, List.toFinset_card_of_nodup hnd, hlen, Fintype.card_fin]
      have := Finset.mem_univ j
      rw [← hcard] at this
      simpa using this
    · intro hall
      have hcard : fs.toFinset = Finset.univ := by
        ext j; simp [(hfs j).2 (hall j)]
      rw [← List.toFinset_card_of_nodup hnd, hcard, Finset.card_univ, Fintype.card_fin]

/-- C59 is false of `SelectNullDistributionThreshold` as well: a constant column has no entry in the mask. -/
theorem C59_null_refuted (hX : NoNan X) (hn : 0 < n) {s : SkModel K p} (hk : 0 < s.nChains) (hp1 : s.pGrow ≠ 0) (hp2 : s.pPrune ≠ 0) {q : K} {y : Fin n → K}
    {perms : List (Equiv.Perm (Fin n))} (hne : perms ≠ []) {rs : Nat → Rand K} {rs' : Nat → Nat → Rand K} {f : NullSelector K p}
    (h : nullSelectorFit localThresholds s q X y perms rs rs' = .ok f) {j : Fin p} (hj : ∀ r r', X r j = X r' j) : ∃ bs, f.mask = .ok bs ∧ bs.length < p := by
  obtain ⟨cl, Ms, fs, bs, -, -, h3, h4, h5, h6, h7, -, h8⟩ := C59_null_mask_partial hX hk hp1 hp2 hne h
  have h0 : totalDecisionsOn (treesOf Ms) j = 0 := by
    unfold totalDecisionsOn
    rw [List.sum_eq_zero_iff]
    intro x hx
    obtain ⟨t, ht, rfl⟩ := List.mem_map.1 hx
    obtain ⟨M, hM, ht⟩ := List.mem_flatMap.1 ht
    exact constant_unused hX hn (h3 M hM).1 ht hj
  have hnd : fs.Nodup := h5.imp (fun h => ne_of_lt h)
  refine ⟨bs, h4, lt_of_le_of_ne ?_ (fun hc => ?_)⟩
  · rw [h7]
    simpa using hnd.length_le_card
  · have := h8.1 hc j
    omega

/-! ### C61, C71 -/

/-- The errors that `rmse` adds up: numpy's difference of the target and the prediction. -/
theorem rmse_spec {m : SkModel K p} {Z : Option (Covariates K p)} {y : List K} {v : Fl K} (h : m.rmse Z (some y) = .ok v) :
    ∃ f l, m.predict Z = .ok f ∧ npSub y f = .ok l ∧ v = MathFns.sqrt ((l.map (fun x => x ^ 2)).sum) := by
  unfold SkModel.rmse SkModel.l2Error SkModel.residuals at h
  simp only at h
  cases e : m.predict Z with
  | error a => rw [e] at h; cases h
  | ok f =>
    rw [e] at h
    simp only at h
    cases e' : npSub y f with
    | error a => rw [e'] at h; cases h
    | ok l =>
      rw [e'] at h
      injection h with h
      exact ⟨f, l, rfl, e', by rw [← h]; simp only [sq]⟩

theorem predict_length {m : SkModel K p} {Z : Covariates K p} {f : List K} (h : m.predict (some Z) = .ok f) : f.length = Z.rows := by
  unfold SkModel.predict SkModel.outOfSamplePredict at h
  simp only at h
  split at h
  · cases h
  · next d _ =>
    split at h
    · cases h
    · next c _ =>
      split at h
      · cases h
      · next l e =>
        have hl : l.length = Z.rows := by
          unfold meanRows at e
          split at e
          · cases e
          · next row rows e' =>
            injection e with e; subst e
            have : row ∈ c.models.map (fun x => List.ofFn (x.predictX Z.entry)) := by rw [e']; simp
            obtain ⟨x, -, rfl⟩ := List.mem_map.1 this
            simp
        unfold unnormalizeList at h
        split at h
        · cases h
        · injection h with h; subst h; simp [hl]

theorem npSub_spec {a b l : List K} (h : npSub a b = .ok l) : (a.length = b.length ∧ l = List.zipWith (· - ·) a b) ∨ a.length = 1 ∨ b.length = 1 := by
  unfold npSub at h
  split at h
  · next e => injection h with h; exact Or.inl ⟨e, h.symm⟩
  · split at h
    · exact Or.inr (Or.inl rfl)
    · exact Or.inr (Or.inr rfl)
    · cases h

/-- C61 is false of every model that has not been fitted (the documentation says that it need not be): with at least one run the result is a TypeError as soon as the runs themselves succeed, because
the first returned model has no samples. -/
theorem C61_refuted_unfitted {s : SkModel K p} (hk : 0 < s.nChains) (hs : s.samples = none) {y : Fin n → K} {j : Fin p} {runs : List (NullRun n)} (hr : runs ≠ []) {rs : Nat → Nat → Rand K}
    {res} (h : runModels s (runs.map (fun a => a.dataSet X y j)) rs = .ok res) : nullRmseDistribution s X y j runs rs = .error .typeError := by
  obtain ⟨s', fits⟩ := res
  obtain ⟨groups, g1, g2, -⟩ := C54_run_models hk h
  obtain ⟨a, runs, rfl⟩ := List.exists_cons_of_ne_nil hr
  rw [List.map_cons] at g1 g2
  cases groups with
  | nil => simp at g2
  | cons os groups =>
    rw [List.zip_cons_cons] at g1
    unfold fromExtracts at g1
    split at g1
    · cases g1
    · next s1 new e1 =>
      split at g1
      · cases g1
      · next s2 news e2 =>
        injection g1 with g1; injection g1 with _ g1
        obtain ⟨c, d, -, -, hnew, -⟩ := C55_from_extract_partial e1
        unfold nullRmseDistribution
        rw [h, ← g1]
        simp only [List.zip_cons_cons, nullRmses]
        have : new.rmse (some (rowsAt (permuteColumn X j a.perm) a.train)) (some (targetAt y a.test)) = .error .typeError := by
          unfold SkModel.rmse SkModel.l2Error SkModel.residuals SkModel.predict SkModel.outOfSamplePredict
          rw [hnew]
          simp only [hs]
        rw [this]

theorem nullRmses_spec {y : Fin n → K} {j : Fin p} : ∀ {l : List (SkModel K p × NullRun n)} {vs : List (Fl K)}, nullRmses X y j l = .ok vs →
    List.Forall₂ (fun (x : SkModel K p × NullRun n) v => x.1.rmse (some (rowsAt (permuteColumn X j x.2.perm) x.2.train)) (some (targetAt y x.2.test)) = .ok v) l vs := by
  intro l
  induction l with
  | nil => intro vs h; injection h with h; subst h; exact .nil
  | cons x l ih =>
    obtain ⟨m, a⟩ := x
    intro vs h
    unfold nullRmses at h
    split at h
    · cases h
    · next v e1 =>
      split at h
      · cases h
      · next vs' e2 => injection h with h; subst h; exact .cons e1 (ih e2)

/-- C61, what is compared: entry number `k` of the prediction is the one for training row number `k`, it is compared with the target of test row number `k`. In a fold the two are
never the same row. The training and the test part must be equally large (or one of them a single row), otherwise there is a ValueError. -/
theorem C61_compared_partial {s : SkModel K p} (hk : 0 < s.nChains) {y : Fin n → K} {j : Fin p} {runs : List (NullRun n)} {rs : Nat → Nat → Rand K} {vs : List (Fl K)}
    (hdis : ∀ a ∈ runs, ∀ r ∈ a.train, r ∉ a.test) (h : nullRmseDistribution s X y j runs rs = .ok vs) :
    ∃ (s' : SkModel K p) (fits : List (SkModel K p)), runModels s (runs.map (fun a => a.dataSet X y j)) rs = .ok (s', fits) ∧ fits.length = runs.length ∧ vs.length = runs.length ∧ ∀ (i : Nat) (m : SkModel K p) (a : NullRun n) v, fits[i]? = some m → runs[i]? = some a → vs[i]? = some v →
      ∃ f l : List K, m.predict (some ⟨a.train.length, fun k => permuteColumn X j a.perm a.train[k]⟩) = .ok f ∧ f.length = a.train.length ∧
        v = MathFns.sqrt ((l.map (fun x => x ^ 2)).sum) ∧ (a.train.length = a.test.length ∨ a.train.length = 1 ∨ a.test.length = 1) ∧
        (a.train.length = a.test.length → l.length = a.test.length ∧
          ∀ (k : Nat) (h1 : k < l.length) (h2 : k < f.length) (h3 : k < a.test.length) (h4 : k < a.train.length), l[k] = y a.test[k] - f[k] ∧ a.test[k] ≠ a.train[k]) := by
  unfold nullRmseDistribution at h
  split at h
  · cases h
  · next s' fits e =>
    obtain ⟨groups, g1, g2, -⟩ := C54_run_models hk e
    obtain ⟨t1, -⟩ := C55_shifted_partial g1
    have hlen : fits.length = runs.length := by rw [t1, List.length_zip, g2]; simp
    have hv := nullRmses_spec h
    have hvl : vs.length = runs.length := by rw [← hv.length_eq, List.length_zip, hlen]; simp
    refine ⟨s', fits, e, hlen, hvl, ?_⟩
    intro i m a v hm ha hvi
    have hz : (fits.zip runs)[i]? = some (m, a) := by rw [List.getElem?_zip_eq_some]; exact ⟨hm, ha⟩
    obtain ⟨hi1, ez⟩ := List.getElem?_eq_some_iff.1 hz
    obtain ⟨hi2, ev⟩ := List.getElem?_eq_some_iff.1 hvi
    have hr := hv.get hi1 hi2
    simp only [List.get_eq_getElem, ez, ev] at hr
    obtain ⟨f, l, k1, k2, k3⟩ := rmse_spec hr
    have hfl : f.length = a.train.length := predict_length k1
    refine ⟨f, l, k1, hfl, k3, ?_, ?_⟩
    · rcases npSub_spec k2 with ⟨h1, -⟩ | h1 | h1
      · left; rw [← hfl, ← h1]; simp [targetAt]
      · right; right; simpa [targetAt] using h1
      · right; left; omega
    · intro heq
      have h0 : (targetAt y a.test).length = f.length := by simp [targetAt, hfl, heq]
      have hl : l = List.zipWith (· - ·) (targetAt y a.test) f := by
        unfold npSub at k2; rw [if_pos h0] at k2; injection k2 with k2; exact k2.symm
      refine ⟨by rw [hl]; simp [targetAt, hfl, heq], ?_⟩
      intro k h1 h2 h3 h4
      refine ⟨by subst hl; simp [targetAt], fun hc => ?_⟩
      exact hdis a (List.mem_of_getElem? ha) _ (List.getElem_mem h4) (hc ▸ List.getElem_mem h3)

/-- A fit depends on the settings only. -/
theorem fit_settings (s : SkModel K p) (d : Option (Σ n, Data K n p)) (m : Option (Σ n, BModel K n p)) (c : Option (Combined K p)) (e : Option (List (ChainOut K p))) (y : Fin n → K) (rs : Nat → Rand K) :
    SkModel.fit { s with data := d, model := m, samples := c, extract := e } X y rs = s.fit X y rs := by
  have hc : ∀ l : List (Rand K), SkModel.runChains { s with data := d, model := m, samples := c, extract := e } X y l = s.runChains X y l := by
    intro l
    induction l with
    | nil => rfl
    | cons r l ih =>
      unfold SkModel.runChains
      rw [ih]
      rfl
  unfold SkModel.fit
  rw [hc]
  rfl

/-- C71: `original_model_rmse` returns one value for each fold: a model fitted to the training rows, compared on the test rows; prediction number `k` is that of test row number `k` and it is compared
with the target of the same row. The model that is fitted has the settings of the given one and starts afresh. -/
theorem C71_original_rmse {y : Fin n → K} {rs : Nat → Nat → Rand K} : ∀ {folds : List (List (Fin n) × List (Fin n))} {i : Nat} {s : SkModel K p} {vs : List (Fl K)},
    originalModelRmse X y rs i s folds = .ok vs → vs.length = folds.length ∧ ∀ (k : Nat) train test v, folds[k]? = some (train, test) → vs[k]? = some v →
      ∃ (m : SkModel K p) (f l : List K), s.fit (fun r : Fin train.length => X train[r]) (fun r => y train[r]) (rs (i + k)) = .ok m ∧ m.predict (some ⟨test.length, fun r => X test[r]⟩) = .ok f ∧
        v = MathFns.sqrt ((l.map (fun x => x ^ 2)).sum) ∧ f.length = test.length ∧ l.length = test.length ∧
        ∀ (r : Nat) (h1 : r < l.length) (h2 : r < f.length) (h3 : r < test.length), l[r] = y test[r] - f[r] := by
  intro folds
  induction folds with
  | nil => intro i s vs h; injection h with h; subst h; simp
  | cons fold folds ih =>
    obtain ⟨train, test⟩ := fold
    intro i s vs h
    unfold originalModelRmse at h
    split at h
    · cases h
    · next s1 e1 =>
      split at h
      · cases h
      · next v e2 =>
        split at h
        · cases h
        · next vs' e3 =>
          injection h with h; subst h
          obtain ⟨i1, i2⟩ := ih e3
          refine ⟨by simp [i1], ?_⟩
          intro k tr te w hk hw
          cases k with
          | zero =>
            simp only [List.getElem?_cons_zero, Option.some.injEq, Prod.mk.injEq] at hk hw
            obtain ⟨rfl, rfl⟩ := hk
            subst hw
            obtain ⟨f, l, k1, k2, k3⟩ := rmse_spec e2
            have hfl : f.length = test.length := predict_length k1
            have h0 : (targetAt y test).length = f.length := by simp [targetAt, hfl]
            have hl : l = List.zipWith (· - ·) (targetAt y test) f := by
              unfold npSub at k2; rw [if_pos h0] at k2; injection k2 with k2; exact k2.symm
            refine ⟨s1, f, l, e1, k1, k3, hfl, by rw [hl]; simp [targetAt, hfl], ?_⟩
            intro r h1 h2 h3
            subst hl; simp [targetAt]
          | succ k =>
            simp only [List.getElem?_cons_succ] at hk hw
            obtain ⟨m, f, l, k1, k2⟩ := i2 k tr te w hk hw
            refine ⟨m, f, l, ?_, k2⟩
            obtain ⟨d, mm, os, c, -, -, -, f4⟩ := fit_spec e1
            rw [show i + (k + 1) = i + 1 + k by omega, ← k1, f4]
            exact (fit_settings ..).symm

/-! ### examples -/

section ex
attribute [local instance] exFns

/-- C57, the example: in each of the four samples both trees have one split, so two of three nodes were created by it. -/
example : (match exFit true with
    | .ok s => decide (s.featureSplitProportions none = .ok [(0, 2/3)] ∧ s.featureSplitProportions (some [0]) = .ok [(0, 2/3)])
    | .error _ => false) = true := by
  decide +kernel

/-- Three rows with a second column that is constant. -/
def exX2 : Fin 3 → Fin 2 → Fl ℚ := fun r v => if v = 0 then .fin (r.val + 1) else .fin 0

/-- The settings of the example for two columns. -/
def exSk2 : SkModel ℚ 2 := ⟨2, 2, 1, 1, 3, 1, 1/2, 1/2, 1, true, true, 1/2, 1/2, none, none, none, none⟩

/-- C59, the example: two columns, one entry in the mask. -/
example : (match selectProportionFit exSk2 exX2 exY exRs with
    | .ok (_, props) => decide (selectProportionMask props (1/5) = [true])
    | .error _ => false) = true ∧ NoNan exX2 ∧ ∀ r r', exX2 r 1 = exX2 r' 1 := by
  unfold NoNan
  decide +kernel

/-- C59 for the other selector, the example: two columns, one entry in the mask. -/
example : (match nullSelectorFit localThresholds exSk2 (95/100) exX2 exY [Equiv.swap 0 1, Equiv.swap 0 2] exRs (fun _ => exRs) with
    | .ok f => decide (f.mask = .ok [false] ∧ f.featureProportions.length = 1 ∧ f.thresholds.length = 2)
    | .error _ => false) = true := by
  decide +kernel

/-- Draws with which no proposal is accepted. -/
def exRandsReject : Rand ℚ := ⟨List.replicate 20 .grow, List.replicate 30 0, List.replicate 20 100, List.replicate 30 1, [2, 3, 4, 5, 6]⟩

def exNullFit : Except PyErr (NullSelector ℚ 1) :=
  nullSelectorFit localThresholds (exSk true) (95/100) exX exY [Equiv.swap 0 1, Equiv.swap 0 2] exRs (fun i j => if i = 0 then exRs j else exRandsReject)

/-- C56 is false: a run in which the model fitted to the real target has 2/3 of its nodes from splits on the column, while the selector believes that the column is never used, since
in the run on the second permuted target it is not. (The functions log and sqrt are stand-ins on the rationals here; what happens in general is `C56_swapped_partial`.) -/
theorem C56_refuted : ∃ f s1, exNullFit = .ok f ∧ (exSk true).fit exX exY exRs = .ok s1 ∧ s1.featureSplitProportions none = .ok [(0, 2/3)] ∧ f.featureProportions = [] ∧
    f.nullDistribution = [(0, [2/3, 2/3])] ∧ f.mask = .ok [] := by
  have h : (match exNullFit, (exSk true).fit exX exY exRs with
    | .ok f, .ok s1 => decide (s1.featureSplitProportions none = .ok [(0, 2/3)] ∧ f.featureProportions = [] ∧ f.nullDistribution = [(0, [2/3, 2/3])] ∧ f.mask = .ok [])
    | _, _ => false) = true := by decide +kernel
  cases e1 : exNullFit with
  | error a => rw [e1] at h; simp at h
  | ok f =>
    cases e2 : (exSk true).fit exX exY exRs with
    | error a => rw [e1, e2] at h; simp at h
    | ok s1 =>
      rw [e1, e2] at h
      simp only [decide_eq_true_eq] at h
      exact ⟨f, s1, rfl, rfl, h⟩

def exX6 : Fin 6 → Fin 1 → Fl ℚ := fun r _ => .fin r.val
def exY6 : Fin 6 → ℚ := fun r => r.val

/-- Two folds. -/
def exRuns : List (NullRun 6) := [⟨[0, 1, 2], [3, 4, 5], 1⟩, ⟨[3, 4, 5], [0, 1, 2], 1⟩]

/-- C61, the examples: a model that has not been fitted, one that has, and the values of `original_model_rmse`. -/
example : (match runModels (exSk true) (exRuns.map (fun a => a.dataSet exX6 exY6 0)) (fun _ => exRs) with
      | .ok _ => true
      | .error _ => false) = true ∧ nullRmseDistribution (exSk true) exX6 exY6 0 exRuns (fun _ => exRs) = .error .typeError ∧
    (match (exSk true).fit exX6 exY6 exRs with
      | .ok s => (nullRmseDistribution s exX6 exY6 0 exRuns (fun _ => exRs)).isOk
      | .error _ => false) = true ∧ (∀ a ∈ exRuns, ∀ r ∈ a.train, r ∉ a.test) ∧
    (originalModelRmse exX6 exY6 (fun _ => exRs) 0 (exSk true) [([0, 1, 2], [3, 4, 5]), ([3, 4, 5], [0, 1, 2])]).isOk = true := by
  refine ⟨by decide +kernel, by decide +kernel, by decide +kernel, by decide, by decide +kernel⟩

end ex

end Bart
