import Verif.Props.SelectionProps
import Verif.Spec.Selection

/-! What `SelectNullDistributionThreshold` compares, in terms of the shares of the single runs; and counting of ranks. For C143. -/

set_option linter.unusedSectionVars false

namespace Bart
open Spec
variable {K : Type} [Field K] [LinearOrder K] [IsStrictOrderedRing K] [MathFns K] [FloorRing K] {n p : Nat} {X : Fin n → Fin p → Fl K}

theorem forall₂_unique {α β : Type} {R : α → β → Prop} (hR : ∀ a b b', R a b → R a b' → b = b') : ∀ {l : List α} {l1 l2 : List β}, List.Forall₂ R l l1 → List.Forall₂ R l l2 → l1 = l2 := by
  intro l l1 l2 h
  induction h generalizing l2 with
  | nil => intro h2; cases h2; rfl
  | cons e _ ih => intro h2; cases h2 with | cons e2 h2 => rw [hR _ _ _ e e2, ih h2]

theorem runChains_of_forall₂ {s : SkModel K p} {y : Fin n → K} : ∀ {rs : List (Rand K)} {os : List (ChainOut K p)}, List.Forall₂ (fun r o => s.runChain X y r = .ok o) rs os → s.runChains X y rs = .ok os := by
  intro rs os h
  induction h with
  | nil => rfl
  | cons e _ ih => unfold SkModel.runChains; rw [e]; simp only [ih]

theorem runShare_unique {s : SkModel K p} {y : Fin n → K} {j : Fin p} {a : Equiv.Perm (Fin n) × (Nat → Rand K)} {v v' : K} (h : RunShare s X y j a v) (h' : RunShare s X y j a v') : v = v' := by
  obtain ⟨f, e1, e2⟩ := h
  obtain ⟨f', e1', e2'⟩ := h'
  rw [e1] at e1'; injection e1' with e1'; subst e1'
  rw [e2] at e2'; injection e2' with e2'; injection e2' with e2' _; injection e2'

theorem featureSplitProportions_one (xs : List (Sample K p)) (j : Fin p) : featureSplitProportions xs (some [j]) = [(j, proportionOf xs j)] := by
  rw [featureSplitProportions_eq, Option.getD_some, Dict.foldl_set_nodup _ _ _ (List.nodup_singleton j) (by simp [Dict.keys])]
  rfl

theorem chains_fit {s : SkModel K p} (hk : 0 < s.nChains) {y : Fin n → K} {rs : Nat → Rand K} {os : List (ChainOut K p)} {c : Combined K p}
    (h : List.Forall₂ (fun r o => s.runChain X y r = .ok o) ((List.range s.nChains).map rs) os) (hc : combineChains os = .ok c) : ∃ f, s.fit X y rs = .ok f ∧ f.samples = some c := by
  have h1 := runChains_of_forall₂ h
  unfold SkModel.fit
  cases e : s.constructModel X y with
  | error er =>
    obtain ⟨N, hN⟩ : ∃ N, s.nChains = N + 1 := ⟨s.nChains - 1, by omega⟩
    rw [hN, List.range_succ_eq_map] at h
    cases h with
    | cons e1 _ => unfold SkModel.runChain at e1; rw [e] at e1; cases e1
  | ok q =>
    obtain ⟨d, m⟩ := q
    simp only [h1, hc]
    exact ⟨_, rfl, rfl⟩

theorem nChains_pos {s f : SkModel K p} {y : Fin n → K} {rs : Nat → Rand K} (h : s.fit X y rs = .ok f) : 0 < s.nChains := by
  by_contra h0
  have h0 : s.nChains = 0 := by omega
  obtain ⟨d, m, os, c, e1, e2, e3, -⟩ := fit_spec h
  rw [h0] at e2
  cases e2
  unfold combineChains at e3; cases e3

theorem proportionOf_pos (xs : List (Sample K p)) (j : Fin p) : (splitVariables xs).contains (some j) = true ↔ 0 < proportionOf xs j := by
  unfold proportionOf
  rw [List.contains_iff_mem, ← List.count_pos_iff]
  constructor
  · intro h
    have h2 : 0 < (splitVariables xs).length := lt_of_lt_of_le h List.count_le_length
    exact div_pos (by exact_mod_cast h) (by exact_mod_cast h2)
  · intro h
    by_contra h0
    have : (splitVariables xs).count (some j) = 0 := by omega
    rw [this] at h; simp at h

theorem proportionOf_nonneg (xs : List (Sample K p)) (j : Fin p) : 0 ≤ proportionOf xs j := by unfold proportionOf; positivity

variable {A : Type} [Fintype A] {run : A → Equiv.Perm (Fin n) × (Nat → Rand K)}

/-- What is compared for column `j`: the share of the last run, with the percentile of the share of the fit to the real target and the shares of the other runs. -/
theorem selector_runs {s : SkModel K p} {q : K} {y : Fin n → K} {rs : Nat → Rand K} {m : Nat} {ω : Fin (m + 1) → A} {f : NullSelector K p} (h : selectorFit s q X y rs run ω = .ok f) (j : Fin p) :
    ∃ (u : Fin (m + 1) → K) (r t : K), (∀ k, RunShare s X y j (run (ω k)) (u k)) ∧ (∀ k, 0 ≤ u k) ∧ percentile (r :: List.ofFn (fun k : Fin m => u k.castSucc)) q = .ok t ∧
      ∃ l, keptFeatures f.featureProportions f.thresholds = .ok l ∧ (j ∈ l ↔ 0 < u (Fin.last m) ∧ t < u (Fin.last m)) := by
  have hk : 0 < s.nChains := by
    unfold selectorFit nullSelectorFit at h
    split at h
    · cases h
    · next e => exact nChains_pos e
  have hloc : localThresholds f.nullDistribution q = .ok f.thresholds := by
    unfold selectorFit nullSelectorFit at h
    split at h
    · cases h
    · split at h
      · cases h
      · split at h
        · cases h
        · next e3 =>
          split at h
          · cases h
          · injection h with h; subst h; exact e3
  unfold selectorFit at h
  obtain ⟨s1, c0, cs, cl, h1, h2, h3, h4, h5, h6⟩ := C56_swapped_partial hk (by simp) h
  have hlen : cs.length = m := by simp only [List.length_append, List.length_ofFn, List.length_cons, List.length_nil] at h3; omega
  have hget : ∀ k : Fin (m + 1), k.val < (cs ++ [cl]).length := fun k => by simp only [List.length_append, List.length_cons, List.length_nil]; omega
  obtain ⟨dd, mm, os0, c00, -, -, -, hs1⟩ := fit_spec h1
  have hshare : ∀ k : Fin (m + 1), RunShare s X y j (run (ω k)) (proportionOf ((cs ++ [cl])[k.val]'(hget k)).models j) := by
    intro k
    obtain ⟨os, o1, o2⟩ := h4 k.val (run (ω k)).1 _ (by rw [List.getElem?_ofFn, dif_pos k.isLt]) (List.getElem?_eq_getElem (hget k))
    rw [dif_pos k.isLt] at o2
    have hn1 : s1.nChains = s.nChains := by rw [hs1]
    rw [← hn1] at o2
    obtain ⟨g, g1, g2⟩ := chains_fit (by rw [hn1]; exact hk) o2 o1
    rw [hs1, fit_settings] at g1
    refine ⟨g, g1, ?_⟩
    unfold SkModel.featureSplitProportions
    rw [g2]
    simp only [featureSplitProportions_one]
  have hnull : ∀ L, (j, L) ∈ f.nullDistribution ↔ L = (c0 :: cs).map (fun c => proportionOf c.models j) := by
    intro L
    rw [h6, List.mem_map]
    constructor
    · rintro ⟨j', -, e⟩; injection e with e1 e2; subst e1; exact e2.symm
    · rintro rfl; exact ⟨j, List.mem_finRange j, rfl⟩
  have h7 := C60_local_partial hloc
  have hkeys : f.thresholds.map Prod.fst = List.finRange p := by
    have : ∀ {a : List (Fin p × List K)} {b : List (Fin p × K)}, List.Forall₂ (fun x y => y.1 = x.1 ∧ percentile x.2 q = .ok y.2) a b → b.map Prod.fst = a.map Prod.fst := by
      intro a b hab
      induction hab with
      | nil => rfl
      | cons e _ ih => simp only [List.map_cons]; rw [e.1, ih]
    rw [this h7, h6, List.map_map]
    exact List.map_id _
  have hth : ∀ t, (j, t) ∈ f.thresholds → percentile ((c0 :: cs).map (fun c => proportionOf c.models j)) q = .ok t := by
    intro t ht
    have : ∀ {a : List (Fin p × List K)} {b : List (Fin p × K)}, List.Forall₂ (fun x y => y.1 = x.1 ∧ percentile x.2 q = .ok y.2) a b → (j, t) ∈ b → ∃ L, (j, L) ∈ a ∧ percentile L q = .ok t := by
      intro a b hab
      induction hab with
      | nil => intro h; cases h
      | @cons x z a b e _ ih =>
        intro h
        rcases List.mem_cons.1 h with h | h
        · subst h; obtain ⟨x1, x2⟩ := x; obtain ⟨e1, e2⟩ := e; simp only at e1 e2; subst e1; exact ⟨x2, by simp, e2⟩
        · obtain ⟨L, l1, l2⟩ := ih h; exact ⟨L, by simp [l1], l2⟩
    obtain ⟨L, l1, l2⟩ := this h7 ht
    rw [← (hnull L).1 l1]; exact l2
  have hdt : IsDict f.thresholds := by unfold IsDict; rw [hkeys]; exact List.nodup_finRange p
  have hprop : f.featureProportions = ((List.finRange p).filter (fun j => (splitVariables cl.models).contains (some j))).map (fun j => (j, proportionOf cl.models j)) := by
    rw [h5, featureSplitProportions_eq, Option.getD_none, Dict.foldl_set_nodup _ _ _ ((List.nodup_finRange p).filter _) (by simp [Dict.keys]), List.nil_append]
    rfl
  have hd : IsDict f.featureProportions := by
    unfold IsDict; rw [hprop, List.map_map]
    rw [show (Prod.fst ∘ fun j => (j, proportionOf cl.models j)) = id from rfl, List.map_id]
    exact (List.nodup_finRange p).filter _
  obtain ⟨l, _, _, k1, -, k3, -⟩ := C58_kept hd hdt (fun j _ => by change j ∈ f.thresholds.map Prod.fst; rw [hkeys]; exact List.mem_finRange j)
  obtain ⟨t, ht⟩ : ∃ t, (j, t) ∈ f.thresholds := by
    have : j ∈ f.thresholds.map Prod.fst := by rw [hkeys]; exact List.mem_finRange j
    obtain ⟨⟨j', t⟩, a, rfl⟩ := List.mem_map.1 this
    exact ⟨t, a⟩
  have hlast : (cs ++ [cl])[(Fin.last m).val]'(hget _) = cl := by
    simp only [Fin.val_last, ← hlen, List.getElem_concat_length]
  refine ⟨fun k => proportionOf ((cs ++ [cl])[k.val]'(hget k)).models j, proportionOf c0.models j, t, hshare, fun k => proportionOf_nonneg _ _, ?_, l, k1, ?_⟩
  · rw [← hth t ht, List.map_cons]
    congr 2
    apply List.ext_getElem
    · simp [hlen]
    · intro i i1 i2
      simp only [List.getElem_ofFn, List.getElem_map, Fin.val_castSucc]
      rw [List.getElem_append_left]
  · simp only [hlast]
    rw [k3]
    constructor
    · rintro ⟨a, t', a1, a2, a3⟩
      rw [hprop, List.mem_map] at a1
      obtain ⟨j', a4, e⟩ := a1
      injection e with e1 e2; subst e1
      have : t' = t := by
        have x1 := hth t' a2
        rw [hth t ht] at x1; injection x1 with x1; exact x1.symm
      subst this
      rw [← e2] at a3
      exact ⟨(proportionOf_pos _ _).1 (by simpa using (List.mem_filter.1 a4).2), a3⟩
    · rintro ⟨a1, a2⟩
      refine ⟨_, t, ?_, ht, a2⟩
      rw [hprop, List.mem_map]
      exact ⟨j, List.mem_filter.2 ⟨List.mem_finRange j, (proportionOf_pos _ _).2 a1⟩, rfl⟩

/-! ### ranks -/

theorem countP_ofFn {m : Nat} (u : Fin m → K) (P : K → Bool) : ((List.ofFn u).filter P).length = (Finset.univ.filter (fun k => P (u k) = true)).card := by
  rw [List.ofFn_eq_map, List.filter_map, List.length_map]
  simp [Finset.card_def, Fin.univ_def, Function.comp_def]

/-- The number of runs with a smaller share than run `k`. -/
def smaller {m : Nat} (u : Fin m → K) (k : Fin m) : Nat := (Finset.univ.filter (fun i => u i < u k)).card

/-- At most `m - d` of `m` numbers are larger than `d` or more of them. -/
theorem rank_upper {m d : Nat} (u : Fin m → K) (hd : d ≤ m) : (Finset.univ.filter (fun k => d ≤ smaller u k)).card + d ≤ m := by
  by_cases hS : (Finset.univ.filter (fun k => d ≤ smaller u k)).Nonempty
  · obtain ⟨k0, h1, h2⟩ := Finset.exists_min_image _ u hS
    have h3 := (Finset.mem_filter.1 h1).2
    have hdis : Disjoint (Finset.univ.filter (fun k => d ≤ smaller u k)) (Finset.univ.filter (fun i => u i < u k0)) := by
      rw [Finset.disjoint_left]
      intro i hi hi'
      exact absurd (Finset.mem_filter.1 hi').2 (not_lt.2 (h2 i hi))
    have := Finset.card_union_of_disjoint hdis
    have h4 := Finset.card_le_univ (Finset.univ.filter (fun k => d ≤ smaller u k) ∪ Finset.univ.filter (fun i => u i < u k0))
    rw [Fintype.card_fin] at h4
    unfold smaller at h3 ⊢ this
    unfold smaller at h4
    omega
  · rw [Finset.not_nonempty_iff_eq_empty.1 hS]; simpa using hd

/-- Of `m` different numbers, at least `m - e` are larger than `e` or more of them. -/
theorem rank_lower {m : Nat} (e : Nat) (u : Fin m → K) (hu : Function.Injective u) : m ≤ (Finset.univ.filter (fun k => e ≤ smaller u k)).card + e := by
  have hinj : Set.InjOn (smaller u) (Finset.univ.filter (fun k => ¬ e ≤ smaller u k) : Finset (Fin m)) := by
    intro a _ b _ hab
    by_contra hne
    have key : ∀ a b : Fin m, u a < u b → smaller u a < smaller u b := by
      intro a b hlt
      unfold smaller
      apply Finset.card_lt_card
      refine ⟨fun i hi => ?_, fun hc => ?_⟩
      · rw [Finset.mem_filter] at hi ⊢; exact ⟨hi.1, hi.2.trans hlt⟩
      · have := hc (Finset.mem_filter.2 ⟨Finset.mem_univ a, hlt⟩)
        exact lt_irrefl _ (Finset.mem_filter.1 this).2
    rcases lt_or_gt_of_ne (fun h => hne (hu h)) with h | h
    · have := key a b h; omega
    · have := key b a h; omega
  have h1 : (Finset.univ.filter (fun k => ¬ e ≤ smaller u k)).card ≤ e := by
    have := Finset.card_le_card_of_injOn (t := Finset.range e) (smaller u) (fun k hk => by
      have := (Finset.mem_filter.1 hk).2
      simpa using this) hinj
    simpa using this
  have h2 := Finset.card_filter_add_card_filter_not (s := (Finset.univ : Finset (Fin m))) (fun k => e ≤ smaller u k)
  rw [Finset.card_univ, Fintype.card_fin] at h2
  omega

end Bart
