import Verif.Proofs.SelectorRuns

/-! `SelectNullDistributionThreshold.fit` returns if the fits to the real and to the permuted targets do. For C143. -/

set_option linter.unusedSectionVars false

namespace Bart
open Spec
variable {K : Type} [Field K] [LinearOrder K] [IsStrictOrderedRing K] [MathFns K] [FloorRing K] {n p : Nat} {X : Fin n → Fin p → Fl K}

theorem runAll_ok {s : SkModel K p} {rs : Nat → Nat → Rand K} : ∀ {ds : List (DataSet K p)} {i : Nat},
    (∀ (k : Nat) d, ds[k]? = some d → ∃ os, s.runChains d.X d.y ((List.range s.nChains).map (rs (i + k))) = .ok os) → ∃ cs, runAll s rs i ds = .ok cs := by
  intro ds
  induction ds with
  | nil => intro i _; exact ⟨[], rfl⟩
  | cons d ds ih =>
    intro i h
    obtain ⟨os, e1⟩ := h 0 d rfl
    obtain ⟨cs, e2⟩ := ih (i := i + 1) (fun k d' hd => by
      have := h (k + 1) d' (by simpa using hd)
      rwa [show i + (k + 1) = i + 1 + k by omega] at this)
    refine ⟨os ++ cs, ?_⟩
    unfold runAll
    rw [Nat.add_zero] at e1
    simp only [e1, e2]

theorem fromExtracts_ok : ∀ {l : List (List (ChainOut K p) × DataSet K p)} {s : SkModel K p},
    (∀ x ∈ l, (∃ c, combineChains x.1 = .ok c) ∧ ∃ d, SkModel.convertData x.2.X x.2.y = .ok d) → ∃ res, fromExtracts s l = .ok res := by
  intro l
  induction l with
  | nil => intro s _; exact ⟨_, rfl⟩
  | cons x l ih =>
    intro s h
    obtain ⟨chains, ds⟩ := x
    obtain ⟨⟨c, hc⟩, d, hd⟩ := h (chains, ds) (by simp)
    obtain ⟨⟨s2, news⟩, e⟩ := ih (s := { s with samples := some c }) (fun x hx => h x (by simp [hx]))
    refine ⟨(s2, { s with data := some ⟨ds.n, d⟩ } :: news), ?_⟩
    unfold fromExtracts SkModel.fromExtract
    simp only at hc hd
    simp only [hc, hd, e]

theorem nullLoop_ok : ∀ {fits : List (SkModel K p)} (L : Fin p → List K), (∀ m ∈ fits, ∃ c, m.samples = some c) → ∃ D, nullLoop ((List.finRange p).map (fun j => (j, L j))) fits = .ok D := by
  intro fits
  induction fits with
  | nil => intro L _; exact ⟨_, rfl⟩
  | cons m fits ih =>
    intro L h
    obtain ⟨c, hc⟩ := h m (by simp)
    obtain ⟨D, hD⟩ := ih (fun j => L j ++ [proportionOf c.models j]) (fun m hm => h m (by simp [hm]))
    refine ⟨D, ?_⟩
    unfold nullLoop SkModel.featureSplitProportions
    rw [hc]
    simp only [featureSplitProportions_all]
    rw [appendAll_spec (List.nodup_finRange p) _ _ L (List.nodup_finRange p) (fun j _ => List.mem_finRange j)]
    simp only [List.mem_finRange, if_true]
    exact hD

theorem mapM_returns {α β : Type} {f : α → Except PyErr β} : ∀ {l : List α}, (∀ x ∈ l, ∃ b, f x = .ok b) → ∃ bs, l.mapM f = .ok bs := by
  intro l
  induction l with
  | nil => intro _; exact ⟨[], rfl⟩
  | cons a l ih =>
    intro h
    obtain ⟨b, hb⟩ := h a (by simp)
    obtain ⟨bs, hbs⟩ := ih (fun x hx => h x (by simp [hx]))
    exact ⟨b :: bs, by rw [List.mapM_cons, hb, hbs]; rfl⟩

variable {A : Type} [Fintype A] {run : A → Equiv.Perm (Fin n) × (Nat → Rand K)}

theorem selector_returns {s g : SkModel K p} {q : K} (h0 : 0 ≤ q) (h1 : q ≤ 100) {y : Fin n → K} {rs : Nat → Rand K} (hreal : s.fit X y rs = .ok g)
    (hrun : ∀ a, ∃ f, s.fit X (fun r => y ((run a).1 r)) (run a).2 = .ok f) {m : Nat} (ω : Fin (m + 1) → A) : ∃ f, selectorFit s q X y rs run ω = .ok f := by
  have hk := nChains_pos hreal
  obtain ⟨d0, m0, os0, c0, a1, a2, a3, a4⟩ := fit_spec hreal
  have hn : g.nChains = s.nChains := by rw [a4]
  have hsam : g.samples = some c0 := by rw [a4]
  have hrun' : ∀ a, ∃ d os c, SkModel.convertData X (fun r => y ((run a).1 r)) = .ok d ∧ g.runChains X (fun r => y ((run a).1 r)) ((List.range g.nChains).map (run a).2) = .ok os ∧ combineChains os = .ok c := by
    intro a
    obtain ⟨f, hf⟩ := hrun a
    have hf' : g.fit X (fun r => y ((run a).1 r)) (run a).2 = .ok f := by rw [a4, fit_settings]; exact hf
    obtain ⟨d, mm, os, c, b1, b2, b3, -⟩ := fit_spec hf'
    have hc : ∃ d', SkModel.convertData X (fun r => y ((run a).1 r)) = .ok d' := by
      unfold SkModel.constructModel at b1
      split at b1
      · cases b1
      · split at b1
        · cases b1
        · next d' e => exact ⟨d', e⟩
    obtain ⟨d', hc⟩ := hc
    exact ⟨d', os, c, hc, runChains_of_forall₂ b2, b3⟩
  set perms := List.ofFn fun k => (run (ω k)).1 with hperms
  set rs' : Nat → Nat → Rand K := fun i => if h : i < m + 1 then (run (ω ⟨i, h⟩)).2 else rs with hrs'
  set ds := perms.map (fun π => (⟨n, X, fun r => y (π r)⟩ : DataSet K p)) with hds
  have hdl : ds.length = m + 1 := by simp [hds, hperms]
  have hdk : ∀ (k : Nat) d, ds[k]? = some d → ∃ hk : k < m + 1, d = ⟨n, X, fun r => y ((run (ω ⟨k, hk⟩)).1 r)⟩ := by
    intro k d hd
    have hkl : k < m + 1 := by rw [← hdl]; exact (List.getElem?_eq_some_iff.1 hd).1
    refine ⟨hkl, ?_⟩
    rw [hds, List.getElem?_map, hperms, List.getElem?_ofFn, dif_pos hkl] at hd
    simp only [Option.map_some, Option.some.injEq] at hd
    exact hd.symm
  obtain ⟨chains, hch⟩ := runAll_ok (s := g) (rs := rs') (ds := ds) (i := 0) (by
    intro k d hd
    obtain ⟨hk', rfl⟩ := hdk k d hd
    obtain ⟨d', os, c, -, b2, -⟩ := hrun' (ω ⟨k, hk'⟩)
    refine ⟨os, ?_⟩
    rw [Nat.zero_add, hrs']
    simp only [dif_pos hk']
    exact b2)
  obtain ⟨blocks, e1, e2, e3, e4⟩ := runAll_blocks hch
  obtain ⟨⟨s2, fits⟩, hex⟩ := fromExtracts_ok (s := g) (l := blocks.zip ds) (by
    intro x hx
    obtain ⟨k, hkl, rfl⟩ := List.getElem_of_mem hx
    have hkd : k < ds.length := by rw [List.length_zip] at hkl; omega
    have hkb : k < blocks.length := by rw [List.length_zip] at hkl; omega
    rw [List.getElem_zip]
    obtain ⟨hk', hd⟩ := hdk k ds[k] (List.getElem?_eq_getElem hkd)
    obtain ⟨d', os, c, b1, b2, b3⟩ := hrun' (ω ⟨k, hk'⟩)
    obtain ⟨os', k1, k2⟩ := e4 k ds[k] (List.getElem?_eq_getElem hkd)
    rw [List.getElem?_eq_getElem hkb] at k1; injection k1 with k1
    rw [k1]
    rw [hd] at k2 ⊢
    have k3 := runChains_of_forall₂ k2
    rw [Nat.zero_add, hrs'] at k3
    simp only [dif_pos hk'] at k3
    rw [b2] at k3; injection k3 with k3
    exact ⟨⟨c, by rw [← k3]; exact b3⟩, d', b1⟩)
  have hrm : runModels g ds rs' = .ok (s2, fits) := by
    unfold runModels convertChainsModels
    rw [hch]
    simp only
    rw [e1, C54_groups (by rw [hn]; exact hk) blocks e3]
    exact hex
  obtain ⟨t1, t2, t3, t4⟩ := C55_shifted_partial hex
  have hzl : (blocks.zip ds).length = m + 1 := by rw [List.length_zip, e2, hdl]; simp
  have hsamples : ∀ f ∈ fits, ∃ c, f.samples = some c := by
    intro f hf
    obtain ⟨i, hi, rfl⟩ := List.getElem_of_mem hf
    cases i with
    | zero => exact ⟨c0, by rw [t2 _ (List.getElem?_eq_getElem hi)]; exact hsam⟩
    | succ i =>
      have hi' : i < (blocks.zip ds).length := by omega
      obtain ⟨c, -, h⟩ := t3 i (blocks.zip ds)[i].1 (blocks.zip ds)[i].2 _ (List.getElem?_eq_getElem hi') (List.getElem?_eq_getElem hi)
      exact ⟨c, h⟩
  obtain ⟨D, hD⟩ := nullLoop_ok (fun _ => []) hsamples
  obtain ⟨cs, n1, n2⟩ := nullLoop_spec hD
  have hcs : cs ≠ [] := by
    have := n1.length_eq
    rintro rfl
    rw [t1, hzl] at this
    simp at this
  obtain ⟨th, hth⟩ : ∃ th, localThresholds D q = .ok th := by
    unfold localThresholds
    apply mapM_returns
    intro x hx
    rw [n2, List.mem_map] at hx
    obtain ⟨j, -, rfl⟩ := hx
    obtain ⟨t, ht, -⟩ := C60_percentile_partial (l := [] ++ cs.map (fun c => proportionOf c.models j)) (by simpa using hcs) h0 h1
    exact ⟨(j, t), by rw [ht]; rfl⟩
  obtain ⟨c2, -, hs2⟩ := t4 (blocks.zip ds)[m].1 (blocks.zip ds)[m].2 (by
    rw [List.getLast?_eq_getElem?, show (blocks.zip ds).length - 1 = m by omega]; exact List.getElem?_eq_getElem (by omega))
  refine ⟨⟨s2, D, th, featureSplitProportions c2.models none⟩, ?_⟩
  unfold selectorFit nullSelectorFit nullFeatureSplitProportions
  rw [hreal]
  simp only
  rw [hrm]
  simp only [hD, hth]
  unfold SkModel.featureSplitProportions
  rw [hs2]

end Bart
