import Verif.Proofs.LayerTower

/-! Property theorem C135 (the oblivious tree sampler does not take growths back while target, sigma and settings stay the same), over the reals. -/

set_option linter.unusedSectionVars false

namespace Bart.Oblivious
open Bart Spec Reference Lik LayerRecur

variable {n p : Nat} {X : Fin n → Fin p → Fl ℝ} {m : Params ℝ} {pGrow pPrune : ℝ} {y : Fin n → ℝ}

/-- The leaves `b` arise from the leaves `a` by `e` growths: each leaf becomes `2 ^ e` leaves that are next to each other and whose comparisons are its own, followed by others. -/
def Extends (a b : List (List (Cond ℝ p))) : Prop :=
  ∃ e : ℕ, b.length = 2 ^ e * a.length ∧ ∀ (i : ℕ) (q' : List (Cond ℝ p)), b[i]? = some q' → ∃ q, a[i / 2 ^ e]? = some q ∧ q <+: q'

theorem extends_of {y' : Option (Fin n → ℝ)} {t t' : Tree ℝ n p} {a ext : List (List (Layers.Rule ℝ p))} (h : Seen X y' t a) (h' : Seen X y' t' (ext ++ a)) : Extends (leafPaths t) (leafPaths t') := by
  refine ⟨ext.length, ?_, ?_⟩
  · rw [h.paths, h'.paths, h.full.paths_length, h'.full.paths_length, List.length_append, pow_add]
  · rw [h.paths, h'.paths]
    exact paths_extend a ext

/-! ### C135 -/

/-- C135. While target, sigma and settings stay the same, a growth is never taken back: once the number of leaves has risen, leaves are only split (or doubled) further. -/
theorem C135_growth_kept (hX : NoNan X) (h1 : GoodParams m) (h2 : GoodPrior m) (hg : 0 < pGrow) (hp : 0 < pPrune) {f : ℕ → Tree ℝ n p} (h0 : ObliviousWork X (f 0)) (hy : HasTarget (f 0) y)
    {k : ℕ} (h : ∀ i < k, ObliviousFixed m pGrow pPrune y (f i) (f (i + 1))) {a b c : ℕ} (hgrow : (f a).leafNodes.length < (f (a + 1)).leafNodes.length) (hab : a < b) (hbc : b ≤ c) (hc : c ≤ k) :
    Extends (leafPaths (f b)) (leafPaths (f c)) := by
  obtain ⟨L, hL, hM⟩ := fixed_run hX h1 h2 hg hp h0 hy h
  have len : ∀ i ≤ k, (f i).leafNodes.length = 2 ^ (L i).length := by
    intro i hi
    have := congrArg List.length (hL i hi).paths
    rw [(hL i hi).full.paths_length] at this
    simpa [leafPaths] using this
  have hf : Firm m pGrow pPrune X y (L (a + 1)) := by
    rw [len a (by omega), len (a + 1) (by omega)] at hgrow
    rcases hM a (by omega) with e | ⟨rules, -, hf⟩ | ⟨rules, e, -⟩
    · rw [e] at hgrow; omega
    · exact hf
    · rw [e, List.length_cons, pow_succ] at hgrow; omega
  obtain ⟨hfb, -⟩ := run_firm hM hf (b := b) hab (by omega)
  obtain ⟨-, ext, e⟩ := run_firm hM hfb hbc hc
  have := hL c hc
  rw [e] at this
  exact extends_of (hL b (by omega)) this

/-- From a tree of one node on, leaves are only split (or doubled). -/
theorem C135_from_one_leaf (hX : NoNan X) (h1 : GoodParams m) (h2 : GoodPrior m) (hg : 0 < pGrow) (hp : 0 < pPrune) {f : ℕ → Tree ℝ n p} (h0 : ReachableTree X (f 0)) (hn : (f 0).nodes.length = 1)
    (hy : HasTarget (f 0) y) {k : ℕ} (h : ∀ i < k, ObliviousFixed m pGrow pPrune y (f i) (f (i + 1))) {b c : ℕ} (hbc : b ≤ c) (hc : c ≤ k) : Extends (leafPaths (f b)) (leafPaths (f c)) := by
  obtain ⟨L, hL, hM⟩ := fixed_run hX h1 h2 hg hp (.single h0 hn) hy h
  have len0 : L 0 = [] := by
    have h3 := (hL 0 (by omega)).paths
    have h4 := congrArg List.length h3
    rw [(hL 0 (by omega)).full.paths_length] at h4
    have h5 : (leafPaths (f 0)).length ≤ 1 := by
      rw [← hn]; simp only [leafPaths, List.length_map]; exact List.length_filter_le _ _
    cases hl : L 0 with
    | nil => rfl
    | cons r l =>
      rw [hl, List.length_cons, pow_succ] at h4
      have : 0 < 2 ^ l.length := by positivity
      omega
  have key : ∀ i ≤ k, L i = [] ∨ Firm m pGrow pPrune X y (L i) := by
    intro i
    induction i with
    | zero => intro _; exact .inl len0
    | succ i ih =>
      intro hi
      rcases ih (by omega) with e | hf
      · rcases hM i (by omega) with e' | ⟨rules, -, hf⟩ | ⟨rules, e', -⟩
        · exact .inl (e'.trans e)
        · exact .inr hf
        · rw [e] at e'; cases e'
      · exact .inr ((hM i (by omega)).firm hf).1
  have : ∃ ext, L c = ext ++ L b := by
    rcases key b (by omega) with e | hf
    · exact ⟨L c, by rw [e, List.append_nil]⟩
    · exact (run_firm hM hf hbc hc).2
  obtain ⟨ext, e⟩ := this
  have h3 := hL c hc
  rw [e] at h3
  exact extends_of (hL b (by omega)) h3

/-- C135. While target, sigma and settings stay the same, a tree whose leaves come back has not changed in between. -/
theorem C135_never_returns (hX : NoNan X) (h1 : GoodParams m) (h2 : GoodPrior m) (hg : 0 < pGrow) (hp : 0 < pPrune) {f : ℕ → Tree ℝ n p} (h0 : ObliviousWork X (f 0)) (hy : HasTarget (f 0) y)
    {k : ℕ} (h : ∀ i < k, ObliviousFixed m pGrow pPrune y (f i) (f (i + 1))) {a b : ℕ} (hab : a ≤ b) (hb : b ≤ k) (he : leafPaths (f b) = leafPaths (f a)) :
    ∀ i, a ≤ i → i ≤ b → leafPaths (f i) = leafPaths (f a) := by
  obtain ⟨L, hL, hM⟩ := fixed_run hX h1 h2 hg hp h0 hy h
  rw [(hL a (by omega)).paths, (hL b hb).paths] at he
  have := paths_injective (hL b hb).full (hL a (by omega)).full he
  intro i hai hib
  rw [(hL a (by omega)).paths, (hL i (by omega)).paths, run_return hM hb this hai hib]

/-- A step of the oblivious tree sampler reports a change if and only if the leaves change; then their number is doubled or halved. -/
theorem C135_accepted (hX : NoNan X) (h1 : GoodParams m) (h2 : GoodPrior m) (hg : 0 < pGrow) (hp : 0 < pPrune) {t t' : Tree ℝ n p} (ht : ObliviousWork X t) (hy : HasTarget t y) {r r' : Rand ℝ}
    (hu : ∀ u ∈ r.uniforms, 0 ≤ u) {mus : Option (List TreeMutation)} (h : treeStep m pGrow pPrune t r = .ok (mus, t', r')) :
    (mus = none ∧ leafPaths t' = leafPaths t) ∨ (mus ≠ none ∧ ((leafPaths t').length = 2 * (leafPaths t).length ∨ (leafPaths t).length = 2 * (leafPaths t').length)) := by
  obtain ⟨y0, layers, s, d, hT, hv⟩ := work_seen hX ht
  obtain rfl := target_of hT hy
  have hS : Seen X (some y) t layers := ⟨s, d, hT, hv⟩
  obtain ⟨layers', e, hS'⟩ := hS.step hX m hg.ne' hp.ne' h
  rw [hS.paths, hS'.paths, hS.full.paths_length, hS'.full.paths_length]
  rcases step_cases h1 h2 hg hp hu e with ⟨hb, rfl⟩ | ⟨hb, rules, rfl, -⟩ | ⟨hb, rules, rfl, -⟩
  · exact .inl ⟨by simpa using hb, rfl⟩
  · exact .inr ⟨by rintro rfl; simp at hb, .inl (by rw [List.length_cons, pow_succ']) ⟩
  · exact .inr ⟨by rintro rfl; simp at hb, .inr (by rw [List.length_cons, pow_succ'])⟩

/-- A step of the reference implementation that changes the growths is a step of the sampler. -/
theorem model_step (hX : NoNan X) {t : Tree ℝ n p} {layers layers' : List (List (Layers.Rule ℝ p))} (hS : Seen X (some y) t layers) (hg : pGrow ≠ 0) (hp : pPrune ≠ 0) {r r' : Rand ℝ} {b : Bool}
    (e : Layers.treeStep m pGrow pPrune X y layers r = .ok (b, layers', r')) :
    ∃ mus t', treeStep m pGrow pPrune t r = .ok (mus, t', r') ∧ Seen X (some y) t' layers' := by
  obtain ⟨s, d, hT, hv⟩ := hS
  have hr := treeStep_ref hX hT hv m hg hp r
  cases h : treeStep m pGrow pPrune t r with
  | error er => rw [h] at hr; simp only at hr; rw [hr] at e; cases e
  | ok q =>
    obtain ⟨mus, t', r1⟩ := q
    obtain ⟨L', e1, hS'⟩ := Seen.step hX ⟨s, d, hT, hv⟩ m hg hp h
    rw [e] at e1
    injection e1 with e1; injection e1 with e0 e1; injection e1 with e1 e2
    subst e1; subst e2
    exact ⟨mus, t', rfl, hS'⟩

/-- There are runs to which C135 applies, of any number of steps, and in which the tree grows in every step (with any settings, for some sigma). -/
theorem exGrowing {m : Params ℝ} (h1 : GoodParams m) (h2 : GoodPrior m) (hg : 0 < pGrow) (hp : 0 < pPrune) (D : ℕ) : ∃ (x : ℝ) (f : ℕ → Tree ℝ 3 1), 1 ≤ x ∧ ReachableTree (rampX 3) (f 0) ∧
    (f 0).nodes.length = 1 ∧ HasTarget (f 0) LayerTower.ys ∧ (∀ i < D, ObliviousFixed { m with sigma := 1 / x } pGrow pPrune LayerTower.ys (f i) (f (i + 1))) ∧
    ∀ i ≤ D, (f i).leafNodes.length = 2 ^ i := by
  obtain ⟨t0, hF, hR, hT, hlf, -⟩ := exists_fresh (rampX 3) LayerTower.ys
  obtain ⟨x, hx, hgain⟩ := LayerTower.tower_gain h1 h2 hg hp D
  have hn : t0.nodes.length = 1 := by
    obtain ⟨⟨y2, hI2⟩, -⟩ := fresh_tree_inv hF
    have := hI2.perm.length_eq
    simpa [Shape.ids] using this
  obtain ⟨y0, s, hI⟩ := reachable_tree_inv (rampX_noNan 3) hR
  obtain ⟨o1, o2⟩ := single_tree hI hn
  obtain rfl := target_of o1 hT
  have main : ∀ D', D' ≤ D → ∃ f : ℕ → Tree ℝ 3 1, f 0 = t0 ∧ (∀ i < D', ObliviousFixed (LayerTower.at' m x) pGrow pPrune LayerTower.ys (f i) (f (i + 1))) ∧
      ∀ i ≤ D', Seen (rampX 3) (some LayerTower.ys) (f i) (LayerTower.tower i) := by
    intro D'
    induction D' with
    | zero => intro _; exact ⟨fun _ => t0, rfl, fun i hi => by omega, fun i hi => by obtain rfl : i = 0 := by omega
                                                                                     exact ⟨s, 0, o1, o2⟩⟩
    | succ D' ih =>
      intro hD
      obtain ⟨f, f0, f1, f2⟩ := ih (by omega)
      obtain ⟨w, hw, e⟩ := hgain D' (by omega)
      have hacc : Fl.lt (.fin 0) (.fin w) = true := by simp only [Fl.lt, decide_eq_true_eq]; linarith
      have hstep : Layers.treeStep (LayerTower.at' m x) pGrow pPrune (rampX 3) LayerTower.ys (LayerTower.tower D') ⟨[.grow], LayerTower.picksFor D' [], [0], [], []⟩ =
          .ok (true, LayerTower.tower (D' + 1), ⟨[], [], [], [], []⟩) := by
        unfold Layers.treeStep
        simp only [e, hacc, if_true]
      obtain ⟨mus, t', e', hS'⟩ := model_step (rampX_noNan 3) (f2 D' (le_refl _)) hg.ne' hp.ne' hstep
      refine ⟨fun i => if i ≤ D' then f i else t', by simp [f0], fun i hi => ?_, fun i hi => ?_⟩
      · by_cases hk : i + 1 ≤ D'
        · simp only [show i ≤ D' by omega, hk, if_true]; exact f1 i (by omega)
        · obtain rfl : i = D' := by omega
          simp only [le_refl, hk, if_true, if_false]
          exact .tree (by simp) e'
      · by_cases hk : i ≤ D'
        · simp only [hk, if_true]; exact f2 i hk
        · obtain rfl : i = D' + 1 := by omega
          simp only [hk, if_false]; exact hS'
  obtain ⟨f, f0, f1, f2⟩ := main D (le_refl _)
  refine ⟨x, f, hx, by rw [f0]; exact hR, by rw [f0]; exact hn, by rw [f0]; exact hT, f1, fun i hi => ?_⟩
  have := congrArg List.length (f2 i hi).paths
  rw [LayerTower.tower_leaves] at this
  simpa [leafPaths] using this

/-- C135, the example: a run of three steps in which the tree grows. -/
example : ∃ (x : ℝ) (f : ℕ → Tree ℝ 3 1), 1 ≤ x ∧ ReachableTree (rampX 3) (f 0) ∧ (f 0).nodes.length = 1 ∧ HasTarget (f 0) LayerTower.ys ∧
    (∀ i < 3, ObliviousFixed ⟨95 / 100, 2, 2, 1, 1 / x⟩ (1 / 2) (1 / 2) LayerTower.ys (f i) (f (i + 1))) ∧ ∀ i ≤ 3, (f i).leafNodes.length = 2 ^ i :=
  exGrowing (m := ⟨95 / 100, 2, 2, 1, 1⟩) ⟨by norm_num, by norm_num, by norm_num⟩ ⟨by norm_num, by norm_num, by norm_num⟩ (by norm_num) (by norm_num) 3

end Bart.Oblivious
