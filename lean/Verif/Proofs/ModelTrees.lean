import Verif.Spec.ModelHistory
import Verif.Proofs.TreeSampler
import Verif.Proofs.ModelInv

/-! The trees of a model on which the default sampler runs are reachable trees, so what holds of these holds of them. -/

set_option linter.unusedSectionVars false

namespace Bart
open Spec
variable {K : Type} [Field K] [LinearOrder K] {n p : Nat} {X : Fin n → Fin p → Fl K}

theorem updateY_reach {t t' : Tree K n p} (ht : ReachableTree X t) {y : Option (Fin n → K)} (h : t.updateY y = .ok t') : ReachableTree X t' :=
  ht.op (op := .updateY y) trivial h

theorem predict_reach {t t' : Tree K n p} {b : PredBuf K n} (ht : ReachableTree X t) (h : t.predict = .ok (b, t')) : ReachableTree X t' :=
  ht.op (op := .predict) trivial (by unfold Tree.step; simp only [h])

theorem predictTrees_reach : ∀ {ts ts' : List (Tree K n p)} {f : Fin n → K}, (∀ t ∈ ts, ReachableTree X t) →
    BModel.predictTrees ts = .ok (f, ts') → ∀ t ∈ ts', ReachableTree X t := by
  intro ts
  induction ts with
  | nil => intro ts' f _ h; injection h with h; injection h with h1 h2; subst h2; intro t ht; cases ht
  | cons t ts ih =>
    intro ts' f hts h
    unfold BModel.predictTrees at h
    split at h
    · cases h
    · cases h
    · cases h
    · next g t1 e1 =>
      split at h
      · cases h
      · next g2 ts1 e2 =>
        injection h with h; injection h with h1 h2; subst h2
        intro t' ht'
        rcases List.mem_cons.1 ht' with rfl | ht'
        · exact predict_reach (hts t (by simp)) e1
        · exact ih (fun t ht => hts t (by simp [ht])) e2 t' ht'

theorem predictModel_reach {m m' : BModel K n p} {f : Fin n → K} (hm : ∀ t ∈ m.trees, ReachableTree X t) (h : m.predict = .ok (f, m')) :
    ∀ t ∈ m'.trees, ReachableTree X t := by
  unfold BModel.predict at h
  split at h
  · cases h
  · next g ts e =>
    injection h with h; injection h with h1 h2; subst h2
    exact predictTrees_reach hm e

theorem refreshBegin_reach (hX : NoNan X) {y pred pred' : Fin n → K} {t t' : Tree K n p} (ht : ReachableTree X t)
    (h : BModel.refreshBegin y pred t = .ok (pred', t')) : ReachableTree X t' ∧ ∃ z, HasTarget t' z := by
  unfold BModel.refreshBegin at h
  split at h
  · cases h
  · cases h
  · cases h
  · next f t1 e1 =>
    simp only at h
    split at h
    · cases h
    · next t2 e2 =>
      injection h with h; injection h with h1 h2; subst h2
      have r1 := predict_reach ht e1
      refine ⟨updateY_reach r1 e2, ?_⟩
      obtain ⟨y0, s, hI⟩ := reachable_tree_inv hX r1
      obtain ⟨t3, e3, hI', -⟩ := updateY_spec hI (some (fun r => y r - (pred r - f r)))
      rw [e2] at e3; injection e3 with e3; subst e3
      exact ⟨_, hI'.hasTarget⟩

theorem refreshEnd_reach {pred pred' : Fin n → K} {t t' : Tree K n p} (ht : ReachableTree X t)
    (h : BModel.refreshEnd pred t = .ok (pred', t')) : ReachableTree X t' := by
  unfold BModel.refreshEnd at h
  split at h
  · cases h
  · cases h
  · cases h
  · next f t1 e1 =>
    injection h with h; injection h with h1 h2; subst h2
    exact predict_reach ht e1

theorem refreshLoop_reach {S α : Type} (hX : NoNan X) (y : Fin n → K) {body : Tree K n p → S → Except PyErr (α × Tree K n p × S)}
    (hb : ∀ {t s a t' s'}, ReachableTree X t → (∃ z, HasTarget t z) → body t s = .ok (a, t', s') → ReachableTree X t') :
    ∀ {ts : List (Tree K n p)} {pred pred' : Fin n → K} {s s' : S} {as : List α} {ts' : List (Tree K n p)}, (∀ t ∈ ts, ReachableTree X t) →
    BModel.refreshLoop y body ts pred s = .ok (as, pred', ts', s') → ∀ t ∈ ts', ReachableTree X t := by
  intro ts
  induction ts with
  | nil =>
    intro pred pred' s s' as ts' _ h
    injection h with h; injection h with h1 h2; injection h2 with h2 h3; injection h3 with h3 h4; subst h3
    intro t ht; cases ht
  | cons t ts ih =>
    intro pred pred' s s' as ts' hts h
    unfold BModel.refreshLoop at h
    split at h
    · cases h
    · next p1 t1 e1 =>
      split at h
      · cases h
      · next a t2 s1 e2 =>
        split at h
        · cases h
        · next p2 t3 e3 =>
          split at h
          · cases h
          · next as1 p3 ts1 s2 e4 =>
            injection h with h; injection h with h1 h2; injection h2 with h2 h3; injection h3 with h3 h4; subst h3
            obtain ⟨r1, hz⟩ := refreshBegin_reach hX (hts t (by simp)) e1
            intro t' ht'
            rcases List.mem_cons.1 ht' with rfl | ht'
            · exact refreshEnd_reach (hb r1 hz e2) e3
            · exact ih (fun t ht => hts t (by simp [ht])) e4 t' ht'

section
variable [F : MathFns K]

theorem leafStep_leaves (hX : NoNan X) {t t' : Tree K n p} (ht : ReachableTree X t) {m : Params K} {i : NodeId} (hi : i ∈ t.leafNodes) {r r' : Rand K}
    (h : Sampler.leafStep m t i r = .ok (t', r')) : t'.leafNodes = t.leafNodes := by
  obtain ⟨y, s, hI⟩ := reachable_tree_inv hX ht
  obtain ⟨h', v, x, rfl⟩ := Sampler.leafStep_core hI m hi h
  have := (TreeExt.withHeap x).leafNodes hI
  rw [← this]
  unfold Tree.leafNodes
  apply List.filter_congr
  intro k _
  by_cases hki : k = i
  · subst hki; simp [Heap.setValue, Heap.setNode]
  · simp [Heap.setValue, Heap.setNode, hki]

theorem leafSteps_reach (hX : NoNan X) (m : Params K) : ∀ {is : List NodeId} {t t' : Tree K n p} {r r' : Rand K}, ReachableTree X t →
    (∀ i ∈ is, i ∈ t.leafNodes) → Sampler.leafSteps m is t r = .ok (t', r') → ReachableTree X t' := by
  intro is
  induction is with
  | nil => intro t t' r r' ht _ h; injection h with h; injection h with h1 h2; subst h1; exact ht
  | cons i is ih =>
    intro t t' r r' ht hi h
    unfold Sampler.leafSteps at h
    split at h
    · cases h
    · next t1 r1 e =>
      refine ih (ht.leafStep F m (hi i (by simp)) e) (fun k hk => ?_) h
      rw [leafStep_leaves hX ht (hi i (by simp)) e]
      exact hi k (by simp [hk])

theorem treeBody_reach (hX : NoNan X) {m : Params K} {pGrow pPrune : K} (hp1 : pGrow ≠ 0) (hp2 : pPrune ≠ 0) {t t' : Tree K n p} {r r' : Rand K}
    {mu : Option TreeMutation} (ht : ReachableTree X t) (hz : ∃ z, HasTarget t z) (h : BModel.treeBody m pGrow pPrune t r = .ok (mu, t', r')) :
    ReachableTree X t' := by
  unfold BModel.treeBody at h
  split at h
  · cases h
  · next mu1 t1 r1 e1 =>
    split at h
    · cases h
    · next t2 r2 e2 =>
      injection h with h; injection h with h1 h2; injection h2 with h2 h3; subst h2
      exact leafSteps_reach hX m (ht.treeStep F m hz hp1 hp2 e1) (fun i hi => hi) e2

theorem residuals_reach {m m' : BModel K n p} {f : Fin n → K} (hm : ∀ t ∈ m.trees, ReachableTree X t) (h : m.residuals = .ok (f, m')) :
    ∀ t ∈ m'.trees, ReachableTree X t := by
  unfold BModel.residuals at h
  split at h
  · cases h
  · next g m1 e =>
    split at h
    · cases h
    · injection h with h; injection h with h1 h2; subst h2
      exact predictModel_reach hm e

theorem sweep_reach (hX : NoNan X) {m m' : BModel K n p} {pGrow pPrune : K} (hp1 : pGrow ≠ 0) (hp2 : pPrune ≠ 0) {r r' : Rand K}
    {mus : List (Option TreeMutation)} (hm : ∀ t ∈ m.trees, ReachableTree X t) (h : m.sweep pGrow pPrune r = .ok (mus, m', r')) :
    ∀ t ∈ m'.trees, ReachableTree X t := by
  unfold BModel.sweep at h
  split at h
  · cases h
  · next mus1 m1 r1 e1 =>
    have h1 : ∀ t ∈ m1.trees, ReachableTree X t := by
      unfold BModel.sweepTrees at e1
      split at e1
      · cases e1
      · next y hy =>
        split at e1
        · cases e1
        · next f m2 e2 =>
          split at e1
          · cases e1
          · next mus2 f1 ts r2 e3 =>
            injection e1 with e1; injection e1 with h1 h2; injection h2 with h2 h3; subst h2
            refine refreshLoop_reach hX y (fun ht hz hb => treeBody_reach hX hp1 hp2 ht hz hb) ?_ e3
            unfold BModel.startPrediction at e2
            split at e2
            · injection e2 with e2; injection e2 with _ e2; subst e2; exact hm
            · exact predictModel_reach hm e2
    split at h
    · cases h
    · next m2 r2 e2 =>
      injection h with h; injection h with ha hb; injection hb with hb hc; subst hb
      unfold BModel.sigmaStep at e2
      split at e2
      · cases e2
      · next res m3 e3 =>
        have h3 := residuals_reach h1 e3
        split at e2
        · cases e2
        · split at e2
          · cases e2
          · split at e2
            · cases e2
            · injection e2 with e2; injection e2 with ha hb; subst ha
              exact h3

theorem construct_reach {y0 : Fin n → K} {m : BModel K n p} (h : FreshModel X y0 m) : ∀ t ∈ m.trees, ReachableTree X t := by
  obtain ⟨nz, d, sigma, nT, al, be, kk, hd, hc⟩ := h
  unfold BModel.construct at hc
  split at hc
  · cases hc
  · next t e =>
    injection hc with hc; subst hc
    intro t' ht'
    obtain ⟨-, rfl⟩ := List.mem_replicate.1 ht'
    unfold BModel.initTree at e
    split at e
    · cases e
    · split at e
      · cases e
      · next t1 e1 => exact updateY_reach (updateY_reach (.fresh ⟨nz, d, hd, rfl⟩) e1) e

/-- The trees of every model that occurs when the default sampler runs are reachable trees. -/
theorem model_trees_reachable (hX : NoNan X) {m : BModel K n p} (h : ReachableModel X m) : ∀ t ∈ m.trees, ReachableTree X t := by
  obtain ⟨y0, pg, pp, m0, k, h1, h2, h3, h4⟩ := h
  have key : ∀ {m0 m : BModel K n p} {k : Nat}, ModelRun pg pp m0 k m → (∀ t ∈ m0.trees, ReachableTree X t) → ∀ t ∈ m.trees, ReachableTree X t := by
    intro m0 m k hr h0
    induction hr with
    | nil => exact h0
    | sweep _ e ih => exact sweep_reach hX h1 h2 ih e
    | predict _ e ih => exact predictModel_reach ih e
    | residuals _ e ih => exact residuals_reach ih e
    | copy _ ih =>
      intro t ht
      obtain ⟨t0, ht0, rfl⟩ := List.mem_map.1 ht
      exact (ih t0 ht0).copy
  exact key h4 (construct_reach h3)

end
end Bart
