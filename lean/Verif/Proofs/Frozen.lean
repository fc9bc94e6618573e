import Verif.Proofs.ModelTrees
import Verif.Proofs.RealLemmas

/-! Trees without a splittable leaf keep their structure. -/

set_option linter.unusedSectionVars false

namespace Bart
open Spec

namespace Sampler
variable {K : Type} [Field K] [LinearOrder K] {n p : Nat} {X : Fin n → Fin p → Fl K}

theorem SameShape.refl (t : Tree K n p) : SameShape t t := ⟨rfl, fun _ _ => SameNode.refl _⟩

theorem SameShape.trans {a b c : Tree K n p} (h : SameShape a b) (h' : SameShape b c) : SameShape a c :=
  ⟨h'.nodes.trans h.nodes, fun i hi => (h.node i hi).trans (h'.node i (by rw [h.nodes]; exact hi))⟩

theorem SameShape.ofExt {y : Option (Fin n → K)} {t t' : Tree K n p} {s : Shape} (hI : TreeInv X y t s) (he : TreeExt t t') : SameShape t t' :=
  ⟨he.nodes, fun i hi => by rw [he.heap.node i (hI.mem_lt hi)]; exact SameNode.refl _⟩

theorem SameShape.rows {y y' : Option (Fin n → K)} {t t' : Tree K n p} {s s' : Shape} (hI : TreeInv X y t s) (hI' : TreeInv X y' t' s')
    (h : SameShape t t') {i : NodeId} (hi : i ∈ t.nodes) : rowsOf (t'.heap.dataOf i) = rowsOf (t.heap.dataOf i) := by
  obtain ⟨q, hk⟩ := hI.repr.nodeOk i (hI.perm.mem_iff.1 hi)
  obtain ⟨q', hk'⟩ := hI'.repr.nodeOk i (hI'.perm.mem_iff.1 (by rw [h.nodes]; exact hi))
  have : q' = q := by
    apply init_injective
    rw [← hk.combined, ← hk'.combined, (h.node i hi).split]
  subst this
  funext r
  rw [hk.rows, hk'.rows]

theorem SameShape.frozen [MathFns K] {y y' : Option (Fin n → K)} {t t' : Tree K n p} {s s' : Shape} (hI : TreeInv X y t s) (hI' : TreeInv X y' t' s')
    (h : SameShape t t') (hf : ∀ k, ¬ SplittableLeaf X t k) (k : NodeId) : ¬ SplittableLeaf X t' k := by
  rintro ⟨h1, j, hj⟩
  rw [h.leafNodes] at h1
  refine hf k ⟨h1, j, ?_⟩
  rw [← h.rows hI hI' (List.mem_filter.1 h1).1]
  exact hj

end Sampler
open Sampler

variable {n p : Nat} {X : Fin n → Fin p → Fl ℝ}

/-- Every step of the tree sampler rejects. -/
theorem frozen_treeStep (hX : NoNan X) {y : Fin n → ℝ} {t : Tree ℝ n p} {s : Shape} (hI : TreeInv X (some y) t s) (hf : ∀ k, ¬ SplittableLeaf X t k)
    (m : Params ℝ) {pGrow pPrune : ℝ} (hp2 : pPrune ≠ 0) {r r' : Rand ℝ} {mu : Option TreeMutation} {t' : Tree ℝ n p}
    (h : treeStep m pGrow pPrune t r = .ok (mu, t', r')) : mu = none ∧ TreeExt t t' := by
  have hpr := propose_spec hX r.methods hI r.picks
  unfold treeStep treeSample at h
  cases h1 : t.propose r.picks r.methods with
  | error e => rw [h1] at h; cases h
  | ok q =>
    obtain ⟨mu1, t1, us, ms⟩ := q
    rw [h1] at hpr h
    obtain ⟨x1, hm⟩ := hpr
    rcases hm with ⟨i, D, L, R, j, v, rfl, hg⟩ | ⟨i, l, r1, U, rfl, hg⟩
    · exfalso
      refine hf i ⟨hg.leaf, j, ?_⟩
      rw [← x1.rows hI (List.mem_filter.1 hg.leaf).1]
      exact hg.splittable
    · obtain ⟨j, v, -, hrule, -⟩ := Lik.PruneProp.cut hX hg
      obtain ⟨t2, e2, x2⟩ := Lik.ratio_prune hX m hI x1 hg hrule (pGrow := pGrow) hp2
      have h0 : (splitLeavesOf X t).length = 0 := by
        rw [List.length_eq_zero_iff, List.eq_nil_iff_forall_not_mem]
        intro k hk
        exact hf k (mem_splitLeavesOf.1 hk)
      rw [h0, Lik.transPrune_zero, Fl.nan_add, Fl.nan_add] at e2
      simp only [e2] at h
      cases hu : r.uniforms with
      | nil => rw [hu] at h; cases h
      | cons u rest =>
        rw [hu] at h
        have hlt : Fl.lt (.fin u) (.nan : Fl ℝ) = false := rfl
        simp only [hlt] at h
        injection h with h; injection h with h3 h4; injection h4 with h4 h5
        subst h4
        exact ⟨h3.symm, x1.trans x2⟩

section loop
variable {K : Type} [Field K] [LinearOrder K] {X : Fin n → Fin p → Fl K}

theorem predict_shape {t t' : Tree K n p} {b : PredBuf K n} (h : t.predict = .ok (b, t')) : SameShape t t' := by
  obtain ⟨e1, e2, -⟩ := predict_cases h
  exact ⟨e2, fun i _ => by rw [e1]; exact SameNode.refl _⟩

theorem updateY_shape (hX : NoNan X) {t t' : Tree K n p} (ht : ReachableTree X t) {y : Option (Fin n → K)} (h : t.updateY y = .ok t') : SameShape t t' := by
  obtain ⟨y0, s, hI⟩ := reachable_tree_inv hX ht
  obtain ⟨t2, e, -, hn, -, -, hu, -⟩ := updateY_spec hI y
  rw [h] at e; injection e with e; subst e
  exact ⟨hn, fun i _ => by rw [hu.node]; exact SameNode.refl _⟩

theorem predictTrees_shape : ∀ {ts ts' : List (Tree K n p)} {f : Fin n → K}, BModel.predictTrees ts = .ok (f, ts') → List.Forall₂ SameShape ts ts' := by
  intro ts
  induction ts with
  | nil => intro ts' f h; injection h with h; injection h with h1 h2; subst h2; exact .nil
  | cons t ts ih =>
    intro ts' f h
    unfold BModel.predictTrees at h
    split at h
    · cases h
    · cases h
    · cases h
    · next g t1 e1 =>
      split at h
      · cases h
      · next g2 ts1 e2 =>
        injection h with h; injection h with h1 h2; subst h2
        exact .cons (predict_shape e1) (ih e2)

theorem predictModel_shape {m m' : BModel K n p} {f : Fin n → K} (h : m.predict = .ok (f, m')) : List.Forall₂ SameShape m.trees m'.trees := by
  unfold BModel.predict at h
  split at h
  · cases h
  · next g ts e =>
    injection h with h; injection h with h1 h2; subst h2
    exact predictTrees_shape e

theorem residualsModel_shape {m m' : BModel K n p} {f : Fin n → K} (h : m.residuals = .ok (f, m')) : List.Forall₂ SameShape m.trees m'.trees := by
  unfold BModel.residuals at h
  split at h
  · cases h
  · next g m1 e =>
    split at h
    · cases h
    · injection h with h; injection h with h1 h2; subst h2
      exact predictModel_shape e

theorem leafSteps_shape [F : MathFns K] (hX : NoNan X) (m : Params K) : ∀ {is : List NodeId} {t t' : Tree K n p} {r r' : Rand K}, ReachableTree X t →
    (∀ i ∈ is, i ∈ t.leafNodes) → leafSteps m is t r = .ok (t', r') → SameShape t t' := by
  intro is
  induction is with
  | nil => intro t t' r r' ht _ h; injection h with h; injection h with h1 h2; subst h1; exact .refl _
  | cons i is ih =>
    intro t t' r r' ht hi h
    unfold leafSteps at h
    split at h
    · cases h
    · next t1 r1 e =>
      have hs : SameShape t t1 := by
        obtain ⟨y, s, hI⟩ := reachable_tree_inv hX ht
        obtain ⟨h', v, x, rfl⟩ := leafStep_core hI m (hi i (by simp)) e
        refine ⟨rfl, fun k hk => ?_⟩
        have := x.node k (hI.mem_lt hk)
        by_cases hki : k = i
        · subst hki; simp [Heap.setValue, Heap.setNode, this]; exact ⟨rfl, rfl, rfl, rfl, rfl⟩
        · simp [Heap.setValue, Heap.setNode, hki, this]; exact SameNode.refl _
      refine hs.trans (ih (ht.leafStep F m (hi i (by simp)) e) (fun k hk => ?_) h)
      rw [leafStep_leaves hX ht (hi i (by simp)) e]
      exact hi k (by simp [hk])

end loop

/-- A frozen tree stays as it is. -/
def Keeps (X : Fin n → Fin p → Fl ℝ) (t t' : Tree ℝ n p) : Prop := (∀ k, ¬ SplittableLeaf X t k) → SameShape t t'

theorem frozen_treeBody (hX : NoNan X) {m : Params ℝ} {pGrow pPrune : ℝ} (hp1 : pGrow ≠ 0) (hp2 : pPrune ≠ 0) {t t' : Tree ℝ n p} {r r' : Rand ℝ}
    {mu : Option TreeMutation} (ht : ReachableTree X t) (hz : ∃ z, HasTarget t z) (h : BModel.treeBody m pGrow pPrune t r = .ok (mu, t', r')) :
    Keeps X t t' := by
  intro hf
  unfold BModel.treeBody at h
  split at h
  · cases h
  · next mu1 t1 r1 e1 =>
    split at h
    · cases h
    · next t2 r2 e2 =>
      injection h with h; injection h with h1 h2; injection h2 with h2 h3; subst h2
      obtain ⟨y, s, hI⟩ := reachable_tree_inv hX ht
      obtain ⟨z, hz'⟩ := hz
      have := hI.target hz'; subst this
      obtain ⟨-, x⟩ := frozen_treeStep hX hI hf m hp2 e1
      exact (SameShape.ofExt hI x).trans (leafSteps_shape hX m (ht.treeStep realFns m ⟨z, hz'⟩ hp1 hp2 e1) (fun i hi => hi) e2)

theorem Keeps.comp (hX : NoNan X) {a b c : Tree ℝ n p} (ha : ReachableTree X a) (hb : ReachableTree X b) (h : SameShape a b) (h' : Keeps X b c) : Keeps X a c := by
  intro hf
  obtain ⟨y, s, hI⟩ := reachable_tree_inv hX ha
  obtain ⟨y', s', hI'⟩ := reachable_tree_inv hX hb
  exact h.trans (h' (fun k => h.frozen hI hI' hf k))

theorem refreshLoop_keeps {S α : Type} (hX : NoNan X) (y : Fin n → ℝ) {body : Tree ℝ n p → S → Except PyErr (α × Tree ℝ n p × S)}
    (hb : ∀ {t s a t' s'}, ReachableTree X t → (∃ z, HasTarget t z) → body t s = .ok (a, t', s') → Keeps X t t') :
    ∀ {ts : List (Tree ℝ n p)} {pred pred' : Fin n → ℝ} {s s' : S} {as : List α} {ts' : List (Tree ℝ n p)}, (∀ t ∈ ts, ReachableTree X t) →
    BModel.refreshLoop y body ts pred s = .ok (as, pred', ts', s') → List.Forall₂ (Keeps X) ts ts' := by
  intro ts
  induction ts with
  | nil =>
    intro pred pred' s s' as ts' _ h
    injection h with h; injection h with h1 h2; injection h2 with h2 h3; injection h3 with h3 h4; subst h3
    exact .nil
  | cons t ts ih =>
    intro pred pred' s s' as ts' hts h
    unfold BModel.refreshLoop at h
    split at h
    · cases h
    · next p1 t1 e1 =>
      split at h
      · cases h
      · next a t2 s1 e2 =>
        split at h
        · cases h
        · next p2 t3 e3 =>
          split at h
          · cases h
          · next as1 p3 ts1 s2 e4 =>
            injection h with h; injection h with h1 h2; injection h2 with h2 h3; injection h3 with h3 h4; subst h3
            have ht := hts t (by simp)
            obtain ⟨r1, hz⟩ := refreshBegin_reach hX ht e1
            have s1 : SameShape t t1 := by
              unfold BModel.refreshBegin at e1
              split at e1
              · cases e1
              · cases e1
              · cases e1
              · next f t0 e0 =>
                simp only at e1
                split at e1
                · cases e1
                · next t9 e9 =>
                  injection e1 with e1; injection e1 with _ e1; subst e1
                  exact (predict_shape e0).trans (updateY_shape hX (predict_reach ht e0) e9)
            have s3 : SameShape t2 t3 := by
              unfold BModel.refreshEnd at e3
              split at e3
              · cases e3
              · cases e3
              · cases e3
              · next f t0 e0 =>
                injection e3 with e3; injection e3 with _ e3; subst e3
                exact predict_shape e0
            refine .cons ?_ (ih (fun t ht => hts t (by simp [ht])) e4)
            exact Keeps.comp hX ht r1 s1 (fun hf => (hb r1 hz e2 hf).trans s3)

theorem keeps_of_shape {l l' : List (Tree ℝ n p)} (hl : List.Forall₂ SameShape l l') : List.Forall₂ (Keeps X) l l' :=
  hl.imp (S := Keeps X) (fun _ _ h _ => h)

theorem keeps_comp_list (hX : NoNan X) {a b c : List (Tree ℝ n p)} (ha : ∀ t ∈ a, ReachableTree X t) (hb : ∀ t ∈ b, ReachableTree X t)
    (h : List.Forall₂ (Keeps X) a b) (h' : List.Forall₂ (Keeps X) b c) : List.Forall₂ (Keeps X) a c := by
  induction h generalizing c with
  | nil => cases h'; exact .nil
  | @cons x y l l' hxy _ ih =>
    cases h' with
    | @cons _ z _ l'' hyz hl =>
      refine .cons ?_ (ih (fun t ht => ha t (by simp [ht])) (fun t ht => hb t (by simp [ht])) hl)
      intro hf
      exact Keeps.comp hX (ha x (by simp)) (hb y (by simp)) (hxy hf) hyz hf

theorem sweep_keeps (hX : NoNan X) {m m' : BModel ℝ n p} {pGrow pPrune : ℝ} (hp1 : pGrow ≠ 0) (hp2 : pPrune ≠ 0) {r r' : Rand ℝ}
    {mus : List (Option TreeMutation)} (hm : ∀ t ∈ m.trees, ReachableTree X t) (h : m.sweep pGrow pPrune r = .ok (mus, m', r')) :
    List.Forall₂ (Keeps X) m.trees m'.trees := by
  have lift : ∀ {l l' : List (Tree ℝ n p)}, List.Forall₂ SameShape l l' → List.Forall₂ (Keeps X) l l' := fun h => keeps_of_shape h
  unfold BModel.sweep at h
  split at h
  · cases h
  · next mus1 m1 r1 e1 =>
    have h1 : (∀ t ∈ m1.trees, ReachableTree X t) ∧ List.Forall₂ (Keeps X) m.trees m1.trees := by
      unfold BModel.sweepTrees at e1
      split at e1
      · cases e1
      · next y hy =>
        split at e1
        · cases e1
        · next f m2 e2 =>
          split at e1
          · cases e1
          · next mus2 f1 ts r2 e3 =>
            injection e1 with e1; injection e1 with h1 h2; injection h2 with h2 h3; subst h2
            have hst : (∀ t ∈ m2.trees, ReachableTree X t) ∧ List.Forall₂ (Keeps X) m.trees m2.trees := by
              unfold BModel.startPrediction at e2
              split at e2
              · injection e2 with e2; injection e2 with _ e2; subst e2
                exact ⟨hm, lift (List.forall₂_same.2 (fun t _ => SameShape.refl t))⟩
              · exact ⟨predictModel_reach hm e2, lift (predictModel_shape e2)⟩
            exact ⟨refreshLoop_reach hX y (fun ht hz hb => treeBody_reach hX hp1 hp2 ht hz hb) hst.1 e3,
              keeps_comp_list hX hm hst.1 hst.2 (refreshLoop_keeps hX y (fun ht hz hb => frozen_treeBody hX hp1 hp2 ht hz hb) hst.1 e3)⟩
    split at h
    · cases h
    · next m2 r2 e2 =>
      injection h with h; injection h with ha hb; injection hb with hb hc; subst hb
      unfold BModel.sigmaStep at e2
      split at e2
      · cases e2
      · next res m3 e3 =>
        have h3 := residualsModel_shape e3
        split at e2
        · cases e2
        · split at e2
          · cases e2
          · split at e2
            · cases e2
            · injection e2 with e2; injection e2 with ha hb; subst ha
              exact keeps_comp_list hX hm h1.1 h1.2 (lift h3)

/-- Over any number of sweeps. -/
theorem run_keeps (hX : NoNan X) {m m' : BModel ℝ n p} {k : Nat} {pGrow pPrune : ℝ} (hp1 : pGrow ≠ 0) (hp2 : pPrune ≠ 0)
    (hm : ∀ t ∈ m.trees, ReachableTree X t) (h : ModelRun pGrow pPrune m k m') : (∀ t ∈ m'.trees, ReachableTree X t) ∧ List.Forall₂ (Keeps X) m.trees m'.trees := by
  induction h with
  | nil => exact ⟨hm, List.forall₂_same.2 (fun t _ _ => SameShape.refl t)⟩
  | sweep _ e ih => exact ⟨sweep_reach hX hp1 hp2 ih.1 e, keeps_comp_list hX hm ih.1 ih.2 (sweep_keeps hX hp1 hp2 ih.1 e)⟩
  | predict _ e ih => exact ⟨predictModel_reach ih.1 e, keeps_comp_list hX hm ih.1 ih.2 (keeps_of_shape (predictModel_shape e))⟩
  | residuals _ e ih => exact ⟨residuals_reach ih.1 e, keeps_comp_list hX hm ih.1 ih.2 (keeps_of_shape (residualsModel_shape e))⟩
  | @copy k m1 _ ih =>
    refine ⟨fun t ht => ?_, keeps_comp_list hX hm ih.1 ih.2 (keeps_of_shape ?_)⟩
    · obtain ⟨t0, ht0, rfl⟩ := List.mem_map.1 ht
      exact (ih.1 t0 ht0).copy
    · show List.Forall₂ SameShape m1.trees (m1.trees.map _)
      rw [List.forall₂_map_right_iff, List.forall₂_same]
      intro t ht
      obtain ⟨y, s, hI⟩ := reachable_tree_inv hX (ih.1 t ht)
      exact SameShape.ofExt hI (deepCopy_ext t)

end Bart
