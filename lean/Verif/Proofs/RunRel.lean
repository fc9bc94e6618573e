import Verif.Proofs.ModelTrees
import Verif.Proofs.TreeRun

/-! Relations between the trees of a model before and after a run of the default sampler. -/

set_option linter.unusedSectionVars false

namespace Bart
open Spec
variable {K : Type} [Field K] [LinearOrder K] {n p : Nat} {X : Fin n → Fin p → Fl K} [F : MathFns K]

/-- A transitive relation that every operation of a run respects. -/
structure TreeRel (X : Fin n → Fin p → Fl K) (R : Tree K n p → Tree K n p → Prop) : Prop where
  refl : ∀ t, R t t
  trans : ∀ a b c, R a b → R b c → R a c
  predict : ∀ {t b t'}, ReachableTree X t → t.predict = .ok (b, t') → R t t'
  updateY : ∀ {t y t'}, ReachableTree X t → t.updateY y = .ok t' → R t t'
  treeStep : ∀ {t m pGrow pPrune r mu t' r'}, ReachableTree X t → (∃ z, HasTarget t z) → pGrow ≠ 0 → pPrune ≠ 0 →
    Sampler.treeStep m pGrow pPrune t r = .ok (mu, t', r') → R t t'
  leafStep : ∀ {t m i r t' r'}, ReachableTree X t → i ∈ t.leafNodes → Sampler.leafStep m t i r = .ok (t', r') → R t t'
  copy : ∀ {t}, ReachableTree X t → R t t.deepCopy.2

namespace TreeRel
variable {R : Tree K n p → Tree K n p → Prop}

theorem list_trans (H : TreeRel X R) {a b c : List (Tree K n p)} (h : List.Forall₂ R a b) (h' : List.Forall₂ R b c) : List.Forall₂ R a c := by
  induction h generalizing c with
  | nil => cases h'; exact .nil
  | cons hxy _ ih =>
    cases h' with
    | cons hyz hl => exact .cons (H.trans _ _ _ hxy hyz) (ih hl)

theorem list_refl (H : TreeRel X R) (a : List (Tree K n p)) : List.Forall₂ R a a := List.forall₂_same.2 (fun t _ => H.refl t)

theorem predictTrees (H : TreeRel X R) : ∀ {ts ts' : List (Tree K n p)} {f : Fin n → K}, (∀ t ∈ ts, ReachableTree X t) →
    BModel.predictTrees ts = .ok (f, ts') → List.Forall₂ R ts ts' := by
  intro ts
  induction ts with
  | nil => intro ts' f _ h; injection h with h; injection h with h1 h2; subst h2; exact .nil
  | cons t ts ih =>
    intro ts' f hr h
    unfold BModel.predictTrees at h
    split at h
    · cases h
    · cases h
    · cases h
    · next g t1 e1 =>
      split at h
      · cases h
      · next g2 ts1 e2 =>
        injection h with h; injection h with h1 h2; subst h2
        exact .cons (H.predict (hr t (by simp)) e1) (ih (fun t ht => hr t (by simp [ht])) e2)

theorem predictModel (H : TreeRel X R) {m m' : BModel K n p} {f : Fin n → K} (hm : ∀ t ∈ m.trees, ReachableTree X t) (h : m.predict = .ok (f, m')) :
    List.Forall₂ R m.trees m'.trees := by
  unfold BModel.predict at h
  split at h
  · cases h
  · next g ts e =>
    injection h with h; injection h with h1 h2; subst h2
    exact H.predictTrees hm e

theorem residualsModel (H : TreeRel X R) {m m' : BModel K n p} {f : Fin n → K} (hm : ∀ t ∈ m.trees, ReachableTree X t) (h : m.residuals = .ok (f, m')) :
    List.Forall₂ R m.trees m'.trees := by
  unfold BModel.residuals at h
  split at h
  · cases h
  · next g m1 e =>
    split at h
    · cases h
    · injection h with h; injection h with h1 h2; subst h2
      exact H.predictModel hm e

theorem leafSteps (H : TreeRel X R) (hX : NoNan X) (m : Params K) : ∀ {is : List NodeId} {t t' : Tree K n p} {r r' : Rand K}, ReachableTree X t →
    (∀ i ∈ is, i ∈ t.leafNodes) → Sampler.leafSteps m is t r = .ok (t', r') → R t t' := by
  intro is
  induction is with
  | nil => intro t t' r r' ht _ h; injection h with h; injection h with h1 h2; subst h1; exact H.refl _
  | cons i is ih =>
    intro t t' r r' ht hi h
    unfold Sampler.leafSteps at h
    split at h
    · cases h
    · next t1 r1 e =>
      refine H.trans _ _ _ (H.leafStep ht (hi i (by simp)) e) (ih (ht.leafStep F m (hi i (by simp)) e) (fun k hk => ?_) h)
      rw [leafStep_leaves hX ht (hi i (by simp)) e]
      exact hi k (by simp [hk])

theorem treeBody (H : TreeRel X R) (hX : NoNan X) {m : Params K} {pGrow pPrune : K} (hp1 : pGrow ≠ 0) (hp2 : pPrune ≠ 0) {t t' : Tree K n p} {r r' : Rand K}
    {mu : Option TreeMutation} (ht : ReachableTree X t) (hz : ∃ z, HasTarget t z) (h : BModel.treeBody m pGrow pPrune t r = .ok (mu, t', r')) :
    R t t' := by
  unfold BModel.treeBody at h
  split at h
  · cases h
  · next mu1 t1 r1 e1 =>
    split at h
    · cases h
    · next t2 r2 e2 =>
      injection h with h; injection h with h1 h2; injection h2 with h2 h3; subst h2
      exact H.trans _ _ _ (H.treeStep ht hz hp1 hp2 e1) (H.leafSteps hX m (ht.treeStep F m hz hp1 hp2 e1) (fun i hi => hi) e2)

theorem refreshLoop (H : TreeRel X R) {S α : Type} (hX : NoNan X) (y : Fin n → K) {body : Tree K n p → S → Except PyErr (α × Tree K n p × S)}
    (hb : ∀ {t s a t' s'}, ReachableTree X t → (∃ z, HasTarget t z) → body t s = .ok (a, t', s') → R t t') :
    ∀ {ts : List (Tree K n p)} {pred pred' : Fin n → K} {s s' : S} {as : List α} {ts' : List (Tree K n p)}, (∀ t ∈ ts, ReachableTree X t) →
    (∀ {t s a t' s'}, ReachableTree X t → (∃ z, HasTarget t z) → body t s = .ok (a, t', s') → ReachableTree X t') →
    BModel.refreshLoop y body ts pred s = .ok (as, pred', ts', s') → List.Forall₂ R ts ts' := by
  intro ts
  induction ts with
  | nil =>
    intro pred pred' s s' as ts' _ _ h
    injection h with h; injection h with h1 h2; injection h2 with h2 h3; injection h3 with h3 h4; subst h3
    exact .nil
  | cons t ts ih =>
    intro pred pred' s s' as ts' hts hbr h
    unfold BModel.refreshLoop at h
    split at h
    · cases h
    · next p1 t1 e1 =>
      split at h
      · cases h
      · next a t2 s1 e2 =>
        split at h
        · cases h
        · next p2 t3 e3 =>
          split at h
          · cases h
          · next as1 p3 ts1 s2 e4 =>
            injection h with h; injection h with h1 h2; injection h2 with h2 h3; injection h3 with h3 h4; subst h3
            have ht := hts t (by simp)
            obtain ⟨r1, hz⟩ := refreshBegin_reach hX ht e1
            have s1 : R t t1 := by
              unfold BModel.refreshBegin at e1
              split at e1
              · cases e1
              · cases e1
              · cases e1
              · next f t0 e0 =>
                simp only at e1
                split at e1
                · cases e1
                · next t9 e9 =>
                  injection e1 with e1; injection e1 with _ e1; subst e1
                  exact H.trans _ _ _ (H.predict ht e0) (H.updateY (predict_reach ht e0) e9)
            have s3 : R t2 t3 := by
              unfold BModel.refreshEnd at e3
              split at e3
              · cases e3
              · cases e3
              · cases e3
              · next f t0 e0 =>
                injection e3 with e3; injection e3 with _ e3; subst e3
                exact H.predict (hbr r1 hz e2) e0
            exact .cons (H.trans _ _ _ s1 (H.trans _ _ _ (hb r1 hz e2) s3)) (ih (fun t ht => hts t (by simp [ht])) hbr e4)

theorem sweep (H : TreeRel X R) (hX : NoNan X) {m m' : BModel K n p} {pGrow pPrune : K} (hp1 : pGrow ≠ 0) (hp2 : pPrune ≠ 0) {r r' : Rand K}
    {mus : List (Option TreeMutation)} (hm : ∀ t ∈ m.trees, ReachableTree X t) (h : m.sweep pGrow pPrune r = .ok (mus, m', r')) :
    List.Forall₂ R m.trees m'.trees := by
  unfold BModel.sweep at h
  split at h
  · cases h
  · next mus1 m1 r1 e1 =>
    have h1 : (∀ t ∈ m1.trees, ReachableTree X t) ∧ List.Forall₂ R m.trees m1.trees := by
      unfold BModel.sweepTrees at e1
      split at e1
      · cases e1
      · next y hy =>
        split at e1
        · cases e1
        · next f m2 e2 =>
          split at e1
          · cases e1
          · next mus2 f1 ts r2 e3 =>
            injection e1 with e1; injection e1 with h1 h2; injection h2 with h2 h3; subst h2
            have hst : (∀ t ∈ m2.trees, ReachableTree X t) ∧ List.Forall₂ R m.trees m2.trees := by
              unfold BModel.startPrediction at e2
              split at e2
              · injection e2 with e2; injection e2 with _ e2; subst e2
                exact ⟨hm, H.list_refl _⟩
              · exact ⟨predictModel_reach hm e2, H.predictModel hm e2⟩
            exact ⟨refreshLoop_reach hX y (fun ht hz hb => treeBody_reach hX hp1 hp2 ht hz hb) hst.1 e3,
              H.list_trans hst.2 (H.refreshLoop hX y (fun ht hz hb => H.treeBody hX hp1 hp2 ht hz hb) hst.1
                (fun ht hz hb => treeBody_reach hX hp1 hp2 ht hz hb) e3)⟩
    split at h
    · cases h
    · next m2 r2 e2 =>
      injection h with h; injection h with ha hb; injection hb with hb hc; subst hb
      unfold BModel.sigmaStep at e2
      split at e2
      · cases e2
      · next res m3 e3 =>
        have h3 := H.residualsModel h1.1 e3
        split at e2
        · cases e2
        · split at e2
          · cases e2
          · split at e2
            · cases e2
            · injection e2 with e2; injection e2 with ha hb; subst ha
              exact H.list_trans h1.2 h3

theorem copyModel (H : TreeRel X R) {m : BModel K n p} (hm : ∀ t ∈ m.trees, ReachableTree X t) : List.Forall₂ R m.trees m.deepCopy.2.trees := by
  show List.Forall₂ R m.trees (m.trees.map _)
  rw [List.forall₂_map_right_iff, List.forall₂_same]
  exact fun t ht => H.copy (hm t ht)

/-- Over a run. -/
theorem run (H : TreeRel X R) (hX : NoNan X) {m m' : BModel K n p} {k : Nat} {pGrow pPrune : K} (hp1 : pGrow ≠ 0) (hp2 : pPrune ≠ 0)
    (hm : ∀ t ∈ m.trees, ReachableTree X t) (h : ModelRun pGrow pPrune m k m') : (∀ t ∈ m'.trees, ReachableTree X t) ∧ List.Forall₂ R m.trees m'.trees := by
  induction h with
  | nil => exact ⟨hm, H.list_refl _⟩
  | sweep _ e ih => exact ⟨sweep_reach hX hp1 hp2 ih.1 e, H.list_trans ih.2 (H.sweep hX hp1 hp2 ih.1 e)⟩
  | predict _ e ih => exact ⟨predictModel_reach ih.1 e, H.list_trans ih.2 (H.predictModel ih.1 e)⟩
  | residuals _ e ih => exact ⟨residuals_reach ih.1 e, H.list_trans ih.2 (H.residualsModel ih.1 e)⟩
  | copy _ ih =>
    refine ⟨fun t ht => ?_, H.list_trans ih.2 (H.copyModel ih.1)⟩
    obtain ⟨t0, ht0, rfl⟩ := List.mem_map.1 ht
    exact (ih.1 t0 ht0).copy

end TreeRel

/-! ### What is not part of the tree is not touched -/

/-- Objects in the heap that are not nodes of the tree stay as they are and never become nodes of the tree. -/
structure Untouched (t t' : Tree K n p) : Prop where
  next : t.heap.nextNode ≤ t'.heap.nextNode
  node : ∀ i < t.heap.nextNode, i ∉ t.nodes → t'.heap.node i = t.heap.node i
  out : ∀ i < t.heap.nextNode, i ∉ t.nodes → i ∉ t'.nodes

theorem Untouched.ofExt {t t' : Tree K n p} (h : TreeExt t t') : Untouched t t' :=
  ⟨h.heap.nextNode, fun i hi _ => h.heap.node i hi, fun i _ hn => by rw [h.nodes]; exact hn⟩

theorem mutate_untouched {y : Option (Fin n → K)} {t t1 t2 : Tree K n p} {s : Shape} {mu : TreeMutation}
    (hI : TreeInv X y t s) (he : TreeExt t t1) (hp : IsProposal X y t s t1.heap mu) (h : t1.mutate mu = .ok t2) : Untouched t t2 := by
  obtain ⟨t', s', e, hI', -, -, hk, -, hn, -, -⟩ := hp.mutate hI he
  rw [h] at e; injection e with e; subst e
  have hout : ∀ i < t.heap.nextNode, i ∉ t.nodes → i ∉ t2.nodes := by
    intro i hi hin hc
    rcases hp with ⟨i0, D, L, R, j, v, rfl, hg⟩ | ⟨i0, l, r, U, rfl, hg⟩
    · rcases hk i hc with h1 | ⟨-, -, -, rfl⟩ | ⟨-, D', L', R', rfl, hL, hR, h2⟩
      · exact hin h1
      · have := hg.new i (by simp); omega
      · obtain ⟨hL', hR', -⟩ := hg.children
        simp only at hL hR
        rw [hL'] at hL; rw [hR'] at hR
        injection hL with hL; injection hR with hR; subst hL hR
        have a1 := hg.new L (by simp); have a2 := hg.new R (by simp)
        rcases h2 with rfl | rfl <;> omega
    · rcases hk i hc with h1 | ⟨-, -, -, rfl⟩ | ⟨hc, -⟩
      · exact hin h1
      · have := hg.new; omega
      · cases hc
  refine ⟨by rw [hn]; exact he.heap.nextNode, fun i hi hin => ?_, hout⟩
  have hnd : t2.nodes.Nodup := hI'.nodes_nodup
  have hno := hout i hi hin
  unfold Tree.mutate at h
  split at h
  · cases h
  · injection h with h; subst h
    simp only at hnd hno ⊢
    rw [relink_foldl _ _ _ hnd]
    simp only [hno, if_false]
    exact he.heap.node i hi

/-- Everything the sampler does leaves the other objects alone. -/
theorem untouched_rel (hX : NoNan X) : TreeRel X (Untouched (K := K) (n := n) (p := p)) where
  refl t := ⟨le_refl _, fun _ _ _ => rfl, fun _ _ h => h⟩
  trans a b c h h' := ⟨h.next.trans h'.next, fun i hi hn => (h'.node i (hi.trans_le h.next) (h.out i hi hn)).trans (h.node i hi hn),
    fun i hi hn => h'.out i (hi.trans_le h.next) (h.out i hi hn)⟩
  predict := by
    intro t b t' _ h
    obtain ⟨e1, e2, -⟩ := predict_cases h
    exact ⟨by rw [e1], fun i _ _ => by rw [e1], fun i _ hn => by rw [e2]; exact hn⟩
  updateY := by
    intro t y t' ht h
    obtain ⟨y0, s, hI⟩ := reachable_tree_inv hX ht
    obtain ⟨t2, e, -, hn, -, -, hu, -⟩ := updateY_spec hI y
    rw [h] at e; injection e with e; subst e
    exact ⟨by rw [hu.nextNode], fun i _ _ => by rw [hu.node], fun i _ hi => by rw [hn]; exact hi⟩
  treeStep := by
    intro t m pGrow pPrune r mu t' r' ht hz hp1 hp2 h
    obtain ⟨y, s, hI⟩ := reachable_tree_inv hX ht
    obtain ⟨z, hz⟩ := hz
    have := hI.target hz; subst this
    have h2 := Sampler.treeStep_core hX hI m hp1 hp2 r
    rw [h] at h2
    cases h2 with
    | reject he => exact .ofExt he
    | accept he hp hm => exact mutate_untouched hI he (hp s hI) hm
  leafStep := by
    intro t m i r t' r' ht hi h
    obtain ⟨y, s, hI⟩ := reachable_tree_inv hX ht
    obtain ⟨h', v, x, rfl⟩ := Sampler.leafStep_core hI m hi h
    refine ⟨x.nextNode, fun k hk hkn => ?_, fun k _ hkn => hkn⟩
    have hki : k ≠ i := fun e => hkn (e ▸ (List.mem_filter.1 hi).1)
    simp [Heap.setValue, Heap.setNode, hki, x.node k hk]
  copy := fun _ => .ofExt (deepCopy_ext _)

end Bart
