import Verif.Spec.Layers
import Verif.Proofs.FiniteRange

/-! With normal and gamma numbers from a finite set a chain of the oblivious tree sampler has finitely many possible histories of trees and sigma, however many draws it takes. -/

set_option linter.unusedSectionVars false

namespace Bart.LayerFinite
open Spec Reference FiniteRange
variable {K : Type} [Field K] [LinearOrder K] [MathFns K] {n p : Nat}

theorem leafValues_finite {P : Params K} {X : Fin n → Fin p → Fl K} {y : Fin n → K} {Z : Set K} (hZ : Z.Finite) (ps : List (List (Cond K p))) :
    {vs | ∃ zs zs', (∀ z ∈ zs, z ∈ Z) ∧ Layers.leafValues P X y ps zs = .ok (vs, zs')}.Finite := by
  induction ps with
  | nil =>
    refine (Set.finite_singleton []).subset ?_
    rintro vs ⟨zs, zs', -, h⟩
    rw [Layers.leafValues] at h
    cases h; rfl
  | cons q ps ih =>
    let f : K → K := fun z => match (Sampler.leafValue P (Fl.ofInt (count (Layers.rowsOn X q))) (.fin (total y (Layers.rowsOn X q))) (.fin z)).toFinite with
      | .ok v => v
      | .error _ => 0
    refine (Set.Finite.image2 (fun z vs => f z :: vs) hZ ih).subset ?_
    rintro vs ⟨zs, zs', hz, h⟩
    cases zs with
    | nil => cases h
    | cons z zs =>
      unfold Layers.leafValues at h
      split at h
      · cases h
      · next v e1 =>
        split at h
        · cases h
        · next a b e2 =>
          cases h
          refine ⟨z, hz z (List.mem_cons_self ..), a, ⟨zs, _, fun w hw => hz w (List.mem_cons_of_mem _ hw), e2⟩, ?_⟩
          have : f z = v := by simp only [f]; rw [e1]
          simp only [this]

theorem leafValues_rest {P : Params K} {X : Fin n → Fin p → Fl K} {y : Fin n → K} (ps : List (List (Cond K p))) : ∀ {vs zs zs' : List K}, Layers.leafValues P X y ps zs = .ok (vs, zs') →
    ∀ z ∈ zs', z ∈ zs := by
  induction ps with
  | nil => intro vs zs zs' h; rw [Layers.leafValues] at h; cases h; exact fun _ h => h
  | cons q ps ih =>
    intro vs zs zs' h
    cases zs with
    | nil => cases h
    | cons z zs =>
      unfold Layers.leafValues at h
      split at h
      · cases h
      · split at h
        · cases h
        · next e2 => cases h; exact fun w hw => List.mem_cons_of_mem _ (ih e2 w hw)

theorem growRules_finite (X : Fin n → Fin p → Fl K) (ps : List (List (Cond K p))) : {l | ∃ us us', Layers.growRules X ps us = .ok (l, us')}.Finite := by
  have h1 : ((fun x : Fin p × (Fin n × Fin p) => (some (x.1, X x.2.1 x.2.2) : Layers.Rule K p)) '' Set.univ).Finite := Set.finite_univ.image _
  have h2 := (Set.finite_singleton (none : Layers.Rule K p)).union h1
  induction ps with
  | nil =>
    refine (Set.finite_singleton []).subset ?_
    rintro l ⟨us, us', h⟩
    cases h; rfl
  | cons q ps ih =>
    refine (Set.Finite.image2 (fun a l => a :: l) h2 ih).subset ?_
    rintro l ⟨us, us', h⟩
    unfold Layers.growRules at h
    split at h
    · cases h
    · next rule us1 e1 =>
      split at h
      · cases h
      · next l2 us2 e2 =>
        cases h
        refine ⟨rule, ?_, l2, ⟨_, _, e2⟩, rfl⟩
        unfold Layers.growRule at e1
        split at e1
        · cases e1; exact .inl rfl
        · split at e1
          · cases e1
          · split at e1
            · cases e1
            · next j ej =>
              split at e1
              · cases e1
              · next v us3 ev =>
                cases e1
                have := drawCut_in ev
                unfold column at this
                obtain ⟨r, -, hr⟩ := List.mem_map.1 this
                exact .inr ⟨(j, (r, j)), Set.mem_univ _, by rw [← hr]⟩

theorem treeStep_finite (P : Params K) (pGrow pPrune : K) (X : Fin n → Fin p → Fl K) (y : Fin n → K) (L : List (List (Layers.Rule K p))) :
    {L' | ∃ r b r', Layers.treeStep P pGrow pPrune X y L r = .ok (b, L', r')}.Finite := by
  refine (((Set.finite_singleton L).union (Set.finite_singleton L.tail)).union ((growRules_finite X (Layers.paths L)).image (fun rules => rules :: L))).subset ?_
  rintro L' ⟨r, b, r', h⟩
  unfold Layers.treeStep at h
  split at h
  · cases h
  · next me ms hm =>
    split at h
    · cases h
    · next proposed ratio us e =>
      split at h
      · cases h
      · dsimp only at h
        simp only [Except.ok.injEq, Prod.mk.injEq] at h
        obtain ⟨-, h, -⟩ := h
        split at h
        · subst h
          cases me with
          | grow =>
            unfold Layers.propose at e
            dsimp only at e
            split at e
            · cases e
            · next eg =>
              split at e
              · cases e
              · cases e; exact .inr ⟨_, ⟨_, _, eg⟩, rfl⟩
          | prune =>
            unfold Layers.propose at e
            dsimp only at e
            split at e
            · cases e; exact .inl (.inl rfl)
            · split at e
              · cases e
              · cases e; exact .inl (.inr rfl)
        · exact .inl (.inl h.symm)

theorem treeStep_keeps {P : Params K} {pGrow pPrune : K} {X : Fin n → Fin p → Fl K} {y : Fin n → K} {L L' : List (List (Layers.Rule K p))} {r r' : Rand K} {b : Bool}
    (h : Layers.treeStep P pGrow pPrune X y L r = .ok (b, L', r')) : r'.normals = r.normals ∧ r'.gammas = r.gammas := by
  unfold Layers.treeStep at h
  split at h
  · cases h
  · split at h
    · cases h
    · split at h
      · cases h
      · cases h; exact ⟨rfl, rfl⟩

theorem treeBody_finite (P : Params K) (pGrow pPrune : K) (X : Fin n → Fin p → Fl K) (y : Fin n → K) {Z G : Set K} (hZ : Z.Finite) (t : Layers.LTree K p) :
    {t' | ∃ r b r', Within Z G r ∧ Layers.treeBody P pGrow pPrune X y t r = .ok (b, t', r')}.Finite := by
  refine ((treeStep_finite P pGrow pPrune X y t.layers).biUnion (fun L _ => (leafValues_finite (P := P) (X := X) (y := y) hZ (Layers.paths L)).image (fun vs => (⟨L, vs⟩ : Layers.LTree K p)))).subset ?_
  rintro t' ⟨r, b, r', hr, h⟩
  unfold Layers.treeBody at h
  split at h
  · cases h
  · next b1 t1 r1 e1 =>
    split at h
    · cases h
    · next t2 zs e2 =>
      cases h
      refine Set.mem_biUnion (x := t1) ⟨_, _, _, e1⟩ ⟨t2, ⟨_, _, ?_, e2⟩, rfl⟩
      rw [(treeStep_keeps e1).1]
      exact hr.1

theorem treeBody_within {P : Params K} {pGrow pPrune : K} {X : Fin n → Fin p → Fl K} {y : Fin n → K} {Z G : Set K} {t t' : Layers.LTree K p} {r r' : Rand K} {b : Bool} (hr : Within Z G r)
    (h : Layers.treeBody P pGrow pPrune X y t r = .ok (b, t', r')) : Within Z G r' := by
  unfold Layers.treeBody at h
  split at h
  · cases h
  · next b1 t1 r1 e1 =>
    split at h
    · cases h
    · next t2 zs e2 =>
      cases h
      obtain ⟨k1, k2⟩ := treeStep_keeps e1
      refine ⟨fun z hz => hr.1 z ?_, fun g hg => hr.2 g (k2 ▸ hg)⟩
      rw [← k1]
      exact leafValues_rest _ e2 z hz

theorem sweepTrees_finite (P : Params K) (pGrow pPrune : K) (X : Fin n → Fin p → Fl K) (y : Fin n → K) {Z G : Set K} (hZ : Z.Finite) (ts : List (Layers.LTree K p)) : ∀ (done : List (Layers.LTree K p)),
    {all | ∃ r bs r', Within Z G r ∧ Layers.sweepTrees P pGrow pPrune X y done ts r = .ok (bs, all, r')}.Finite := by
  induction ts with
  | nil =>
    intro done
    refine (Set.finite_singleton done).subset ?_
    rintro all ⟨r, bs, r', -, h⟩
    cases h; rfl
  | cons t ts ih =>
    intro done
    refine ((treeBody_finite P pGrow pPrune X (fun i => y i - Layers.forest (done ++ ts) (X i)) hZ t (G := G)).biUnion (fun t1 _ => ih (done ++ [t1]))).subset ?_
    rintro all ⟨r, bs, r', hr, h⟩
    unfold Layers.sweepTrees at h
    split at h
    · cases h
    · next b t1 r1 e1 =>
      split at h
      · cases h
      · next bs2 all2 r2 e2 =>
        cases h
        exact Set.mem_biUnion (x := t1) ⟨_, _, _, hr, e1⟩ ⟨_, _, _, treeBody_within hr e1, e2⟩

theorem sweepTrees_within {P : Params K} {pGrow pPrune : K} {X : Fin n → Fin p → Fl K} {y : Fin n → K} {Z G : Set K} (ts : List (Layers.LTree K p)) : ∀ {done all : List (Layers.LTree K p)} {r r' : Rand K} {bs : List Bool},
    Within Z G r → Layers.sweepTrees P pGrow pPrune X y done ts r = .ok (bs, all, r') → Within Z G r' := by
  induction ts with
  | nil => intro done all r r' bs hr h; cases h; exact hr
  | cons t ts ih =>
    intro done all r r' bs hr h
    unfold Layers.sweepTrees at h
    split at h
    · cases h
    · next e1 =>
      split at h
      · cases h
      · next e2 => cases h; exact ih (treeBody_within hr e1) e2

theorem sweep_finite (c : Reference.Settings K) (X : Fin n → Fin p → Fl K) (y : Fin n → K) {Z G : Set K} (hZ : Z.Finite) (hG : G.Finite) (s : Layers.State K p) :
    {s' | ∃ r bs r', Within Z G r ∧ Layers.sweep c X y s r = .ok (bs, s', r')}.Finite := by
  let f : K → K := fun g => match (MathFns.pow g (-(1/2))).toFinite with
    | .ok v => v
    | .error _ => 0
  refine (Set.Finite.image2 (fun ts g => (⟨ts, f g⟩ : Layers.State K p)) (sweepTrees_finite (c.params s.sigma) c.pGrow c.pPrune X y hZ (G := G) s.trees []) hG).subset ?_
  rintro s' ⟨r, bs, r', hr, h⟩
  unfold Layers.sweep at h
  split at h
  · cases h
  · next bs1 ts r1 e1 =>
    have hw := sweepTrees_within _ hr e1
    split at h
    · cases h
    · next v gs e2 =>
      cases h
      unfold Layers.sigmaStep at e2
      split at e2
      · cases e2
      · split at e2
        · cases e2
        · next g gs1 eg =>
          split at e2
          · cases e2
          · next v1 e3 =>
            cases e2
            refine ⟨ts, ⟨_, _, _, hr, e1⟩, g, hw.2 g (by rw [eg]; exact List.mem_cons_self ..), ?_⟩
            have : f g = v := by simp only [f]; rw [e3]
            simp only [this]

theorem sweep_within {c : Reference.Settings K} {X : Fin n → Fin p → Fl K} {y : Fin n → K} {Z G : Set K} {s s' : Layers.State K p} {r r' : Rand K} {bs : List Bool} (hr : Within Z G r)
    (h : Layers.sweep c X y s r = .ok (bs, s', r')) : Within Z G r' := by
  unfold Layers.sweep at h
  split at h
  · cases h
  · next bs1 ts r1 e1 =>
    have hw := sweepTrees_within _ hr e1
    split at h
    · cases h
    · next v gs e2 =>
      cases h
      refine ⟨hw.1, fun g hg => hw.2 g ?_⟩
      unfold Layers.sigmaStep at e2
      split at e2
      · cases e2
      · split at e2
        · cases e2
        · next g1 gs1 eg =>
          split at e2
          · cases e2
          · cases e2; rw [eg]; exact List.mem_cons_of_mem _ hg

theorem sweeps_finite (c : Reference.Settings K) (X : Fin n → Fin p → Fl K) (y : Fin n → K) {Z G : Set K} (hZ : Z.Finite) (hG : G.Finite) (k : Nat) : ∀ (s : Layers.State K p),
    {ss | ∃ r l s' r', Within Z G r ∧ Layers.sweeps c X y k s r = .ok (l, s', r') ∧ ss = l.map Prod.snd}.Finite := by
  induction k with
  | zero =>
    intro s
    refine (Set.finite_singleton []).subset ?_
    rintro ss ⟨r, l, s', r', -, h, rfl⟩
    cases h; rfl
  | succ k ih =>
    intro s
    refine ((sweep_finite c X y hZ hG s).biUnion (fun s1 _ => (ih s1).image (fun ss => s1 :: ss))).subset ?_
    rintro ss ⟨r, l, s', r', hr, h, rfl⟩
    unfold Layers.sweeps at h
    split at h
    · cases h
    · next bs s1 r1 e1 =>
      split at h
      · cases h
      · next l2 s2 r2 e2 =>
        cases h
        exact Set.mem_biUnion (x := s1) ⟨_, _, _, hr, e1⟩ ⟨_, ⟨_, _, _, _, sweep_within hr e1, e2, rfl⟩, rfl⟩

theorem chain_finite (c : Reference.Config K) (X : Fin n → Fin p → Fl K) (y : Fin n → K) {Z G : Set K} (hZ : Z.Finite) (hG : G.Finite) :
    {ss : List (Layers.State K p) | ∃ r l, Within Z G r ∧ Layers.chain c X y r = .ok l ∧ ss = l.map Prod.snd}.Finite := by
  refine ((sweeps_finite c.toSettings X y hZ hG (c.nBurn + c.nSamples) (Layers.start c.toSettings)).image (fun ss => (storedTimes c.nSamples c.thin).filterMap (fun t => ss[c.nBurn + t]?))).subset ?_
  rintro ss ⟨r, l, hr, h, rfl⟩
  unfold Layers.chain at h
  split at h
  · cases h
  · next l1 s1 r1 e1 =>
    cases h
    refine ⟨_, ⟨_, _, _, _, hr, e1, rfl⟩, ?_⟩
    simp only [List.map_filterMap, List.getElem?_map]

end Bart.LayerFinite
