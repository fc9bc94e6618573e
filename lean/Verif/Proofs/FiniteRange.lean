import Mathlib.Data.Set.Finite.Lattice
import Mathlib.Data.Set.Finite.Lemmas
import Verif.Spec.Reference
import Verif.Proofs.Returns

/-! With normal and gamma numbers from a finite set a chain has finitely many possible histories of trees and sigma, however many draws it takes. -/

set_option linter.unusedSectionVars false

namespace Bart.FiniteRange
open Spec Reference
variable {K : Type} [Field K] [LinearOrder K] [MathFns K] {n p : Nat}

/-- All normal and gamma numbers that are ready come from the given sets. -/
def Within (Z G : Set K) (r : Rand K) : Prop := (∀ z ∈ r.normals, z ∈ Z) ∧ ∀ g ∈ r.gammas, g ∈ G

theorem leafValues_finite {P : Params K} {X : Fin n → Fin p → Fl K} {y : Fin n → K} {Z : Set K} (hZ : Z.Finite) (t : RTree K p) :
    {t' | ∃ zs zs', (∀ z ∈ zs, z ∈ Z) ∧ leafValues P X y t zs = .ok (t', zs')}.Finite := by
  induction t with
  | nil =>
    refine (Set.finite_singleton []).subset ?_
    rintro t' ⟨zs, zs', -, h⟩
    simp only [leafValues, Except.ok.injEq, Prod.mk.injEq] at h
    exact h.1.symm
  | cons nd t ih =>
    obtain ⟨path, content⟩ := nd
    cases content with
    | split j v =>
      refine (ih.image (fun t' => ⟨path, .split j v⟩ :: t')).subset ?_
      rintro t' ⟨zs, zs', hz, h⟩
      unfold leafValues at h
      split at h
      · cases h
      · next a b e => cases h; exact ⟨_, ⟨zs, _, hz, e⟩, rfl⟩
    | leaf v0 =>
      let f : K → K := fun z => match (Sampler.leafValue P (Fl.ofInt (count (RNode.rows X ⟨path, .leaf v0⟩))) (.fin (total y (RNode.rows X ⟨path, .leaf v0⟩))) (.fin z)).toFinite with
        | .ok v => v
        | .error _ => 0
      refine (Set.Finite.image2 (fun z t' => ⟨path, .leaf (f z)⟩ :: t') hZ ih).subset ?_
      rintro t' ⟨zs, zs', hz, h⟩
      cases zs with
      | nil => cases h
      | cons z zs =>
        unfold leafValues at h
        dsimp only at h
        split at h
        · cases h
        · next v e1 =>
          split at h
          · cases h
          · next a b e2 =>
            cases h
            refine ⟨z, hz z (List.mem_cons_self ..), a, ⟨zs, _, fun w hw => hz w (List.mem_cons_of_mem _ hw), e2⟩, ?_⟩
            have : f z = v := by simp only [f]; rw [e1]
            simp only [this]

theorem leafValues_rest {P : Params K} {X : Fin n → Fin p → Fl K} {y : Fin n → K} (t : RTree K p) : ∀ {t' : RTree K p} {zs zs' : List K}, leafValues P X y t zs = .ok (t', zs') →
    ∀ z ∈ zs', z ∈ zs := by
  induction t with
  | nil => intro t' zs zs' h; cases h; exact fun _ h => h
  | cons nd t ih =>
    intro t' zs zs' h
    obtain ⟨path, content⟩ := nd
    cases content with
    | split j v =>
      unfold leafValues at h
      split at h
      · cases h
      · next e => cases h; exact ih e
    | leaf v0 =>
      cases zs with
      | nil => cases h
      | cons z zs =>
        unfold leafValues at h
        dsimp only at h
        split at h
        · cases h
        · split at h
          · cases h
          · next e2 => cases h; exact fun w hw => List.mem_cons_of_mem _ (ih e2 w hw)

theorem choice_in {α : Type} {l : List α} {u : Nat} {a : α} (h : choice l u = .ok a) : a ∈ l := by
  unfold choice at h
  split at h
  · next e => cases h; exact List.mem_of_getElem? e
  · cases h

theorem drawCut_in {col : List (Fl K)} : ∀ {us us' : List Nat} {v : Fl K}, drawCut col us = .ok (v, us') → v ∈ col := by
  intro us
  induction us with
  | nil => intro us' v h; cases h
  | cons u us ih =>
    intro us' v h
    unfold drawCut at h
    split at h
    · cases h
    · next e =>
      split at h
      · cases h; exact choice_in e
      · exact ih h

theorem proposeGrow_finite (X : Fin n → Fin p → Fl K) (t : RTree K p) : {mv | ∃ us us', proposeGrow X t us = .ok (mv, us')}.Finite := by
  have h1 : {nd | nd ∈ t}.Finite := List.finite_toSet t
  have h2 : (Set.range fun x : Fin n × Fin p => X x.1 x.2).Finite := Set.finite_range _
  refine (Set.Finite.image (fun x : RNode K p × Fin p × Fl K => Move.grow x.1.path x.2.1 x.2.2) (h1.prod ((Set.finite_univ (α := Fin p)).prod h2))).subset ?_
  rintro mv ⟨us, us', h⟩
  unfold proposeGrow at h
  split at h
  · split at h
    · cases h
    · next nd e1 =>
      split at h
      · cases h
      · next j e2 =>
        split at h
        · cases h
        · next v us1 e3 =>
          cases h
          refine ⟨(nd, j, v), ⟨(List.mem_filter.1 (choice_in e1)).1, Set.mem_univ _, ?_⟩, rfl⟩
          have := drawCut_in e3
          unfold column at this
          obtain ⟨r, -, hr⟩ := List.mem_map.1 this
          exact ⟨(r, j), hr⟩
  · cases h

theorem proposePrune_finite (t : RTree K p) : {mv | ∃ us us', proposePrune t us = .ok (mv, us')}.Finite := by
  have h1 : {nd | nd ∈ t}.Finite := List.finite_toSet t
  let f : RNode K p → Set (Move K p) := fun nd => match nd.content with
    | .leaf _ => ∅
    | .split j v => {.prune nd.path j v}
  refine (h1.biUnion (t := f) ?_).subset ?_
  · intro nd _
    simp only [f]
    split
    · exact Set.finite_empty
    · exact Set.finite_singleton _
  · rintro mv ⟨us, us', h⟩
    unfold proposePrune at h
    split at h
    · cases h
    · split at h
      · next path j v e =>
        cases h
        refine Set.mem_biUnion (x := ⟨path, .split j v⟩) (List.mem_filter.1 (choice_in e)).1 ?_
        simp [f]
      · cases h
      · cases h

theorem propose_in {X : Fin n → Fin p → Fl K} {t : RTree K p} {us us' : List Nat} {mv : Move K p} {ms' : List Method} : ∀ {ms : List Method}, propose X t us ms = .ok (mv, us', ms') →
    (∃ a b, proposeGrow X t a = .ok (mv, b)) ∨ ∃ a b, proposePrune t a = .ok (mv, b) := by
  intro ms
  induction ms with
  | nil => intro h; cases h
  | cons m ms ih =>
    intro h
    cases m with
    | grow =>
      unfold propose at h
      split at h
      · exact ih h
      · split at h
        · cases h
        · next e => cases h; exact .inl ⟨_, _, e⟩
    | prune =>
      unfold propose at h
      split at h
      · exact ih h
      · split at h
        · cases h
        · next e => cases h; exact .inr ⟨_, _, e⟩

theorem treeStep_finite (P : Params K) (pGrow pPrune : K) (X : Fin n → Fin p → Fl K) (y : Fin n → K) (t : RTree K p) :
    {t' | ∃ r b r', Reference.treeStep P pGrow pPrune X y t r = .ok (b, t', r')}.Finite := by
  refine ((Set.finite_singleton t).union (((proposeGrow_finite X t).union (proposePrune_finite t)).image t.apply)).subset ?_
  rintro t' ⟨r, b, r', h⟩
  unfold Reference.treeStep at h
  split at h
  · cases h
  · next mv us ms e =>
    split at h
    · cases h
    · dsimp only at h
      simp only [Except.ok.injEq, Prod.mk.injEq] at h
      obtain ⟨-, h, -⟩ := h
      split at h
      · exact .inr ⟨mv, propose_in e, h⟩
      · exact .inl h.symm

theorem treeStep_keeps {P : Params K} {pGrow pPrune : K} {X : Fin n → Fin p → Fl K} {y : Fin n → K} {t t' : RTree K p} {r r' : Rand K} {b : Bool}
    (h : Reference.treeStep P pGrow pPrune X y t r = .ok (b, t', r')) : r'.normals = r.normals ∧ r'.gammas = r.gammas := by
  unfold Reference.treeStep at h
  split at h
  · cases h
  · split at h
    · cases h
    · cases h; exact ⟨rfl, rfl⟩

theorem treeBody_finite (P : Params K) (pGrow pPrune : K) (X : Fin n → Fin p → Fl K) (y : Fin n → K) {Z G : Set K} (hZ : Z.Finite) (t : RTree K p) :
    {t' | ∃ r b r', Within Z G r ∧ Reference.treeBody P pGrow pPrune X y t r = .ok (b, t', r')}.Finite := by
  refine ((treeStep_finite P pGrow pPrune X y t).biUnion (fun t1 _ => leafValues_finite (P := P) (X := X) (y := y) hZ t1)).subset ?_
  rintro t' ⟨r, b, r', hr, h⟩
  unfold Reference.treeBody at h
  split at h
  · cases h
  · next b1 t1 r1 e1 =>
    split at h
    · cases h
    · next t2 zs e2 =>
      cases h
      refine Set.mem_biUnion (x := t1) ⟨_, _, _, e1⟩ ⟨_, _, ?_, e2⟩
      rw [(treeStep_keeps e1).1]
      exact hr.1

theorem treeBody_within {P : Params K} {pGrow pPrune : K} {X : Fin n → Fin p → Fl K} {y : Fin n → K} {Z G : Set K} {t t' : RTree K p} {r r' : Rand K} {b : Bool} (hr : Within Z G r)
    (h : Reference.treeBody P pGrow pPrune X y t r = .ok (b, t', r')) : Within Z G r' := by
  unfold Reference.treeBody at h
  split at h
  · cases h
  · next b1 t1 r1 e1 =>
    split at h
    · cases h
    · next t2 zs e2 =>
      cases h
      obtain ⟨k1, k2⟩ := treeStep_keeps e1
      refine ⟨fun z hz => hr.1 z ?_, fun g hg => hr.2 g (k2 ▸ hg)⟩
      rw [← k1]
      exact leafValues_rest _ e2 z hz

theorem sweepTrees_finite (P : Params K) (pGrow pPrune : K) (X : Fin n → Fin p → Fl K) (y : Fin n → K) {Z G : Set K} (hZ : Z.Finite) (ts : List (RTree K p)) : ∀ (done : List (RTree K p)),
    {all | ∃ r bs r', Within Z G r ∧ Reference.sweepTrees P pGrow pPrune X y done ts r = .ok (bs, all, r')}.Finite := by
  induction ts with
  | nil =>
    intro done
    refine (Set.finite_singleton done).subset ?_
    rintro all ⟨r, bs, r', -, h⟩
    cases h; rfl
  | cons t ts ih =>
    intro done
    refine ((treeBody_finite P pGrow pPrune X (fun i => y i - forest (done ++ ts) (X i)) hZ t (G := G)).biUnion (fun t1 _ => ih (done ++ [t1]))).subset ?_
    rintro all ⟨r, bs, r', hr, h⟩
    unfold Reference.sweepTrees at h
    split at h
    · cases h
    · next b t1 r1 e1 =>
      split at h
      · cases h
      · next bs2 all2 r2 e2 =>
        cases h
        exact Set.mem_biUnion (x := t1) ⟨_, _, _, hr, e1⟩ ⟨_, _, _, treeBody_within hr e1, e2⟩

theorem sweepTrees_within {P : Params K} {pGrow pPrune : K} {X : Fin n → Fin p → Fl K} {y : Fin n → K} {Z G : Set K} (ts : List (RTree K p)) : ∀ {done all : List (RTree K p)} {r r' : Rand K} {bs : List Bool},
    Within Z G r → Reference.sweepTrees P pGrow pPrune X y done ts r = .ok (bs, all, r') → Within Z G r' := by
  induction ts with
  | nil => intro done all r r' bs hr h; cases h; exact hr
  | cons t ts ih =>
    intro done all r r' bs hr h
    unfold Reference.sweepTrees at h
    split at h
    · cases h
    · next e1 =>
      split at h
      · cases h
      · next e2 => cases h; exact ih (treeBody_within hr e1) e2

theorem sweep_finite (c : Reference.Settings K) (X : Fin n → Fin p → Fl K) (y : Fin n → K) {Z G : Set K} (hZ : Z.Finite) (hG : G.Finite) (s : State K p) :
    {s' | ∃ r bs r', Within Z G r ∧ Reference.sweep c X y s r = .ok (bs, s', r')}.Finite := by
  let f : K → K := fun g => match (MathFns.pow g (-(1/2))).toFinite with
    | .ok v => v
    | .error _ => 0
  refine (Set.Finite.image2 (fun ts g => (⟨ts, f g⟩ : State K p)) (sweepTrees_finite (c.params s.sigma) c.pGrow c.pPrune X y hZ (G := G) s.trees []) hG).subset ?_
  rintro s' ⟨r, bs, r', hr, h⟩
  unfold Reference.sweep at h
  split at h
  · cases h
  · next bs1 ts r1 e1 =>
    have hw := sweepTrees_within _ hr e1
    split at h
    · cases h
    · next v gs e2 =>
      cases h
      unfold sigmaStep at e2
      split at e2
      · cases e2
      · split at e2
        · cases e2
        · next g gs1 eg =>
          split at e2
          · cases e2
          · next v1 e3 =>
            cases e2
            refine ⟨ts, ⟨_, _, _, hr, e1⟩, g, hw.2 g (by rw [eg]; exact List.mem_cons_self ..), ?_⟩
            have : f g = v := by simp only [f]; rw [e3]
            simp only [this]

theorem sweep_within {c : Reference.Settings K} {X : Fin n → Fin p → Fl K} {y : Fin n → K} {Z G : Set K} {s s' : State K p} {r r' : Rand K} {bs : List Bool} (hr : Within Z G r)
    (h : Reference.sweep c X y s r = .ok (bs, s', r')) : Within Z G r' := by
  unfold Reference.sweep at h
  split at h
  · cases h
  · next bs1 ts r1 e1 =>
    have hw := sweepTrees_within _ hr e1
    split at h
    · cases h
    · next v gs e2 =>
      cases h
      refine ⟨hw.1, fun g hg => hw.2 g ?_⟩
      unfold sigmaStep at e2
      split at e2
      · cases e2
      · split at e2
        · cases e2
        · next g1 gs1 eg =>
          split at e2
          · cases e2
          · cases e2; rw [eg]; exact List.mem_cons_of_mem _ hg

theorem sweeps_finite (c : Reference.Settings K) (X : Fin n → Fin p → Fl K) (y : Fin n → K) {Z G : Set K} (hZ : Z.Finite) (hG : G.Finite) (k : Nat) : ∀ (s : State K p),
    {ss | ∃ r l s' r', Within Z G r ∧ Reference.sweeps c X y k s r = .ok (l, s', r') ∧ ss = l.map Prod.snd}.Finite := by
  induction k with
  | zero =>
    intro s
    refine (Set.finite_singleton []).subset ?_
    rintro ss ⟨r, l, s', r', -, h, rfl⟩
    cases h; rfl
  | succ k ih =>
    intro s
    refine ((sweep_finite c X y hZ hG s).biUnion (fun s1 _ => (ih s1).image (fun ss => s1 :: ss))).subset ?_
    rintro ss ⟨r, l, s', r', hr, h, rfl⟩
    unfold Reference.sweeps at h
    split at h
    · cases h
    · next bs s1 r1 e1 =>
      split at h
      · cases h
      · next l2 s2 r2 e2 =>
        cases h
        exact Set.mem_biUnion (x := s1) ⟨_, _, _, hr, e1⟩ ⟨_, ⟨_, _, _, _, sweep_within hr e1, e2, rfl⟩, rfl⟩

theorem chain_finite (c : Reference.Config K) (X : Fin n → Fin p → Fl K) (y : Fin n → K) {Z G : Set K} (hZ : Z.Finite) (hG : G.Finite) :
    {ss : List (State K p) | ∃ r l, Within Z G r ∧ Reference.chain c X y r = .ok l ∧ ss = l.map Prod.snd}.Finite := by
  refine ((sweeps_finite c.toSettings X y hZ hG (c.nBurn + c.nSamples) (start c.toSettings)).image (fun ss => (storedTimes c.nSamples c.thin).filterMap (fun t => ss[c.nBurn + t]?))).subset ?_
  rintro ss ⟨r, l, hr, h, rfl⟩
  unfold Reference.chain at h
  split at h
  · cases h
  · next l1 s1 r1 e1 =>
    cases h
    refine ⟨_, ⟨_, _, _, _, hr, e1, rfl⟩, ?_⟩
    simp only [List.map_filterMap, List.getElem?_map]

end Bart.FiniteRange
