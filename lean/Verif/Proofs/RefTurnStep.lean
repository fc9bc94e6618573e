import Verif.Proofs.RefTurnTree

/-! The sweeps of the reference sampler on data with features in the opposite direction. -/

set_option linter.unusedSectionVars false

namespace Bart.Streams
variable {K : Type} {α β γ δ : Type} {B : Nat}

theorem onUs_rbind (f : Translate.Reader α) (h : α → Translate.Reader β) : (onUs (Translate.rbind f h) : Reader K β) = rbind (onUs f) fun a => onUs (h a) := by
  funext s
  simp only [onUs, Translate.rbind, rbind]
  rcases f s.us with e | ⟨a, rest⟩ <;> rfl

theorem onUs_rpure (a : α) : (onUs (Translate.rpure a) : Reader K α) = rpure a := rfl

theorem onUs_rfail (e : PyErr) : (onUs (Translate.rfail e) : Reader K α) = rfail e := rfl

theorem Trans.and {R : α → β → Prop} {f : Reader K α} {g : Reader K β} (h : Trans B R f g) {P : α → Prop} {Q : β → Prop} (hP : ∀ s a rest, f s = .ok (a, rest) → P a)
    (hQ : ∀ s b rest, g s = .ok (b, rest) → Q b) : Trans B (fun a b => P a ∧ Q b ∧ R a b) f g := by
  obtain ⟨φ, h1, h2⟩ := h
  refine ⟨φ, h1, fun s => ?_⟩
  have h3 := h2 s
  rcases e : f s with er | ⟨a, rest⟩
  · rw [e] at h3; exact h3
  · rw [e] at h3
    obtain ⟨pre, pre', b, e1, e2, e3⟩ := h3
    exact ⟨pre, pre', b, e1, ⟨hP s a rest e, hQ _ b rest (e3 rest).2.2, e2⟩, e3⟩

theorem pickUntil_mem {l : List α} {ok : α → Bool} : ∀ {us : List Nat} {a : α} {rest : List Nat}, Translate.pickUntil l ok us = .ok (a, rest) → a ∈ l ∧ ok a = true
  | [], a, rest, h => by cases h
  | u :: us, a, rest, h => by
    simp only [Translate.pickUntil] at h
    rcases e : choice l u with er | b
    · rw [e] at h; cases h
    · rw [e] at h
      simp only at h
      cases hb : ok b with
      | true =>
        rw [hb, if_pos rfl] at h
        simp only [Except.ok.injEq, Prod.mk.injEq] at h
        obtain ⟨rfl, -⟩ := h
        exact ⟨choice_ok_mem e, hb⟩
      | false =>
        rw [hb] at h
        exact pickUntil_mem h

theorem pick_mem {l : List α} {us : List Nat} {a : α} {rest : List Nat} (h : Translate.pick l us = .ok (a, rest)) : a ∈ l := by
  cases us with
  | nil => cases h
  | cons u us =>
    simp only [Translate.pick] at h
    rcases e : choice l u with er | b
    · rw [e] at h; cases h
    · rw [e] at h
      simp only [Except.ok.injEq, Prod.mk.injEq] at h
      obtain ⟨rfl, -⟩ := h
      exact choice_ok_mem e

/-- A computation that uses random numbers, as a computation that reads the picks and the normal numbers. -/
def onDraws (F : Rand K → Except PyErr (α × Rand K)) (r : Rand K) : Reader K (α × Rand K) := fun s =>
  match F { r with picks := s.us, normals := s.zs } with
  | .error e => .error e
  | .ok (a, r') => .ok ((a, { r' with picks := [], normals := [] }), ⟨r'.picks, r'.normals⟩)

end Bart.Streams

namespace Bart
variable {K : Type} [Field K] [LinearOrder K]

theorem Fl.add_swap (a b : Fl K) : Fl.add a b = Fl.add b a := by cases a <;> cases b <;> simp [Fl.add, add_comm]

theorem Fl.mul_swap (a b : Fl K) : Fl.mul a b = Fl.mul b a := by cases a <;> cases b <;> simp [Fl.mul, mul_comm]

theorem growRatioValue_swap [MathFns K] (sigma sigmaMu n nl nr s sl sr : Fl K) : Lik.growRatioValue sigma sigmaMu n nl nr s sl sr = Lik.growRatioValue sigma sigmaMu n nr nl s sr sl := by
  unfold Lik.growRatioValue
  dsimp only
  rw [Fl.mul_swap (Fl.add (Fl.mul sigma sigma) (Fl.mul nl (Fl.mul sigmaMu sigmaMu))), Fl.add_swap (Fl.div (Fl.mul sl sl) _)]

end Bart

namespace Bart.Reference
open Spec Streams
variable {K : Type} [Field K] [LinearOrder K] [IsStrictOrderedRing K] {n p : Nat} {X : Fin n → Fin p → Fl K} {neg : Fin p → Bool} (hX : NoNan X) (ht : NoTies neg X)
include hX

section
include ht
variable {t t' : RTree K p} (h : Turn neg X t t')
include h

theorem proposeGrow_turn (hs : t.splittable X ≠ []) : Streams.Trans (max n p) (fun mv mv' => mv' = turnMove neg X mv) (onUs (proposeGrow X t) : Reader K _) (onUs (proposeGrow (turned neg X) t')) := by
  have hs' : t'.splittable (turned neg X) ≠ [] := by
    intro hc
    have := (h.splittable hX).length_eq
    rw [hc, List.length_map, List.length_nil] at this
    exact hs (List.length_eq_zero_iff.1 this)
  rw [proposeGrow_eq t hs, proposeGrow_eq t' hs', onUs_rbind, onUs_rbind]
  refine trans_bind (trans_onUs (Translate.trans_pick (h.splittable hX) (le_trans (splittable_length h.sound) (le_max_left _ _))) fun us a rest e => pick_mem e) fun nd nd' hnd => ?_
  obtain ⟨h1, rfl⟩ := hnd
  have hv := h.valid nd (List.mem_filter.1 h1).1
  rw [rows_turn hX hv.1, columns_turned, onUs_rbind, onUs_rbind]
  refine trans_bind (trans_onUs (e := id) (P := fun _ => True) (Translate.trans_pick (by simp) (le_trans (columns_length _) (le_max_right _ _))) fun us a rest e => trivial) fun j j' hj => ?_
  have hj' : j' = j := hj.2
  rw [hj', onUs_rbind, onUs_rbind]
  refine trans_bind (trans_onUs (P := fun _ => True) (Translate.trans_pickUntil (column_turn_perm hX ht (nd.rows X) j) (le_trans (column_length _ _) (le_max_left _ _))
    fun v hv => notMax_turn hX _ j hv) fun us a rest e => trivial) fun v v' hv' => ?_
  obtain ⟨-, rfl⟩ := hv'
  rw [onUs_rpure, onUs_rpure]
  exact trans_pure rfl

omit ht in
theorem proposePrune_turn : Streams.Trans (max n p) (fun mv mv' => mv' = turnMove neg X mv) (onUs (proposePrune t) : Reader K _) (onUs (proposePrune t')) := by
  rw [proposePrune_eq, proposePrune_eq, onUs_rbind, onUs_rbind]
  refine trans_bind (trans_onUs (P := fun _ => True) (Translate.trans_pick (h.prunable hX) (le_trans (prunable_length hX h.sound h.valid) (le_max_left _ _))) fun us a rest e => trivial) fun nd nd' hnd => ?_
  obtain ⟨-, rfl⟩ := hnd
  rcases nd with ⟨path, v | ⟨j, v⟩⟩
  · exact trans_fail _ _
  · exact trans_pure rfl

theorem proposeR_turn (ms : List Method) :
    Streams.Trans (max n p) (fun q q' => q' = (turnMove neg X q.1, q.2)) (onUs (proposeR X t ms) : Reader K _) (onUs (proposeR (turned neg X) t' ms)) := by
  induction ms with
  | nil => exact trans_fail _ _
  | cons m ms ih =>
    have hs : t'.splittable (turned neg X) = [] ↔ t.splittable X = [] := by
      rw [← List.length_eq_zero_iff, ← (h.splittable hX).length_eq, List.length_map, List.length_eq_zero_iff]
    have hq : t'.prunable = [] ↔ t.prunable = [] := by
      rw [← List.length_eq_zero_iff, ← (h.prunable hX).length_eq, List.length_map, List.length_eq_zero_iff]
    cases m with
    | grow =>
      have h0 : ∀ (X : Fin n → Fin p → Fl K) t, t.splittable X = [] → proposeR X t (.grow :: ms) = proposeR X t ms := by
        intro X t h; funext us; simp only [proposeR, propose, if_pos h]
      have h1 : ∀ (X : Fin n → Fin p → Fl K) t, t.splittable X ≠ [] → proposeR X t (.grow :: ms) = Translate.rbind (proposeGrow X t) fun mv => Translate.rpure (mv, ms) := by
        intro X t h
        funext us
        simp only [proposeR, propose, if_neg h, Translate.rbind, Translate.rpure]
        rcases proposeGrow X t us with e | ⟨mv, us'⟩ <;> rfl
      by_cases hc : t.splittable X = []
      · rw [h0 _ _ hc, h0 _ _ (hs.2 hc)]
        exact ih
      · rw [h1 _ _ hc, h1 _ _ (fun hc' => hc (hs.1 hc')), onUs_rbind, onUs_rbind]
        refine trans_bind (proposeGrow_turn hX ht h hc) fun mv mv' hm => ?_
        subst hm
        exact trans_pure rfl
    | prune =>
      have h0 : ∀ (X : Fin n → Fin p → Fl K) (t : RTree K p), t.prunable = [] → proposeR X t (.prune :: ms) = proposeR X t ms := by
        intro X t h; funext us; simp only [proposeR, propose, if_pos h]
      have h1 : ∀ (X : Fin n → Fin p → Fl K) (t : RTree K p), t.prunable ≠ [] → proposeR X t (.prune :: ms) = Translate.rbind (proposePrune t) fun mv => Translate.rpure (mv, ms) := by
        intro X t h
        funext us
        simp only [proposeR, propose, if_neg h, Translate.rbind, Translate.rpure]
        rcases proposePrune t us with e | ⟨mv, us'⟩ <;> rfl
      by_cases hc : t.prunable = []
      · rw [h0 _ _ hc, h0 _ _ (hq.2 hc)]
        exact ih
      · rw [h1 _ _ hc, h1 _ _ (fun hc' => hc (hq.1 hc')), onUs_rbind, onUs_rbind]
        refine trans_bind (proposePrune_turn hX h) fun mv mv' hm => ?_
        subst hm
        exact trans_pure rfl

end

variable [MathFns K]

theorem likelihood_turn (P : Params K) (y : Fin n → K) {rows : Fin n → Bool} {j : Fin p} {v : Fl K} (hv : ValidCut X rows j v) :
    likelihood P (turned neg X) y rows j (turnCut neg X rows j v) = likelihood P X y rows j v := by
  have hL : (fun r => rows r && Fl.le (turned neg X r j) (turnCut neg X rows j v)) = fun r => rows r && if neg j then !Fl.le (X r j) v else Fl.le (X r j) v := by
    funext r
    cases hr : rows r with
    | false => rfl
    | true => simp only [Bool.true_and, le_turnCut hX hv hr]
  have hR : (fun r => rows r && !Fl.le (turned neg X r j) (turnCut neg X rows j v)) = fun r => rows r && if neg j then Fl.le (X r j) v else !Fl.le (X r j) v := by
    funext r
    cases hr : rows r with
    | false => rfl
    | true => simp only [Bool.true_and, le_turnCut hX hv hr]; cases neg j <;> simp
  unfold likelihood
  simp only [hL, hR]
  cases neg j with
  | false => rfl
  | true => exact growRatioValue_swap _ _ _ _ _ _ _ _

include ht

theorem ratio_turn (P : Params K) (pGrow pPrune : K) (y : Fin n → K) {t t' : RTree K p} (h : Turn neg X t t') {mv : Move K p} (hm : IsProposed X t mv) :
    ratio P pGrow pPrune (turned neg X) y t' (turnMove neg X mv) = ratio P pGrow pPrune X y t mv := by
  have h1 := (h.splittable hX).length_eq
  have h2 := (h.prunable hX).length_eq
  rw [List.length_map] at h1 h2
  have hcut : ∀ rows j v, cutProbability (turned neg X) rows j (turnCut neg X rows j v) = cutProbability X rows j v := by
    intro rows j v
    unfold cutProbability
    rw [columns_turned, frequency_turn ht]
  cases mv with
  | grow path j v =>
    obtain ⟨h3, h4⟩ := isProposed_valid h.valid (Or.inl hm)
    simp only [ratio, turnMove, ← h1, ← h2, rows_turn_path hX h3 (.leaf 0) (.leaf 0), hcut, likelihood_turn hX P y h4, turnPath_length]
  | prune path j v =>
    obtain ⟨h3, h4⟩ := isProposed_valid h.valid (Or.inr hm)
    simp only [ratio, turnMove, ← h1, ← h2, rows_turn_path hX h3 (.leaf 0) (.leaf 0), hcut, likelihood_turn hX P y h4, turnPath_length]

omit ht hX in
/-- The new value of a leaf. -/
def leafR (P : Params K) (X : Fin n → Fin p → Fl K) (y : Fin n → K) (nd : RNode K p) : Reader K (RNode K p) :=
  match nd with
  | ⟨path, .split j v⟩ => rpure ⟨path, .split j v⟩
  | ⟨path, .leaf v0⟩ => readZ fun z => match (Sampler.leafValue P (Fl.ofInt (count (RNode.rows X ⟨path, .leaf v0⟩))) (.fin (total y (RNode.rows X ⟨path, .leaf v0⟩))) (.fin z)).toFinite with
    | .error e => .error e
    | .ok v => .ok ⟨path, .leaf v⟩

omit hX ht in
theorem leafR_simple (P : Params K) (y : Fin n → K) (nd : RNode K p) : Simple (leafR P X y nd) := by
  rcases nd with ⟨path, v | ⟨j, v⟩⟩
  · exact Or.inr ⟨_, rfl⟩
  · exact Or.inl ⟨_, rfl⟩

omit hX ht in
theorem leafValues_eq (P : Params K) (y : Fin n → K) (t : RTree K p) (s : Draws K) : mapR (leafR P X y) t s = match leafValues P X y t s.zs with
    | .error e => .error e
    | .ok (t', zs') => .ok (t', ⟨s.us, zs'⟩) := by
  induction t generalizing s with
  | nil => rfl
  | cons nd t ih =>
    rcases nd with ⟨path, v | ⟨j, v⟩⟩
    · rcases s with ⟨us, _ | ⟨z, zs⟩⟩
      · rfl
      · simp only [mapR, rbind, leafR, readZ, leafValues]
        cases (Sampler.leafValue P (Fl.ofInt (count (RNode.rows X ⟨path, .leaf v⟩))) (.fin (total y (RNode.rows X ⟨path, .leaf v⟩))) (.fin z)).toFinite with
        | error e => rfl
        | ok w =>
          simp only [ih]
          rcases leafValues P X y t zs with e | ⟨t', zs'⟩ <;> rfl
    · simp only [mapR, rbind, leafR, rpure, leafValues, ih]
      rcases leafValues P X y t s.zs with e | ⟨t', zs'⟩ <;> rfl

omit ht in
theorem leafR_turn (P : Params K) (y : Fin n → K) {nd : RNode K p} (hv : ValidPath X allRows nd.path) {B : Nat} :
    Streams.Trans B (fun a b => b = turnNode neg X a) (leafR P X y nd) (leafR P (turned neg X) y (turnNode neg X nd)) := by
  rcases nd with ⟨path, v | ⟨j, v⟩⟩
  · refine trans_readZ fun z => ?_
    rw [rows_turn_path hX hv (.leaf v) (.leaf v)]
    cases (Sampler.leafValue P (Fl.ofInt (count (RNode.rows X ⟨path, .leaf v⟩))) (.fin (total y (RNode.rows X ⟨path, .leaf v⟩))) (.fin z)).toFinite with
    | error e => exact ⟨_, rfl⟩
    | ok w => exact ⟨_, rfl, rfl⟩
  · exact trans_pure rfl

omit hX ht in
theorem forall₂_map {α β : Type} {e : α → β} {l : List α} {l' : List β} (h : List.Forall₂ (fun a b => b = e a) l l') : l' = l.map e := by
  induction h with
  | nil => rfl
  | cons h1 _ ih => rw [List.map_cons, h1, ih]

omit ht in
theorem leafValues_turn (P : Params K) (y : Fin n → K) {t t' : RTree K p} (hv : Valid X t) (hp : (t.map (turnNode neg X)).Perm t') {B : Nat} :
    Streams.Trans B (fun a b => Valid X a ∧ (a.map (turnNode neg X)).Perm b) (mapR (leafR P X y) t) (mapR (leafR P (turned neg X) y) t') := by
  have h1 : Streams.Trans B _ (mapR (leafR P X y) t) (mapR (leafR P (turned neg X) y) (t.map (turnNode neg X))) := trans_mapR_map (R := fun a b => b = turnNode neg X a) (e := turnNode neg X)
    fun nd hnd => leafR_turn hX P y (hv nd hnd).1
  have h2 := (trans_comp h1 (trans_mapR_perm hp fun a _ => leafR_simple P y a)).and (P := Valid X) (Q := fun _ => True) (fun s a rest e => by
    rw [leafValues_eq] at e
    rcases e1 : leafValues P X y t s.zs with er | ⟨t2, zs'⟩
    · rw [e1] at e; cases e
    · rw [e1] at e
      simp only [Except.ok.injEq, Prod.mk.injEq] at e
      rw [← e.1]
      exact valid_same hv (leafValues_same P y e1)) fun _ _ _ _ => trivial
  refine h2.mono ?_
  rintro a b ⟨h3, -, c, h4, h5⟩
  rw [forall₂_map h4] at h5
  exact ⟨h3, h5⟩

omit hX ht in
theorem body_draws (P : Params K) (pGrow pPrune : K) (X : Fin n → Fin p → Fl K) (y : Fin n → K) (t : RTree K p) (r : Rand K) :
    onDraws (bodyPair P pGrow pPrune X y t) r = rbind (onUs (proposeR X t r.methods)) fun q => match r.uniforms with
      | [] => rfail .outOfDraws
      | u :: us => rbind (mapR (leafR P X y) (if Fl.lt (.fin u) (ratio P pGrow pPrune X y t q.1) then t.apply q.1 else t)) fun t2 =>
          rpure ((Fl.lt (.fin u) (ratio P pGrow pPrune X y t q.1), t2), { r with methods := q.2, picks := [], uniforms := us, normals := [] }) := by
  funext s
  simp only [onDraws, bodyPair, treeBody, treeStep, rbind, onUs, proposeR]
  rcases propose X t s.us r.methods with e | ⟨mv, us', ms⟩
  · rfl
  · simp only
    cases r.uniforms with
    | nil => rfl
    | cons u uniforms =>
      simp only [rbind, leafValues_eq]
      rcases leafValues P X y (if Fl.lt (.fin u) (ratio P pGrow pPrune X y t mv) then t.apply mv else t) s.zs with e | ⟨t2, zs⟩ <;> rfl

omit hX ht in
theorem body_sound {P : Params K} {pGrow pPrune : K} {y : Fin n → K} {t : RTree K p} (h : Sound t) {r : Rand K} {s : Draws K} {q : (Bool × RTree K p) × Rand K} {rest : Draws K}
    (e : onDraws (bodyPair P pGrow pPrune X y t) r s = .ok (q, rest)) : Sound q.1.2 := by
  simp only [onDraws, bodyPair] at e
  rcases e1 : treeBody P pGrow pPrune X y t { r with picks := s.us, normals := s.zs } with er | ⟨b, t', r'⟩
  · rw [e1] at e; cases e
  · rw [e1] at e
    simp only [Except.ok.injEq, Prod.mk.injEq] at e
    rw [← e.1]
    exact sound_treeBody h e1

theorem body_turn (P : Params K) (pGrow pPrune : K) (y : Fin n → K) {t t' : RTree K p} (h : Turn neg X t t') (r : Rand K) :
    Streams.Trans (max n p) (fun q q' => q'.1.1 = q.1.1 ∧ Turn neg X q.1.2 q'.1.2 ∧ q'.2 = q.2) (onDraws (bodyPair P pGrow pPrune X y t) r)
      (onDraws (bodyPair P pGrow pPrune (turned neg X) y t') r) := by
  have main : Streams.Trans (max n p) (fun q q' => q'.1.1 = q.1.1 ∧ (Valid X q.1.2 ∧ (q.1.2.map (turnNode neg X)).Perm q'.1.2) ∧ q'.2 = q.2) (onDraws (bodyPair P pGrow pPrune X y t) r)
      (onDraws (bodyPair P pGrow pPrune (turned neg X) y t') r) := by
    rw [body_draws, body_draws]
    refine trans_bind ((proposeR_turn hX ht h r.methods).and (P := fun q => IsProposed X t q.1) (Q := fun _ => True) (fun s a rest e => ?_) fun _ _ _ _ => trivial) fun q q' hq => ?_
    · simp only [onUs, proposeR] at e
      rcases e1 : propose X t s.us r.methods with er | ⟨mv, us', ms⟩
      · rw [e1] at e; cases e
      · rw [e1] at e
        simp only [Except.ok.injEq, Prod.mk.injEq] at e
        rw [← e.1]
        exact propose_mem e1
    · obtain ⟨hm, -, rfl⟩ := hq
      cases r.uniforms with
      | nil => exact trans_fail _ _
      | cons u us =>
        simp only [ratio_turn hX ht P pGrow pPrune y h hm]
        refine trans_bind (leafValues_turn hX P y ?_ ?_) fun a b hab => trans_pure ⟨rfl, hab, rfl⟩
        · split
          · exact valid_apply h.valid hm
          · exact h.valid
        · split
          · exact h.apply_perm hX hm
          · exact h.perm
  refine (main.and (P := fun q => Sound q.1.2) (Q := fun q => Sound q.1.2) (fun s a rest e => body_sound h.sound e) fun s a rest e => body_sound h.sound' e).mono ?_
  rintro q q' ⟨h1, h2, h3, ⟨h4, h5⟩, h6⟩
  exact ⟨h3, ⟨h1, h2, h4, h5⟩, h6⟩

omit hX ht in
theorem forall₂_append {α β : Type} {R : α → β → Prop} {a c : List α} {b d : List β} (h : List.Forall₂ R a b) (h' : List.Forall₂ R c d) : List.Forall₂ R (a ++ c) (b ++ d) := by
  induction h with
  | nil => exact h'
  | cons h1 _ ih => exact List.Forall₂.cons h1 ih

theorem trees_turn (P : Params K) (pGrow pPrune : K) (y : Fin n → K) {done done' todo todo' : List (RTree K p)} (hd : List.Forall₂ (Turn neg X) done done') (hto : List.Forall₂ (Turn neg X) todo todo')
    (r : Rand K) : Streams.Trans (max n p) (fun q q' => q'.1.1 = q.1.1 ∧ List.Forall₂ (Turn neg X) q.1.2 q'.1.2 ∧ q'.2 = q.2) (onDraws (treesPair P pGrow pPrune X y done todo) r)
      (onDraws (treesPair P pGrow pPrune (turned neg X) y done' todo') r) := by
  induction hto generalizing done done' r with
  | nil =>
    have h : ∀ (X : Fin n → Fin p → Fl K) (y : Fin n → K) done, onDraws (treesPair P pGrow pPrune X y done []) r = rpure (([], done), { r with picks := [], normals := [] }) := fun _ _ _ => rfl
    rw [h, h]
    exact trans_pure ⟨rfl, hd, rfl⟩
  | @cons t t' ts ts' h1 hts ih =>
    have h : ∀ (X : Fin n → Fin p → Fl K) (y : Fin n → K) done t ts, onDraws (treesPair P pGrow pPrune X y done (t :: ts)) r =
        rbind (onDraws (bodyPair P pGrow pPrune X (fun i => y i - forest (done ++ ts) (X i)) t) r) fun a =>
          rbind (onDraws (treesPair P pGrow pPrune X y (done ++ [a.1.2]) ts) a.2) fun b => rpure ((a.1.1 :: b.1.1, b.1.2), b.2) := by
      intro X y done t ts
      funext s
      simp only [onDraws, treesPair, sweepTrees, bodyPair, rbind, rpure]
      rcases treeBody P pGrow pPrune X (fun i => y i - forest (done ++ ts) (X i)) t { r with picks := s.us, normals := s.zs } with e | ⟨b, t1, r1⟩
      · rfl
      · simp only
        rcases sweepTrees P pGrow pPrune X y (done ++ [t1]) ts r1 with e | ⟨bs, all, r2⟩ <;> rfl
    rw [h, h]
    have hy : (fun i => y i - forest (done' ++ ts') (turned neg X i)) = fun i => y i - forest (done ++ ts) (X i) := by
      funext i
      rw [forest_turn hX (forall₂_append hd hts)]
    rw [hy]
    refine trans_bind (body_turn hX ht P pGrow pPrune _ h1 r) fun a a' ha => ?_
    obtain ⟨e1, e2, e3⟩ := ha
    rw [e3]
    refine trans_bind (ih (forall₂_append hd (List.Forall₂.cons e2 List.Forall₂.nil)) a.2) fun b b' hb => ?_
    obtain ⟨f1, f2, f3⟩ := hb
    exact trans_pure ⟨by rw [e1, f1], f2, f3⟩

/-- The states agree up to the direction of the features. -/
def TurnState (neg : Fin p → Bool) (X : Fin n → Fin p → Fl K) (s s' : State K p) : Prop := List.Forall₂ (Turn neg X) s.trees s'.trees ∧ s'.sigma = s.sigma

omit ht in
theorem sigmaStep_turn (c : Settings K) (y : Fin n → K) {ts ts' : List (RTree K p)} (h : List.Forall₂ (Turn neg X) ts ts') (gs : List K) :
    sigmaStep c (turned neg X) y ts' gs = sigmaStep c X y ts gs := by
  unfold sigmaStep
  simp only [forest_turn hX h]

theorem sweep_turn (c : Settings K) (y : Fin n → K) {s s' : State K p} (h : TurnState neg X s s') (r : Rand K) :
    Streams.Trans (max n p) (fun q q' => q'.1.1 = q.1.1 ∧ TurnState neg X q.1.2 q'.1.2 ∧ q'.2 = q.2) (onDraws (sweepPair c X y s) r) (onDraws (sweepPair c (turned neg X) y s') r) := by
  have h0 : ∀ (X : Fin n → Fin p → Fl K) (y : Fin n → K) s, onDraws (sweepPair c X y s) r =
      rbind (onDraws (treesPair (c.params s.sigma) c.pGrow c.pPrune X y [] s.trees) r) fun a => match sigmaStep c X y a.1.2 a.2.gammas with
        | .error e => rfail e
        | .ok (v, gs) => rpure ((a.1.1, ⟨a.1.2, v⟩), { a.2 with gammas := gs }) := by
    intro X y s
    funext d
    simp only [onDraws, sweepPair, sweep, treesPair, rbind]
    rcases sweepTrees (c.params s.sigma) c.pGrow c.pPrune X y [] s.trees { r with picks := d.us, normals := d.zs } with e | ⟨bs, ts, r1⟩
    · rfl
    · simp only
      rcases sigmaStep c X y ts r1.gammas with e | ⟨v, gs⟩ <;> rfl
  rw [h0, h0, h.2]
  refine trans_bind (trees_turn hX ht (c.params s.sigma) c.pGrow c.pPrune y List.Forall₂.nil h.1 r) fun a a' ha => ?_
  obtain ⟨e1, e2, e3⟩ := ha
  simp only [e3, sigmaStep_turn hX c y e2]
  rcases sigmaStep c X y a.1.2 a.2.gammas with e | ⟨v, gs⟩
  · exact trans_fail _ _
  · exact trans_pure ⟨e1, ⟨e2, rfl⟩, rfl⟩

theorem sweeps_turn (c : Settings K) (y : Fin n → K) (k : Nat) {s s' : State K p} (h : TurnState neg X s s') (r : Rand K) :
    Streams.Trans (max n p) (fun q q' => List.Forall₂ (fun a a' => a'.1 = a.1 ∧ TurnState neg X a.2 a'.2) q.1.1 q'.1.1 ∧ q'.2 = q.2) (onDraws (sweepsPair c X y k s) r)
      (onDraws (sweepsPair c (turned neg X) y k s') r) := by
  induction k generalizing s s' r with
  | zero =>
    have h0 : ∀ (X : Fin n → Fin p → Fl K) (y : Fin n → K) s, onDraws (sweepsPair c X y 0 s) r = rpure (([], s), { r with picks := [], normals := [] }) := fun _ _ _ => rfl
    rw [h0, h0]
    exact trans_pure ⟨List.Forall₂.nil, rfl⟩
  | succ k ih =>
    have h0 : ∀ (X : Fin n → Fin p → Fl K) (y : Fin n → K) s, onDraws (sweepsPair c X y (k + 1) s) r =
        rbind (onDraws (sweepPair c X y s) r) fun a => rbind (onDraws (sweepsPair c X y k a.1.2) a.2) fun b => rpure ((a.1 :: b.1.1, b.1.2), b.2) := by
      intro X y s
      funext d
      simp only [onDraws, sweepsPair, sweeps, sweepPair, rbind, rpure]
      rcases sweep c X y s { r with picks := d.us, normals := d.zs } with e | ⟨bs, s1, r1⟩
      · rfl
      · simp only
        rcases sweeps c X y k s1 r1 with e | ⟨l, s2, r2⟩ <;> rfl
    rw [h0, h0]
    refine trans_bind (sweep_turn hX ht c y h r) fun a a' ha => ?_
    obtain ⟨e1, e2, e3⟩ := ha
    rw [e3]
    refine trans_bind (ih e2 a.2) fun b b' hb => ?_
    exact trans_pure ⟨List.Forall₂.cons ⟨e1, e2⟩ hb.1, hb.2⟩

end Bart.Reference
