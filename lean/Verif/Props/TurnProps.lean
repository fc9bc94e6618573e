import Verif.Proofs.RefTurnStep
import Verif.Props.OrderProps
import Verif.Props.ForestProps
import Mathlib.Algebra.BigOperators.Ring.Finset
import Mathlib.Algebra.BigOperators.Group.List.Lemmas
import Mathlib.Algebra.BigOperators.Fin

/-! C115: the direction of a feature. -/

set_option linter.unusedSectionVars false

namespace Bart
open Spec Reference Streams
variable {K : Type} [Field K] [LinearOrder K] [IsStrictOrderedRing K] {n p : Nat} {X : Fin n → Fin p → Fl K} [MathFns K] [FloorRing K] {neg : Fin p → Bool}

/-- The draws with other picks and rearranged normal numbers, chosen by the other draws. -/
def movedDraws (φ : Rand K → Equiv.Perm (Draws K)) : Equiv.Perm (Rand K) where
  toFun r := { r with picks := (φ { r with picks := [], normals := [] } ⟨r.picks, r.normals⟩).us, normals := (φ { r with picks := [], normals := [] } ⟨r.picks, r.normals⟩).zs }
  invFun r := { r with picks := ((φ { r with picks := [], normals := [] }).symm ⟨r.picks, r.normals⟩).us, normals := ((φ { r with picks := [], normals := [] }).symm ⟨r.picks, r.normals⟩).zs }
  left_inv r := by
    have h : ∀ d : Draws K, (⟨d.us, d.zs⟩ : Draws K) = d := fun _ => rfl
    simp only [h, Equiv.symm_apply_apply]
  right_inv r := by
    have h : ∀ d : Draws K, (⟨d.us, d.zs⟩ : Draws K) = d := fun _ => rfl
    simp only [h, Equiv.apply_symm_apply]

theorem movedDraws_spec {B : Nat} {φ : Rand K → Equiv.Perm (Draws K)} (h : ∀ r, Streams.Keeps B (φ r)) : PicksAndOrder B (movedDraws φ) :=
  ⟨fun _ => rfl, fun _ => rfl, fun _ => rfl, fun _ => (h _).perm _, fun _ => (h _).length _, fun N hN _ => (h _).range N hN _⟩

/-- The samples of the two chains correspond. -/
abbrev TurnSamples (neg : Fin p → Bool) (X : Fin n → Fin p → Fl K) : List (List Bool × State K p) → List (List Bool × State K p) → Prop :=
  List.Forall₂ fun a a' => a'.1 = a.1 ∧ TurnState neg X a.2 a'.2

theorem turnState_start (c : Reference.Settings K) : TurnState neg X (start c) (start c) := by
  refine ⟨?_, rfl⟩
  simp only [start]
  induction c.nTrees with
  | zero => exact List.Forall₂.nil
  | succ k ih => rw [List.replicate_succ]; exact List.Forall₂.cons turn_root ih

theorem forall₂_filterMap {α β γ : Type} {R : α → β → Prop} {f : γ → Option α} {g : γ → Option β} (h : ∀ c, Option.Rel R (f c) (g c)) (l : List γ) : List.Forall₂ R (l.filterMap f) (l.filterMap g) := by
  induction l with
  | nil => exact List.Forall₂.nil
  | cons c l ih =>
    have h1 := h c
    rcases e : f c with _ | a <;> rcases e' : g c with _ | b <;> rw [e, e'] at h1
    · rw [List.filterMap_cons_none e, List.filterMap_cons_none e']; exact ih
    · cases h1
    · cases h1
    · rw [List.filterMap_cons_some e, List.filterMap_cons_some e']
      cases h1 with
      | some h1 => exact List.Forall₂.cons h1 ih

theorem forall₂_at {α β : Type} {R : α → β → Prop} {l : List α} {l' : List β} (h : List.Forall₂ R l l') (i : Nat) : Option.Rel R l[i]? l'[i]? := by
  induction h generalizing i with
  | nil => simp only [List.getElem?_nil]; exact Option.Rel.none
  | cons h1 _ ih =>
    cases i with
    | zero => simp only [List.getElem?_cons_zero]; exact Option.Rel.some h1
    | succ i => simpa using ih i

theorem chain_turn (hX : NoNan X) (ht : NoTies neg X) (c : Config K) (y : Fin n → K) :
    ∃ T : Equiv.Perm (Rand K), PicksAndOrder (max n p) T ∧ ∀ r, BothUpTo (TurnSamples neg X) (chain c X y r) (chain c (turned neg X) y (T r)) := by
  choose φ hφ h using fun r => sweeps_turn hX ht c.toSettings y (c.nBurn + c.nSamples) (turnState_start (X := X) (neg := neg) c.toSettings) r
  refine ⟨movedDraws φ, movedDraws_spec hφ, fun r => ?_⟩
  have h1 := h { r with picks := [], normals := [] } ⟨r.picks, r.normals⟩
  simp only [onDraws, sweepsPair] at h1
  unfold chain
  rw [show (movedDraws φ) r = { r with picks := (φ { r with picks := [], normals := [] } ⟨r.picks, r.normals⟩).us, normals := (φ { r with picks := [], normals := [] } ⟨r.picks, r.normals⟩).zs } from rfl]
  rcases e : sweeps c.toSettings X y (c.nBurn + c.nSamples) (start c.toSettings) r with er | ⟨l, s, r'⟩
  · rw [e] at h1
    simp only at h1 ⊢
    obtain ⟨er', h1⟩ := h1
    rcases e2 : sweeps c.toSettings (turned neg X) y (c.nBurn + c.nSamples) (start c.toSettings) { r with
      picks := (φ { r with picks := [], normals := [] } ⟨r.picks, r.normals⟩).us, normals := (φ { r with picks := [], normals := [] } ⟨r.picks, r.normals⟩).zs } with er2 | ⟨l', s', r''⟩
    · trivial
    · rw [e2] at h1
      simp at h1
  · rw [e] at h1
    simp only at h1 ⊢
    obtain ⟨pre, pre', b, e1, hb, e2⟩ := h1
    obtain ⟨e3, -, e5⟩ := e2 ⟨r'.picks, r'.normals⟩
    rw [← e1] at e3
    rw [e3]
    rcases e6 : sweeps c.toSettings (turned neg X) y (c.nBurn + c.nSamples) (start c.toSettings) { r with
      picks := (pre'.app ⟨r'.picks, r'.normals⟩).us, normals := (pre'.app ⟨r'.picks, r'.normals⟩).zs } with er' | ⟨l', s', r''⟩
    · rw [e6] at e5
      simp at e5
    · rw [e6] at e5
      simp only [Except.ok.injEq, Prod.mk.injEq] at e5
      obtain ⟨e7, -⟩ := e5
      have hb1 := hb.1
      rw [← e7] at hb1
      exact forall₂_filterMap (fun t => forall₂_at hb1 _) _

theorem chains_turn (hX : NoNan X) (ht : NoTies neg X) (c : Config K) (y : Fin n → K) :
    ∃ T : Equiv.Perm (Rand K), PicksAndOrder (max n p) T ∧ ∀ rs, BothUpTo (TurnSamples neg X) (chains c X y rs) (chains c (turned neg X) y (rs.map T)) := by
  obtain ⟨T, hT, h⟩ := chain_turn hX ht c y
  refine ⟨T, hT, fun rs => ?_⟩
  induction rs with
  | nil => exact List.Forall₂.nil
  | cons r rs ih =>
    have h1 := h r
    simp only [List.map_cons, chains]
    cases e1 : chain c X y r with
    | error e =>
      rw [e1] at h1
      cases e2 : chain c (turned neg X) y (T r) with
      | error e' => trivial
      | ok l' => rw [e2] at h1; exact h1.elim
    | ok l =>
      rw [e1] at h1
      cases e2 : chain c (turned neg X) y (T r) with
      | error e' => rw [e2] at h1; exact h1.elim
      | ok l' =>
        rw [e2] at h1
        simp only
        cases e3 : chains c X y rs with
        | error e =>
          rw [e3] at ih
          cases e4 : chains c (turned neg X) y (rs.map T) with
          | error e' => trivial
          | ok l' => rw [e4] at ih; exact ih.elim
        | ok ls =>
          rw [e3] at ih
          cases e4 : chains c (turned neg X) y (rs.map T) with
          | error e' => rw [e4] at ih; exact ih.elim
          | ok ls' =>
            rw [e4] at ih
            exact forall₂_append h1 ih

theorem turnSamples_map {α : Type} {l l' : List (List Bool × State K p)} (h : TurnSamples neg X l l') {f f' : List Bool × State K p → α} (hf : ∀ a a', a'.1 = a.1 → TurnState neg X a.2 a'.2 → f' a' = f a) :
    l'.map f' = l.map f := by
  induction h with
  | nil => rfl
  | cons h1 _ ih => rw [List.map_cons, List.map_cons, ih, hf _ _ h1.1 h1.2]

theorem prediction_turn (hX : NoNan X) {lo hi : K} {l l' : List (List Bool × State K p)} (h : TurnSamples neg X l l') (i : Fin n) : prediction lo hi l' (turned neg X i) = prediction lo hi l (X i) := by
  unfold prediction
  rw [turnSamples_map h (f' := fun s => forest s.2.trees (turned neg X i)) (f := fun s => forest s.2.trees (X i)) fun a a' _ h2 => forest_turn hX h2.1 i, h.length_eq]

/-- C115, on the training data and if the turned columns have no repeated values: the direction of features does not matter. There is a one-to-one correspondence between the draws, which only exchanges
the results of random choices against equally likely ones and rearranges the normal numbers, such that the fits to the data and to the data with the other sign of some columns both raise an exception or agree
in everything that concerns the training data (predictions, sigma, acceptance trace). (For other rows, and with repeated values, this is false: `C115_refuted`, `C115_ties`.) -/
theorem C115_direction_partial (hX : NoNan X) (ht : ∀ j, neg j = true → Function.Injective fun i => X i j) {s : SkModel K p} (hp : 0 < p) (hp1 : s.pGrow ≠ 0) (hp2 : s.pPrune ≠ 0) (hth : s.thin ≠ 0)
    (hch : 0 < s.nChains) (hns : 0 < s.nSamples) {y : Fin n → K} (hy : ∃ i j, y i ≠ y j) :
    ∃ T : Equiv.Perm (Rand K), PicksAndOrder (max n p) T ∧
      ∀ rs, BothUpTo (SameTraining X (turned neg X) s.storePredictions s.storeAcceptance) (s.fit X y rs) (s.fit (turned neg X) y (T ∘ rs)) := by
  obtain ⟨lo, hi, hlo, hhi, hlt⟩ := exists_range hy
  obtain ⟨T, hT, h⟩ := chains_turn hX ht s.config (scaled lo hi y)
  refine ⟨T, hT, fun rs => ?_⟩
  have h1 := C103_fit hX hp hp1 hp2 hth hch hlo hhi hlt rs
  have h2 := C103_fit (turned_noNan (neg := neg) hX) hp hp1 hp2 hth hch hlo hhi hlt (T ∘ rs)
  have h3 : BothUpTo (TurnSamples neg X) (Reference.fit s.config X lo hi y rs) (Reference.fit s.config (turned neg X) lo hi y (T ∘ rs)) := by
    unfold Reference.fit
    rw [← List.map_map]
    exact h _
  have hne : ∀ l, Reference.fit s.config X lo hi y rs = .ok l → l ≠ [] := fun l hl => chains_nonempty (c := s.config) hns (by
    intro hc
    have := congrArg List.length hc
    simp at this
    exact absurd this (Nat.ne_of_gt hch)) hl
  generalize s.fit X y rs = A at h1 ⊢
  generalize s.fit (turned neg X) y (T ∘ rs) = A' at h2 ⊢
  cases A with
  | error e =>
    simp only at h1
    rw [h1] at h3
    cases A' with
    | error e' => trivial
    | ok f' => obtain ⟨l', c', a1, -⟩ := h2; rw [a1] at h3; exact h3.elim
  | ok f =>
    obtain ⟨l, c, a1, a2, a3, a4, a5, a6, a7, a8⟩ := h1
    rw [a1] at h3
    cases A' with
    | error e' => simp only at h2; rw [h2] at h3; exact h3.elim
    | ok f' =>
      obtain ⟨l', c', b1, b2, b3, b4, b5, b6, b7, b8⟩ := h2
      rw [b1] at h3
      have h3 : TurnSamples neg X l l' := h3
      have hl := hne l a1
      have hl' : l' ≠ [] := by
        intro hc
        have := h3.length_eq
        rw [hc, List.length_nil] at this
        exact hl (List.length_eq_zero_iff.1 this)
      constructor
      · intro hg hg'
        rw [(a8 hl).1 _ hg, (b8 hl').1 _ hg']
        congr 2
        funext r
        exact prediction_turn hX h3 r
      · intro hs
        rw [(a8 hl).2 hs, (b8 hl').2 hs]
        congr 2
        funext r
        exact prediction_turn hX h3 r
      · intro hg hg'
        rw [a2, b2, Option.map_some, Option.map_some, a5 _ hg, b5 _ hg']
        congr 1
        refine turnSamples_map h3 fun a a' _ h5 => ?_
        congr 1
        funext r
        exact forest_turn hX h5.1 r
      · intro hs
        rw [a2, b2, Option.map_some, Option.map_some, a6 hs, b6 hs]
        congr 1
        refine turnSamples_map h3 fun a a' _ h5 => ?_
        congr 1
        funext r
        exact forest_turn hX h5.1 r
      · rw [a2, b2, Option.map_some, Option.map_some, a4, b4]
        congr 1
        exact turnSamples_map h3 fun a a' _ h5 => h5.2
      · intro hs
        rw [a2, b2, Option.map_some, Option.map_some, a7 hs, b7 hs]
        congr 1
        refine turnSamples_map h3 fun a a' h4 _ => ?_
        unfold acceptedShare
        rw [h4]

/-- Equal weights from a change of the draws. -/
theorem sum_of_picksAndOrder {S W : Type} [Fintype S] [CommSemiring W] {val : S → K} (hval : Function.Injective val) (w : S → W) {B m k l N : Nat} {T : Equiv.Perm (Rand K)} (hT : PicksAndOrder B T)
    (hN : ∀ L, 1 ≤ L → L ≤ B → L ∣ N) (other : Nat → Rand K) {E E' : (Nat → Rand K) → Prop} [DecidablePred E] [DecidablePred E'] (hE : ∀ rs, E rs ↔ E' (T ∘ rs))
    (hc : ∀ rs rs' : Nat → Rand K, (∀ i < m, rs i = rs' i) → (E' rs ↔ E' rs')) :
    (∑ us : Fin m → (Fin k → Fin N) × (Fin l → S), if E (withPicksAndNormals val other us) then ∏ i, ∏ a, w ((us i).2 a) else 0) =
      ∑ us : Fin m → (Fin k → Fin N) × (Fin l → S), if E' (withPicksAndNormals val other us) then ∏ i, ∏ a, w ((us i).2 a) else 0 := by
  have hw : ∀ (us : Fin m → (Fin k → Fin N) × (Fin l → S)) (i : Fin m), withPicksAndNormals val other us i =
      { other i with picks := List.ofFn fun a => ((us i).1 a : Nat), normals := List.ofFn fun a => val ((us i).2 a) } := by
    intro us i
    simp [withPicksAndNormals, i.2]
  have hlen : ∀ (us : Fin m → (Fin k → Fin N) × (Fin l → S)) (i : Fin m), (T (withPicksAndNormals val other us i)).picks.length = k := by
    intro us i
    rw [hT.number, hw]
    simp
  have hperm : ∀ (us : Fin m → (Fin k → Fin N) × (Fin l → S)) (i : Fin m), (T (withPicksAndNormals val other us i)).normals.Perm ((List.ofFn fun a => (us i).2 a).map val) := by
    intro us i
    refine (hT.normals _).trans (List.Perm.of_eq ?_)
    rw [hw, List.map_ofFn]
    rfl
  have hlt : ∀ (us : Fin m → (Fin k → Fin N) × (Fin l → S)) (i : Fin m), ∀ u ∈ (T (withPicksAndNormals val other us i)).picks, u < N := by
    intro us i
    rw [hT.range N hN, hw]
    intro u hu
    obtain ⟨a, rfl⟩ := List.mem_ofFn.1 hu
    exact ((us i).1 a).2
  -- the rearranged normal numbers as a list of elements of `S`
  have hex : ∀ (us : Fin m → (Fin k → Fin N) × (Fin l → S)) (i : Fin m), ∃ q : Fin l → S, (List.ofFn q).map val = (T (withPicksAndNormals val other us i)).normals ∧
      (List.ofFn q).Perm (List.ofFn (us i).2) := by
    intro us i
    have h1 := hperm us i
    have h2 : ∀ z ∈ (T (withPicksAndNormals val other us i)).normals, ∃ a : S, val a = z := by
      intro z hz
      obtain ⟨a, -, ha⟩ := List.mem_map.1 (h1.mem_iff.1 hz)
      exact ⟨a, ha⟩
    obtain ⟨L, hL⟩ : ∃ L : List S, L.map val = (T (withPicksAndNormals val other us i)).normals := by
      generalize (T (withPicksAndNormals val other us i)).normals = zs at h2
      clear h1
      induction zs with
      | nil => exact ⟨[], rfl⟩
      | cons z zs ih =>
        obtain ⟨L, hL⟩ := ih fun z hz => h2 z (List.mem_cons_of_mem _ hz)
        obtain ⟨a, ha⟩ := h2 z (by simp)
        exact ⟨a :: L, by rw [List.map_cons, ha, hL]⟩
    have h3 : L.Perm (List.ofFn (us i).2) := by
      rw [← hL] at h1
      exact (List.map_perm_map_iff hval).1 h1
    have h4 : L.length = l := by rw [h3.length_eq, List.length_ofFn]
    subst h4
    exact ⟨L.get, by rw [List.ofFn_get]; exact ⟨hL, h3⟩⟩
  choose q hq1 hq2 using hex
  let Φ : (Fin m → (Fin k → Fin N) × (Fin l → S)) → Fin m → (Fin k → Fin N) × (Fin l → S) := fun us i =>
    (fun a => ⟨(T (withPicksAndNormals val other us i)).picks[(a : Nat)]'(by rw [hlen]; exact a.2), hlt us i _ (List.getElem_mem _)⟩, q us i)
  have hΦ1 : ∀ us i, List.ofFn (fun a => (((Φ us i).1 a : Fin N) : Nat)) = (T (withPicksAndNormals val other us i)).picks := by
    intro us i
    apply List.ext_getElem
    · rw [List.length_ofFn, hlen]
    · intro a h1 h2
      rw [List.getElem_ofFn]
  have hΦ2 : ∀ us i, List.ofFn (fun a => val ((Φ us i).2 a)) = (T (withPicksAndNormals val other us i)).normals := by
    intro us i
    rw [← hq1, List.map_ofFn]
    rfl
  have hT' : ∀ us (i : Fin m), withPicksAndNormals val other (Φ us) i = T (withPicksAndNormals val other us i) := by
    intro us i
    rw [hw, hΦ1, hΦ2]
    have h1 := hT.methods (withPicksAndNormals val other us i)
    have h2 := hT.uniforms (withPicksAndNormals val other us i)
    have h4 := hT.gammas (withPicksAndNormals val other us i)
    rw [hw] at h1 h2 h4 ⊢
    generalize T _ = r at *
    cases r
    simp only at h1 h2 h4 ⊢
    rw [h1, h2, h4]
  have hinj : Function.Injective Φ := by
    intro us us' h
    funext i
    have h1 : withPicksAndNormals val other us i = withPicksAndNormals val other us' i := T.injective (by rw [← hT', ← hT', h])
    rw [hw, hw] at h1
    have h2 := congrArg Rand.picks h1
    have h3 := congrArg Rand.normals h1
    simp only at h2 h3
    have h2 := List.ofFn_injective h2
    have h3 := List.ofFn_injective h3
    refine Prod.ext (funext fun a => Fin.ext (congrFun h2 a)) (funext fun a => hval (congrFun h3 a))
  have hbij := Finite.injective_iff_bijective.1 hinj
  rw [← (Equiv.ofBijective Φ hbij).sum_comp fun us => if E' (withPicksAndNormals val other us) then ∏ i, ∏ a, w ((us i).2 a) else 0]
  refine Finset.sum_congr rfl fun us _ => ?_
  have h1 : E (withPicksAndNormals val other us) ↔ E' (withPicksAndNormals val other (Φ us)) := by
    rw [hE]
    exact hc _ _ fun i hi => (hT' us ⟨i, hi⟩).symm
  have h2 : ∏ i, ∏ a, w ((Φ us i).2 a) = ∏ i, ∏ a, w ((us i).2 a) := by
    refine Finset.prod_congr rfl fun i _ => ?_
    rw [← List.prod_ofFn, ← List.prod_ofFn]
    have := ((hq2 us i).map w).prod_eq
    rw [List.map_ofFn, List.map_ofFn] at this
    exact this
  simp only [Equiv.ofBijective_apply, h2]
  by_cases h : E (withPicksAndNormals val other us)
  · rw [if_pos h, if_pos (h1.1 h)]
  · rw [if_neg h, if_neg fun hc => h (h1.2 hc)]

open Classical in
/-- C115, the distribution, in the same case: whatever the other draws, for picks uniformly from `0 .. N - 1` and normal numbers independently from any distribution with finitely many values (the value
`val a` has the weight `w a`), every set of predictions for the training data has the same weight for the data and for the data with the other sign of some columns. -/
theorem C115_distribution_partial (hX : NoNan X) (ht : ∀ j, neg j = true → Function.Injective fun i => X i j) {s : SkModel K p} (hp : 0 < p) (hp1 : s.pGrow ≠ 0) (hp2 : s.pPrune ≠ 0) (hth : s.thin ≠ 0)
    (hch : 0 < s.nChains) (hns : 0 < s.nSamples) (hst : s.storePredictions = true) {y : Fin n → K} (hy : ∃ i j, y i ≠ y j) {S W : Type} [Fintype S] [CommSemiring W] {val : S → K}
    (hval : Function.Injective val) (w : S → W) {N k l : Nat} (hN : ∀ L, 1 ≤ L → L ≤ max n p → L ∣ N) (other : Nat → Rand K) (A : Set (Option (Except PyErr (List K)))) :
    (∑ us : Fin s.nChains → (Fin k → Fin N) × (Fin l → S), if trainingOf (s.fit X y (withPicksAndNormals val other us)) ∈ A then ∏ i, ∏ a, w ((us i).2 a) else 0) =
      ∑ us : Fin s.nChains → (Fin k → Fin N) × (Fin l → S), if trainingOf (s.fit (turned neg X) y (withPicksAndNormals val other us)) ∈ A then ∏ i, ∏ a, w ((us i).2 a) else 0 := by
  obtain ⟨T, hT, h⟩ := C115_direction_partial hX ht hp hp1 hp2 hth hch hns hy
  refine sum_of_picksAndOrder hval w hT hN other (E := fun rs => trainingOf (s.fit X y rs) ∈ A) (E' := fun rs => trainingOf (s.fit (turned neg X) y rs) ∈ A) (fun rs => ?_)
    fun rs rs' hrs => by rw [fit_draws_congr s _ hrs]
  have h1 := h rs
  generalize s.fit X y rs = a at h1 ⊢
  generalize s.fit (turned neg X) y (T ∘ rs) = a' at h1 ⊢
  cases a <;> cases a' <;> simp only [BothUpTo] at h1
  · rfl
  · simp only [trainingOf, h1.training hst]

/-! ### C115 is false for other rows -/

section examples
attribute [local instance] exFns

/-- Two rows between which no fit to 1, 2, 3 distinguishes. -/
def exTurnZ : Fin 2 → Fin 1 → Fl ℚ := fun r _ => if r = 0 then .fin (3/2) else .fin 2

theorem exTurnZ_good : (∀ r, GoodRow (exTurnZ r)) ∧ ∀ r, GoodRow (turned (fun _ => true) exTurnZ r) := by
  constructor <;> intro r v <;> revert r v <;> decide +kernel

/-- C115 is false for rows that are not in the training data, even if there are no repeated values: every fit to X = 1, 2, 3 predicts the same at 3/2 and 2; some fits to X = -1, -2, -3 predict different
values at -3/2 and -2 (between two training values the prediction is the one of the larger). -/
theorem C115_refuted : ∃ (X : Fin 3 → Fin 1 → Fl ℚ) (y : Fin 3 → ℚ) (s : SkModel ℚ 1) (Z : Fin 2 → Fin 1 → Fl ℚ), NoNan X ∧ (∀ j, Function.Injective fun i => X i j) ∧ s.pGrow ≠ 0 ∧ s.pPrune ≠ 0 ∧
    s.thin ≠ 0 ∧ 0 < s.nChains ∧ 0 < s.nSamples ∧ (∃ i j, y i ≠ y j) ∧ (∀ r, GoodRow (Z r)) ∧ (∀ r, GoodRow (turned (fun _ => true) Z r)) ∧
    (∀ rs f, s.fit X y rs = .ok f → ∃ a, f.predict (some ⟨2, Z⟩) = .ok [a, a]) ∧
    ∃ rs f a b, s.fit (turned (fun _ => true) X) y rs = .ok f ∧ f.predict (some ⟨2, turned (fun _ => true) Z⟩) = .ok [a, b] ∧ a ≠ b := by
  refine ⟨exX, exY, exSk true, exTurnZ, exX_noNan, ?_, by decide +kernel, by decide +kernel, by decide +kernel, by decide +kernel, by decide +kernel, ⟨0, 1, by decide +kernel⟩, exTurnZ_good.1, exTurnZ_good.2,
    fun rs f hf => ?_, fun _ => exDupRands, ?_⟩
  · intro j i i'
    revert j i i'
    decide +kernel
  · obtain ⟨g, g1, g2⟩ := C89_piecewise_constant exX_noNan (by decide +kernel) (by decide +kernel) hf (by decide +kernel)
    refine ⟨g (exTurnZ 0), ?_⟩
    rw [g1 2 _ exTurnZ_good.1]
    have : g (exTurnZ 1) = g (exTurnZ 0) := g2 _ _ (by decide +kernel)
    simp [List.ofFn_succ, this]
  · have h : (match (exSk true).fit (turned (fun _ => true) exX) exY (fun _ => exDupRands) with
        | .ok f => (match f.predict (some ⟨2, turned (fun _ => true) exTurnZ⟩) with
          | .ok [a, b] => decide (a ≠ b)
          | _ => false)
        | .error _ => false) = true := by decide +kernel
    split at h
    · next f hf =>
      split at h
      · next a b hab => exact ⟨f, a, b, hf, hab, of_decide_eq_true h⟩
      · cases h
    · cases h

/-- Training data with a repeated value. -/
def exTies : Fin 4 → Fin 1 → Fl ℚ := fun r _ => .fin ([0, 1, 1, 2].getD r.val 0)

/-- The target. -/
def exTiesY : Fin 4 → ℚ := fun r => (r.val : ℚ)

/-- One tree and one sample. -/
def exTiesSk : SkModel ℚ 1 := { exSk true with nTrees := 1, nChains := 1, nSamples := 1, nBurn := 0, thin := 1 }

/-- The draws: the leaf and the column can be chosen in one way only, the cut is the entry number `u` of the column (of 4); all normal numbers are 1. -/
def exTiesRands (u : Fin 4) : Rand ℚ := { exRands1 with picks := [0, 0, u.val], normals := List.replicate 20 1 }

/-- Does the fit return, with different predictions for the first two training rows? -/
def separates (f : Except PyErr (SkModel ℚ 1)) : Bool :=
  match trainingOf f with
  | some (.ok (a :: b :: _)) => decide (a ≠ b)
  | _ => false

/-- C115 is false for columns with repeated values, even on the training data: for X = 0, 1, 1, 2 and a cut drawn uniformly from the four entries, the first two rows are separated by one of the four
draws; for X = 0, -1, -1, -2 by two of the four draws (a cut is drawn with the frequency of its value, and the cut between 0 and 1 is the value 0, but the cut between -1 and 0 is the value -1). -/
theorem C115_ties : NoNan exTies ∧ exTiesSk.pGrow ≠ 0 ∧ exTiesSk.pPrune ≠ 0 ∧ exTiesSk.thin ≠ 0 ∧ 0 < exTiesSk.nChains ∧ 0 < exTiesSk.nSamples ∧ exTiesSk.storePredictions = true ∧ exTiesY 0 ≠ exTiesY 1 ∧
    (Finset.univ.filter fun u => separates (exTiesSk.fit exTies exTiesY fun _ => exTiesRands u) = true).card = 1 ∧
    (Finset.univ.filter fun u => separates (exTiesSk.fit (turned (fun _ => true) exTies) exTiesY fun _ => exTiesRands u) = true).card = 2 := by
  unfold NoNan
  decide +kernel

/-- C115, the hypotheses are met, and what the correspondence does: the cut at 1 is the entry number 0 of 1, 2, 3; for -1, -2, -3 the cut that separates the same rows is the entry number 1, and the first two
normal numbers (for the two leaves, which have exchanged their order) are exchanged. Then the predictions for the training data are the same. -/
example : NoNan exX ∧ (∀ j i i', exX i j = exX i' j → i = i') ∧
    (match trainingOf (exTiesSk.fit exX exY fun _ => { exRands1 with picks := [0, 0, 0], normals := [1, 2] }),
        trainingOf (exTiesSk.fit (turned (fun _ => true) exX) exY fun _ => { exRands1 with picks := [0, 0, 1], normals := [2, 1] }),
        trainingOf (exTiesSk.fit (turned (fun _ => true) exX) exY fun _ => { exRands1 with picks := [0, 0, 1], normals := [1, 2] }) with
      | some (.ok a), some (.ok b), some (.ok c) => decide (a = b ∧ a ≠ c)
      | _, _, _ => false) = true := by
  unfold NoNan
  decide +kernel

/-- C115, the distribution: 6 is a multiple of all numbers up to 3, and the values 1 and 2 are different. -/
example : (∀ L, 1 ≤ L → L ≤ max 3 1 → L ∣ 6) ∧ Function.Injective (fun b : Bool => if b then (1 : ℚ) else 2) := by
  constructor
  · intro L h1 h2
    have h3 : L ≤ 3 := h2
    have : L = 1 ∨ L = 2 ∨ L = 3 := by omega
    rcases this with rfl | rfl | rfl <;> decide
  · intro a b
    revert a b
    decide +kernel

end examples
end Bart
