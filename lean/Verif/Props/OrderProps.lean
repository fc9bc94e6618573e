import Verif.Proofs.RefPerm
import Verif.Props.ReferenceProps
import Verif.Props.SelectionProps
import Mathlib.SetTheory.Cardinal.Finite
import Mathlib.Data.Finset.Max

/-! C104: the order of the columns of X does not matter. C105: the order of the training rows does not matter if no column has repeated values (false in general). -/

set_option linter.unusedSectionVars false

namespace Bart
open Spec Reference Translate
variable {K : Type} [Field K] [LinearOrder K] [IsStrictOrderedRing K] {n p : Nat} {X : Fin n → Fin p → Fl K} [MathFns K] [FloorRing K]

/-! ### the draws -/

/-- The draws with other picks, chosen by the other draws. -/
def onlyPicks (φ : Rand K → Equiv.Perm (List Nat)) : Equiv.Perm (Rand K) where
  toFun r := { r with picks := φ { r with picks := [] } r.picks }
  invFun r := { r with picks := (φ { r with picks := [] }).symm r.picks }
  left_inv r := by simp
  right_inv r := by simp

theorem onlyPicks_spec {B : Nat} {φ : Rand K → Equiv.Perm (List Nat)} (h : ∀ r, Keeps B (φ r)) : OnlyPicks B (onlyPicks φ) :=
  ⟨fun _ => rfl, fun _ => rfl, fun _ => rfl, fun _ => rfl, fun _ => (h _).length _, fun N hN _ => (h _).range N hN _⟩

theorem start_relabel (σ : Equiv.Perm (Fin p)) (c : Reference.Settings K) : (start c : State K p).relabel σ = start c := by
  simp [start, State.relabel, RTree.relabel, RTree.root, RNode.relabel, Content.relabel]

/-- The samples of a chain on the rearranged data. -/
theorem chain_reorder {ρ : Equiv.Perm (Fin n)} {σ : Equiv.Perm (Fin p)} (hX : SameColumns ρ σ X) (c : Config K) (y : Fin n → K) :
    ∃ T : Equiv.Perm (Rand K), OnlyPicks (max n p) T ∧ ∀ r, chain c (reorder ρ σ X) (y ∘ ρ) (T r) = match chain c X y r with
      | .error e => .error e
      | .ok l => .ok (l.map fun a => (a.1, a.2.relabel σ)) := by
  choose φ hφ h using fun r => sweeps_trans hX c.toSettings y (c.nBurn + c.nSamples) (start c.toSettings) r
  refine ⟨onlyPicks φ, onlyPicks_spec hφ, fun r => ?_⟩
  have h1 := h { r with picks := [] } r.picks
  simp only [onPicks, sweepsPair, start_relabel] at h1
  unfold chain
  rw [show (onlyPicks φ) r = { r with picks := φ { r with picks := [] } r.picks } from rfl]
  rcases e : sweeps c.toSettings X y (c.nBurn + c.nSamples) (start c.toSettings) r with er | ⟨l, s, r'⟩
  · rw [e] at h1
    simp only at h1 ⊢
    rcases e2 : sweeps c.toSettings (reorder ρ σ X) (y ∘ ρ) (c.nBurn + c.nSamples) (start c.toSettings) { r with picks := φ { r with picks := [] } r.picks } with er' | ⟨l', s', r''⟩
    · rw [e2] at h1
      simp only [Except.error.injEq] at h1
      rw [h1]
    · rw [e2] at h1
      simp at h1
  · rw [e] at h1
    simp only at h1 ⊢
    obtain ⟨pre, pre', e1, e2⟩ := h1
    obtain ⟨e3, -, e5⟩ := e2 r'.picks
    rw [← e1] at e3
    rw [e3]
    rcases e6 : sweeps c.toSettings (reorder ρ σ X) (y ∘ ρ) (c.nBurn + c.nSamples) (start c.toSettings) { r with picks := pre' ++ r'.picks } with er' | ⟨l', s', r''⟩
    · rw [e6] at e5
      simp at e5
    · rw [e6] at e5
      simp only [Except.ok.injEq, Prod.mk.injEq] at e5
      obtain ⟨⟨⟨e7, -⟩, -⟩, -⟩ := e5
      simp only [e7, List.getElem?_map]
      rw [List.map_filterMap]

theorem chains_reorder {ρ : Equiv.Perm (Fin n)} {σ : Equiv.Perm (Fin p)} (hX : SameColumns ρ σ X) (c : Config K) (y : Fin n → K) :
    ∃ T : Equiv.Perm (Rand K), OnlyPicks (max n p) T ∧ ∀ rs, chains c (reorder ρ σ X) (y ∘ ρ) (rs.map T) = match chains c X y rs with
      | .error e => .error e
      | .ok l => .ok (l.map fun a => (a.1, a.2.relabel σ)) := by
  obtain ⟨T, hT, h⟩ := chain_reorder hX c y
  refine ⟨T, hT, fun rs => ?_⟩
  induction rs with
  | nil => rfl
  | cons r rs ih =>
    simp only [List.map_cons, chains, h]
    cases chain c X y r with
    | error e => rfl
    | ok l =>
      simp only [ih]
      cases chains c X y rs with
      | error e => rfl
      | ok ls => simp

theorem chain_nonempty {c : Config K} {y : Fin n → K} {r : Rand K} {l : List (List Bool × State K p)} (hs : 0 < c.nSamples) (h : chain c X y r = .ok l) : l ≠ [] := by
  have hlen : ∀ (k : Nat) (s : State K p) (r : Rand K) l s' r', sweeps c.toSettings X y k s r = .ok (l, s', r') → l.length = k := by
    intro k
    induction k with
    | zero => intro s r l s' r' h; simp only [sweeps, Except.ok.injEq, Prod.mk.injEq] at h; rw [← h.1]; rfl
    | succ k ih =>
      intro s r l s' r' h
      simp only [sweeps] at h
      rcases e1 : sweep c.toSettings X y s r with er | ⟨bs, s1, r1⟩
      · rw [e1] at h; cases h
      · rw [e1] at h
        simp only at h
        rcases e2 : sweeps c.toSettings X y k s1 r1 with er | ⟨l2, s2, r2⟩
        · rw [e2] at h; cases h
        · rw [e2] at h
          simp only [Except.ok.injEq, Prod.mk.injEq] at h
          rw [← h.1, List.length_cons, ih _ _ _ _ _ e2]
  unfold chain at h
  rcases e : sweeps c.toSettings X y (c.nBurn + c.nSamples) (start c.toSettings) r with er | ⟨l', s', r'⟩
  · rw [e] at h; cases h
  · rw [e] at h
    simp only [Except.ok.injEq] at h
    have h1 := hlen _ _ _ _ _ _ e
    have h0 : 0 ∈ storedTimes c.nSamples c.thin := by
      unfold storedTimes
      rw [List.mem_filter]
      exact ⟨List.mem_range.2 hs, by simpa using ⟨0, by simp⟩⟩
    have hb : c.nBurn + 0 < l'.length := by omega
    have : l'[c.nBurn + 0] ∈ l := by
      rw [← h]
      exact List.mem_filterMap.2 ⟨0, h0, List.getElem?_eq_getElem hb⟩
    exact List.ne_nil_of_mem this

theorem chains_nonempty {c : Config K} {y : Fin n → K} {rs : List (Rand K)} {l : List (List Bool × State K p)} (hs : 0 < c.nSamples) (hrs : rs ≠ []) (h : chains c X y rs = .ok l) : l ≠ [] := by
  cases rs with
  | nil => exact absurd rfl hrs
  | cons r rs =>
    simp only [chains] at h
    cases e1 : chain c X y r with
    | error er => rw [e1] at h; cases h
    | ok l1 =>
      rw [e1] at h
      simp only at h
      cases e2 : chains c X y rs with
      | error er => rw [e2] at h; cases h
      | ok l2 =>
        rw [e2] at h
        simp only [Except.ok.injEq] at h
        rw [← h]
        exact fun hc => chain_nonempty hs e1 (List.append_eq_nil_iff.1 hc).1

theorem exists_range {y : Fin n → K} (hy : ∃ i j, y i ≠ y j) : ∃ lo hi, IsLeast (Set.range y) lo ∧ IsGreatest (Set.range y) hi ∧ lo < hi := by
  obtain ⟨i, j, hij⟩ := hy
  obtain ⟨a, -, ha⟩ := Finset.exists_min_image Finset.univ y ⟨i, Finset.mem_univ i⟩
  obtain ⟨b, -, hb⟩ := Finset.exists_max_image Finset.univ y ⟨i, Finset.mem_univ i⟩
  refine ⟨y a, y b, ⟨⟨a, rfl⟩, ?_⟩, ⟨⟨b, rfl⟩, ?_⟩, ?_⟩
  · rintro _ ⟨r, rfl⟩; exact ha r (Finset.mem_univ r)
  · rintro _ ⟨r, rfl⟩; exact hb r (Finset.mem_univ r)
  · refine lt_of_le_of_ne (ha b (Finset.mem_univ b)) fun he => hij ?_
    have h1 : ∀ r, y r = y a := fun r => le_antisymm (by rw [he]; exact hb r (Finset.mem_univ r)) (ha r (Finset.mem_univ r))
    rw [h1 i, h1 j]

theorem prediction_relabel (σ : Equiv.Perm (Fin p)) (lo hi : K) (l : List (List Bool × State K p)) (x : Fin p → Fl K) :
    prediction lo hi (l.map fun a => (a.1, a.2.relabel σ)) (fun j => x (σ j)) = prediction lo hi l x := by
  unfold prediction
  rw [List.map_map, List.length_map]
  congr 6
  funext a
  exact forest_relabel a.2.trees x

/-- The fit to rearranged data. -/
theorem fit_reorder (hX : NoNan X) {ρ : Equiv.Perm (Fin n)} {σ : Equiv.Perm (Fin p)} (hC : SameColumns ρ σ X) {s : SkModel K p} (hp : 0 < p) (hp1 : s.pGrow ≠ 0) (hp2 : s.pPrune ≠ 0)
    (hth : s.thin ≠ 0) (hch : 0 < s.nChains) (hns : 0 < s.nSamples) {y : Fin n → K} (hy : ∃ i j, y i ≠ y j) :
    ∃ T : Equiv.Perm (Rand K), OnlyPicks (max n p) T ∧ ∀ rs, SameUpTo (SameFit ρ σ s.storePredictions s.storeAcceptance) (s.fit X y rs) (s.fit (reorder ρ σ X) (y ∘ ρ) (T ∘ rs)) := by
  obtain ⟨lo, hi, hlo, hhi, hlt⟩ := exists_range hy
  have hr : Set.range (y ∘ ρ) = Set.range y := ρ.surjective.range_comp y
  have hX' : NoNan (reorder ρ σ X) := fun i j => hX _ _
  obtain ⟨T, hT, h⟩ := chains_reorder hC s.config (scaled lo hi y)
  refine ⟨T, hT, fun rs => ?_⟩
  have h1 := C103_fit hX hp hp1 hp2 hth hch hlo hhi hlt rs
  have h2 := C103_fit hX' hp hp1 hp2 hth hch (by rw [hr]; exact hlo) (by rw [hr]; exact hhi) hlt (T ∘ rs)
  have h3 : Reference.fit s.config (reorder ρ σ X) lo hi (y ∘ ρ) (T ∘ rs) = match Reference.fit s.config X lo hi y rs with
      | .error e => .error e
      | .ok l => .ok (l.map fun a => (a.1, a.2.relabel σ)) := by
    unfold Reference.fit
    rw [← List.map_map]
    exact h _
  have hne : ∀ l, Reference.fit s.config X lo hi y rs = .ok l → l ≠ [] := fun l hl => chains_nonempty (c := s.config) hns (by
    intro hc
    have := congrArg List.length hc
    simp at this
    exact absurd this (Nat.ne_of_gt hch)) hl
  generalize s.fit X y rs = A at h1 ⊢
  generalize s.fit (reorder ρ σ X) (y ∘ ρ) (T ∘ rs) = A' at h2 ⊢
  cases A with
  | error e =>
    simp only at h1
    rw [h1] at h3
    cases A' with
    | error e' => simp only at h2; rw [h2] at h3; simp only [Except.error.injEq] at h3; exact h3.symm
    | ok f' => obtain ⟨l', c', a1, -⟩ := h2; rw [a1] at h3; cases h3
  | ok f =>
    obtain ⟨l, c, a1, a2, a3, a4, a5, a6, a7, a8⟩ := h1
    rw [a1] at h3
    cases A' with
    | error e' => simp only at h2; rw [h2] at h3; cases h3
    | ok f' =>
      obtain ⟨l', c', b1, b2, b3, b4, b5, b6, b7, b8⟩ := h2
      rw [b1] at h3
      simp only [Except.ok.injEq] at h3
      subst h3
      have hl := hne l a1
      have hl' : (l.map fun a => (a.1, a.2.relabel σ)) ≠ [] := by simpa using hl
      have hg : ∀ {q : Nat} (Z : Fin q → Fin p → Fl K), (∀ r, GoodRow (Z r)) → ∀ r, GoodRow (reorder (Equiv.refl _) σ Z r) := fun Z hZ r j => hZ r (σ j)
      have hperm : ∀ g : Fin n → K, List.ofFn (fun i => g (ρ i)) = reorderList ρ (List.ofFn g) := by
        intro g
        unfold reorderList
        congr 1
        funext i
        simp [List.getD]
      constructor
      · intro q Z hZ
        rw [(a8 hl).1 Z hZ, (b8 hl').1 _ (hg Z hZ)]
        congr 2
        funext r
        exact prediction_relabel σ lo hi l (Z r)
      · intro hs
        rw [(a8 hl).2 hs, (b8 hl').2 hs]
        simp only [Except.map]
        rw [← hperm]
        congr 2
        funext i
        exact prediction_relabel σ lo hi l (X (ρ i))
      · intro q Z hZ
        rw [a2, b2, Option.map_some, Option.map_some, a5 Z hZ, b5 _ (hg Z hZ), List.map_map]
        congr 2
        funext a
        simp only [Function.comp_apply]
        congr 1
        funext r
        exact forest_relabel a.2.trees (Z r)
      · intro hs
        rw [a2, b2, Option.map_some, Option.map_some, a6 hs, b6 hs, List.map_map, List.map_map]
        congr 2
        funext a
        simp only [Function.comp_apply]
        rw [← hperm]
        congr 1
        funext i
        exact forest_relabel a.2.trees (X (ρ i))
      · rw [a2, b2, Option.map_some, Option.map_some, a4, b4, List.map_map]
        rfl
      · intro hs
        rw [a2, b2, Option.map_some, Option.map_some, a7 hs, b7 hs, List.map_map]
        rfl

/-- `fit` reads the draws of the chains only. -/
theorem fit_draws_congr (s : SkModel K p) (y : Fin n → K) {rs rs' : Nat → Rand K} (h : ∀ i < s.nChains, rs i = rs' i) : s.fit X y rs = s.fit X y rs' := by
  have : (List.range s.nChains).map rs = (List.range s.nChains).map rs' := List.map_congr_left fun i hi => h i (List.mem_range.1 hi)
  unfold SkModel.fit
  rw [this]

/-- The change of the picks that goes with a change of the draws. -/
theorem picks_of_onlyPicks {B m k N : Nat} {T : Equiv.Perm (Rand K)} (hT : OnlyPicks B T) (hN : ∀ L, 1 ≤ L → L ≤ B → L ∣ N) (other : Nat → Rand K) :
    ∃ Φ : Equiv.Perm (Fin m → Fin k → Fin N), ∀ us (i : Fin m), withPicks other (Φ us) i = T (withPicks other us i) := by
  have hw : ∀ (us : Fin m → Fin k → Fin N) (i : Fin m), withPicks other us i = { other i with picks := List.ofFn fun a => (us i a : Nat) } := by
    intro us i
    simp [withPicks, i.2]
  have hlen : ∀ (us : Fin m → Fin k → Fin N) (i : Fin m), (T (withPicks other us i)).picks.length = k := by
    intro us i
    rw [hT.number, hw]
    simp
  have hlt : ∀ (us : Fin m → Fin k → Fin N) (i : Fin m), ∀ u ∈ (T (withPicks other us i)).picks, u < N := by
    intro us i
    rw [hT.range N hN, hw]
    intro u hu
    obtain ⟨a, rfl⟩ := List.mem_ofFn.1 hu
    exact (us i a).2
  let Φ : (Fin m → Fin k → Fin N) → Fin m → Fin k → Fin N := fun us i a =>
    ⟨(T (withPicks other us i)).picks[(a : Nat)]'(by rw [hlen]; exact a.2), hlt us i _ (List.getElem_mem _)⟩
  have hΦ : ∀ us i, List.ofFn (fun a => ((Φ us i a : Fin N) : Nat)) = (T (withPicks other us i)).picks := by
    intro us i
    apply List.ext_getElem
    · rw [List.length_ofFn, hlen]
    · intro a h1 h2
      rw [List.getElem_ofFn]
  have hT' : ∀ us (i : Fin m), withPicks other (Φ us) i = T (withPicks other us i) := by
    intro us i
    rw [hw, hΦ]
    have h1 := hT.methods (withPicks other us i)
    have h2 := hT.uniforms (withPicks other us i)
    have h3 := hT.normals (withPicks other us i)
    have h4 := hT.gammas (withPicks other us i)
    rw [hw] at h1 h2 h3 h4 ⊢
    generalize T _ = r at *
    cases r
    simp only at h1 h2 h3 h4 ⊢
    rw [h1, h2, h3, h4]
  have hinj : Function.Injective Φ := by
    intro us us' h
    funext i
    have h1 : withPicks other us i = withPicks other us' i := T.injective (by rw [← hT', ← hT', h])
    rw [hw, hw] at h1
    have h2 := congrArg Rand.picks h1
    simp only at h2
    have h3 := List.ofFn_injective h2
    funext a
    exact Fin.ext (congrFun h3 a)
  exact ⟨Equiv.ofBijective Φ (Finite.injective_iff_bijective.1 hinj), hT'⟩

/-- Equal frequencies from a change of the draws. -/
theorem card_of_onlyPicks {B m k N : Nat} {T : Equiv.Perm (Rand K)} (hT : OnlyPicks B T) (hN : ∀ L, 1 ≤ L → L ≤ B → L ∣ N) (other : Nat → Rand K) {E E' : (Nat → Rand K) → Prop}
    (hE : ∀ rs, E rs ↔ E' (T ∘ rs)) (hc : ∀ rs rs' : Nat → Rand K, (∀ i < m, rs i = rs' i) → (E' rs ↔ E' rs')) :
    Nat.card {us : Fin m → Fin k → Fin N // E (withPicks other us)} = Nat.card {us : Fin m → Fin k → Fin N // E' (withPicks other us)} := by
  obtain ⟨Φ, hΦ⟩ := picks_of_onlyPicks (m := m) (k := k) hT hN other
  refine Nat.card_congr (Φ.subtypeEquiv fun us => ?_)
  rw [hE]
  exact hc _ _ fun i hi => (hΦ us ⟨i, hi⟩).symm

theorem distribution {ρ : Equiv.Perm (Fin n)} {σ : Equiv.Perm (Fin p)} {s : SkModel K p} {y : Fin n → K} {T : Equiv.Perm (Rand K)} (hT : OnlyPicks (max n p) T)
    (h : ∀ rs, SameUpTo (SameFit ρ σ s.storePredictions s.storeAcceptance) (s.fit X y rs) (s.fit (reorder ρ σ X) (y ∘ ρ) (T ∘ rs))) {N k : Nat} (hN : ∀ L, 1 ≤ L → L ≤ max n p → L ∣ N)
    (other : Nat → Rand K) {q : Nat} {Z : Fin q → Fin p → Fl K} (hZ : ∀ r, GoodRow (Z r)) (A : Set (Except PyErr (List K))) :
    Nat.card {us : Fin s.nChains → Fin k → Fin N // predictionsOf (s.fit X y (withPicks other us)) Z ∈ A} =
      Nat.card {us : Fin s.nChains → Fin k → Fin N // predictionsOf (s.fit (reorder ρ σ X) (y ∘ ρ) (withPicks other us)) (reorder (Equiv.refl _) σ Z) ∈ A} := by
  refine card_of_onlyPicks hT hN other (E := fun rs => predictionsOf (s.fit X y rs) Z ∈ A) (E' := fun rs => predictionsOf (s.fit (reorder ρ σ X) (y ∘ ρ) rs) (reorder (Equiv.refl _) σ Z) ∈ A)
    (fun rs => ?_) fun rs rs' hrs => by rw [fit_draws_congr s _ hrs]
  have h1 := h rs
  generalize s.fit X y rs = a at h1 ⊢
  generalize s.fit (reorder ρ σ X) (y ∘ ρ) (T ∘ rs) = a' at h1 ⊢
  cases a <;> cases a' <;> simp only [SameUpTo] at h1
  · subst h1; rfl
  · simp only [predictionsOf]
    rw [h1.newData Z hZ]

/-! ### C104 -/

/-- C104: the order of the columns of X does not matter. There is a one-to-one correspondence between the draws, which only exchanges the results of random choices against equally likely
ones, such that the fits to the data and to the data with reordered columns raise the same exception or agree (predictions, sigma, acceptance trace). -/
theorem C104_columns (hX : NoNan X) (σ : Equiv.Perm (Fin p)) {s : SkModel K p} (hp : 0 < p) (hp1 : s.pGrow ≠ 0) (hp2 : s.pPrune ≠ 0) (hth : s.thin ≠ 0) (hch : 0 < s.nChains)
    (hns : 0 < s.nSamples) {y : Fin n → K} (hy : ∃ i j, y i ≠ y j) :
    ∃ T : Equiv.Perm (Rand K), OnlyPicks (max n p) T ∧
      ∀ rs, SameUpTo (SameFit (Equiv.refl (Fin n)) σ s.storePredictions s.storeAcceptance) (s.fit X y rs) (s.fit (reorder (Equiv.refl _) σ X) y (T ∘ rs)) :=
  fit_reorder hX sameColumns_refl hp hp1 hp2 hth hch hns hy

/-- C104, the distribution: whatever the other draws, for picks uniformly from `0 .. N - 1` every set of predictions is equally likely for the data and for the data with reordered columns. -/
theorem C104_distribution (hX : NoNan X) (σ : Equiv.Perm (Fin p)) {s : SkModel K p} (hp : 0 < p) (hp1 : s.pGrow ≠ 0) (hp2 : s.pPrune ≠ 0) (hth : s.thin ≠ 0) (hch : 0 < s.nChains)
    (hns : 0 < s.nSamples) {y : Fin n → K} (hy : ∃ i j, y i ≠ y j) {N k : Nat} (hN : ∀ L, 1 ≤ L → L ≤ max n p → L ∣ N) (other : Nat → Rand K) {q : Nat} {Z : Fin q → Fin p → Fl K}
    (hZ : ∀ r, GoodRow (Z r)) (A : Set (Except PyErr (List K))) :
    Nat.card {us : Fin s.nChains → Fin k → Fin N // predictionsOf (s.fit X y (withPicks other us)) Z ∈ A} =
      Nat.card {us : Fin s.nChains → Fin k → Fin N // predictionsOf (s.fit (reorder (Equiv.refl _) σ X) y (withPicks other us)) (reorder (Equiv.refl _) σ Z) ∈ A} := by
  obtain ⟨T, hT, h⟩ := C104_columns hX σ hp hp1 hp2 hth hch hns hy
  exact distribution (ρ := Equiv.refl _) hT h hN other hZ A

/-! ### C105 -/

/-- C105, if no column has the same value in two rows: the order of the training rows does not matter, in the same sense as for the columns. (In general this is false: `C105_refuted`.) -/
theorem C105_rows_partial (hX : NoNan X) (hd : ∀ j, Function.Injective fun i => X i j) (ρ : Equiv.Perm (Fin n)) {s : SkModel K p} (hp : 0 < p) (hp1 : s.pGrow ≠ 0) (hp2 : s.pPrune ≠ 0)
    (hth : s.thin ≠ 0) (hch : 0 < s.nChains) (hns : 0 < s.nSamples) {y : Fin n → K} (hy : ∃ i j, y i ≠ y j) :
    ∃ T : Equiv.Perm (Rand K), OnlyPicks (max n p) T ∧
      ∀ rs, SameUpTo (SameFit ρ (Equiv.refl (Fin p)) s.storePredictions s.storeAcceptance) (s.fit X y rs) (s.fit (reorder ρ (Equiv.refl _) X) (y ∘ ρ) (T ∘ rs)) :=
  fit_reorder hX (sameColumns_of_inj hd) hp hp1 hp2 hth hch hns hy

/-- C105, the distribution, if no column has the same value in two rows. -/
theorem C105_distribution_partial (hX : NoNan X) (hd : ∀ j, Function.Injective fun i => X i j) (ρ : Equiv.Perm (Fin n)) {s : SkModel K p} (hp : 0 < p) (hp1 : s.pGrow ≠ 0) (hp2 : s.pPrune ≠ 0)
    (hth : s.thin ≠ 0) (hch : 0 < s.nChains) (hns : 0 < s.nSamples) {y : Fin n → K} (hy : ∃ i j, y i ≠ y j) {N k : Nat} (hN : ∀ L, 1 ≤ L → L ≤ max n p → L ∣ N) (other : Nat → Rand K)
    {q : Nat} {Z : Fin q → Fin p → Fl K} (hZ : ∀ r, GoodRow (Z r)) (A : Set (Except PyErr (List K))) :
    Nat.card {us : Fin s.nChains → Fin k → Fin N // predictionsOf (s.fit X y (withPicks other us)) Z ∈ A} =
      Nat.card {us : Fin s.nChains → Fin k → Fin N // predictionsOf (s.fit (reorder ρ (Equiv.refl _) X) (y ∘ ρ) (withPicks other us)) Z ∈ A} := by
  obtain ⟨T, hT, h⟩ := C105_rows_partial hX hd ρ hp hp1 hp2 hth hch hns hy
  exact distribution (σ := Equiv.refl _) hT h hN other hZ A

/-! ### C105 is false -/

theorem propose_root (h : columns X (fun _ => true) = []) (us : List Nat) (ms : List Method) : propose X RTree.root us ms = .error .outOfDraws := by
  have h1 : RTree.splittable X RTree.root = [] := by
    simp only [RTree.splittable, RTree.root, List.filter_cons, RNode.isLeaf, Bool.true_and, List.filter_nil]
    rw [show RNode.rows X ⟨[], .leaf 0⟩ = fun _ => true from rfl, h]
    rfl
  have h2 : (RTree.root : RTree K p).prunable = [] := rfl
  induction ms with
  | nil => rfl
  | cons m ms ih => cases m <;> simp only [propose, h1, h2, if_true, ih]

/-- If no column has two different values among the training rows other than the first, `fit` does not return, whatever the draws (it looks for a possible proposal forever). -/
theorem C105_never (hX : NoNan X) (h : ∀ j : Fin p, ∀ i i' : Fin n, 0 < i.val → 0 < i'.val → X i j = X i' j) {s : SkModel K p} (hp : 0 < p) (hp1 : s.pGrow ≠ 0) (hp2 : s.pPrune ≠ 0)
    (hth : s.thin ≠ 0) (hch : 0 < s.nChains) (ht : 0 < s.nTrees) (hns : 0 < s.nBurn + s.nSamples) {y : Fin n → K} (hy : ∃ i j, y i ≠ y j) (rs : Nat → Rand K) :
    s.fit X y rs = .error .outOfDraws := by
  obtain ⟨lo, hi, hlo, hhi, hlt⟩ := exists_range hy
  have hcol : columns X (fun _ => true) = [] := by
    unfold columns
    rw [List.filter_eq_nil_iff]
    intro j _
    have hc : ∀ a ∈ (column X (fun _ => true) j).tail, ∃ i : Fin n, 0 < i.val ∧ X i j = a := by
      intro a ha
      unfold column at ha
      rw [List.filter_eq_self.2 (fun _ _ => rfl), ← List.map_tail] at ha
      obtain ⟨i, hi, rfl⟩ := List.mem_map.1 ha
      refine ⟨i, ?_, rfl⟩
      cases n with
      | zero => exact i.elim0
      | succ n =>
        rw [List.finRange_succ, List.tail_cons, List.mem_map] at hi
        obtain ⟨a, -, rfl⟩ := hi
        exact Nat.succ_pos _
    simp only [Bool.not_eq_true, List.any_eq_false, decide_eq_true_eq, not_not]
    intro a ha b hb
    obtain ⟨i, hi, rfl⟩ := hc a ha
    obtain ⟨i', hi', rfl⟩ := hc b hb
    exact h j i i' hi hi'
  have h1 := C103_fit hX hp hp1 hp2 hth hch hlo hhi hlt rs
  have h2 : Reference.fit s.config X lo hi y rs = .error .outOfDraws := by
    obtain ⟨m, hm⟩ : ∃ m, s.nChains = m + 1 := ⟨s.nChains - 1, by omega⟩
    obtain ⟨k, hk⟩ : ∃ k, s.nBurn + s.nSamples = k + 1 := ⟨s.nBurn + s.nSamples - 1, by omega⟩
    obtain ⟨t, ht⟩ : ∃ t, s.nTrees = t + 1 := ⟨s.nTrees - 1, by omega⟩
    unfold Reference.fit
    rw [show s.config.nChains = m + 1 from hm, List.range_succ_eq_map, List.map_cons]
    simp only [chains, chain]
    rw [show s.config.nBurn + s.config.nSamples = k + 1 from hk]
    simp only [sweeps, sweep, start]
    rw [show s.config.nTrees = t + 1 from ht, List.replicate_succ]
    simp only [sweepTrees, treeBody, treeStep, propose_root hcol]
  cases e : s.fit X y rs with
  | error er => rw [e] at h1; simp only at h1; rw [h2] at h1; rw [Except.error.inj h1]
  | ok f => rw [e] at h1; obtain ⟨l, c, a, -⟩ := h1; rw [h2] at a; cases a

section examples
attribute [local instance] exFns

/-- The training data of the counterexample: 1, 2, 2. -/
def exDup : Fin 3 → Fin 1 → Fl ℚ := exX3 (.fin 1) (.fin 2) (.fin 2)

/-- Draws for the order 2, 1, 2. -/
def exDupRands : Rand ℚ := { exRands1 with picks := [0, 0, 1, 0, 0, 1, 0, 0, 0, 0, 0, 0, 0, 0] }

theorem exDup_noNan : NoNan exDup := by unfold NoNan; decide +kernel

/-- C105 is false: for X = 1, 2, 2 `fit` never returns, whatever the draws; for the same data with the first two rows exchanged (X = 2, 1, 2) it can return. -/
theorem C105_refuted : ∃ (X : Fin 3 → Fin 1 → Fl ℚ) (y : Fin 3 → ℚ) (ρ : Equiv.Perm (Fin 3)) (s : SkModel ℚ 1), NoNan X ∧ s.pGrow ≠ 0 ∧ s.pPrune ≠ 0 ∧ s.thin ≠ 0 ∧ 0 < s.nChains ∧
    0 < s.nSamples ∧ (∃ i j, y i ≠ y j) ∧ (∀ rs f, s.fit X y rs ≠ .ok f) ∧ ∃ rs f, s.fit (reorder ρ (Equiv.refl _) X) (y ∘ ρ) rs = .ok f := by
  have hy : ∃ i j, exY i ≠ exY j := ⟨0, 1, by decide +kernel⟩
  refine ⟨exDup, exY, Equiv.swap 0 1, exSk true, exDup_noNan, by decide +kernel, by decide +kernel, by decide +kernel, by decide +kernel, by decide +kernel, hy, fun rs f hf => ?_,
    fun _ => exDupRands, ?_⟩
  · rw [C105_never exDup_noNan (by decide +kernel) (by decide) (by decide +kernel) (by decide +kernel) (by decide +kernel) (by decide +kernel) (by decide +kernel) (by decide +kernel) hy rs] at hf
    cases hf
  · have h : (match (exSk true).fit (reorder (Equiv.swap 0 1) (Equiv.refl _) exDup) (exY ∘ (Equiv.swap 0 1 : Equiv.Perm (Fin 3))) (fun _ => exDupRands) with
        | .ok _ => true
        | .error _ => false) = true := by decide +kernel
    split at h
    · next f hf => exact ⟨f, hf⟩
    · cases h

/-- Data with two columns: 1, 2, 3 and 0, 5, 2. -/
def exOrd : Fin 3 → Fin 2 → Fl ℚ := fun r j => if j = 0 then .fin (r.val + 1) else .fin (if r.val = 1 then 5 else r.val)

/-- The draws for the data with exchanged columns. -/
def exOrdRs : Nat → Rand ℚ := fun i => { exRs i with picks := [0, 1, 0, 0, 1, 1, 0, 0, 0, 0, 0, 0, 0, 0] }

/-- C104, the hypotheses are met, and what the correspondence does: the predictions for the data with exchanged columns are the same if the picks of the columns are exchanged
(with the same picks they are not). -/
example : NoNan exOrd ∧ exSk2.pGrow ≠ 0 ∧ exSk2.pPrune ≠ 0 ∧ exSk2.thin ≠ 0 ∧ 0 < exSk2.nChains ∧ 0 < exSk2.nSamples ∧ exY 0 ≠ exY 1 ∧
    (match predictionsOf (exSk2.fit exOrd exY exRs) exOrd, predictionsOf (exSk2.fit (reorder (Equiv.refl _) (Equiv.swap 0 1) exOrd) exY exOrdRs) (reorder (Equiv.refl _) (Equiv.swap 0 1) exOrd),
        predictionsOf (exSk2.fit (reorder (Equiv.refl _) (Equiv.swap 0 1) exOrd) exY exRs) (reorder (Equiv.refl _) (Equiv.swap 0 1) exOrd) with
      | .ok a, .ok b, .ok c => decide (a = b ∧ a ≠ c)
      | _, _, _ => false) = true := by
  unfold NoNan
  decide +kernel

/-- C104, C105, the number of picks: 6 is a multiple of 1, 2 and 3. -/
example : ∀ L, 1 ≤ L → L ≤ max 3 2 → L ∣ 6 := by
  intro L h1 h2
  have h3 : L ≤ 3 := h2
  have : L = 1 ∨ L = 2 ∨ L = 3 := by omega
  rcases this with rfl | rfl | rfl <;> decide

/-- C105, the hypothesis about the columns is met. -/
example : ∀ j, Function.Injective fun i => exOrd i j := by
  intro j i i'
  revert j i i'
  decide +kernel

end examples
end Bart
