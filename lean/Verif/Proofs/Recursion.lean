import Verif.Model.Recursion
import Verif.Proofs.Returns

/-! The sampler with a limit on the recursion does what the sampler without it does, as long as no long run of the same kind of move is drawn. -/

set_option linter.unusedSectionVars false

namespace Bart.Recursion
open Reference Spec Returns
variable {K : Type} [Field K] [LinearOrder K] {n p : Nat}

/-- For each of the next `b` proposals, both kinds of move come within `R` draws (if there are so many). -/
def Mixed (R b : Nat) (ms : List Method) : Prop := ∀ k < b, ∀ c ≤ k * R, (ms.drop c).length < R ∨ ∀ m, m ∈ (ms.drop c).take R

theorem Mixed.head {R b : Nat} {ms : List Method} (h : Mixed R (b + 1) ms) : ms.length < R ∨ ∀ m, m ∈ ms.take R := by
  simpa using h 0 (by omega) 0 (by omega)

theorem Mixed.tail {R b : Nat} {ms : List Method} (h : Mixed R (b + 1) ms) {c : Nat} (hc : c ≤ R) : Mixed R b (ms.drop c) := by
  intro k hk c' hc'
  rw [List.drop_drop]
  exact h (k + 1) (by omega) _ (by rw [Nat.succ_mul]; omega)

theorem Mixed.mono {R b b' : Nat} {ms : List Method} (h : Mixed R b ms) (hb : b' ≤ b) : Mixed R b' ms := fun k hk => h k (by omega)

theorem propose_eq {X : Fin n → Fin p → Fl K} {t : RTree K p} (hc : t.splittable X ≠ [] ∨ t.prunable ≠ []) (us : List Nat) (R : Nat) : ∀ {ms : List Method}, ms.length < R ∨ (∀ m, m ∈ ms.take R) ∨ (t.splittable X ≠ [] ∧ .grow ∈ ms.take R) ∨ (t.prunable ≠ [] ∧ .prune ∈ ms.take R) →
    propose X t us R ms = Reference.propose X t us ms := by
  induction R with
  | zero =>
    intro ms h
    rcases h with h | h | h | h
    · omega
    · exact absurd (h .grow) (by simp)
    · exact absurd h.2 (by simp)
    · exact absurd h.2 (by simp)
  | succ R ih =>
    intro ms h
    cases ms with
    | nil => rfl
    | cons m ms =>
      cases m with
      | grow =>
        rw [propose, Reference.propose]
        by_cases hs : t.splittable X = []
        · rw [if_pos hs, if_pos hs]
          apply ih
          rcases h with h | h | h | h
          · left; simpa using h
          · right; right; right
            exact ⟨hc.resolve_left (by simp [hs]), by simpa using h .prune⟩
          · exact absurd hs h.1
          · right; right; right
            exact ⟨h.1, by simpa using h.2⟩
        · rw [if_neg hs, if_neg hs]
          rfl
      | prune =>
        rw [propose, Reference.propose]
        by_cases hs : t.prunable = []
        · rw [if_pos hs, if_pos hs]
          apply ih
          rcases h with h | h | h | h
          · left; simpa using h
          · right; right; left
            exact ⟨hc.resolve_right (by simp [hs]), by simpa using h .grow⟩
          · right; right; left
            exact ⟨h.1, by simpa using h.2⟩
          · exact absurd hs h.1
        · rw [if_neg hs, if_neg hs]
          rfl

theorem propose_used {X : Fin n → Fin p → Fl K} {t : RTree K p} {us : List Nat} (R : Nat) : ∀ {ms ms' : List Method} {us' : List Nat} {mv : Move K p}, propose X t us R ms = .ok (mv, us', ms') →
    ∃ c ≤ R, ms' = ms.drop c := by
  induction R with
  | zero => intro ms ms' us' mv h; cases h
  | succ R ih =>
    intro ms ms' us' mv h
    cases ms with
    | nil => cases h
    | cons m ms =>
      cases m with
      | grow =>
        rw [propose] at h
        split at h
        · obtain ⟨c, hc, rfl⟩ := ih h; exact ⟨c + 1, by omega, rfl⟩
        · split at h
          · cases h
          · cases h; exact ⟨1, by omega, rfl⟩
      | prune =>
        rw [propose] at h
        split at h
        · obtain ⟨c, hc, rfl⟩ := ih h; exact ⟨c + 1, by omega, rfl⟩
        · split at h
          · cases h
          · cases h; exact ⟨1, by omega, rfl⟩

variable [MathFns K] {R : Nat} {X : Fin n → Fin p → Fl K}

theorem treeBody_eq (hc : columns X (fun _ => true) ≠ []) {P : Params K} {pGrow pPrune : K} {y : Fin n → K} {t : RTree K p} (ha : Alive t) {r : Rand K} {b : Nat} (hm : Mixed R (b + 1) r.methods) :
    treeBody R P pGrow pPrune X y t r = Reference.treeBody P pGrow pPrune X y t r ∧
      ∀ {q}, treeBody R P pGrow pPrune X y t r = .ok q → Mixed R b q.2.2.methods := by
  have e := propose_eq (alive_can hc ha) r.picks R (hm.head.imp_right .inl)
  refine ⟨?_, ?_⟩
  · unfold treeBody Reference.treeBody treeStep Reference.treeStep
    rw [e]
    rfl
  · intro q hq
    unfold treeBody treeStep at hq
    cases hp : propose X t r.picks R r.methods with
    | error er => rw [hp] at hq; cases hq
    | ok w =>
      obtain ⟨mv, us, ms⟩ := w
      obtain ⟨c, hcR, rfl⟩ := propose_used R hp
      rw [hp] at hq
      cases hu : r.uniforms with
      | nil => rw [hu] at hq; cases hq
      | cons u uu =>
        rw [hu] at hq
        dsimp only at hq
        split at hq
        · cases hq
        · cases hq
          exact hm.tail hcR

theorem sweepTrees_eq (hc : columns X (fun _ => true) ≠ []) {P : Params K} {pGrow pPrune : K} {y : Fin n → K} (ts : List (RTree K p)) : ∀ {done : List (RTree K p)} {r : Rand K} {b : Nat},
    (∀ t ∈ ts, Alive t) → Mixed R (b + ts.length) r.methods →
    sweepTrees R P pGrow pPrune X y done ts r = Reference.sweepTrees P pGrow pPrune X y done ts r ∧
      ∀ {q}, sweepTrees R P pGrow pPrune X y done ts r = .ok q → Mixed R b q.2.2.methods := by
  induction ts with
  | nil => intro done r b _ hm; exact ⟨rfl, fun h => by cases h; exact hm⟩
  | cons t ts ih =>
    intro done r b ha hm
    obtain ⟨e1, m1⟩ := treeBody_eq (P := P) (pGrow := pGrow) (pPrune := pPrune) (y := fun i => y i - forest (done ++ ts) (X i)) hc (ha t (List.mem_cons_self ..)) (b := b + ts.length) hm
    unfold sweepTrees Reference.sweepTrees
    rw [e1]
    rw [e1] at m1
    cases hb : Reference.treeBody P pGrow pPrune X (fun i => y i - forest (done ++ ts) (X i)) t r with
    | error er => exact ⟨rfl, fun h => by cases h⟩
    | ok q =>
      obtain ⟨x, t1, r1⟩ := q
      obtain ⟨e2, m2⟩ := ih (done := done ++ [t1]) (fun t' ht' => ha t' (List.mem_cons_of_mem _ ht')) (m1 hb)
      dsimp only
      rw [e2]
      rw [e2] at m2
      cases hs : Reference.sweepTrees P pGrow pPrune X y (done ++ [t1]) ts r1 with
      | error er => exact ⟨rfl, fun h => by cases h⟩
      | ok w => exact ⟨rfl, fun h => by cases h; exact m2 (q := w) hs⟩

theorem sweep_eq (hc : columns X (fun _ => true) ≠ []) {c : Reference.Settings K} {y : Fin n → K} {s : State K p} {r : Rand K} {b : Nat} (ha : ∀ t ∈ s.trees, Alive t)
    (hm : Mixed R (b + s.trees.length) r.methods) :
    sweep R c X y s r = Reference.sweep c X y s r ∧ ∀ {q}, sweep R c X y s r = .ok q → Mixed R b q.2.2.methods := by
  obtain ⟨e1, m1⟩ := sweepTrees_eq (P := c.params s.sigma) (pGrow := c.pGrow) (pPrune := c.pPrune) (y := y) hc s.trees (done := []) ha hm
  unfold sweep Reference.sweep
  rw [e1]
  rw [e1] at m1
  cases hs : Reference.sweepTrees (c.params s.sigma) c.pGrow c.pPrune X y [] s.trees r with
  | error er => exact ⟨rfl, fun h => by cases h⟩
  | ok w =>
    obtain ⟨bs, ts, r1⟩ := w
    dsimp only
    refine ⟨rfl, fun h => ?_⟩
    split at h
    · cases h
    · cases h; exact m1 hs

theorem sweeps_eq (hc : columns X (fun _ => true) ≠ []) {c : Reference.Settings K} {y : Fin n → K} (k : Nat) : ∀ {s : State K p} {r : Rand K} {T : Nat}, s.trees.length = T → (∀ t ∈ s.trees, Alive t) →
    Mixed R (k * T) r.methods → sweeps R c X y k s r = Reference.sweeps c X y k s r := by
  induction k with
  | zero => intro s r T _ _ _; rfl
  | succ k ih =>
    intro s r T hT ha hm
    obtain ⟨e1, m1⟩ := sweep_eq (c := c) (y := y) hc (b := k * T) ha (by rw [hT, ← Nat.succ_mul]; exact hm)
    unfold sweeps Reference.sweeps
    rw [e1]
    rw [e1] at m1
    cases hb : Reference.sweep c X y s r with
    | error er => rfl
    | ok q =>
      obtain ⟨bs, s1, r1⟩ := q
      obtain ⟨d, hd⟩ : ∃ d, ∀ t ∈ s.trees, t.length ≤ d := ⟨(s.trees.map List.length).sum, fun t ht => List.le_sum_of_mem (List.mem_map.2 ⟨t, ht, rfl⟩)⟩
      obtain ⟨i1, i2, -⟩ := sweep_shape (d := d) (fun t ht => ⟨ha t ht, hd t ht⟩) hb
      dsimp only
      rw [ih (s := s1) (r := r1) (T := T) (by omega) (fun t ht => (i1 t ht).1) (m1 hb)]
      rfl

theorem chain_eq (hc : columns X (fun _ => true) ≠ []) (c : Reference.Config K) (y : Fin n → K) {r : Rand K} (hm : Mixed R ((c.nBurn + c.nSamples) * c.nTrees) r.methods) :
    chain R c X y r = Reference.chain c X y r := by
  unfold chain Reference.chain
  rw [sweeps_eq hc (T := c.nTrees) (c.nBurn + c.nSamples) (by simp [start]) (by
    intro t ht
    rw [List.eq_of_mem_replicate ht]
    exact alive_root) hm]
  rfl

theorem chains_eq (c : Reference.Config K) (y : Fin n → K) {rs : List (Rand K)} (h : ∀ r ∈ rs, chain R c X y r = Reference.chain c X y r) : chains R c X y rs = Reference.chains c X y rs := by
  induction rs with
  | nil => rfl
  | cons r rs ih =>
    unfold chains Reference.chains
    rw [h r (List.mem_cons_self ..), ih (fun r hr => h r (List.mem_cons_of_mem _ hr))]
    rfl

/-! ### the limit is reached -/

omit [MathFns K] in
theorem propose_stuck {t : RTree K p} (us : List Nat) (R : Nat) : ∀ {ms : List Method}, R ≤ ms.length → (∀ m ∈ ms.take R, match m with | .grow => t.splittable X = [] | .prune => t.prunable = []) →
    propose X t us R ms = .error .recursionError := by
  induction R with
  | zero => intro ms _ _; rfl
  | succ R ih =>
    intro ms hl h
    cases ms with
    | nil => simp at hl
    | cons m ms =>
      have h0 := h m (by simp)
      have hr : ∀ m ∈ ms.take R, match m with | .grow => t.splittable X = [] | .prune => t.prunable = [] := fun m' hm' => h m' (by rw [List.take_succ_cons]; exact List.mem_cons_of_mem _ hm')
      cases m with
      | grow => rw [propose, if_pos h0]; exact ih (by simpa using hl) hr
      | prune => rw [propose, if_pos h0]; exact ih (by simpa using hl) hr

theorem chain_stuck (c : Reference.Config K) (y : Fin n → K) (hT : 0 < c.nTrees) (hk : 0 < c.nBurn + c.nSamples) {r : Rand K} (hl : R ≤ r.methods.length)
    (h : columns X (fun _ => true) = [] ∨ ∀ m ∈ r.methods.take R, m = .prune) : chain R c X y r = .error .recursionError := by
  obtain ⟨k, hk⟩ : ∃ k, c.nBurn + c.nSamples = k + 1 := ⟨c.nBurn + c.nSamples - 1, by omega⟩
  obtain ⟨T, hT⟩ : ∃ T, c.nTrees = T + 1 := ⟨c.nTrees - 1, by omega⟩
  have hp : propose X (RTree.root : RTree K p) r.picks R r.methods = .error .recursionError := by
    refine propose_stuck _ _ hl ?_
    intro m hm
    cases m with
    | prune => rfl
    | grow =>
      rcases h with h | h
      · have h1 : columns X (RNode.rows X (⟨[], .leaf 0⟩ : RNode K p)) = [] := h
        simp [RTree.splittable, RTree.root, h1]
      · exact absurd (h _ hm) (by simp)
  unfold chain
  rw [hk]
  unfold sweeps sweep
  rw [show (start c.toSettings : State K p).trees = RTree.root :: List.replicate T RTree.root from by simp [start, hT, List.replicate_succ]]
  unfold sweepTrees treeBody treeStep
  rw [hp]

end Bart.Recursion
