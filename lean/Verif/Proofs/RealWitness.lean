import Verif.Props.ProposerProps
import Verif.Proofs.RoundTrip

/-! Concrete trees over the reals. -/

set_option linter.unusedSectionVars false

namespace Bart
open Spec

section
variable {K : Type} [Field K] [LinearOrder K] {n p : Nat} {X : Fin n → Fin p → Fl K}

/-- A leaf can be cut at every value below the maximum of a splittable column, by the proposer, and the cut applied. -/
theorem exists_grow (hX : NoNan X) {t : Tree K n p} (ht : ReachableTree X t) {y : Fin n → K} (hy : HasTarget t y) {i : NodeId} (hi : i ∈ t.leafNodes)
    {j : Fin p} (hj : isNotConstant (column X (rowsOf (t.heap.dataOf i)) j) = true) {a b : Fin n} (ha : rowsOf (t.heap.dataOf i) a = true)
    (hb : rowsOf (t.heap.dataOf i) b = true) (hlt : Fl.lt (X a j) (X b j) = true) :
    ∃ us D L R t1 t2, t.propose us [.grow] = .ok (⟨.grow, i, D⟩, t1, [], []) ∧ GrowProp X (some y) t t1.heap i D L R j (X a j) ∧
      t1.mutate ⟨.grow, i, D⟩ = .ok t2 ∧ ReachableTree X t2 ∧ HasTarget t2 y ∧ D ∈ t2.prunableDecisionNodes ∧ L ≠ R ∧
      (∀ k, k ∈ t2.leafNodes ↔ (k ∈ t.leafNodes ∧ k ≠ i) ∨ k = L ∨ k = R) ∧
      (∀ k ∈ t.leafNodes, rowsOf (t2.heap.dataOf k) = rowsOf (t.heap.dataOf k)) ∧
      rowsOf (t2.heap.dataOf L) = (fun r => rowsOf (t.heap.dataOf i) r && Fl.le (X r j) (X a j)) ∧
      rowsOf (t2.heap.dataOf R) = (fun r => rowsOf (t.heap.dataOf i) r && !Fl.le (X r j) (X a j)) := by
  obtain ⟨y0, s, hI⟩ := reachable_tree_inv hX ht
  have := hI.target hy; subst this
  obtain ⟨u0, u1, u2, t1, D, hr, e⟩ := sampleGrow_exact hX hI hi (j := j) hj (mem_column.2 ⟨a, ha, rfl⟩) (mem_column.2 ⟨b, hb, rfl⟩) hlt
  have hp : t.propose [u0, u1, u2] [.grow] = .ok (⟨.grow, i, D⟩, t1, [], []) := by
    unfold Tree.propose
    simp only [Tree.sampleMethod, e]
  have hps := propose_spec hX [.grow] hI [u0, u1, u2]
  rw [hp] at hps
  obtain ⟨x1, hm⟩ := hps
  rcases hm with ⟨i', D', L, R, j', v, he, hg⟩ | ⟨i', l, r, U, he, hg⟩
  · simp only [TreeMutation.mk.injEq, true_and] at he
    obtain ⟨rfl, rfl⟩ := he
    have := hg.rule
    rw [hr] at this
    simp only [Option.some.injEq, Prod.mk.injEq] at this
    obtain ⟨rfl, rfl⟩ := this
    obtain ⟨t2, f1, f2, f3, f4, f5, f6, f7, f8, f9, f10⟩ := mutate_grow (hI.ext x1) (by rw [x1.leafNodes hI]; exact hg.leaf) hg.ready hg.nodup
      (by rw [x1.nodes]; exact hg.fresh) hg.lt
    obtain ⟨-, -, -, -, -, hpr⟩ := grown_node hI x1 hg f1
    have hdof : ∀ k, t2.heap.dataOf k = t1.heap.dataOf k := by
      intro k; unfold Heap.dataOf; rw [f6, (f9 k).2.2.2]
    have hin : i ∈ t.nodes := (List.mem_filter.1 hi).1
    have hrow := x1.rows hI hin
    obtain ⟨c1, c2, c3, c4, c5, c6, c7, c8, c9⟩ := hg.children
    have hnd := hg.nodup
    simp at hnd
    refine ⟨_, D, L, R, t1, t2, hp, hg, f1, .apply ht hp f1, f2.hasTarget, hpr, hnd.2, ?_, ?_, ?_, ?_⟩
    · intro k
      unfold Tree.leafNodes
      rw [f3, x1.nodes]
      simp only [List.append_assoc, List.mem_filter, List.mem_append, List.mem_singleton, decide_eq_true_eq, (f9 k).2.1]
      rw [hI.nodes_nodup.mem_erase_iff]
      have hold : ∀ k ∈ t.nodes, (t1.heap.node k).kind = (t.heap.node k).kind := fun k hk => by rw [x1.heap.node k (hI.mem_lt hk)]
      constructor
      · rintro ⟨(⟨h1, h2⟩ | rfl | rfl | rfl), h3⟩
        · exact Or.inl ⟨⟨h2, by rw [← hold k h2]; exact h3⟩, h1⟩
        · exact Or.inr (Or.inl rfl)
        · exact Or.inr (Or.inr rfl)
        · rw [c7] at h3; cases h3
      · rintro (⟨⟨h1, h2⟩, h3⟩ | rfl | rfl)
        · exact ⟨Or.inl ⟨h3, h1⟩, by rw [hold k h1]; exact h2⟩
        · exact ⟨by simp, c8⟩
        · exact ⟨by simp, c9⟩
    · intro k hk
      rw [hdof, x1.rows hI (List.mem_filter.1 hk).1]
    · funext r; rw [hdof, hg.rowsL, hrow]
    · funext r; rw [hdof, hg.rowsR, hrow]
  · cases he

/-- The prune of the node that was just made can be proposed. -/
theorem exists_prune (hX : NoNan X) {t : Tree K n p} (ht : ReachableTree X t) {i : NodeId} (hi : i ∈ t.prunableDecisionNodes) :
    ∃ us U t1, t.propose us [.prune] = .ok (⟨.prune, i, U⟩, t1, [], []) := by
  obtain ⟨y0, s, hI⟩ := reachable_tree_inv hX ht
  obtain ⟨u, t1, U, e⟩ := samplePrune_exact hI hi
  refine ⟨[u], U, t1, ?_⟩
  unfold Tree.propose
  simp only [Tree.sampleMethod, e]

/-- With at most two rows no column is splittable, because the first row is ignored. -/
theorem not_splittable_of_two {rows : Fin n → Bool} (h : count rows ≤ 2) (j : Fin p) : isNotConstant (column X rows j) = false := by
  rw [isNotConstant_false_iff]
  intro f rest hl x hx
  have h1 := column_length X rows j
  have : (column X rows j).tail.length ≤ 1 := by rw [List.length_tail]; omega
  rw [hl] at this
  simp at this
  subst this; cases hx

end

/-- `n` rows with the values 0, 1, ..., n-1 in one column. -/
def rampX (n : Nat) : Fin n → Fin 1 → Fl ℝ := fun r _ => .fin (r.val : ℝ)

theorem rampX_noNan (n : Nat) : NoNan (rampX n) := by intro r i; simp [rampX]

theorem ramp_le {n : Nat} (a b : Fin n) : Fl.le (rampX n a 0) (rampX n b 0) = decide (a ≤ b) := by
  simp [rampX, Fl.le]

theorem ramp_lt {n : Nat} (a b : Fin n) : Fl.lt (rampX n a 0) (rampX n b 0) = decide (a < b) := by
  simp [rampX, Fl.lt]

theorem ramp_splittable {n : Nat} {rows : Fin n → Bool} (h : 3 ≤ count rows) : isNotConstant (column (rampX n) rows 0) = true := by
  rw [isNotConstant_noNan (by intro x hx; obtain ⟨r, -, hr⟩ := mem_column.1 hx; rw [← hr]; exact rampX_noNan n r 0)]
  have hl := column_length (rampX n) rows 0
  have hnd : (column (rampX n) rows 0).Nodup := by
    unfold column
    apply List.Nodup.map
    · intro a b hab
      simp only [rampX, Fl.fin.injEq, Nat.cast_inj] at hab
      exact Fin.ext hab
    · exact (List.nodup_finRange n).filter _
  generalize column (rampX n) rows 0 = l at hl hnd
  match l, hl, hnd with
  | [], hl, _ => simp at hl; omega
  | [a], hl, _ => simp at hl; omega
  | [a, b], hl, _ => simp at hl; omega
  | a :: b :: c :: rest, _, hnd =>
    refine ⟨b, by simp, c, by simp, ?_⟩
    rintro rfl
    simp at hnd

/-- A new tree over the rows 0, ..., n-1 with target `y`. -/
theorem exists_fresh {n p : Nat} (X : Fin n → Fin p → Fl ℝ) (y : Fin n → ℝ) :
    ∃ t, Fresh X y t ∧ ReachableTree X t ∧ HasTarget t y ∧ t.leafNodes = [0] ∧ (∀ r, rowsOf (t.heap.dataOf 0) r = true) := by
  have h : ∃ d, Data.init X y none false none none none none = .ok d ∧ d.y.y = some y := ⟨_, rfl, rfl⟩
  obtain ⟨d, hd, hdy⟩ := h
  have hf : Fresh X y (Tree.ofData d) := ⟨false, d, hd, rfl⟩
  obtain ⟨⟨y', hI⟩, h1, -, -, h4⟩ := fresh_tree_inv hf
  have hy : HasTarget (Tree.ofData d) y := by
    intro i hi; rw [h1] at hi; simp at hi; subst hi; exact hdy
  exact ⟨_, hf, .fresh hf, hy, rfl, h4⟩

end Bart
