import Verif.Spec.Reference
import Verif.Proofs.RealLemmas
import Verif.Proofs.RefStep
import Mathlib.Data.Set.Finite.List
import Mathlib.Data.Set.Finite.Powerset

/-! A walk that grows only where a gain exceeds a level and prunes only where it is below a level does not come back; the reference sampler is such a walk. -/

set_option linter.unusedSectionVars false

namespace Bart
open Spec

section walk

/-- A property that is lost is lost at some step. -/
theorem exists_loss {P : ℕ → Prop} {a b : ℕ} (hab : a ≤ b) (ha : P a) (hb : ¬ P b) : ∃ i, a ≤ i ∧ i < b ∧ P i ∧ ¬ P (i + 1) := by
  induction b, hab using Nat.le_induction with
  | base => exact absurd ha hb
  | succ b hab ih =>
    by_cases h : P b
    · exact ⟨b, hab, Nat.lt_succ_self b, h, hb⟩
    · obtain ⟨i, h1, h2, h3⟩ := ih h
      exact ⟨i, h1, h2.trans (Nat.lt_succ_self b), h3⟩

variable {D : Type} {f : ℕ → Set D} {l : ℕ → ℕ} {gain : D → ℝ} {g : ℕ → ℝ} {m : ℕ}

/-- A step that adds an element whose gain is above the level after it, or removes one whose gain is below the level before it, or does nothing. -/
def WalkStep (gain : D → ℝ) (g : ℕ → ℝ) (S : Set D) (a : ℕ) (S' : Set D) (a' : ℕ) : Prop :=
  (S' = S ∧ a' = a) ∨ (∃ d, d ∉ S ∧ S' = insert d S ∧ a' ≤ a + 1 ∧ g (a + 1) < gain d) ∨ (∃ d, d ∈ S ∧ S' = S \ {d} ∧ a' ≤ a ∧ gain d < g a)

theorem walk_no_return (hg : Monotone g) (h : ∀ i < m, WalkStep gain g (f i) (l i) (f (i + 1)) (l (i + 1))) (hf : f m = f 0) (hl : l m = l 0) :
    ∀ i < m, f (i + 1) = f i := by
  classical
  -- the level of a step that adds
  have noGrow : ∀ i < m, ¬ ∃ d, d ∉ f i ∧ f (i + 1) = insert d (f i) ∧ l (i + 1) ≤ l i + 1 ∧ g (l i + 1) < gain d := by
    intro i1 hi1 hgr
    let T := (Finset.range m).filter fun i => ∃ d, d ∉ f i ∧ f (i + 1) = insert d (f i) ∧ l (i + 1) ≤ l i + 1 ∧ g (l i + 1) < gain d
    obtain ⟨i0, hi0, hmax⟩ := Finset.exists_max_image T l ⟨i1, Finset.mem_filter.2 ⟨Finset.mem_range.2 hi1, hgr⟩⟩
    obtain ⟨him, d, hd, hS, -, hgain⟩ := Finset.mem_filter.1 hi0
    rw [Finset.mem_range] at him
    have prune : ∀ i < m, d ∈ f i → d ∉ f (i + 1) → l i0 + 2 ≤ l i := by
      intro i hi h1 h2
      rcases h i hi with ⟨e, -⟩ | ⟨d', -, e, -⟩ | ⟨d', -, e, -, hlt⟩
      · rw [e] at h2; exact absurd h1 h2
      · rw [e] at h2; exact absurd (Set.mem_insert_of_mem _ h1) h2
      · have : d = d' := by
          by_contra hne
          rw [e] at h2; exact h2 ⟨h1, hne⟩
        subst this
        have := hg.reflect_lt (hgain.trans hlt)
        omega
    have hex : ∃ i < m, l i0 + 2 ≤ l i := by
      by_cases hdm : d ∈ f m
      · obtain ⟨i, -, h2, h3, h4⟩ := exists_loss (P := fun i => d ∈ f i) (Nat.zero_le i0) (by rw [← hf]; exact hdm) hd
        exact ⟨i, h2.trans him, prune i (h2.trans him) h3 h4⟩
      · obtain ⟨i, -, h2, h3, h4⟩ := exists_loss (P := fun i => d ∈ f i) (a := i0 + 1) (b := m) him (by rw [hS]; exact Set.mem_insert _ _) hdm
        exact ⟨i, h2, prune i h2 h3 h4⟩
    have back1 : ∀ i < m, l i0 + 2 ≤ l (i + 1) → l i0 + 2 ≤ l i := by
      intro i hi hle
      rcases h i hi with ⟨-, e⟩ | ⟨d', h1, h2, h3, h4⟩ | ⟨d', -, -, e, -⟩
      · omega
      · have := hmax i (Finset.mem_filter.2 ⟨Finset.mem_range.2 hi, d', h1, h2, h3, h4⟩)
        omega
      · omega
    have back : ∀ k, ∀ i, i + k ≤ m → l i0 + 2 ≤ l (i + k) → l i0 + 2 ≤ l i := by
      intro k
      induction k with
      | zero => intro i _ h; exact h
      | succ k ih => intro i hi h; exact ih i (by omega) (back1 (i + k) (by omega) (by rw [show i + k + 1 = i + (k + 1) by omega]; exact h))
    obtain ⟨i, hi, hli⟩ := hex
    have h0 := back i 0 (by omega) (by rw [Nat.zero_add]; exact hli)
    rw [← hl] at h0
    have := back (m - i0) i0 (by omega) (by rw [show i0 + (m - i0) = m by omega]; exact h0)
    omega
  have sub : ∀ i < m, f (i + 1) ⊆ f i := by
    intro i hi
    rcases h i hi with ⟨e, -⟩ | hgr | ⟨d', -, e, -⟩
    · rw [e]
    · exact absurd hgr (noGrow i hi)
    · rw [e]; exact Set.diff_subset
  have anti : ∀ k, ∀ i, i + k ≤ m → f (i + k) ⊆ f i := by
    intro k
    induction k with
    | zero => intro i _; exact subset_rfl
    | succ k ih => intro i hi; exact (sub (i + k) (by omega)).trans (ih i (by omega))
  intro i hi
  refine (sub i hi).antisymm ?_
  have h1 := anti i 0 (by omega)
  rw [Nat.zero_add, ← hf] at h1
  have h2 := anti (m - (i + 1)) (i + 1) (by omega)
  rw [show i + 1 + (m - (i + 1)) = m by omega] at h2
  exact h1.trans h2

end walk

namespace Reference
variable {K : Type} [Field K] [LinearOrder K] {n p : Nat}

/-- A split with the way to it. -/
abbrev At (K : Type) (p : Nat) := List (Cond K p) × Fin p × Fl K

/-- The splits of a tree. -/
def RTree.splits (t : RTree K p) : Set (At K p) := {d | (⟨d.1, .split d.2.1 d.2.2⟩ : RNode K p) ∈ t}

/-- Every node has its own path, and a split has its two children. -/
structure Tidy (t : RTree K p) : Prop where
  inj : ∀ a ∈ t, ∀ b ∈ t, a.path = b.path → a = b
  nodup : t.Nodup
  children : ∀ path j v b, (⟨path, .split j v⟩ : RNode K p) ∈ t → ∃ nd ∈ t, nd.path = path ++ [⟨j, v, b⟩]

section
variable {t t' : RTree K p}

theorem mem_hasLeaf {path : List (Cond K p)} : t.hasLeaf path = true ↔ ∃ v, (⟨path, .leaf v⟩ : RNode K p) ∈ t := by
  unfold RTree.hasLeaf
  rw [List.any_eq_true]
  constructor
  · rintro ⟨⟨q, v | ⟨j, v⟩⟩, h1, h2⟩
    · simp [RNode.isLeaf] at h2; subst h2; exact ⟨v, h1⟩
    · simp [RNode.isLeaf] at h2
  · rintro ⟨v, h⟩; exact ⟨_, h, by simp [RNode.isLeaf]⟩

theorem mem_prunable {nd : RNode K p} : nd ∈ t.prunable ↔ ∃ path j v, nd = ⟨path, .split j v⟩ ∧ nd ∈ t ∧ ∀ b, t.hasLeaf (path ++ [⟨j, v, b⟩]) = true := by
  unfold RTree.prunable
  rw [List.mem_filter]
  rcases nd with ⟨q, v | ⟨j, v⟩⟩
  · simp
  · simp only [Bool.and_eq_true, Bool.forall_bool, RNode.mk.injEq, Content.split.injEq]
    constructor
    · rintro ⟨h1, h2, h3⟩; exact ⟨q, j, v, ⟨rfl, rfl, rfl⟩, h1, h3, h2⟩
    · rintro ⟨q', j', v', ⟨rfl, rfl, rfl⟩, h1, h2, h3⟩; exact ⟨h1, h3, h2⟩

/-- Which splits are removable depends on the splits only. -/
theorem mem_prunable_tidy (h : Tidy t) {path : List (Cond K p)} {j : Fin p} {v : Fl K} :
    (⟨path, .split j v⟩ : RNode K p) ∈ t.prunable ↔ (path, j, v) ∈ t.splits ∧ ∀ b j' v', (path ++ [⟨j, v, b⟩], j', v') ∉ t.splits := by
  rw [mem_prunable]
  constructor
  · rintro ⟨q, j', v', e, hin, hl⟩
    injection e with e1 e2; injection e2 with e2 e3; subst e1 e2 e3
    refine ⟨hin, fun b j' v' hin' => ?_⟩
    obtain ⟨w, hw⟩ := mem_hasLeaf.1 (hl b)
    have := h.inj _ hw _ hin' rfl
    simp at this
  · rintro ⟨hin, hno⟩
    refine ⟨path, j, v, rfl, hin, fun b => ?_⟩
    obtain ⟨⟨q, w | ⟨j', v'⟩⟩, h1, rfl⟩ := h.children path j v b hin
    · exact mem_hasLeaf.2 ⟨w, h1⟩
    · exact absurd h1 (hno b j' v')

theorem prunable_mem_iff (h : Tidy t) (h' : Tidy t') (e : t'.splits = t.splits) (nd : RNode K p) : nd ∈ t'.prunable ↔ nd ∈ t.prunable := by
  rcases nd with ⟨q, w | ⟨j, v⟩⟩
  · simp [mem_prunable]
  · rw [mem_prunable_tidy h, mem_prunable_tidy h', e]

theorem prunable_length_eq (h : Tidy t) (h' : Tidy t') (e : t'.splits = t.splits) : t'.prunable.length = t.prunable.length :=
  ((List.perm_ext_iff_of_nodup (h'.nodup.filter _) (h.nodup.filter _)).2 (prunable_mem_iff h h' e)).length_eq

/-- A leaf is split: the splits of the new tree. -/
theorem splits_grow (h : Tidy t) {path : List (Cond K p)} {w : K} (hin : (⟨path, .leaf w⟩ : RNode K p) ∈ t) (j : Fin p) (v : Fl K) :
    (path, j, v) ∉ t.splits ∧ (t.apply (.grow path j v)).splits = insert (path, j, v) t.splits := by
  refine ⟨fun hc => ?_, ?_⟩
  · have := h.inj _ hin _ hc rfl
    simp at this
  · ext ⟨q, j', v'⟩
    simp only [RTree.splits, RTree.apply, Set.mem_setOf_eq, Set.mem_insert_iff, List.mem_append, List.mem_filter, List.mem_cons, RNode.mk.injEq, Content.split.injEq, reduceCtorEq, and_false,
      false_or, List.not_mem_nil, or_false, decide_eq_true_eq, ne_eq, Prod.mk.injEq]
    constructor
    · rintro (⟨h1, -⟩ | h1)
      · exact Or.inr h1
      · exact Or.inl h1
    · rintro (h1 | h1)
      · exact Or.inr h1
      · refine Or.inl ⟨h1, ?_⟩
        rintro rfl
        have := h.inj _ hin _ h1 rfl
        simp at this

theorem nodup_prunable_path (h : Tidy t) : (t.prunable.map RNode.path).Nodup := by
  refine List.Nodup.map_on (fun a ha b hb e => ?_) (h.nodup.filter _)
  exact h.inj a (List.mem_filter.1 ha).1 b (List.mem_filter.1 hb).1 e

theorem prunable_grow (h' : Tidy (t.apply (.grow path j v))) : (t.apply (.grow path j v)).prunable.length ≤ t.prunable.length + 1 := by
  have hsub : (t.apply (.grow path j v)).prunable.map RNode.path ⊆ path :: t.prunable.map RNode.path := by
    intro q hq
    obtain ⟨nd, hnd, rfl⟩ := List.mem_map.1 hq
    obtain ⟨q, j', v', rfl, hin, hl⟩ := mem_prunable.1 hnd
    by_cases hq : q = path
    · subst hq; simp
    · refine List.mem_cons_of_mem _ (List.mem_map.2 ⟨_, mem_prunable.2 ⟨q, j', v', rfl, ?_, fun b => ?_⟩, rfl⟩)
      · simpa [RTree.apply, hq] using hin
      · obtain ⟨w, hw⟩ := mem_hasLeaf.1 (hl b)
        refine mem_hasLeaf.2 ⟨w, ?_⟩
        simp only [RTree.apply, List.mem_append, List.mem_filter, List.mem_cons, RNode.mk.injEq, reduceCtorEq, and_false, or_false, List.not_mem_nil] at hw
        rcases hw with hw | ⟨e, -⟩ | ⟨e, -⟩
        · exact hw.1
        · exact absurd (List.append_inj_left' e rfl) hq
        · exact absurd (List.append_inj_left' e rfl) hq
  have := List.Subperm.length_le (List.subperm_of_subset (nodup_prunable_path h') hsub)
  simpa using this

/-- A split is removed: the splits of the new tree. -/
theorem splits_prune (h : Tidy t) {path : List (Cond K p)} {j : Fin p} {v : Fl K} (hin : (⟨path, .split j v⟩ : RNode K p) ∈ t.prunable) :
    (path, j, v) ∈ t.splits ∧ (t.apply (.prune path j v)).splits = t.splits \ {(path, j, v)} := by
  obtain ⟨h1, h2⟩ := (mem_prunable_tidy h).1 hin
  refine ⟨h1, ?_⟩
  ext ⟨q, j', v'⟩
  simp only [RTree.splits, RTree.apply, Set.mem_setOf_eq, Set.mem_diff, Set.mem_singleton_iff, List.mem_append, List.mem_filter, List.mem_cons, RNode.mk.injEq, reduceCtorEq, and_false,
    List.not_mem_nil, or_false, decide_eq_true_eq, ne_eq, Prod.mk.injEq, Bool.and_eq_true]
  constructor
  · rintro ⟨h3, ⟨h4, -⟩, -⟩
    exact ⟨h3, fun e => h4 e.1⟩
  · rintro ⟨h3, h4⟩
    refine ⟨h3, ⟨?_, ?_⟩, ?_⟩
    · rintro rfl
      have := h.inj _ h1 _ h3 rfl
      simp only [RNode.mk.injEq, Content.split.injEq, true_and] at this
      exact h4 ⟨rfl, this.1.symm, this.2.symm⟩
    · rintro rfl; exact h2 true j' v' h3
    · rintro rfl; exact h2 false j' v' h3

theorem prunable_prune (h : Tidy t) (h' : Tidy (t.apply (.prune path j v))) (hin : (⟨path, .split j v⟩ : RNode K p) ∈ t.prunable) :
    (t.apply (.prune path j v)).prunable.length ≤ t.prunable.length := by
  have hsub : (t.apply (.prune path j v)).prunable.map RNode.path ⊆ path.dropLast :: (t.prunable.map RNode.path).erase path := by
    intro q hq
    obtain ⟨nd, hnd, rfl⟩ := List.mem_map.1 hq
    obtain ⟨q, j', v', rfl, hin', hl⟩ := mem_prunable.1 hnd
    simp only [RTree.apply, List.mem_append, List.mem_filter, List.mem_cons, RNode.mk.injEq, reduceCtorEq, and_false, or_false, List.not_mem_nil, Bool.and_eq_true, decide_eq_true_eq] at hin'
    by_cases hq : ∃ b, path = q ++ [⟨j', v', b⟩]
    · obtain ⟨b, rfl⟩ := hq; simp
    · refine List.mem_cons_of_mem _ ((List.mem_erase_of_ne hin'.2.1.1).2 (List.mem_map.2 ⟨_, mem_prunable.2 ⟨q, j', v', rfl, hin'.1, fun b => ?_⟩, rfl⟩))
      obtain ⟨w, hw⟩ := mem_hasLeaf.1 (hl b)
      refine mem_hasLeaf.2 ⟨w, ?_⟩
      simp only [RTree.apply, List.mem_append, List.mem_filter, List.mem_cons, RNode.mk.injEq, or_false, List.not_mem_nil] at hw
      rcases hw with hw | ⟨e, -⟩
      · exact hw.1
      · exact absurd ⟨b, e.symm⟩ hq
  have := List.Subperm.length_le (List.subperm_of_subset (nodup_prunable_path h') hsub)
  have hmem : path ∈ t.prunable.map RNode.path := List.mem_map.2 ⟨_, hin, rfl⟩
  rw [List.length_map, List.length_cons, List.length_erase_of_mem hmem, List.length_map] at this
  have hpos := List.length_pos_of_mem hin
  omega

end

section proposals
variable {X : Fin n → Fin p → Fl K} {t : RTree K p}

theorem choice_mem {α : Type} {l : List α} {u : Nat} {a : α} (h : choice l u = .ok a) : a ∈ l := by
  unfold choice at h
  split at h
  · next h' => injection h with h; subst h; exact List.mem_of_getElem? h'
  · cases h

theorem drawCut_mem {col : List (Fl K)} : ∀ {us us' : List Nat} {v : Fl K}, drawCut col us = .ok (v, us') → v ∈ col ∧ ∃ m ∈ col, Fl.lt v m = true := by
  intro us
  induction us with
  | nil => intro us' v h; cases h
  | cons u us ih =>
    intro us' v h
    unfold drawCut at h
    split at h
    · cases h
    · next w hw =>
      split at h
      · next ha =>
        injection h with h; injection h with h1 h2; subst h1
        obtain ⟨m, hm, hlt⟩ := List.any_eq_true.1 ha
        exact ⟨choice_mem hw, m, hm, hlt⟩
      · exact ih h

/-- What is known of a proposal. -/
def IsProposed (X : Fin n → Fin p → Fl K) (t : RTree K p) : Move K p → Prop
  | .grow path j v => ∃ w, (⟨path, .leaf w⟩ : RNode K p) ∈ t.splittable X ∧ j ∈ columns X (RNode.rows X ⟨path, .leaf 0⟩) ∧ v ∈ column X (RNode.rows X ⟨path, .leaf 0⟩) j ∧
      ∃ m ∈ column X (RNode.rows X ⟨path, .leaf 0⟩) j, Fl.lt v m = true
  | .prune path j v => (⟨path, .split j v⟩ : RNode K p) ∈ t.prunable

theorem proposeGrow_mem {us us' : List Nat} {mv : Move K p} (h : proposeGrow X t us = .ok (mv, us')) : IsProposed X t mv := by
  unfold proposeGrow at h
  split at h
  · split at h
    · cases h
    · next nd h1 =>
      split at h
      · cases h
      · next j h2 =>
        split at h
        · cases h
        · next v us2 h3 =>
          injection h with h; injection h with h4 h5; subst h4
          have hs := choice_mem h1
          obtain ⟨hv, hm⟩ := drawCut_mem h3
          rcases nd with ⟨q, w | ⟨j', v'⟩⟩
          · exact ⟨w, hs, choice_mem h2, hv, hm⟩
          · have := (List.mem_filter.1 hs).2
            simp [RNode.isLeaf] at this
  · cases h

theorem proposePrune_mem {us us' : List Nat} {mv : Move K p} (h : proposePrune t us = .ok (mv, us')) : IsProposed X t mv := by
  unfold proposePrune at h
  split at h
  · cases h
  · split at h
    · next path j v h1 =>
      injection h with h; injection h with h4 h5; subst h4
      exact choice_mem h1
    · cases h
    · cases h

theorem propose_mem : ∀ {ms ms' : List Method} {us us' : List Nat} {mv : Move K p}, propose X t us ms = .ok (mv, us', ms') → IsProposed X t mv := by
  intro ms
  induction ms with
  | nil => intro ms' us us' mv h; cases h
  | cons a ms ih =>
    intro ms' us us' mv h
    cases a with
    | grow =>
      unfold propose at h
      split at h
      · exact ih h
      · split at h
        · cases h
        · next h1 => injection h with h; injection h with h2 h3; subst h2; exact proposeGrow_mem h1
    | prune =>
      unfold propose at h
      split at h
      · exact ih h
      · split at h
        · cases h
        · next h1 => injection h with h; injection h with h2 h3; subst h2; exact proposePrune_mem h1

end proposals

/-- An accepted step changes the splits. -/
theorem treeStep_changes [MathFns K] {X : Fin n → Fin p → Fl K} {t t' : RTree K p} (ht : Tidy t) {P : Params K} {pGrow pPrune : K} {y : Fin n → K} {r r' : Rand K}
    (h : treeStep P pGrow pPrune X y t r = .ok (true, t', r')) : t'.splits ≠ t.splits := by
  unfold treeStep at h
  split at h
  · cases h
  · next mv us ms hmv =>
    have hm := propose_mem hmv
    split at h
    · cases h
    · next u rest hu =>
      injection h with h; injection h with h3 h4; injection h4 with h4 h5
      rw [if_pos h3] at h4
      subst h4
      cases mv with
      | grow path j v =>
        obtain ⟨w, hin, -⟩ := hm
        obtain ⟨e1, e2⟩ := splits_grow ht (List.mem_filter.1 hin).1 j v
        rw [e2]
        intro e
        exact e1 (by rw [← e]; exact Set.mem_insert _ _)
      | prune path j v =>
        obtain ⟨e1, e2⟩ := splits_prune ht hm
        rw [e2]
        intro e
        rw [← e] at e1
        exact e1.2 rfl

section within
variable {X : Fin n → Fin p → Fl K} {t : RTree K p}

/-- The paths use comparisons from `A` only, and the length of a path with the number of its rows is at most `C`. -/
def Within (A : Set (Cond K p)) (C : Nat) (X : Fin n → Fin p → Fl K) (t : RTree K p) : Prop :=
  ∀ q ∈ t.map RNode.path, (∀ c ∈ q, c ∈ A) ∧ q.length + count (RNode.rows X ⟨q, .leaf 0⟩) ≤ C

theorem rows_append (q : List (Cond K p)) (c : Cond K p) (a b : K) (r : Fin n) : RNode.rows X ⟨q ++ [c], .leaf a⟩ r = (RNode.rows X ⟨q, .leaf b⟩ r && c.holds (X r)) := by
  simp [RNode.rows, RNode.reaches, List.all_append]

theorem count_lt {rows rows' : Fin n → Bool} (h : ∀ r, rows' r = true → rows r = true) {r : Fin n} (h1 : rows r = true) (h2 : rows' r = false) : count rows' < count rows := by
  unfold count
  refine Finset.card_lt_card ⟨fun a ha => ?_, fun hs => ?_⟩
  · simp only [Finset.mem_filter, Finset.mem_univ, true_and] at ha ⊢; exact h a ha
  · have hr : r ∈ Finset.univ.filter (fun r => rows' r = true) := hs (by simpa using h1)
    simp [h2] at hr

theorem within_step [MathFns K] (hX : NoNan X) {A : Set (Cond K p)} {C : Nat} (hA : ∀ r j b, (⟨j, X r j, b⟩ : Cond K p) ∈ A) {P : Params K} {pGrow pPrune : K} {y : Fin n → K} {t' : RTree K p}
    {r r' : Rand K} {b : Bool} (ht : Within A C X t) (h : treeStep P pGrow pPrune X y t r = .ok (b, t', r')) : Within A C X t' := by
  unfold treeStep at h
  split at h
  · cases h
  · next mv us ms hmv =>
    have hm := propose_mem hmv
    split at h
    · cases h
    · next u rest hu =>
      injection h with h; injection h with h3 h4; injection h4 with h4 h5
      split at h4
      swap
      · subst h4; exact ht
      subst h4
      cases mv with
      | grow path j v =>
        obtain ⟨w, hin, hj, hv, m, hm1, hm2⟩ := hm
        obtain ⟨h6, h7⟩ := ht path (List.mem_map.2 ⟨_, (List.mem_filter.1 hin).1, rfl⟩)
        obtain ⟨r1, hr1, e1⟩ := mem_column.1 hv
        obtain ⟨r2, hr2, e2⟩ := mem_column.1 hm1
        have hc : ∀ b, (∀ c ∈ path ++ [(⟨j, v, b⟩ : Cond K p)], c ∈ A) ∧ (path ++ [(⟨j, v, b⟩ : Cond K p)]).length + count (RNode.rows X ⟨path ++ [(⟨j, v, b⟩ : Cond K p)], .leaf 0⟩) ≤ C := by
          intro b
          refine ⟨fun c hc => ?_, ?_⟩
          · rcases List.mem_append.1 hc with hc | hc
            · exact h6 c hc
            · rw [List.mem_singleton.1 hc, ← e1]; exact hA r1 j b
          · have : count (RNode.rows X ⟨path ++ [(⟨j, v, b⟩ : Cond K p)], .leaf 0⟩) < count (RNode.rows X ⟨path, .leaf 0⟩) := by
              cases b with
              | true =>
                refine count_lt (r := r2) (fun a ha => ?_) hr2 ?_
                · rw [rows_append (b := 0)] at ha; simp only [Bool.and_eq_true] at ha; exact ha.1
                · rw [rows_append (b := 0)]
                  have : Fl.le m v = false := by
                    revert hm2
                    cases m <;> cases v <;> simp [Fl.lt, Fl.le]
                  simp [Cond.holds, e2, this]
              | false =>
                refine count_lt (r := r1) (fun a ha => ?_) hr1 ?_
                · rw [rows_append (b := 0)] at ha; simp only [Bool.and_eq_true] at ha; exact ha.1
                · rw [rows_append (b := 0)]
                  have : Fl.le v v = true := Fl.le_refl (by rw [← e1]; exact hX r1 j)
                  simp [Cond.holds, e1, this]
            rw [List.length_append, List.length_singleton]
            omega
        intro q hq
        simp only [RTree.apply, List.map_append, List.map_cons, List.map_nil, List.mem_append, List.mem_cons, List.not_mem_nil, or_false] at hq
        rcases hq with hq | rfl | rfl | rfl
        · obtain ⟨nd, hnd, rfl⟩ := List.mem_map.1 hq
          exact ht _ (List.mem_map.2 ⟨nd, (List.mem_filter.1 hnd).1, rfl⟩)
        · exact hc true
        · exact hc false
        · exact ⟨h6, h7⟩
      | prune path j v =>
        intro q hq
        simp only [RTree.apply, List.map_append, List.map_cons, List.map_nil, List.mem_append, List.mem_cons, List.not_mem_nil, or_false] at hq
        rcases hq with hq | rfl
        · obtain ⟨nd, hnd, rfl⟩ := List.mem_map.1 hq
          exact ht _ (List.mem_map.2 ⟨nd, (List.mem_filter.1 hnd).1, rfl⟩)
        · exact ht _ (List.mem_map.2 ⟨_, (List.mem_filter.1 hm).1, rfl⟩)

/-- The splits that are possible. -/
def possible (A : Set (Cond K p)) (C : Nat) : Set (At K p) := {d | (d.1.length ≤ C ∧ ∀ c ∈ d.1, c ∈ A) ∧ (⟨d.2.1, d.2.2, true⟩ : Cond K p) ∈ A}

theorem possible_finite {A : Set (Cond K p)} (hA : A.Finite) (C : Nat) : (possible A C).Finite := by
  have := hA.to_subtype
  have h1 : {q : List (Cond K p) | q.length ≤ C ∧ ∀ c ∈ q, c ∈ A}.Finite := by
    refine ((List.finite_length_le A C).image (List.map Subtype.val)).subset ?_
    rintro q ⟨h1, h2⟩
    exact ⟨q.pmap Subtype.mk h2, by simpa using h1, by rw [List.map_pmap]; simp⟩
  have h2 : {d : Fin p × Fl K | (⟨d.1, d.2, true⟩ : Cond K p) ∈ A}.Finite := by
    refine (hA.image fun c => (c.column, c.value)).subset ?_
    rintro ⟨j, v⟩ h
    exact ⟨_, h, rfl⟩
  refine (h1.prod h2).subset ?_
  rintro ⟨q, j, v⟩ ⟨a, b⟩
  exact ⟨a, b⟩

theorem splits_possible {A : Set (Cond K p)} {C : Nat} (ht : Tidy t) (h : Within A C X t) : t.splits ⊆ possible A C := by
  rintro ⟨q, j, v⟩ hin
  obtain ⟨h1, h2⟩ := h q (List.mem_map.2 ⟨_, hin, rfl⟩)
  obtain ⟨nd, hnd, e⟩ := ht.children q j v true hin
  obtain ⟨h3, -⟩ := h _ (List.mem_map.2 ⟨nd, hnd, rfl⟩)
  refine ⟨⟨by simp only; omega, h1⟩, h3 _ ?_⟩
  rw [e]; simp

/-- Every tree is within some bounds that the data respect. -/
theorem exists_within (X : Fin n → Fin p → Fl K) (t : RTree K p) : ∃ A C, Set.Finite A ∧ (∀ r j b, (⟨j, X r j, b⟩ : Cond K p) ∈ A) ∧ Within A C X t := by
  refine ⟨Set.range (fun q : Fin n × Fin p × Bool => (⟨q.2.1, X q.1 q.2.1, q.2.2⟩ : Cond K p)) ∪ {c | c ∈ t.flatMap RNode.path}, ((t.map fun nd => nd.path.length).foldr max 0) + n,
    (Set.finite_range _).union (List.finite_toSet _), fun r j b => Or.inl ⟨(r, j, b), rfl⟩, fun q hq => ⟨fun c hc => Or.inr ?_, ?_⟩⟩
  · obtain ⟨nd, hnd, rfl⟩ := List.mem_map.1 hq
    exact List.mem_flatMap.2 ⟨nd, hnd, hc⟩
  · have h1 : count (RNode.rows X ⟨q, .leaf 0⟩) ≤ n := by
      unfold count
      exact (Finset.card_le_univ _).trans (by simp)
    have h2 : ∀ (l : List Nat) a, a ∈ l → a ≤ l.foldr max 0 := by
      intro l
      induction l with
      | nil => simp
      | cons b l ih =>
        intro a ha
        rcases List.mem_cons.1 ha with rfl | ha
        · simp
        · exact (ih a ha).trans (by simp)
    obtain ⟨nd, hnd, rfl⟩ := List.mem_map.1 hq
    have := h2 (t.map fun nd => nd.path.length) nd.path.length (List.mem_map.2 ⟨nd, hnd, rfl⟩)
    omega

end within

section real
variable {X : Fin n → Fin p → Fl ℝ}
open Lik

/-- What a split adds to the log posterior of a tree, as far as the sampler sees it. -/
noncomputable def gain (P : Params ℝ) (pGrow pPrune : ℝ) (X : Fin n → Fin p → Fl ℝ) (y : Fin n → ℝ) (d : At ℝ p) : ℝ :=
  Real.log (pPrune / pGrow) + likReal P X y (RNode.rows X ⟨d.1, .leaf 0⟩) d.2.1 d.2.2 +
    (2 * Real.log (1 - splitP P (d.1.length + 1)) + Real.log (splitP P d.1.length)) - Real.log (1 - splitP P d.1.length)

theorem splitPrior_eq {P : Params ℝ} (h : GoodPrior P) (d : Nat) : splitPrior P d = .fin (2 * Real.log (1 - splitP P (d + 1)) + Real.log (splitP P d)) := by
  unfold splitPrior
  rw [logNodeNotSplit_eq h, logNodeSplit_eq h]
  simp; ring

theorem likelihood_eq {P : Params ℝ} (h : GoodParams P) (y : Fin n → ℝ) (rows : Fin n → Bool) (j : Fin p) (v : Fl ℝ) : likelihood P X y rows j v = .fin (likReal P X y rows j v) :=
  likValue_eq h X y rows j v

theorem negLog_eq {k : Int} (hk : 0 < k) : (negLog k : Fl ℝ) = .fin (-Real.log k) := by
  unfold negLog
  rw [ofInt_log hk]; rfl

theorem ratio_grow_eq {P : Params ℝ} (h1 : GoodParams P) (h2 : GoodPrior P) {pGrow pPrune : ℝ} (hg : 0 < pGrow) (hp : 0 < pPrune) {y : Fin n → ℝ} {t : RTree ℝ p}
    {path : List (Cond ℝ p)} {j : Fin p} {v : Fl ℝ} {w : ℝ} (hw : cutProbability X (RNode.rows X ⟨path, .leaf 0⟩) j v = .fin w) (hs : 0 < (t.splittable X).length) :
    ratio P pGrow pPrune X y t (.grow path j v) = .fin (gain P pGrow pPrune X y (path, j, v) - Real.log ((t.prunable.length + 1 : Nat) : ℝ)) := by
  unfold ratio gain
  simp only
  rw [hw, negLog_eq (k := ((t.splittable X).length : Int)) (by exact_mod_cast hs), negLog_eq (k := (t.prunable.length : Int) + 1) (by positivity), splitPrior_eq h2, likelihood_eq h1, logNodeNotSplit_eq h2, Fl.log_fin (by positivity)]
  simp
  ring

theorem ratio_prune_eq {P : Params ℝ} (h1 : GoodParams P) (h2 : GoodPrior P) {pGrow pPrune : ℝ} (hg : 0 < pGrow) (hp : 0 < pPrune) {y : Fin n → ℝ} {t : RTree ℝ p}
    {path : List (Cond ℝ p)} {j : Fin p} {v : Fl ℝ} (hin : (⟨path, .split j v⟩ : RNode ℝ p) ∈ t.prunable) {u : ℝ} (hu : 0 ≤ u)
    (h : Fl.lt (.fin u) (ratio P pGrow pPrune X y t (.prune path j v)) = true) : gain P pGrow pPrune X y (path, j, v) < Real.log t.prunable.length := by
  have hpos := List.length_pos_of_mem hin
  unfold ratio at h
  simp only at h
  rw [splitPrior_eq h2, likelihood_eq h1, logNodeNotSplit_eq h2, Fl.log_fin (by positivity), negLog_eq (k := (t.prunable.length : Int)) (by exact_mod_cast hpos)] at h
  by_cases hs1 : (t.splittable X).length = 1
  · rw [if_pos hs1] at h
    cases hw : cutProbability X (RNode.rows X ⟨path, .leaf 0⟩) j v <;> rw [hw] at h <;> simp [Fl.lt, Fl.add, Fl.sub, Fl.neg] at h
  rw [if_neg hs1] at h
  by_cases hs0 : (t.splittable X).length = 0
  · have : (negLog (((t.splittable X).length : Int) - 1) : Fl ℝ) = .nan := by
      rw [hs0]; unfold negLog; rw [show Fl.log (Fl.ofInt (((0 : Nat) : Int) - 1) : Fl ℝ) = .nan from Fl.log_neg (by norm_num)]; rfl
    rw [this] at h
    simp [Fl.lt] at h
  have hs2 : 2 ≤ (t.splittable X).length := by omega
  rw [negLog_eq (by omega)] at h
  cases hw : cutProbability X (RNode.rows X ⟨path, .leaf 0⟩) j v with
  | nan => rw [hw] at h; simp [Fl.lt] at h
  | pinf => rw [hw] at h; simp [Fl.lt, Fl.add, Fl.sub, Fl.neg] at h
  | ninf => rw [hw] at h; simp [Fl.lt, Fl.add, Fl.sub, Fl.neg] at h
  | fin w =>
    rw [hw] at h
    simp [Fl.lt] at h
    have hlog : 0 ≤ Real.log (((t.splittable X).length : ℝ) - 1) := Real.log_nonneg (by
      have : (2 : ℝ) ≤ ((t.splittable X).length : ℝ) := by exact_mod_cast hs2
      linarith)
    unfold gain
    rw [Real.log_div hg.ne' hp.ne'] at h
    rw [Real.log_div hp.ne' hg.ne']
    simp only
    linarith

/-- A step of the reference sampler is a step of a walk that does not come back. -/
theorem treeStep_walk (hX : NoNan X) {P : Params ℝ} (h1 : GoodParams P) (h2 : GoodPrior P) {pGrow pPrune : ℝ} (hg : 0 < pGrow) (hp : 0 < pPrune) {y : Fin n → ℝ} {t t' : RTree ℝ p}
    (ht : Tidy t) (ht' : Tidy t') {r r' : Rand ℝ} (hr : ∀ u ∈ r.uniforms, 0 ≤ u) {b : Bool} (h : treeStep P pGrow pPrune X y t r = .ok (b, t', r')) :
    WalkStep (gain P pGrow pPrune X y) (fun k => Real.log k) t.splits t.prunable.length t'.splits t'.prunable.length := by
  unfold treeStep at h
  split at h
  · cases h
  · next mv us ms hmv =>
    have hm := propose_mem hmv
    split at h
    · cases h
    · next u rest hu =>
      injection h with h; injection h with h3 h4; injection h4 with h4 h5
      have hu0 : 0 ≤ u := hr u (by rw [hu]; simp)
      by_cases ha : Fl.lt (.fin u) (ratio P pGrow pPrune X y t mv) = true
      · rw [if_pos ha] at h4
        subst h4
        cases mv with
        | grow path j v =>
          obtain ⟨w, hin, hj, hv, -⟩ := hm
          obtain ⟨e1, e2⟩ := splits_grow ht (List.mem_filter.1 hin).1 j v
          refine Or.inr (Or.inl ⟨(path, j, v), e1, e2, prunable_grow ht', ?_⟩)
          obtain ⟨w', hw'⟩ := withinNode_fin hX (by rw [columns_eq hX] at hj; exact (List.mem_filter.1 hj).2) hv
          rw [withinNode_eq hX] at hw'
          rw [ratio_grow_eq h1 h2 hg hp hw' (List.length_pos_of_mem hin)] at ha
          simp only [Fl.lt, decide_eq_true_eq] at ha
          linarith
        | prune path j v =>
          obtain ⟨e1, e2⟩ := splits_prune ht hm
          exact Or.inr (Or.inr ⟨(path, j, v), e1, e2, prunable_prune ht ht' hm, ratio_prune_eq h1 h2 hg hp hm hu0 ha⟩)
      · rw [if_neg ha] at h4
        subst h4
        exact Or.inl ⟨rfl, rfl⟩

end real

end Reference
end Bart
