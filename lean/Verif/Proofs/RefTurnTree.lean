import Verif.Proofs.RefTurn

/-! Trees of the reference sampler for data with features in the opposite direction. -/

set_option linter.unusedSectionVars false

namespace Bart.Reference
open Spec
variable {K : Type} [Field K] [LinearOrder K] {n p : Nat} {X : Fin n → Fin p → Fl K} {neg : Fin p → Bool}

/-- `t'` is the tree that corresponds to `t` for the turned data, up to the order of the nodes. -/
structure Turn (neg : Fin p → Bool) (X : Fin n → Fin p → Fl K) (t t' : RTree K p) : Prop where
  sound : Sound t
  sound' : Sound t'
  valid : Valid X t
  perm : (t.map (turnNode neg X)).Perm t'

theorem isLeaf_turn (nd : RNode K p) : (turnNode neg X nd).isLeaf = nd.isLeaf := by
  rcases nd with ⟨path, _ | _⟩ <;> rfl

theorem turn_child (path : List (Cond K p)) (a : Content K p) (j : Fin p) (v : Fl K) (b : Bool) :
    turnPath neg X allRows path ++ [⟨j, turnCut neg X (RNode.rows X ⟨path, a⟩) j v, b⟩] = turnPath neg X allRows (path ++ [⟨j, v, if neg j then !b else b⟩]) := by
  rw [turnPath_snoc, ← narrows_all]
  congr 2
  simp only [turnCond]
  congr 1
  cases neg j <;> simp

theorem valid_child {path : List (Cond K p)} {a : Content K p} {j : Fin p} {v : Fl K} (h1 : ValidPath X allRows path) (h2 : ValidCut X (RNode.rows X ⟨path, a⟩) j v) (b : Bool) :
    ValidPath X allRows (path ++ [⟨j, v, b⟩]) := by
  rw [validPath_snoc]
  rw [← narrows_all] at h2
  exact ⟨h1, h2⟩

theorem turn_root : Turn neg X (RTree.root : RTree K p) RTree.root := by
  refine ⟨sound_root, sound_root, ?_, List.Perm.refl _⟩
  intro nd hnd
  simp only [RTree.root, List.mem_singleton] at hnd
  subst hnd
  exact ⟨trivial, fun j v h => by simp at h⟩

section
variable [IsStrictOrderedRing K] {t t' : RTree K p}

theorem Turn.mem (h : Turn neg X t t') {a : RNode K p} : a ∈ t' ↔ ∃ nd ∈ t, turnNode neg X nd = a := by rw [← h.perm.mem_iff, List.mem_map]

theorem reaches_turn (hX : NoNan X) {nd : RNode K p} (hv : ValidPath X allRows nd.path) (i : Fin n) : (turnNode neg X nd).reaches (turned neg X i) = nd.reaches (X i) := path_turn hX hv rfl

/-- The values for the training rows are the same. -/
theorem Turn.value (hX : NoNan X) (h : Turn neg X t t') (i : Fin n) : t'.value (turned neg X i) = t.value (X i) := by
  obtain ⟨nd, h1, h2, h3⟩ := h.sound.some (X i)
  rcases nd with ⟨path, v | ⟨j, v⟩⟩
  · rw [Arrays.value_of_leaf h.sound h1 rfl h3, Arrays.value_of_leaf h.sound' (h.mem.2 ⟨_, h1, rfl⟩) rfl]
    rw [reaches_turn hX (h.valid _ h1).1]
    exact h3
  · simp [RNode.isLeaf] at h2

theorem forest_turn (hX : NoNan X) {ts ts' : List (RTree K p)} (h : List.Forall₂ (Turn neg X) ts ts') (i : Fin n) : forest ts' (turned neg X i) = forest ts (X i) := by
  unfold forest
  induction h with
  | nil => rfl
  | cons h1 _ ih => simp only [List.map_cons, List.sum_cons, ih, h1.value hX]

theorem Turn.filter (h : Turn neg X t t') {q q' : RNode K p → Bool} (hq : ∀ nd ∈ t, q' (turnNode neg X nd) = q nd) : ((t.filter q).map (turnNode neg X)).Perm (t'.filter q') := by
  have h1 := h.perm.filter q'
  rw [List.filter_map] at h1
  rw [List.filter_congr (fun nd hnd => (hq nd hnd).symm)]
  exact h1

theorem Turn.splittable (hX : NoNan X) (h : Turn neg X t t') : ((t.splittable X).map (turnNode neg X)).Perm (t'.splittable (turned neg X)) := by
  refine h.filter fun nd hnd => ?_
  rw [isLeaf_turn, rows_turn hX (h.valid nd hnd).1, columns_turned]

theorem Turn.hasLeaf (hX : NoNan X) (h : Turn neg X t t') {path : List (Cond K p)} (hp : ValidPath X allRows path) : t'.hasLeaf (turnPath neg X allRows path) = t.hasLeaf path := by
  rw [Bool.eq_iff_iff, mem_hasLeaf, mem_hasLeaf]
  constructor
  · rintro ⟨v, hv⟩
    obtain ⟨⟨q, c⟩, h1, h2⟩ := h.mem.1 hv
    simp only [turnNode, RNode.mk.injEq] at h2
    have h3 := turnPath_inj hX (h.valid _ h1).1 hp h2.1
    simp only at h3
    subst h3
    rcases c with w | ⟨j, w⟩
    · exact ⟨w, h1⟩
    · simp [turnContent] at h2
  · rintro ⟨v, hv⟩
    exact ⟨v, h.mem.2 ⟨_, hv, rfl⟩⟩

theorem Turn.prunable (hX : NoNan X) (h : Turn neg X t t') : (t.prunable.map (turnNode neg X)).Perm t'.prunable := by
  refine h.filter fun nd hnd => ?_
  rcases nd with ⟨path, v | ⟨j, v⟩⟩
  · rfl
  · obtain ⟨h1, h2⟩ := h.valid _ hnd
    have h3 := h2 j v rfl
    simp only [turnNode, turnContent]
    rw [turn_child, turn_child, h.hasLeaf hX (valid_child h1 h3 _), h.hasLeaf hX (valid_child h1 h3 _)]
    cases neg j <;> simp [Bool.and_comm]

/-- The proposed cut is possible. -/
theorem isProposed_valid (hv : Valid X t) {path : List (Cond K p)} {j : Fin p} {v : Fl K} (h : IsProposed X t (.grow path j v) ∨ IsProposed X t (.prune path j v)) :
    ValidPath X allRows path ∧ ValidCut X (RNode.rows X ⟨path, .leaf 0⟩) j v := by
  rcases h with ⟨w, h1, -, h2, h3⟩ | h
  · exact ⟨(hv _ (List.mem_filter.1 h1).1).1, h2, h3⟩
  · obtain ⟨q, j', v', e, h1, -⟩ := mem_prunable.1 h
    exact ⟨(hv _ h1).1, (hv _ h1).2 j v rfl⟩

theorem Turn.apply_perm (hX : NoNan X) (h : Turn neg X t t') {mv : Move K p} (hm : IsProposed X t mv) : ((t.apply mv).map (turnNode neg X)).Perm (t'.apply (turnMove neg X mv)) := by
  cases mv with
  | grow path j v =>
    obtain ⟨h1, h2⟩ := isProposed_valid h.valid (Or.inl hm)
    simp only [RTree.apply, turnMove, List.map_append, turn_child]
    refine List.Perm.append (h.filter fun nd hnd => ?_) ?_
    · simp only [turnNode, ne_eq, turnPath_eq hX (h.valid _ hnd).1 h1]
    · simp only [List.map_cons, List.map_nil, turnNode, turnContent]
      rw [rows_mk path (.split j v) (.leaf 0)]
      cases neg j with
      | false => exact List.Perm.refl _
      | true => exact List.Perm.swap _ _ _
  | prune path j v =>
    obtain ⟨h1, h2⟩ := isProposed_valid h.valid (Or.inr hm)
    simp only [RTree.apply, turnMove, List.map_append, turn_child]
    refine List.Perm.append (h.filter fun nd hnd => ?_) (List.Perm.refl _)
    simp only [turnNode, ne_eq, turnPath_eq hX (h.valid _ hnd).1 h1, turnPath_eq hX (h.valid _ hnd).1 (valid_child h1 h2 _)]
    cases neg j <;> simp [Bool.and_assoc, Bool.and_comm, Bool.and_left_comm]

theorem valid_apply (hv : Valid X t) {mv : Move K p} (hm : IsProposed X t mv) : Valid X (t.apply mv) := by
  intro nd hnd
  cases mv with
  | grow path j v =>
    obtain ⟨h1, h2⟩ := isProposed_valid hv (Or.inl hm)
    rcases mem_grow.1 hnd with ⟨h3, -⟩ | ⟨s, rfl⟩ | rfl
    · exact hv _ h3
    · exact ⟨valid_child h1 h2 s, fun j v h => by simp at h⟩
    · refine ⟨h1, fun j' v' h => ?_⟩
      simp only [Content.split.injEq] at h
      obtain ⟨rfl, rfl⟩ := h
      exact h2
  | prune path j v =>
    obtain ⟨h1, h2⟩ := isProposed_valid hv (Or.inr hm)
    rcases mem_prune.1 hnd with ⟨h3, -⟩ | rfl
    · exact hv _ h3
    · exact ⟨h1, fun j v h => by simp at h⟩

theorem valid_same {t2 : RTree K p} (hv : Valid X t) (hs : List.Forall₂ SameKind t t2) : Valid X t2 := by
  intro nd hnd
  obtain ⟨a, ha, h1, h2⟩ : ∃ a ∈ t, SameKind a nd := by
    clear hv
    induction hs with
    | nil => cases hnd
    | cons h1 _ ih =>
      rcases List.mem_cons.1 hnd with rfl | h
      · exact ⟨_, by simp, h1⟩
      · obtain ⟨a, ha, h3⟩ := ih h
        exact ⟨a, List.mem_cons_of_mem _ ha, h3⟩
  obtain ⟨g1, g2⟩ := hv a ha
  refine ⟨by rw [h1]; exact g1, fun j v hc => ?_⟩
  rcases h2 with ⟨x, y, -, e⟩ | ⟨j', v', e1, e2⟩
  · rw [e] at hc; cases hc
  · rw [e2] at hc
    injection hc with e3 e4
    subst e3 e4
    have := g2 _ _ e1
    rwa [show nd.rows X = a.rows X by funext i; simp only [RNode.rows, RNode.reaches, h1]]

/-! ### the number of entries to choose from -/

theorem length_le_of_rows {l : List (RNode K p)} (hd : l.Nodup) (f : RNode K p → Fin n) (hf : ∀ a ∈ l, ∀ b ∈ l, f a = f b → a = b) : l.length ≤ n := by
  have := ((List.nodup_map_iff_inj_on hd).2 fun a ha b hb => hf a ha b hb).length_le_card
  simpa using this

theorem Sound.tree_nodup (h : Sound t) : t.Nodup := List.Nodup.of_map _ h.nodup

theorem splittable_length (h : Sound t) : (t.splittable X).length ≤ n := by
  have hx : ∀ nd ∈ t.splittable X, ∃ i : Fin n, nd.reaches (X i) = true := by
    intro nd hnd
    have h1 := (List.mem_filter.1 hnd).2
    simp only [Bool.and_eq_true, Bool.not_eq_true', List.isEmpty_eq_false_iff] at h1
    obtain ⟨j, hj⟩ := List.exists_mem_of_ne_nil _ h1.2
    have h2 := (List.mem_filter.1 hj).2
    obtain ⟨a, ha, -⟩ := List.any_eq_true.1 h2
    obtain ⟨i, hi, -⟩ := mem_column.1 (List.mem_of_mem_tail ha)
    exact ⟨i, hi⟩
  by_cases hl : t.splittable X = []
  · simp [hl]
  obtain ⟨nd0, hnd0⟩ := List.exists_mem_of_ne_nil _ hl
  have : Nonempty (Fin n) := ⟨(hx nd0 hnd0).choose⟩
  choose! f hf using hx
  refine length_le_of_rows (h.tree_nodup.filter _) f fun a ha b hb e => ?_
  have h1 := List.mem_filter.1 ha
  have h2 := List.mem_filter.1 hb
  simp only [Bool.and_eq_true] at h1 h2
  refine h.unique (X (f a)) a h1.1 b h2.1 h1.2.1 h2.2.1 (hf a ha) ?_
  rw [e]; exact hf b hb

theorem prunable_length (hX : NoNan X) (h : Sound t) (hv : Valid X t) : t.prunable.length ≤ n := by
  have hx : ∀ nd ∈ t.prunable, ∃ i : Fin n, ∃ j v w, nd.content = .split j v ∧ (⟨nd.path ++ [⟨j, v, true⟩], .leaf w⟩ : RNode K p) ∈ t ∧ RNode.reaches ⟨nd.path ++ [⟨j, v, true⟩], .leaf w⟩ (X i) = true := by
    intro nd hnd
    obtain ⟨path, j, v, rfl, h1, h2⟩ := mem_prunable.1 hnd
    obtain ⟨w, hw⟩ := mem_hasLeaf.1 (h2 true)
    obtain ⟨i, hi, hiv⟩ := mem_column.1 ((hv _ h1).2 j v rfl).1
    refine ⟨i, j, v, w, rfl, hw, ?_⟩
    rw [reaches_append _ _ _ (.split j v)]
    simp only [Bool.and_eq_true]
    refine ⟨hi, ?_⟩
    simp only [Cond.holds, if_true, hiv]
    exact Fl.le_refl (hiv ▸ hX i j)
  by_cases hl : t.prunable = []
  · simp [hl]
  obtain ⟨nd0, hnd0⟩ := List.exists_mem_of_ne_nil _ hl
  have : Nonempty (Fin n) := ⟨(hx nd0 hnd0).choose⟩
  choose! f hf using hx
  refine length_le_of_rows (h.tree_nodup.filter _) f fun a ha b hb e => ?_
  obtain ⟨j, v, w, -, h1, h2⟩ := hf a ha
  obtain ⟨j', v', w', -, h3, h4⟩ := hf b hb
  rw [e] at h2
  have h5 := h.unique _ _ h1 _ h3 rfl rfl h2 h4
  simp only [RNode.mk.injEq] at h5
  have h6 := (snoc_inj_low h5.1).1
  exact h.inj (List.mem_filter.1 ha).1 (List.mem_filter.1 hb).1 h6

theorem column_length (rows : Fin n → Bool) (j : Fin p) : (column X rows j).length ≤ n := by
  unfold column
  rw [List.length_map]
  exact le_trans (List.length_filter_le _ _) (by simp)

theorem columns_length (rows : Fin n → Bool) : (columns X rows).length ≤ p := le_trans (List.length_filter_le _ _) (by simp)

/-! ### the probability of a proposal -/

/-- The turned columns have no repeated values. -/
def NoTies (neg : Fin p → Bool) (X : Fin n → Fin p → Fl K) : Prop := ∀ j, neg j = true → Function.Injective fun i => X i j

theorem NoTies.nodup (h : NoTies neg X) {j : Fin p} (hj : neg j = true) (rows : Fin n → Bool) : (column X rows j).Nodup := ((List.nodup_finRange n).filter _).map (h j hj)

theorem column_turn_perm (hX : NoNan X) (ht : NoTies neg X) (rows : Fin n → Bool) (j : Fin p) : ((column X rows j).map (turnCut neg X rows j)).Perm (column (turned neg X) rows j) := by
  rw [column_turned]
  cases hj : neg j with
  | false =>
    have : turnCut neg X rows j = id := by funext v; simp [turnCut, hj]
    rw [this, List.map_id]
    exact List.Perm.refl _
  | true =>
    have : turnCut neg X rows j = Fl.neg ∘ nextEntry (column X rows j) := by funext v; simp [turnCut, hj]
    rw [this, ← List.map_map]
    exact (next_perm (column_noNan hX rows j) (ht.nodup hj rows)).map _

/-- An entry is the largest of the turned column if and only if it belongs to the largest of the column. -/
theorem notMax_turn (hX : NoNan X) (rows : Fin n → Bool) (j : Fin p) {v : Fl K} (hv : v ∈ column X rows j) :
    ((column (turned neg X) rows j).any fun m => Fl.lt (turnCut neg X rows j v) m) = (column X rows j).any fun m => Fl.lt v m := by
  rw [column_turned]
  cases hj : neg j with
  | false => simp [turnCut, hj]
  | true =>
    have hn := column_noNan hX rows j
    simp only [turnCut, hj, if_true, List.any_map, Function.comp_def, Fl.lt_neg]
    rw [Bool.eq_iff_iff, List.any_eq_true, List.any_eq_true]
    constructor
    · rintro ⟨x, hx, hlt⟩
      by_contra hc
      obtain ⟨-, h2⟩ := next_least hn (List.ne_nil_of_mem hv) hc
      rw [Fl.not_lt_of_le (h2 x hx)] at hlt
      cases hlt
    · intro h
      obtain ⟨-, h2, -⟩ := next_larger hn h
      exact ⟨v, hv, h2⟩

theorem frequency_turn (ht : NoTies neg X) (rows : Fin n → Bool) (j : Fin p) (v : Fl K) : frequency (turned neg X) rows j (turnCut neg X rows j v) = frequency X rows j v := by
  unfold frequency
  rw [column_turned]
  cases hj : neg j with
  | false => simp [turnCut, hj]
  | true =>
    have h1 := ht.nodup hj rows
    have h2 : ((column X rows j).map Fl.neg).Nodup := h1.map fun a b h => Fl.neg_inj h
    simp only [if_true, if_pos h1, if_pos h2]

end
end Bart.Reference
