import Verif.Proofs.RefPerm
import Verif.Proofs.RefSound
import Verif.Spec.Copies
import Verif.Model.RealFns
import Mathlib.Tactic.Ring
import Mathlib.Tactic.Linarith
import Mathlib.Data.List.Count
import Mathlib.Data.Fintype.Card

/-! The reference sampler on data in which every column is present several times. -/

set_option linter.unusedSectionVars false

namespace Bart.Translate
variable {α β γ δ : Type} {B : Nat}

/-- One computation after the other, if the second is translated for those results of the first that can occur. -/
theorem trans_bind_on {P : α → Prop} {e : α → β} {e' : γ → δ} {f : Reader α} {g : Reader β} {h : α → Reader γ} {k : β → Reader δ} (H : Trans B e f g) (hP : ∀ us a rest, f us = .ok (a, rest) → P a) (H' : ∀ a, P a → Trans B e' (h a) (k (e a))) :
    Trans B e' (rbind f h) (rbind g k) := by
  obtain ⟨φ, hφ, hf⟩ := H
  have H'' : ∀ a, ∃ ψ : Equiv.Perm (List Nat), Keeps B ψ ∧ (P a → ∀ us, match h a us with
      | .error er => k (e a) (ψ us) = .error er
      | .ok (c, rest) => ∃ pre pre', us = pre ++ rest ∧ ∀ v, ψ (pre ++ v) = pre' ++ v ∧ h a (pre ++ v) = .ok (c, v) ∧ k (e a) (pre' ++ v) = .ok (e' c, v)) := by
    intro a
    by_cases ha : P a
    · obtain ⟨ψ, h1, h2⟩ := H' a ha
      exact ⟨ψ, h1, fun _ => h2⟩
    · exact ⟨Equiv.refl _, ⟨fun _ => rfl, fun _ _ _ => Iff.rfl⟩, fun hc => absurd hc ha⟩
  choose ψ hψ hh using H''
  let toF : List Nat → List Nat := fun us =>
    match f us with
    | .error _ => φ us
    | .ok (a, rest) => (φ us).take (us.length - rest.length) ++ ψ a rest
  let inv : List Nat → List Nat := fun vs =>
    match f (φ.symm vs) with
    | .error _ => φ.symm vs
    | .ok (a, rest) => (φ.symm vs).take (vs.length - rest.length) ++ (ψ a).symm rest
  -- what is known when `f` returns
  have key : ∀ us a rest, f us = .ok (a, rest) → ∃ pre pre', us = pre ++ rest ∧ pre'.length = pre.length ∧
      (∀ v, φ (pre ++ v) = pre' ++ v ∧ f (pre ++ v) = .ok (a, v) ∧ g (pre' ++ v) = .ok (e a, v)) ∧
      (∀ v, toF (pre ++ v) = pre' ++ ψ a v) ∧ ∀ v, inv (pre' ++ v) = pre ++ (ψ a).symm v := by
    intro us a rest ef
    have := hf us
    rw [ef] at this
    obtain ⟨pre, pre', e1, e2⟩ := this
    have hl : pre'.length = pre.length := by
      have h1 := hφ.length (pre ++ [])
      rw [(e2 []).1] at h1
      simpa using h1
    refine ⟨pre, pre', e1, hl, e2, fun v => ?_, fun v => ?_⟩
    · simp only [toF, (e2 v).2.1, (e2 v).1, List.length_append, Nat.add_sub_cancel]
      rw [← hl, List.take_left]
    · have h1 : φ.symm (pre' ++ v) = pre ++ v := by rw [← (e2 v).1, Equiv.symm_apply_apply]
      simp only [inv, h1, (e2 v).2.1, List.length_append, Nat.add_sub_cancel]
      rw [hl, List.take_left]
  have hli : Function.LeftInverse inv toF := by
    intro us
    cases ef : f us with
    | error er =>
      have h1 : toF us = φ us := by simp only [toF, ef]
      rw [h1]
      simp only [inv, Equiv.symm_apply_apply, ef]
    | ok q =>
      obtain ⟨a, rest⟩ := q
      obtain ⟨pre, pre', e1, -, -, e2, e3⟩ := key us a rest ef
      rw [e1, e2, e3, Equiv.symm_apply_apply]
  have hri : Function.RightInverse inv toF := by
    intro vs
    cases ef : f (φ.symm vs) with
    | error er =>
      have h1 : inv vs = φ.symm vs := by simp only [inv, ef]
      rw [h1]
      simp only [toF, ef, Equiv.apply_symm_apply]
    | ok q =>
      obtain ⟨a, rest⟩ := q
      obtain ⟨pre, pre', e1, -, e4, e2, e3⟩ := key _ a rest ef
      have h1 : vs = pre' ++ rest := by rw [← (e4 rest).1, ← e1, Equiv.apply_symm_apply]
      rw [h1, e3, e2, Equiv.apply_symm_apply]
  refine ⟨⟨toF, inv, hli, hri⟩, ⟨fun us => ?_, fun N hN us => ?_⟩, fun us => ?_⟩
  · show (toF us).length = us.length
    cases ef : f us with
    | error er => simp only [toF, ef]; exact hφ.length us
    | ok q =>
      obtain ⟨a, rest⟩ := q
      obtain ⟨pre, pre', e1, hl, -, e2, -⟩ := key us a rest ef
      rw [e1, e2, List.length_append, List.length_append, hl, (hψ a).length]
  · show (∀ u ∈ toF us, u < N) ↔ _
    cases ef : f us with
    | error er => simp only [toF, ef]; exact hφ.range N hN us
    | ok q =>
      obtain ⟨a, rest⟩ := q
      obtain ⟨pre, pre', e1, hl, e4, e2, -⟩ := key us a rest ef
      rw [e1, e2]
      have h1 := hφ.range N hN (pre ++ [])
      rw [(e4 []).1] at h1
      have h2 := (hψ a).range N hN rest
      simp only [List.append_nil] at h1
      simp only [List.mem_append, or_imp, forall_and]
      rw [h1, h2]
  · show match rbind f h us with
      | .error er => rbind g k (toF us) = .error er
      | .ok (a, rest) => ∃ pre pre', us = pre ++ rest ∧ ∀ v, toF (pre ++ v) = pre' ++ v ∧ rbind f h (pre ++ v) = .ok (a, v) ∧ rbind g k (pre' ++ v) = .ok (e' a, v)
    cases ef : f us with
    | error er =>
      have h1 := hf us
      rw [ef] at h1
      have h2 : toF us = φ us := by simp only [toF, ef]
      simp only [rbind, ef, h2]
      simp only at h1
      rw [h1]
    | ok q =>
      obtain ⟨a, rest⟩ := q
      obtain ⟨pre, pre', e1, hl, e4, e2, -⟩ := key us a rest ef
      have h1 := hh a (hP us a rest ef) rest
      have h2 : rbind f h us = h a rest := by simp only [rbind, ef]
      rw [h2]
      cases eh : h a rest with
      | error er =>
        rw [eh] at h1
        simp only at h1 ⊢
        rw [e1, e2]
        simp only [rbind, (e4 _).2.2, h1]
      | ok q =>
        obtain ⟨c, rest'⟩ := q
        rw [eh] at h1
        simp only at h1 ⊢
        obtain ⟨p1, p1', f1, f2⟩ := h1
        refine ⟨pre ++ p1, pre' ++ p1', by rw [e1, f1, List.append_assoc], fun v => ⟨?_, ?_, ?_⟩⟩
        · rw [List.append_assoc, e2, (f2 v).1, List.append_assoc]
        · rw [List.append_assoc]; simp only [rbind, (e4 _).2.1, (f2 v).2.1]
        · rw [List.append_assoc]; simp only [rbind, (e4 _).2.2, (f2 v).2.2]

/-- Several copies of a list, one after the other. -/
def copies (k : Nat) (l : List α) : List α := (List.replicate k l).flatten

theorem copies_length (k : Nat) (l : List α) : (copies k l).length = k * l.length := by simp [copies]

theorem copies_getElem (l : List α) : ∀ (k i : Nat), i < k * l.length → (copies k l)[i]? = l[i % l.length]?
  | 0, i, h => by simp at h
  | k + 1, i, h => by
    have hc : copies (k + 1) l = l ++ copies k l := by simp [copies, List.replicate_succ]
    rw [hc]
    rcases Nat.lt_or_ge i l.length with hi | hi
    · rw [List.getElem?_append_left hi, Nat.mod_eq_of_lt hi]
    · rw [List.getElem?_append_right hi, copies_getElem l k (i - l.length) (by rw [Nat.add_mul, Nat.one_mul] at h; omega), Nat.mod_eq_sub_mod hi]

/-- A pick from several copies of a list is a pick from the list. -/
theorem choice_copies {k : Nat} (hk : 0 < k) (l : List α) (u : Nat) : choice (copies k l) u = choice l u := by
  rcases Nat.eq_zero_or_pos l.length with h0 | hL
  · have : l = [] := List.length_eq_zero_iff.1 h0
    subst this
    have : copies k ([] : List α) = [] := List.length_eq_zero_iff.1 (by rw [copies_length]; simp)
    rw [this]
  · unfold choice
    rw [copies_length, copies_getElem l k _ (Nat.mod_lt _ (Nat.mul_pos hk hL)), Nat.mod_mod_of_dvd u (Dvd.intro_left k rfl)]

theorem trans_pick_copies {k : Nat} (hk : 0 < k) {l : List α} {l' : List β} {e : α → β} (h : (l.map e).Perm (copies k l')) (hB : l.length ≤ B) : Trans B e (pick l) (pick l') := by
  have h1 : pick l' = pick (copies k l') := by
    funext us
    cases us with
    | nil => rfl
    | cons u us => simp only [pick, choice_copies hk]
  rw [h1]
  exact trans_pick h hB

end Bart.Translate

namespace Bart.Reference
open Spec Translate
variable {K : Type} [Field K] [LinearOrder K] {n p p' : Nat}

/-- The comparison with the column of which the given one is a copy. -/
def Cond.merge (c : Fin p' → Fin p) (a : Cond K p') : Cond K p := ⟨c a.column, a.value, a.low⟩

/-- The content of a node with the column of which the given one is a copy. -/
def Content.merge (c : Fin p' → Fin p) : Content K p' → Content K p
  | .leaf v => .leaf v
  | .split j v => .split (c j) v

/-- The node with the columns of which the given ones are copies. -/
def RNode.merge (c : Fin p' → Fin p) (nd : RNode K p') : RNode K p := ⟨nd.path.map (Cond.merge c), nd.content.merge c⟩

/-- The tree with the columns of which the given ones are copies. -/
def RTree.merge (c : Fin p' → Fin p) (t : RTree K p') : RTree K p := t.map (RNode.merge c)

/-- The proposal with the columns of which the given ones are copies. -/
def Move.merge (c : Fin p' → Fin p) : Move K p' → Move K p
  | .grow path j v => .grow (path.map (Cond.merge c)) (c j) v
  | .prune path j v => .prune (path.map (Cond.merge c)) (c j) v

/-- The state with the columns of which the given ones are copies. -/
def State.merge (c : Fin p' → Fin p) (s : State K p') : State K p := ⟨s.trees.map (RTree.merge c), s.sigma⟩

/-- Nodes of the tree are above each other if they are so after the columns have been merged. -/
def Faithful (c : Fin p' → Fin p) (t : RTree K p') : Prop := ∀ a ∈ t, ∀ b ∈ t, a.path.map (Cond.merge c) <+: b.path.map (Cond.merge c) → a.path <+: b.path

section
variable {c : Fin p' → Fin p} {X : Fin n → Fin p → Fl K}

theorem holds_merge (a : Cond K p') (x : Fin p → Fl K) : (a.merge c).holds x = a.holds (fun j => x (c j)) := rfl

theorem reaches_merge (nd : RNode K p') (x : Fin p → Fl K) : (nd.merge c).reaches x = nd.reaches (fun j => x (c j)) := by
  unfold RNode.reaches RNode.merge
  rw [List.all_map]
  rfl

theorem isLeaf_merge (nd : RNode K p') : (nd.merge c).isLeaf = nd.isLeaf := by
  rcases nd with ⟨path, _ | _⟩ <;> rfl

theorem value_merge (t : RTree K p') (x : Fin p → Fl K) : (t.merge c).value x = t.value (fun j => x (c j)) := by
  unfold RTree.value RTree.merge
  rw [List.find?_map]
  have h : (fun nd : RNode K p => nd.isLeaf && nd.reaches x) ∘ RNode.merge c = fun nd => nd.isLeaf && nd.reaches (fun j => x (c j)) := by
    funext nd
    simp [isLeaf_merge, reaches_merge]
  rw [h]
  cases t.find? (fun nd => nd.isLeaf && nd.reaches (fun j => x (c j))) with
  | none => rfl
  | some nd => rcases nd with ⟨path, _ | _⟩ <;> rfl

theorem forest_merge (ts : List (RTree K p')) (x : Fin p → Fl K) : forest (ts.map (RTree.merge c)) x = forest ts (fun j => x (c j)) := by
  unfold forest
  rw [List.map_map]
  congr 2
  funext t
  exact value_merge t x

theorem rows_merge (nd : RNode K p') : (nd.merge c).rows X = nd.rows (copied c X) := by
  funext i
  exact reaches_merge nd (X i)

theorem rows_path_merge (path : List (Cond K p')) (a b : K) : RNode.rows X ⟨path.map (Cond.merge c), .leaf a⟩ = RNode.rows (copied c X) ⟨path, .leaf b⟩ := rows_merge ⟨path, .leaf b⟩

theorem column_copied (rows : Fin n → Bool) (j : Fin p') : column (copied c X) rows j = column X rows (c j) := rfl

/-- Each entry of a list without repetition that satisfies a condition has `k` copies among the copies that satisfy it. -/
theorem filter_copies {k : Nat} (hc : EqualCopies c k) (f : Fin p → Bool) : (((List.finRange p').filter fun j => f (c j)).map c).Perm (copies k ((List.finRange p).filter f)) := by
  classical
  rw [List.perm_iff_count]
  intro a
  have hcount : (copies k ((List.finRange p).filter f)).count a = k * ((List.finRange p).filter f).count a := by
    simp [copies, List.count_flatten, List.map_replicate, List.sum_replicate]
  rw [hcount, List.count_eq_countP, List.countP_map, List.countP_filter]
  by_cases ha : f a = true
  · rw [List.count_filter ha, List.count_eq_one_of_mem (List.nodup_finRange p) (List.mem_finRange a), Nat.mul_one, ← hc a]
    rw [List.countP_congr (q := fun j => decide (c j = a))]
    · rw [Fintype.card_subtype, List.countP_eq_length_filter, ← List.toFinset_card_of_nodup ((List.nodup_finRange p').filter _), List.toFinset_filter, List.toFinset_finRange]
      simp only [decide_eq_true_eq]
    · intro j _
      simp only [Function.comp_apply, Bool.and_eq_true, beq_iff_eq, decide_eq_true_eq]
      constructor
      · exact fun h => h.1
      · intro h; subst h; exact ⟨rfl, ha⟩
  · rw [List.count_eq_zero_of_not_mem (l := (List.finRange p).filter _) (by rw [List.mem_filter]; exact fun h => ha h.2), Nat.mul_zero, List.countP_eq_zero]
    intro j _ h
    simp only [Function.comp_apply, Bool.and_eq_true, beq_iff_eq] at h
    obtain ⟨h2, h3⟩ := h
    subst h2
    exact ha h3

/-- The columns to choose from are `k` times those of the data without copies. -/
theorem columns_copied {k : Nat} (hc : EqualCopies c k) (rows : Fin n → Bool) : ((columns (copied c X) rows).map c).Perm (copies k (columns X rows)) :=
  filter_copies hc fun j => (column X rows j).tail.any fun a => (column X rows j).tail.any fun b => decide (a ≠ b)

theorem columns_copied_length {k : Nat} (hc : EqualCopies c k) (rows : Fin n → Bool) : (columns (copied c X) rows).length = k * (columns X rows).length := by
  have := (columns_copied (X := X) hc rows).length_eq
  rw [List.length_map, copies_length] at this
  exact this

theorem splittable_merge {k : Nat} (hk : 0 < k) (hc : EqualCopies c k) (t : RTree K p') : (t.merge c).splittable X = (t.splittable (copied c X)).map (RNode.merge c) := by
  unfold RTree.splittable RTree.merge
  rw [List.filter_map]
  congr 2
  funext nd
  have h : (columns (copied c X) (nd.rows (copied c X))).isEmpty = (columns X (nd.rows (copied c X))).isEmpty := by
    rw [Bool.eq_iff_iff, List.isEmpty_iff_length_eq_zero, List.isEmpty_iff_length_eq_zero, columns_copied_length hc, Nat.mul_eq_zero]
    constructor
    · rintro (h | h)
      · omega
      · exact h
    · exact Or.inr
  simp only [Function.comp_apply, isLeaf_merge, rows_merge, h]

theorem Faithful.inj {t : RTree K p'} (h : Faithful c t) {a b : RNode K p'} (ha : a ∈ t) (hb : b ∈ t) : a.path.map (Cond.merge c) = b.path.map (Cond.merge c) ↔ a.path = b.path := by
  refine ⟨fun e => ?_, fun e => by rw [e]⟩
  have h1 := h a ha b hb (e ▸ List.prefix_refl _)
  have h2 := h b hb a ha (e ▸ List.prefix_refl _)
  exact h1.eq_of_length (le_antisymm h1.length_le h2.length_le)

theorem path_snoc_merge (path : List (Cond K p')) (j : Fin p') (v : Fl K) (b : Bool) :
    path.map (Cond.merge c) ++ [⟨c j, v, b⟩] = (path ++ [(⟨j, v, b⟩ : Cond K p')]).map (Cond.merge c) := by
  simp [Cond.merge]

theorem hasLeaf_merge {t : RTree K p'} (hs : Sound t) (hf : Faithful c t) {path : List (Cond K p')} {j : Fin p'} {v : Fl K} (hin : (⟨path, .split j v⟩ : RNode K p') ∈ t) (s : Bool) :
    (t.merge c).hasLeaf (path.map (Cond.merge c) ++ [⟨c j, v, s⟩]) = t.hasLeaf (path ++ [⟨j, v, s⟩]) := by
  unfold RTree.hasLeaf RTree.merge
  rw [List.any_map, Bool.eq_iff_iff, List.any_eq_true, List.any_eq_true]
  refine exists_congr fun b => and_congr_right fun hb => ?_
  simp only [Function.comp_apply, isLeaf_merge, Bool.and_eq_true, decide_eq_true_eq]
  refine and_congr_right fun hl => ?_
  constructor
  · intro e
    have hp : path.map (Cond.merge c) <+: b.path.map (Cond.merge c) := by
      rw [show b.path.map (Cond.merge c) = (b.merge c).path from rfl, e]
      exact List.prefix_append _ _
    have hlen : b.path.length = path.length + 1 := by
      have := congrArg List.length e
      simpa [RNode.merge] using this
    rcases hs.below path j v hin b hb (hf _ hin b hb hp) with h1 | ⟨s', h1⟩
    · rw [h1] at hlen; omega
    · have h2 : path ++ [(⟨j, v, s'⟩ : Cond K p')] = b.path := h1.eq_of_length (by simp [hlen])
      rw [show (b.merge c).path = b.path.map (Cond.merge c) from rfl, ← h2, ← path_snoc_merge] at e
      have h3 := snoc_inj_low e
      rw [← h2, h3.2.2.2]
  · intro e
    rw [path_snoc_merge, ← e]
    rfl

theorem prunable_merge {t : RTree K p'} (hs : Sound t) (hf : Faithful c t) : (t.merge c).prunable = t.prunable.map (RNode.merge c) := by
  unfold RTree.prunable
  rw [show (t.merge c) = t.map (RNode.merge c) from rfl, List.filter_map]
  congr 1
  refine List.filter_congr fun nd hnd => ?_
  rcases nd with ⟨path, v | ⟨j, v⟩⟩
  · rfl
  · simp only [Function.comp_apply, RNode.merge, Content.merge]
    have h := hasLeaf_merge hs hf hnd
    exact congrArg₂ _ (h true) (h false)

theorem apply_merge {t : RTree K p'} (hf : Faithful c t) {mv : Move K p'} (hm : IsProposed (copied c X) t mv) : (t.merge c).apply (mv.merge c) = (t.apply mv).merge c := by
  cases mv with
  | grow path j v =>
    obtain ⟨w, hw, -⟩ := hm
    have hin := (List.mem_filter.1 hw).1
    simp only [RTree.apply, Move.merge, RTree.merge, List.filter_map, List.map_append, path_snoc_merge]
    congr 1
    · congr 1
      refine List.filter_congr fun nd hnd => ?_
      have := hf.inj hnd hin
      simp only [Function.comp_apply, RNode.merge, ne_eq, this]
    · simp only [List.map_cons, List.map_nil, RNode.merge, Content.merge, List.map_append]
  | prune path j v =>
    obtain ⟨q, j', v', e, hin, hleaf⟩ := mem_prunable.1 hm
    injection e with e1 e2; injection e2 with e2 e3; subst e1 e2 e3
    obtain ⟨w1, h1⟩ := mem_hasLeaf.1 (hleaf true)
    obtain ⟨w2, h2⟩ := mem_hasLeaf.1 (hleaf false)
    unfold RTree.apply Move.merge RTree.merge
    simp only [List.filter_map, path_snoc_merge]
    rw [← path_snoc_merge path j v true, path_snoc_merge path j v true, List.map_append (l₁ := List.filter _ t)]
    congr 1
    congr 1
    refine List.filter_congr fun nd hnd => ?_
    have a0 := hf.inj hnd hin
    have a1 := hf.inj hnd h1
    have a2 := hf.inj hnd h2
    simp only [Function.comp_apply, RNode.merge, ne_eq, a0, a1, a2]

theorem faithful_root : Faithful c (RTree.root : RTree K p') := by
  intro a ha b hb _
  simp only [RTree.root, List.mem_singleton] at ha hb
  rw [ha, hb]

theorem faithful_grow {t : RTree K p'} (hs : Sound t) (hf : Faithful c t) {path : List (Cond K p')} {w : K} (hin : (⟨path, .leaf w⟩ : RNode K p') ∈ t) (j : Fin p') (v : Fl K) :
    Faithful c (t.apply (.grow path j v)) := by
  have hlow : ∀ b ∈ t, path.map (Cond.merge c) <+: b.path.map (Cond.merge c) → b.path = path := fun b hb h => (hs.noneBelow _ hin b hb rfl (hf _ hin b hb h)).symm
  have hnew : ∀ a ∈ t, ∀ s, a.path.map (Cond.merge c) <+: (path ++ [(⟨j, v, s⟩ : Cond K p')]).map (Cond.merge c) → a.path <+: path ++ [⟨j, v, s⟩] := by
    intro a ha s h
    rw [List.map_append] at h
    rcases prefix_snoc h with h | h
    · exact (hf a ha _ hin h).trans (List.prefix_append _ _)
    · have h1 := hlow a ha (by rw [h]; exact List.prefix_append _ _)
      rw [h1]
      exact List.prefix_append _ _
  intro a ha b hb h
  rcases mem_grow.1 ha with ⟨ha, hane⟩ | ⟨s, rfl⟩ | rfl
  · rcases mem_grow.1 hb with ⟨hb, hbne⟩ | ⟨s', rfl⟩ | rfl
    · exact hf a ha b hb h
    · exact hnew a ha s' h
    · exact hf a ha ⟨path, .leaf w⟩ hin h
  · rcases mem_grow.1 hb with ⟨hb, hbne⟩ | ⟨s', rfl⟩ | rfl
    · refine absurd (hlow b hb (List.IsPrefix.trans ?_ h)) hbne
      simp only [List.map_append]
      exact List.prefix_append _ _
    · have h1 := h.eq_of_length (by simp)
      simp only [← path_snoc_merge] at h1
      have h2 := snoc_inj_low h1
      rw [h2.2.2.2]
    · have := h.length_le
      simp at this
  · rcases mem_grow.1 hb with ⟨hb, hbne⟩ | ⟨s', rfl⟩ | rfl
    · exact absurd (hlow b hb h) hbne
    · exact List.prefix_append _ _
    · exact List.prefix_refl _

theorem faithful_paths {t t' : RTree K p'} (hf : Faithful c t) (h : ∀ b ∈ t', ∃ a ∈ t, a.path = b.path) : Faithful c t' := by
  intro a ha b hb hp
  obtain ⟨a', ha', e⟩ := h a ha
  obtain ⟨b', hb', e'⟩ := h b hb
  rw [← e, ← e'] at hp ⊢
  exact hf a' ha' b' hb' hp

theorem faithful_prune {t : RTree K p'} (hf : Faithful c t) {path : List (Cond K p')} {j : Fin p'} {v : Fl K} (hin : (⟨path, .split j v⟩ : RNode K p') ∈ t) : Faithful c (t.apply (.prune path j v)) := by
  refine faithful_paths hf fun b hb => ?_
  rcases mem_prune.1 hb with ⟨hb, -⟩ | rfl
  · exact ⟨b, hb, rfl⟩
  · exact ⟨_, hin, rfl⟩

end
end Bart.Reference
