import Verif.Spec.Turn
import Verif.Proofs.Streams
import Verif.Proofs.RefPerm
import Verif.Proofs.ArraysLemmas
import Verif.Proofs.SweepExists
import Mathlib.Algebra.Order.Ring.Defs

/-! The reference sampler on data with features in the opposite direction. -/

set_option linter.unusedSectionVars false

namespace Bart
variable {K : Type} [Field K] [LinearOrder K] [IsStrictOrderedRing K] {n p : Nat}

/-! ### the order of the extended numbers -/

theorem Fl.neg_twice (a : Fl K) : Fl.neg (Fl.neg a) = a := by cases a <;> simp [Fl.neg]

theorem Fl.neg_inj {a b : Fl K} (h : Fl.neg a = Fl.neg b) : a = b := by rw [← Fl.neg_twice a, h, Fl.neg_twice]

theorem Fl.neg_nan_iff {a : Fl K} : Fl.neg a = .nan ↔ a = .nan := by cases a <;> simp [Fl.neg]

theorem Fl.lt_neg (a b : Fl K) : Fl.lt (Fl.neg a) (Fl.neg b) = Fl.lt b a := by cases a <;> cases b <;> simp [Fl.neg, Fl.lt]

theorem Fl.le_neg (a b : Fl K) : Fl.le (Fl.neg a) (Fl.neg b) = Fl.le b a := by cases a <;> cases b <;> simp [Fl.neg, Fl.le]

theorem Fl.not_le_eq {a b : Fl K} (ha : a ≠ .nan) (hb : b ≠ .nan) : (!Fl.le a b) = Fl.lt b a := (Fl.gt_eq_not_le ha hb).symm

/-- A list of numbers has a least entry. -/
theorem exists_least {l : List (Fl K)} (hn : ∀ x ∈ l, x ≠ .nan) (h : l ≠ []) : ∃ m ∈ l, ∀ x ∈ l, Fl.le m x = true := by
  induction l with
  | nil => exact absurd rfl h
  | cons a l ih =>
    by_cases hl : l = []
    · subst hl
      exact ⟨a, by simp, by simpa using Fl.le_refl (hn a (by simp))⟩
    · obtain ⟨m, hm, hmin⟩ := ih (fun x hx => hn x (List.mem_cons_of_mem _ hx)) hl
      cases e : Fl.lt a m with
      | true =>
        refine ⟨a, by simp, fun x hx => ?_⟩
        rcases List.mem_cons.1 hx with rfl | hx
        · exact Fl.le_refl (hn x (by simp))
        · exact Fl.le_of_lt (Fl.lt_of_lt_of_le e (hmin x hx))
      | false =>
        refine ⟨m, List.mem_cons_of_mem _ hm, fun x hx => ?_⟩
        rcases List.mem_cons.1 hx with rfl | hx
        · exact Fl.le_of_not_lt (hn x (by simp)) (hn m (List.mem_cons_of_mem _ hm)) e
        · exact hmin x hx

/-- `w` comes after `v` in the cyclic order of the entries of `l`: the least larger entry, or the least entry if there is no larger one. -/
def IsNext (l : List (Fl K)) (v w : Fl K) : Prop :=
  w ∈ l ∧ if ∃ m ∈ l, Fl.lt v m = true then Fl.lt v w = true ∧ ∀ m ∈ l, Fl.lt v m = true → Fl.le w m = true else ∀ m ∈ l, Fl.le w m = true

theorem exists_next {l : List (Fl K)} (hn : ∀ x ∈ l, x ≠ .nan) (h : l ≠ []) (v : Fl K) : ∃ w, IsNext l v w := by
  by_cases hm : ∃ m ∈ l, Fl.lt v m = true
  · obtain ⟨m, hm1, hm2⟩ := hm
    obtain ⟨w, h1, h2⟩ := exists_least (l := l.filter fun x => Fl.lt v x) (fun x hx => hn x (List.mem_filter.1 hx).1) (List.ne_nil_of_mem (List.mem_filter.2 ⟨hm1, hm2⟩))
    obtain ⟨h3, h4⟩ := List.mem_filter.1 h1
    refine ⟨w, h3, ?_⟩
    rw [if_pos ⟨m, hm1, hm2⟩]
    exact ⟨h4, fun x hx hlt => h2 x (List.mem_filter.2 ⟨hx, hlt⟩)⟩
  · obtain ⟨w, h1, h2⟩ := exists_least hn h
    refine ⟨w, h1, ?_⟩
    rw [if_neg hm]
    exact h2

open Classical in
/-- The entry after `v`. -/
noncomputable def nextEntry (l : List (Fl K)) (v : Fl K) : Fl K := if h : ∃ w, IsNext l v w then h.choose else v

theorem next_spec {l : List (Fl K)} (hn : ∀ x ∈ l, x ≠ .nan) (h : l ≠ []) (v : Fl K) : IsNext l v (nextEntry l v) := by
  have h1 := exists_next hn h v
  unfold nextEntry
  rw [dif_pos h1]
  exact h1.choose_spec

theorem next_larger {l : List (Fl K)} (hn : ∀ x ∈ l, x ≠ .nan) {v : Fl K} (h : ∃ m ∈ l, Fl.lt v m = true) : nextEntry l v ∈ l ∧ Fl.lt v (nextEntry l v) = true ∧ ∀ m ∈ l, Fl.lt v m = true → Fl.le (nextEntry l v) m = true := by
  obtain ⟨m, hm, -⟩ := id h
  have h1 := next_spec hn (List.ne_nil_of_mem hm) v
  unfold IsNext at h1
  rw [if_pos h] at h1
  exact h1

theorem next_least {l : List (Fl K)} (hn : ∀ x ∈ l, x ≠ .nan) {v : Fl K} (hl : l ≠ []) (h : ¬∃ m ∈ l, Fl.lt v m = true) : nextEntry l v ∈ l ∧ ∀ m ∈ l, Fl.le (nextEntry l v) m = true := by
  have h1 := next_spec hn hl v
  unfold IsNext at h1
  rw [if_neg h] at h1
  exact h1

theorem Fl.not_lt_of_le {a b : Fl K} (h : Fl.le a b = true) : Fl.lt b a = false := by
  cases e : Fl.lt b a with
  | false => rfl
  | true => exact absurd (Fl.lt_of_lt_of_le e h) (by simp [Fl.lt_irrefl])

theorem next_injOn {l : List (Fl K)} (hn : ∀ x ∈ l, x ≠ .nan) {v w : Fl K} (hv : v ∈ l) (hw : w ∈ l) (h : nextEntry l v = nextEntry l w) : v = w := by
  have hl := List.ne_nil_of_mem hv
  by_contra hne
  have key : ∀ v ∈ l, ∀ w ∈ l, Fl.lt v w = true → nextEntry l v ≠ nextEntry l w := by
    intro v hv w hw hlt h
    obtain ⟨h1, h2, h3⟩ := next_larger hn ⟨w, hw, hlt⟩
    by_cases hm : ∃ m ∈ l, Fl.lt w m = true
    · obtain ⟨g1, g2, g3⟩ := next_larger hn hm
      have := Fl.lt_of_le_of_lt (h3 w hw hlt) g2
      rw [h] at this
      simp [Fl.lt_irrefl] at this
    · obtain ⟨g1, g2⟩ := next_least hn hl hm
      have := Fl.lt_of_lt_of_le h2 (h ▸ g2 v hv)
      simp [Fl.lt_irrefl] at this
  rcases Fl.lt_or_lt (hn v hv) (hn w hw) hne with e | e
  · exact key v hv w hw e h
  · exact key w hw v hv e h.symm

theorem next_perm {l : List (Fl K)} (hn : ∀ x ∈ l, x ≠ .nan) (hd : l.Nodup) : (l.map (nextEntry l)).Perm l := by
  by_cases hl : l = []
  · rw [hl]; exact List.Perm.refl _
  have h1 : (l.map (nextEntry l)).Nodup := (List.nodup_map_iff_inj_on hd).2 fun v hv w hw h => next_injOn hn hv hw h
  refine (List.subperm_of_subset h1 ?_).perm_of_length_le (by simp)
  intro x hx
  obtain ⟨v, -, rfl⟩ := List.mem_map.1 hx
  exact (next_spec hn hl v).1

end Bart

namespace Bart.Reference
open Spec
variable {K : Type} [Field K] [LinearOrder K] {n p : Nat}

/-- The cut of the turned column that separates the same rows. -/
noncomputable def turnCut (neg : Fin p → Bool) (X : Fin n → Fin p → Fl K) (rows : Fin n → Bool) (j : Fin p) (v : Fl K) : Fl K := if neg j then Fl.neg (nextEntry (column X rows j) v) else v

/-- The comparison of the turned column that the same rows satisfy. -/
noncomputable def turnCond (neg : Fin p → Bool) (X : Fin n → Fin p → Fl K) (rows : Fin n → Bool) (c : Cond K p) : Cond K p :=
  ⟨c.column, turnCut neg X rows c.column c.value, if neg c.column then !c.low else c.low⟩

/-- The rows that satisfy a comparison. -/
def narrow (X : Fin n → Fin p → Fl K) (rows : Fin n → Bool) (c : Cond K p) : Fin n → Bool := fun i => rows i && c.holds (X i)

/-- The comparisons of the turned columns. -/
noncomputable def turnPath (neg : Fin p → Bool) (X : Fin n → Fin p → Fl K) : (Fin n → Bool) → List (Cond K p) → List (Cond K p)
  | _, [] => []
  | rows, c :: path => turnCond neg X rows c :: turnPath neg X (narrow X rows c) path

/-- The value is a possible cut of the rows: an entry of the column that is not the largest. -/
def ValidCut (X : Fin n → Fin p → Fl K) (rows : Fin n → Bool) (j : Fin p) (v : Fl K) : Prop := v ∈ column X rows j ∧ ∃ m ∈ column X rows j, Fl.lt v m = true

/-- Each comparison is with a possible cut. -/
def ValidPath (X : Fin n → Fin p → Fl K) : (Fin n → Bool) → List (Cond K p) → Prop
  | _, [] => True
  | rows, c :: path => ValidCut X rows c.column c.value ∧ ValidPath X (narrow X rows c) path

/-- The rows that satisfy comparisons. -/
def narrows (X : Fin n → Fin p → Fl K) (rows : Fin n → Bool) (path : List (Cond K p)) : Fin n → Bool := fun i => rows i && path.all fun c => c.holds (X i)

/-- All rows. -/
def allRows : Fin n → Bool := fun _ => true

/-- The content of a turned node. -/
noncomputable def turnContent (neg : Fin p → Bool) (X : Fin n → Fin p → Fl K) (rows : Fin n → Bool) : Content K p → Content K p
  | .leaf v => .leaf v
  | .split j v => .split j (turnCut neg X rows j v)

/-- The node of the turned tree. -/
noncomputable def turnNode (neg : Fin p → Bool) (X : Fin n → Fin p → Fl K) (nd : RNode K p) : RNode K p := ⟨turnPath neg X allRows nd.path, turnContent neg X (nd.rows X) nd.content⟩

/-- The proposal for the turned tree. -/
noncomputable def turnMove (neg : Fin p → Bool) (X : Fin n → Fin p → Fl K) : Move K p → Move K p
  | .grow path j v => .grow (turnPath neg X allRows path) j (turnCut neg X (RNode.rows X ⟨path, .leaf 0⟩) j v)
  | .prune path j v => .prune (turnPath neg X allRows path) j (turnCut neg X (RNode.rows X ⟨path, .leaf 0⟩) j v)

/-- All comparisons of the tree are with possible cuts. -/
def Valid (X : Fin n → Fin p → Fl K) (t : RTree K p) : Prop := ∀ nd ∈ t, ValidPath X allRows nd.path ∧ ∀ j v, nd.content = .split j v → ValidCut X (nd.rows X) j v

section
variable {X : Fin n → Fin p → Fl K} {neg : Fin p → Bool}

theorem narrows_nil (rows : Fin n → Bool) : narrows X rows [] = rows := by funext i; simp [narrows]

theorem narrows_cons (rows : Fin n → Bool) (c : Cond K p) (path : List (Cond K p)) : narrows X rows (c :: path) = narrows X (narrow X rows c) path := by
  funext i; simp [narrows, narrow, Bool.and_assoc]

theorem narrows_all (nd : RNode K p) : narrows X allRows nd.path = nd.rows X := by
  funext i; simp [narrows, allRows, RNode.rows, RNode.reaches]

theorem rows_mk (path : List (Cond K p)) (a b : Content K p) : RNode.rows X ⟨path, a⟩ = RNode.rows X ⟨path, b⟩ := rfl

theorem turnPath_snoc (c : Cond K p) : ∀ (rows : Fin n → Bool) (path : List (Cond K p)), turnPath neg X rows (path ++ [c]) = turnPath neg X rows path ++ [turnCond neg X (narrows X rows path) c]
  | rows, [] => by simp [turnPath, narrows_nil]
  | rows, d :: path => by simp [turnPath, narrows_cons, turnPath_snoc c _ path]

theorem validPath_snoc (c : Cond K p) : ∀ (rows : Fin n → Bool) (path : List (Cond K p)), ValidPath X rows (path ++ [c]) ↔ ValidPath X rows path ∧ ValidCut X (narrows X rows path) c.column c.value
  | rows, [] => by simp [ValidPath, narrows_nil]
  | rows, d :: path => by simp [ValidPath, narrows_cons, validPath_snoc c _ path, and_assoc]

theorem turnPath_length : ∀ (rows : Fin n → Bool) (path : List (Cond K p)), (turnPath neg X rows path).length = path.length
  | _, [] => rfl
  | rows, c :: path => by simp [turnPath, turnPath_length _ path]

end

section
variable {X : Fin n → Fin p → Fl K} {neg : Fin p → Bool} [IsStrictOrderedRing K] (hX : NoNan X)
include hX

theorem column_noNan (rows : Fin n → Bool) (j : Fin p) : ∀ x ∈ column X rows j, x ≠ .nan := by
  intro x hx
  obtain ⟨i, -, rfl⟩ := mem_column.1 hx
  exact hX i j

theorem turned_noNan : NoNan (turned neg X) := by
  intro i j
  unfold turned
  split
  · rw [Ne, Fl.neg_nan_iff]; exact hX i j
  · exact hX i j

/-- Which rows of the node are below the cut. -/
theorem le_turnCut {rows : Fin n → Bool} {j : Fin p} {v : Fl K} (hv : ValidCut X rows j v) {i : Fin n} (hi : rows i = true) :
    Fl.le (turned neg X i j) (turnCut neg X rows j v) = if neg j then !Fl.le (X i j) v else Fl.le (X i j) v := by
  unfold turned turnCut
  cases hj : neg j with
  | false => rfl
  | true =>
    simp only [if_true]
    have hn := column_noNan hX rows j
    have hin : X i j ∈ column X rows j := mem_column.2 ⟨i, hi, rfl⟩
    obtain ⟨h1, h2, h3⟩ := next_larger hn hv.2
    rw [Fl.le_neg, Fl.not_le_eq (hX i j) (hn v hv.1), Bool.eq_iff_iff]
    exact ⟨fun h => Fl.lt_of_lt_of_le h2 h, fun h => h3 _ hin h⟩

theorem holds_turn {rows : Fin n → Bool} {c : Cond K p} (hv : ValidCut X rows c.column c.value) {i : Fin n} (hi : rows i = true) :
    (turnCond neg X rows c).holds (turned neg X i) = c.holds (X i) := by
  have h := le_turnCut (neg := neg) hX hv hi
  unfold Cond.holds turnCond
  simp only [h]
  cases neg c.column <;> cases c.low <;> simp

theorem path_turn {i : Fin n} : ∀ {rows : Fin n → Bool} {path : List (Cond K p)}, ValidPath X rows path → rows i = true →
    ((turnPath neg X rows path).all fun c => c.holds (turned neg X i)) = path.all fun c => c.holds (X i)
  | _, [], _, _ => rfl
  | rows, c :: path, hv, hi => by
    simp only [turnPath, List.all_cons, holds_turn (neg := neg) hX hv.1 hi]
    cases hc : c.holds (X i) with
    | false => simp
    | true =>
      rw [path_turn hv.2 (by simp [narrow, hi, hc])]

theorem rows_turn {nd : RNode K p} (hv : ValidPath X allRows nd.path) : (turnNode neg X nd).rows (turned neg X) = nd.rows X := by
  funext i
  exact path_turn hX hv rfl

theorem rows_turn_path {path : List (Cond K p)} (hv : ValidPath X allRows path) (a b : Content K p) : RNode.rows (turned neg X) ⟨turnPath neg X allRows path, a⟩ = RNode.rows X ⟨path, b⟩ := by
  funext i
  exact path_turn hX hv rfl

theorem turnCut_inj {rows : Fin n → Bool} {j : Fin p} {v w : Fl K} (hv : ValidCut X rows j v) (hw : ValidCut X rows j w) (h : turnCut neg X rows j v = turnCut neg X rows j w) : v = w := by
  unfold turnCut at h
  cases hj : neg j with
  | false => simpa [hj] using h
  | true =>
    simp only [hj, if_true] at h
    exact next_injOn (column_noNan hX rows j) hv.1 hw.1 (Fl.neg_inj h)

theorem turnPath_inj : ∀ {rows : Fin n → Bool} {a b : List (Cond K p)}, ValidPath X rows a → ValidPath X rows b → turnPath neg X rows a = turnPath neg X rows b → a = b
  | _, [], [], _, _, _ => rfl
  | _, [], _ :: _, _, _, h => by simp [turnPath] at h
  | _, _ :: _, [], _, _, h => by simp [turnPath] at h
  | rows, c :: a, d :: b, ha, hb, h => by
    simp only [turnPath, List.cons.injEq] at h
    obtain ⟨h1, h2⟩ := h
    have h3 : c = d := by
      rcases c with ⟨j, v, s⟩
      rcases d with ⟨j', v', s'⟩
      simp only [turnCond, Cond.mk.injEq] at h1
      obtain ⟨rfl, e1, e2⟩ := h1
      have h4 := turnCut_inj hX ha.1 hb.1 e1
      simp only at h4
      subst h4
      simp only [Cond.mk.injEq, true_and]
      cases hj : neg j <;> simpa [hj] using e2
    subst h3
    rw [turnPath_inj ha.2 hb.2 h2]

theorem turnPath_eq {a b : List (Cond K p)} (ha : ValidPath X allRows a) (hb : ValidPath X allRows b) : turnPath neg X allRows a = turnPath neg X allRows b ↔ a = b :=
  ⟨turnPath_inj hX ha hb, fun h => by rw [h]⟩

end

section
variable {X : Fin n → Fin p → Fl K} {neg : Fin p → Bool} [IsStrictOrderedRing K]

theorem column_turned (rows : Fin n → Bool) (j : Fin p) : column (turned neg X) rows j = if neg j then (column X rows j).map Fl.neg else column X rows j := by
  unfold column turned
  cases neg j <;> simp [Function.comp_def]

theorem columns_turned (rows : Fin n → Bool) : columns (turned neg X) rows = columns X rows := by
  unfold columns
  congr 1
  funext j
  rw [column_turned]
  cases neg j with
  | false => rfl
  | true =>
    simp only [if_true, ← List.map_tail, List.any_map]
    congr 1
    funext a
    simp only [Function.comp_apply]
    congr 1
    funext b
    simp only [Function.comp_apply, ne_eq]
    rw [decide_eq_decide, not_iff_not]
    exact ⟨Fl.neg_inj, fun h => by rw [h]⟩

end
end Bart.Reference
