import Verif.Spec.Reference
import Verif.Spec.Order
import Verif.Proofs.Translate
import Mathlib.Algebra.BigOperators.Group.Finset.Basic
import Mathlib.Algebra.BigOperators.Fin
import Mathlib.Data.List.FinRange
import Mathlib.Data.List.Nodup

/-! The reference sampler on data with rearranged rows and columns. -/

set_option linter.unusedSectionVars false

namespace Bart.Reference
open Spec Translate
variable {K : Type} [Field K] [LinearOrder K] {n p : Nat}

/-- The comparison with the new number of the column. -/
def Cond.relabel (σ : Equiv.Perm (Fin p)) (c : Cond K p) : Cond K p := ⟨σ.symm c.column, c.value, c.low⟩

/-- The content of a node with the new number of the column. -/
def Content.relabel (σ : Equiv.Perm (Fin p)) : Content K p → Content K p
  | .leaf v => .leaf v
  | .split j v => .split (σ.symm j) v

/-- The node with the new numbers of the columns. -/
def RNode.relabel (σ : Equiv.Perm (Fin p)) (nd : RNode K p) : RNode K p := ⟨nd.path.map (Cond.relabel σ), nd.content.relabel σ⟩

/-- The tree with the new numbers of the columns. -/
def RTree.relabel (σ : Equiv.Perm (Fin p)) (t : RTree K p) : RTree K p := t.map (RNode.relabel σ)

/-- The proposal with the new numbers of the columns. -/
def Move.relabel (σ : Equiv.Perm (Fin p)) : Move K p → Move K p
  | .grow path j v => .grow (path.map (Cond.relabel σ)) (σ.symm j) v
  | .prune path j v => .prune (path.map (Cond.relabel σ)) (σ.symm j) v

/-- The state with the new numbers of the columns. -/
def State.relabel (σ : Equiv.Perm (Fin p)) (s : State K p) : State K p := ⟨s.trees.map (RTree.relabel σ), s.sigma⟩

/-- Rearranged rows have the same columns that can be split. -/
def SameColumns (ρ : Equiv.Perm (Fin n)) (σ : Equiv.Perm (Fin p)) (X : Fin n → Fin p → Fl K) : Prop :=
  ∀ rows : Fin n → Bool, ((columns X rows).map σ.symm).Perm (columns (reorder ρ σ X) (rows ∘ ρ))

section
variable {ρ : Equiv.Perm (Fin n)} {σ : Equiv.Perm (Fin p)} {X : Fin n → Fin p → Fl K}

theorem cond_relabel_inj : Function.Injective (Cond.relabel σ : Cond K p → Cond K p) := by
  rintro ⟨j, v, b⟩ ⟨j', v', b'⟩ h
  simp only [Cond.relabel, Cond.mk.injEq, EmbeddingLike.apply_eq_iff_eq] at h
  obtain ⟨rfl, rfl, rfl⟩ := h
  rfl

theorem path_relabel_eq {a b : List (Cond K p)} : a.map (Cond.relabel σ) = b.map (Cond.relabel σ) ↔ a = b :=
  ⟨fun h => List.map_injective_iff.2 cond_relabel_inj h, fun h => by rw [h]⟩

theorem holds_relabel (c : Cond K p) (x : Fin p → Fl K) : (c.relabel σ).holds (fun j => x (σ j)) = c.holds x := by
  simp [Cond.holds, Cond.relabel]

theorem reaches_relabel (nd : RNode K p) (x : Fin p → Fl K) : (nd.relabel σ).reaches (fun j => x (σ j)) = nd.reaches x := by
  unfold RNode.reaches RNode.relabel
  rw [List.all_map]
  congr 1
  funext c
  exact holds_relabel c x

theorem isLeaf_relabel (nd : RNode K p) : (nd.relabel σ).isLeaf = nd.isLeaf := by
  rcases nd with ⟨path, _ | _⟩ <;> rfl

theorem value_relabel (t : RTree K p) (x : Fin p → Fl K) : (t.relabel σ).value (fun j => x (σ j)) = t.value x := by
  unfold RTree.value RTree.relabel
  rw [List.find?_map]
  have h : (fun nd : RNode K p => nd.isLeaf && nd.reaches (fun j => x (σ j))) ∘ RNode.relabel σ = fun nd => nd.isLeaf && nd.reaches x := by
    funext nd
    simp [isLeaf_relabel, reaches_relabel]
  rw [h]
  cases t.find? (fun nd => nd.isLeaf && nd.reaches x) with
  | none => rfl
  | some nd => rcases nd with ⟨path, _ | _⟩ <;> rfl

theorem forest_relabel (ts : List (RTree K p)) (x : Fin p → Fl K) : forest (ts.map (RTree.relabel σ)) (fun j => x (σ j)) = forest ts x := by
  unfold forest
  rw [List.map_map]
  congr 2
  funext t
  exact value_relabel t x

theorem rows_relabel (nd : RNode K p) : (nd.relabel σ).rows (reorder ρ σ X) = nd.rows X ∘ ρ := by
  funext i
  exact reaches_relabel nd (X (ρ i))

theorem rows_path (path : List (Cond K p)) (a b : K) : RNode.rows (reorder ρ σ X) ⟨path.map (Cond.relabel σ), .leaf a⟩ = RNode.rows X ⟨path, .leaf b⟩ ∘ ρ :=
  rows_relabel ⟨path, .leaf b⟩

theorem column_reorder (rows : Fin n → Bool) (j : Fin p) : (column (reorder ρ σ X) (rows ∘ ρ) (σ.symm j)).Perm (column X rows j) := by
  unfold column
  have h : ((List.finRange n).map ρ).Perm (List.finRange n) := by
    refine (List.perm_ext_iff_of_nodup ((List.nodup_finRange n).map ρ.injective) (List.nodup_finRange n)).2 fun a => ?_
    simp only [List.mem_finRange, List.mem_map, true_and, iff_true]
    exact ⟨ρ.symm a, by simp⟩
  have h2 := (h.filter rows).map (fun r => X r j)
  rw [List.filter_map, List.map_map] at h2
  refine List.Perm.trans (List.Perm.of_eq ?_) h2
  congr 1
  funext i
  simp [reorder]

theorem count_reorder (rows : Fin n → Bool) : count (rows ∘ ρ) = count rows := by
  unfold count
  rw [← Fintype.card_subtype, ← Fintype.card_subtype]
  exact Fintype.card_congr (ρ.subtypeEquiv fun a => Iff.rfl)

theorem total_reorder (y : Fin n → K) (rows : Fin n → Bool) : total (y ∘ ρ) (rows ∘ ρ) = total y rows := by
  unfold total
  rw [Finset.sum_filter, Finset.sum_filter]
  exact Equiv.sum_comp ρ fun r => if rows r = true then y r else 0

theorem sameColumns_refl : SameColumns (Equiv.refl _) σ X := by
  intro rows
  unfold columns
  have h : ((List.finRange p).map σ.symm).Perm (List.finRange p) := by
    refine (List.perm_ext_iff_of_nodup ((List.nodup_finRange p).map σ.symm.injective) (List.nodup_finRange p)).2 fun a => ?_
    simp only [List.mem_finRange, List.mem_map, true_and, iff_true]
    exact ⟨σ a, by simp⟩
  refine List.Perm.trans (List.Perm.of_eq ?_) (h.filter _)
  rw [List.filter_map]
  congr 2
  funext j
  have : column (reorder (Equiv.refl _) σ X) (rows ∘ (Equiv.refl _)) (σ.symm j) = column X rows j := by
    unfold column reorder
    simp only [Equiv.coe_refl, Function.comp_id, id, Equiv.apply_symm_apply]
  simp only [Function.comp, this]

/-- A list without repetition has two different values behind the first if and only if it has three entries. -/
theorem tail_two {α : Type} [DecidableEq α] {l : List α} (h : l.Nodup) : l.tail.any (fun a => l.tail.any fun b => decide (a ≠ b)) = decide (3 ≤ l.length) := by
  match l, h with
  | [], _ => rfl
  | [_], _ => rfl
  | [_, a], _ => simp
  | _ :: a :: b :: l, h =>
    have hab : a ≠ b := by
      simp only [List.nodup_cons, List.mem_cons, not_or] at h
      exact h.2.1.1
    have : (List.any (a :: b :: l) fun a' => List.any (a :: b :: l) fun b' => decide (a' ≠ b')) = true := by
      simp only [List.any_eq_true, decide_eq_true_eq]
      exact ⟨a, by simp, b, by simp, hab⟩
    simpa using this

theorem sameColumns_of_inj (h : ∀ j, Function.Injective fun i => X i j) : SameColumns ρ σ X := by
  intro rows
  unfold columns
  have h0 : ((List.finRange p).map σ.symm).Perm (List.finRange p) := by
    refine (List.perm_ext_iff_of_nodup ((List.nodup_finRange p).map σ.symm.injective) (List.nodup_finRange p)).2 fun a => ?_
    simp only [List.mem_finRange, List.mem_map, true_and, iff_true]
    exact ⟨σ a, by simp⟩
  refine List.Perm.trans (List.Perm.of_eq ?_) (h0.filter _)
  rw [List.filter_map]
  congr 2
  funext j
  have hn : (column X rows j).Nodup := ((List.nodup_finRange n).filter _).map (h j)
  have hpm := column_reorder (ρ := ρ) (σ := σ) (X := X) rows j
  simp only [Function.comp_apply]
  rw [tail_two hn, tail_two (hpm.nodup_iff.2 hn), hpm.length_eq]

end

section
variable {ρ : Equiv.Perm (Fin n)} {σ : Equiv.Perm (Fin p)} {X : Fin n → Fin p → Fl K} (hX : SameColumns ρ σ X)
include hX

theorem columns_isEmpty (rows : Fin n → Bool) : (columns (reorder ρ σ X) (rows ∘ ρ)).isEmpty = (columns X rows).isEmpty := by
  have := (hX rows).length_eq
  rw [List.length_map] at this
  rw [Bool.eq_iff_iff, List.isEmpty_iff_length_eq_zero, List.isEmpty_iff_length_eq_zero, this]

theorem splittable_relabel (t : RTree K p) : (t.relabel σ).splittable (reorder ρ σ X) = (t.splittable X).map (RNode.relabel σ) := by
  unfold RTree.splittable RTree.relabel
  rw [List.filter_map]
  congr 2
  funext nd
  simp only [Function.comp_apply, isLeaf_relabel, rows_relabel, columns_isEmpty hX]

omit hX in
theorem hasLeaf_relabel (t : RTree K p) (path : List (Cond K p)) : (t.relabel σ).hasLeaf (path.map (Cond.relabel σ)) = t.hasLeaf path := by
  unfold RTree.hasLeaf RTree.relabel
  rw [List.any_map]
  congr 1
  funext nd
  simp only [Function.comp_apply, isLeaf_relabel]
  simp only [RNode.relabel, path_relabel_eq]

omit hX in
theorem path_snoc_relabel (path : List (Cond K p)) (j : Fin p) (v : Fl K) (b : Bool) :
    path.map (Cond.relabel σ) ++ [⟨σ.symm j, v, b⟩] = (path ++ [(⟨j, v, b⟩ : Cond K p)]).map (Cond.relabel σ) := by
  simp [Cond.relabel]

omit hX in
theorem prunable_relabel (t : RTree K p) : (t.relabel σ).prunable = t.prunable.map (RNode.relabel σ) := by
  unfold RTree.prunable
  rw [show (t.relabel σ) = t.map (RNode.relabel σ) from rfl, List.filter_map]
  congr 2
  funext nd
  rcases nd with ⟨path, v | ⟨j, v⟩⟩
  · rfl
  · simp only [Function.comp_apply, RNode.relabel, Content.relabel, path_snoc_relabel]
    rw [show t.map (RNode.relabel σ) = t.relabel σ from rfl, hasLeaf_relabel, hasLeaf_relabel]

omit hX in
theorem apply_relabel (t : RTree K p) (mv : Move K p) : (t.relabel σ).apply (mv.relabel σ) = (t.apply mv).relabel σ := by
  cases mv with
  | grow path j v =>
    simp only [RTree.apply, Move.relabel, RTree.relabel, List.filter_map, List.map_append, path_snoc_relabel]
    congr 1
    · congr 2
      funext nd
      simp only [Function.comp_apply, RNode.relabel, ne_eq, path_relabel_eq]
    · simp only [List.map_cons, List.map_nil, RNode.relabel, Content.relabel, List.map_append]
  | prune path j v =>
    simp only [RTree.apply, Move.relabel, RTree.relabel, List.filter_map, List.map_append, path_snoc_relabel]
    congr 1
    congr 2
    funext nd
    simp only [Function.comp_apply, RNode.relabel, ne_eq, ← List.map_append, path_relabel_eq]

omit hX in
theorem proposeGrow_eq (t : RTree K p) (h : t.splittable X ≠ []) :
    proposeGrow X t = rbind (pick (t.splittable X)) fun nd => rbind (pick (columns X (nd.rows X))) fun j =>
      rbind (pickUntil (column X (nd.rows X) j) fun v => (column X (nd.rows X) j).any fun m => Fl.lt v m) fun v => rpure (.grow nd.path j v) := by
  have hd : ∀ (col : List (Fl K)) us, drawCut col us = pickUntil col (fun v => col.any fun m => Fl.lt v m) us := by
    intro col us
    induction us with
    | nil => rfl
    | cons u us ih =>
      unfold drawCut pickUntil
      rw [ih]
      cases choice col u <;> rfl
  have hc : ∀ u, ∃ nd, choice (t.splittable X) u = .ok nd := by
    intro u
    have : u % (t.splittable X).length < (t.splittable X).length := Nat.mod_lt _ (List.length_pos_iff.2 h)
    unfold choice
    rw [List.getElem?_eq_getElem this]
    exact ⟨_, rfl⟩
  funext us
  match us with
  | [] => rfl
  | [u] =>
    obtain ⟨nd, hn⟩ := hc u
    simp [proposeGrow, rbind, pick, hn]
  | u1 :: u2 :: us =>
    obtain ⟨nd, hn⟩ := hc u1
    simp only [proposeGrow, rbind, pick, hn]
    cases choice (columns X (nd.rows X)) u2 with
    | error e => rfl
    | ok j =>
      simp only [hd]
      cases pickUntil (column X (nd.rows X) j) (fun v => (column X (nd.rows X) j).any fun m => Fl.lt v m) us with
      | error e => rfl
      | ok q => rfl

theorem proposeGrow_trans (t : RTree K p) (h : t.splittable X ≠ []) : Trans (max n p) (Move.relabel σ) (proposeGrow X t) (proposeGrow (reorder ρ σ X) (t.relabel σ)) := by
  rw [proposeGrow_eq t h, proposeGrow_eq (t.relabel σ) (by rw [splittable_relabel hX]; simpa using h), splittable_relabel hX]
  refine trans_bind trans_pick_same fun nd => ?_
  rw [rows_relabel]
  refine trans_bind (trans_pick (hX _) ?_) fun j => ?_
  · refine le_trans (List.length_filter_le _ _) ?_
    simp
  have hpm := (column_reorder (ρ := ρ) (σ := σ) (X := X) (nd.rows X) j).symm
  refine trans_bind (e := id) (trans_pickUntil (by simpa using hpm) ?_ fun v _ => ?_) fun v => trans_pure rfl
  · unfold column
    rw [List.length_map]
    refine le_trans (List.length_filter_le _ _) ?_
    simp
  · rw [Bool.eq_iff_iff, List.any_eq_true, List.any_eq_true]
    simp only [id, hpm.mem_iff]

omit hX in
theorem proposePrune_eq (t : RTree K p) : proposePrune t = rbind (pick t.prunable) fun nd => match nd with
      | ⟨path, .split j v⟩ => rpure (.prune path j v)
      | _ => rfail .typeError := by
  funext us
  cases us with
  | nil => rfl
  | cons u us =>
    simp only [proposePrune, rbind, pick]
    cases choice t.prunable u with
    | error e => rfl
    | ok nd => rcases nd with ⟨path, v | ⟨j, v⟩⟩ <;> rfl

omit hX in
theorem proposePrune_trans (t : RTree K p) : Trans (max n p) (Move.relabel σ) (proposePrune t) (proposePrune (t.relabel σ)) := by
  rw [proposePrune_eq, proposePrune_eq, prunable_relabel]
  refine trans_bind trans_pick_same fun nd => ?_
  rcases nd with ⟨path, v | ⟨j, v⟩⟩
  · exact trans_fail _
  · exact trans_pure rfl

/-- The proposal as a computation that reads the picks. -/
def proposeR (X : Fin n → Fin p → Fl K) (t : RTree K p) (ms : List Method) : Reader (Move K p × List Method) := fun us =>
  match propose X t us ms with
  | .error e => .error e
  | .ok (mv, us', ms') => .ok ((mv, ms'), us')

theorem proposeR_trans (t : RTree K p) (ms : List Method) :
    Trans (max n p) (fun q => (q.1.relabel σ, q.2)) (proposeR X t ms) (proposeR (reorder ρ σ X) (t.relabel σ) ms) := by
  induction ms with
  | nil => exact trans_fail _
  | cons m ms ih =>
    have hs : (t.relabel σ).splittable (reorder ρ σ X) = [] ↔ t.splittable X = [] := by rw [splittable_relabel hX]; simp
    have hq : (t.relabel σ).prunable = [] ↔ t.prunable = [] := by rw [prunable_relabel]; simp
    cases m with
    | grow =>
      by_cases h : t.splittable X = []
      · have h1 : proposeR X t (.grow :: ms) = proposeR X t ms := by funext us; simp only [proposeR, propose, if_pos h]
        have h2 : proposeR (reorder ρ σ X) (t.relabel σ) (.grow :: ms) = proposeR (reorder ρ σ X) (t.relabel σ) ms := by
          funext us; simp only [proposeR, propose, if_pos (hs.2 h)]
        rw [h1, h2]
        exact ih
      · have h1 : proposeR X t (.grow :: ms) = rbind (proposeGrow X t) fun mv => rpure (mv, ms) := by
          funext us
          simp only [proposeR, propose, if_neg h, rbind, rpure]
          rcases proposeGrow X t us with e | ⟨mv, us'⟩ <;> rfl
        have h2 : proposeR (reorder ρ σ X) (t.relabel σ) (.grow :: ms) = rbind (proposeGrow (reorder ρ σ X) (t.relabel σ)) fun mv => rpure (mv, ms) := by
          funext us
          simp only [proposeR, propose, if_neg (fun hc => h (hs.1 hc)), rbind, rpure]
          rcases proposeGrow (reorder ρ σ X) (t.relabel σ) us with e | ⟨mv, us'⟩ <;> rfl
        rw [h1, h2]
        exact trans_bind (proposeGrow_trans hX t h) fun mv => trans_pure rfl
    | prune =>
      by_cases h : t.prunable = []
      · have h1 : proposeR X t (.prune :: ms) = proposeR X t ms := by funext us; simp only [proposeR, propose, if_pos h]
        have h2 : proposeR (reorder ρ σ X) (t.relabel σ) (.prune :: ms) = proposeR (reorder ρ σ X) (t.relabel σ) ms := by
          funext us; simp only [proposeR, propose, if_pos (hq.2 h)]
        rw [h1, h2]
        exact ih
      · have h1 : proposeR X t (.prune :: ms) = rbind (proposePrune t) fun mv => rpure (mv, ms) := by
          funext us
          simp only [proposeR, propose, if_neg h, rbind, rpure]
          rcases proposePrune t us with e | ⟨mv, us'⟩ <;> rfl
        have h2 : proposeR (reorder ρ σ X) (t.relabel σ) (.prune :: ms) = rbind (proposePrune (t.relabel σ)) fun mv => rpure (mv, ms) := by
          funext us
          simp only [proposeR, propose, if_neg (fun hc => h (hq.1 hc)), rbind, rpure]
          rcases proposePrune (t.relabel σ) us with e | ⟨mv, us'⟩ <;> rfl
        rw [h1, h2]
        exact trans_bind (proposePrune_trans t) fun mv => trans_pure rfl

omit hX in
theorem frequency_reorder (rows : Fin n → Bool) (j : Fin p) (v : Fl K) : frequency (reorder ρ σ X) (rows ∘ ρ) (σ.symm j) v = frequency X rows j v := by
  have hpm := column_reorder (ρ := ρ) (σ := σ) (X := X) rows j
  unfold frequency
  simp only [hpm.nodup_iff, hpm.countP_eq, count_reorder]

variable [MathFns K]

theorem cutProbability_reorder (rows : Fin n → Bool) (j : Fin p) (v : Fl K) : cutProbability (reorder ρ σ X) (rows ∘ ρ) (σ.symm j) v = cutProbability X rows j v := by
  unfold cutProbability
  rw [frequency_reorder, ← (hX rows).length_eq, List.length_map]

omit hX in
theorem likelihood_reorder (P : Params K) (y : Fin n → K) (rows : Fin n → Bool) (j : Fin p) (v : Fl K) :
    likelihood P (reorder ρ σ X) (y ∘ ρ) (rows ∘ ρ) (σ.symm j) v = likelihood P X y rows j v := by
  have hL : (fun r => (rows ∘ ρ) r && Fl.le (reorder ρ σ X r (σ.symm j)) v) = (fun r => rows r && Fl.le (X r j) v) ∘ ρ := by
    funext r; simp [reorder]
  have hR : (fun r => (rows ∘ ρ) r && !Fl.le (reorder ρ σ X r (σ.symm j)) v) = (fun r => rows r && !Fl.le (X r j) v) ∘ ρ := by
    funext r; simp [reorder]
  unfold likelihood
  simp only [hL, hR, count_reorder, total_reorder]

theorem ratio_relabel (P : Params K) (pGrow pPrune : K) (y : Fin n → K) (t : RTree K p) (mv : Move K p) :
    ratio P pGrow pPrune (reorder ρ σ X) (y ∘ ρ) (t.relabel σ) (mv.relabel σ) = ratio P pGrow pPrune X y t mv := by
  cases mv with
  | grow path j v =>
    simp only [ratio, Move.relabel, splittable_relabel hX, prunable_relabel, List.length_map, rows_path path 0 0, cutProbability_reorder hX, likelihood_reorder]
  | prune path j v =>
    simp only [ratio, Move.relabel, splittable_relabel hX, prunable_relabel, List.length_map, rows_path path 0 0, cutProbability_reorder hX, likelihood_reorder]

/-- A computation that uses random numbers, as a computation that reads the picks. -/
def onPicks {α : Type} (F : Rand K → Except PyErr (α × Rand K)) (r : Rand K) : Reader (α × Rand K) := fun us =>
  match F { r with picks := us } with
  | .error e => .error e
  | .ok (a, r') => .ok ((a, { r' with picks := [] }), r'.picks)

omit hX in
theorem leafValues_relabel (P : Params K) (y : Fin n → K) (t : RTree K p) (zs : List K) :
    leafValues P (reorder ρ σ X) (y ∘ ρ) (t.relabel σ) zs = match leafValues P X y t zs with
      | .error e => .error e
      | .ok (t', zs') => .ok (t'.relabel σ, zs') := by
  induction t generalizing zs with
  | nil => rfl
  | cons nd t ih =>
    rcases nd with ⟨path, v | ⟨j, v⟩⟩
    · cases zs with
      | nil => rfl
      | cons z zs =>
        have ih' := ih zs
        simp only [RTree.relabel] at ih' ⊢
        simp only [List.map_cons, RNode.relabel, Content.relabel, leafValues, rows_path path v v, count_reorder, total_reorder]
        cases (Sampler.leafValue P (Fl.ofInt (count (RNode.rows X ⟨path, .leaf v⟩))) (.fin (total y (RNode.rows X ⟨path, .leaf v⟩))) (.fin z)).toFinite with
        | error e => rfl
        | ok w =>
          simp only [ih']
          rcases leafValues P X y t zs with e | ⟨t', zs'⟩ <;> rfl
    · have ih' := ih zs
      simp only [RTree.relabel] at ih' ⊢
      simp only [List.map_cons, RNode.relabel, Content.relabel, leafValues]
      simp only [ih']
      rcases leafValues P X y t zs with e | ⟨t', zs'⟩ <;> rfl

/-- The result of the step for a tree with the new numbers of the columns. -/
def relTree (σ : Equiv.Perm (Fin p)) (q : (Bool × RTree K p) × Rand K) : (Bool × RTree K p) × Rand K := ((q.1.1, q.1.2.relabel σ), q.2)

/-- `treeBody` with its result as a pair of the result and the remaining random numbers. -/
def bodyPair (P : Params K) (pGrow pPrune : K) (X : Fin n → Fin p → Fl K) (y : Fin n → K) (t : RTree K p) (r : Rand K) : Except PyErr ((Bool × RTree K p) × Rand K) :=
  match treeBody P pGrow pPrune X y t r with
  | .error e => .error e
  | .ok (b, t', r') => .ok ((b, t'), r')

/-- What `treeBody` does after the proposal. -/
def afterPropose (P : Params K) (pGrow pPrune : K) (X : Fin n → Fin p → Fl K) (y : Fin n → K) (t : RTree K p) (r : Rand K) (q : Move K p × List Method) : Except PyErr ((Bool × RTree K p) × Rand K) :=
  match r.uniforms with
  | [] => .error .outOfDraws
  | u :: uniforms =>
    let accept := Fl.lt (.fin u) (ratio P pGrow pPrune X y t q.1)
    match leafValues P X y (if accept then t.apply q.1 else t) r.normals with
    | .error e => .error e
    | .ok (t2, zs) => .ok ((accept, t2), { r with methods := q.2, picks := [], uniforms := uniforms, normals := zs })

omit hX in
theorem body_eq (P : Params K) (pGrow pPrune : K) (X : Fin n → Fin p → Fl K) (y : Fin n → K) (t : RTree K p) (r : Rand K) :
    onPicks (bodyPair P pGrow pPrune X y t) r = rbind (proposeR X t r.methods) fun q => match afterPropose P pGrow pPrune X y t r q with
      | .error e => rfail e
      | .ok a => rpure a := by
  funext us
  simp only [onPicks, bodyPair, treeBody, treeStep, rbind, proposeR, afterPropose]
  rcases propose X t us r.methods with e | ⟨mv, us', ms⟩
  · rfl
  · simp only
    cases r.uniforms with
    | nil => rfl
    | cons u uniforms =>
      simp only
      rcases leafValues P X y (if Fl.lt (.fin u) (ratio P pGrow pPrune X y t mv) then t.apply mv else t) r.normals with e | ⟨t2, zs⟩
      · rfl
      · rfl

theorem body_trans (P : Params K) (pGrow pPrune : K) (y : Fin n → K) (t : RTree K p) (r : Rand K) :
    Trans (max n p) (relTree σ) (onPicks (bodyPair P pGrow pPrune X y t) r) (onPicks (bodyPair P pGrow pPrune (reorder ρ σ X) (y ∘ ρ) (t.relabel σ)) r) := by
  rw [body_eq, body_eq]
  refine trans_bind (proposeR_trans hX t r.methods) fun q => ?_
  have h : afterPropose P pGrow pPrune (reorder ρ σ X) (y ∘ ρ) (t.relabel σ) r (q.1.relabel σ, q.2) = match afterPropose P pGrow pPrune X y t r q with
      | .error e => .error e
      | .ok a => .ok (relTree σ a) := by
    simp only [afterPropose]
    cases r.uniforms with
    | nil => rfl
    | cons u uniforms =>
      simp only [ratio_relabel hX]
      have h1 : (if Fl.lt (.fin u) (ratio P pGrow pPrune X y t q.1) then (t.relabel σ).apply (q.1.relabel σ) else t.relabel σ) =
          RTree.relabel σ (if Fl.lt (.fin u) (ratio P pGrow pPrune X y t q.1) then t.apply q.1 else t) := by
        rw [apply_relabel]
        split <;> rfl
      rw [h1, leafValues_relabel]
      rcases leafValues P X y (if Fl.lt (.fin u) (ratio P pGrow pPrune X y t q.1) then t.apply q.1 else t) r.normals with e | ⟨t2, zs⟩ <;> rfl
  rw [h]
  cases afterPropose P pGrow pPrune X y t r q with
  | error e => exact trans_fail _
  | ok a => exact trans_pure rfl

/-- `sweepTrees` with its result as a pair. -/
def treesPair (P : Params K) (pGrow pPrune : K) (X : Fin n → Fin p → Fl K) (y : Fin n → K) (done todo : List (RTree K p)) (r : Rand K) : Except PyErr ((List Bool × List (RTree K p)) × Rand K) :=
  match sweepTrees P pGrow pPrune X y done todo r with
  | .error e => .error e
  | .ok (bs, ts, r') => .ok ((bs, ts), r')

theorem trees_trans (P : Params K) (pGrow pPrune : K) (y : Fin n → K) (done todo : List (RTree K p)) (r : Rand K) :
    Trans (max n p) (fun q => ((q.1.1, q.1.2.map (RTree.relabel σ)), q.2)) (onPicks (treesPair P pGrow pPrune X y done todo) r)
      (onPicks (treesPair P pGrow pPrune (reorder ρ σ X) (y ∘ ρ) (done.map (RTree.relabel σ)) (todo.map (RTree.relabel σ))) r) := by
  induction todo generalizing done r with
  | nil =>
    have h : ∀ (X : Fin n → Fin p → Fl K) (y : Fin n → K) done, onPicks (treesPair P pGrow pPrune X y done []) r = rpure (([], done), { r with picks := [] }) := fun _ _ _ => rfl
    rw [List.map_nil, h, h]
    exact trans_pure rfl
  | cons t ts ih =>
    have h : ∀ (X : Fin n → Fin p → Fl K) (y : Fin n → K) done t ts, onPicks (treesPair P pGrow pPrune X y done (t :: ts)) r =
        rbind (onPicks (bodyPair P pGrow pPrune X (fun i => y i - forest (done ++ ts) (X i)) t) r) fun a =>
          rbind (onPicks (treesPair P pGrow pPrune X y (done ++ [a.1.2]) ts) a.2) fun b => rpure ((a.1.1 :: b.1.1, b.1.2), b.2) := by
      intro X y done t ts
      funext us
      simp only [onPicks, treesPair, sweepTrees, bodyPair, rbind, rpure]
      rcases treeBody P pGrow pPrune X (fun i => y i - forest (done ++ ts) (X i)) t { r with picks := us } with e | ⟨b, t1, r1⟩
      · rfl
      · simp only
        rcases sweepTrees P pGrow pPrune X y (done ++ [t1]) ts r1 with e | ⟨bs, all, r2⟩ <;> rfl
    rw [List.map_cons, h, h]
    have hy : (fun i => (y ∘ ρ) i - forest (done.map (RTree.relabel σ) ++ ts.map (RTree.relabel σ)) (reorder ρ σ X i)) = (fun i => y i - forest (done ++ ts) (X i)) ∘ ρ := by
      funext i
      rw [← List.map_append]
      simp only [Function.comp_apply]
      rw [← forest_relabel (σ := σ) (done ++ ts) (X (ρ i))]
      rfl
    rw [hy]
    refine trans_bind (body_trans hX P pGrow pPrune _ t r) fun a => ?_
    have ih' := ih (done ++ [a.1.2]) a.2
    rw [List.map_append, List.map_singleton] at ih'
    exact trans_bind ih' fun b => trans_pure rfl

omit hX in
theorem sigmaStep_relabel (c : Settings K) (y : Fin n → K) (ts : List (RTree K p)) (gs : List K) :
    sigmaStep c (reorder ρ σ X) (y ∘ ρ) (ts.map (RTree.relabel σ)) gs = sigmaStep c X y ts gs := by
  have h : ∑ i, ((y ∘ ρ) i - forest (ts.map (RTree.relabel σ)) (reorder ρ σ X i)) * ((y ∘ ρ) i - forest (ts.map (RTree.relabel σ)) (reorder ρ σ X i)) =
      ∑ i, (y i - forest ts (X i)) * (y i - forest ts (X i)) := by
    rw [← Equiv.sum_comp ρ fun i => (y i - forest ts (X i)) * (y i - forest ts (X i))]
    refine Finset.sum_congr rfl fun i _ => ?_
    rw [← forest_relabel (σ := σ) ts (X (ρ i))]
    rfl
  unfold sigmaStep
  rw [h]

/-- `sweep` with its result as a pair. -/
def sweepPair (c : Settings K) (X : Fin n → Fin p → Fl K) (y : Fin n → K) (s : State K p) (r : Rand K) : Except PyErr ((List Bool × State K p) × Rand K) :=
  match sweep c X y s r with
  | .error e => .error e
  | .ok (bs, s', r') => .ok ((bs, s'), r')

theorem sweep_trans (c : Settings K) (y : Fin n → K) (s : State K p) (r : Rand K) :
    Trans (max n p) (fun q => ((q.1.1, q.1.2.relabel σ), q.2)) (onPicks (sweepPair c X y s) r) (onPicks (sweepPair c (reorder ρ σ X) (y ∘ ρ) (s.relabel σ)) r) := by
  have h : ∀ (X : Fin n → Fin p → Fl K) (y : Fin n → K) s, onPicks (sweepPair c X y s) r =
      rbind (onPicks (treesPair (c.params s.sigma) c.pGrow c.pPrune X y [] s.trees) r) fun a => match sigmaStep c X y a.1.2 a.2.gammas with
        | .error e => rfail e
        | .ok (v, gs) => rpure ((a.1.1, ⟨a.1.2, v⟩), { a.2 with gammas := gs }) := by
    intro X y s
    funext us
    simp only [onPicks, sweepPair, sweep, treesPair, rbind]
    rcases sweepTrees (c.params s.sigma) c.pGrow c.pPrune X y [] s.trees { r with picks := us } with e | ⟨bs, ts, r1⟩
    · rfl
    · simp only
      rcases sigmaStep c X y ts r1.gammas with e | ⟨v, gs⟩ <;> rfl
  rw [h, h]
  refine trans_bind (trees_trans hX (c.params s.sigma) c.pGrow c.pPrune y [] s.trees r) fun a => ?_
  simp only [sigmaStep_relabel]
  rcases sigmaStep c X y a.1.2 a.2.gammas with e | ⟨v, gs⟩
  · exact trans_fail _
  · exact trans_pure rfl

/-- `sweeps` with its result as a pair. -/
def sweepsPair (c : Settings K) (X : Fin n → Fin p → Fl K) (y : Fin n → K) (k : Nat) (s : State K p) (r : Rand K) : Except PyErr ((List (List Bool × State K p) × State K p) × Rand K) :=
  match sweeps c X y k s r with
  | .error e => .error e
  | .ok (l, s', r') => .ok ((l, s'), r')

theorem sweeps_trans (c : Settings K) (y : Fin n → K) (k : Nat) (s : State K p) (r : Rand K) :
    Trans (max n p) (fun q => ((q.1.1.map (fun a => (a.1, a.2.relabel σ)), q.1.2.relabel σ), q.2)) (onPicks (sweepsPair c X y k s) r)
      (onPicks (sweepsPair c (reorder ρ σ X) (y ∘ ρ) k (s.relabel σ)) r) := by
  induction k generalizing s r with
  | zero =>
    have h : ∀ (X : Fin n → Fin p → Fl K) (y : Fin n → K) s, onPicks (sweepsPair c X y 0 s) r = rpure (([], s), { r with picks := [] }) := fun _ _ _ => rfl
    rw [h, h]
    exact trans_pure rfl
  | succ k ih =>
    have h : ∀ (X : Fin n → Fin p → Fl K) (y : Fin n → K) s, onPicks (sweepsPair c X y (k + 1) s) r =
        rbind (onPicks (sweepPair c X y s) r) fun a => rbind (onPicks (sweepsPair c X y k a.1.2) a.2) fun b => rpure ((a.1 :: b.1.1, b.1.2), b.2) := by
      intro X y s
      funext us
      simp only [onPicks, sweepsPair, sweeps, sweepPair, rbind, rpure]
      rcases sweep c X y s { r with picks := us } with e | ⟨bs, s1, r1⟩
      · rfl
      · simp only
        rcases sweeps c X y k s1 r1 with e | ⟨l, s2, r2⟩ <;> rfl
    rw [h, h]
    exact trans_bind (sweep_trans hX c y s r) fun a => trans_bind (ih a.1.2 a.2) fun b => trans_pure rfl

end
end Bart.Reference
