import Verif.Proofs.RefCopy

/-! The steps of the reference sampler on data in which every column is present several times . -/

set_option linter.unusedSectionVars false

namespace Bart.Reference
open Spec Translate

/-! ### sums -/

section
variable {K : Type} [Field K] [LinearOrder K]

theorem fl_add_comm (a b : Fl K) : Fl.add a b = Fl.add b a := by
  cases a <;> cases b <;> simp [Fl.add, add_comm]

theorem fl_add_assoc (a b c : Fl K) : Fl.add (Fl.add a b) c = Fl.add a (Fl.add b c) := by
  cases a <;> cases b <;> cases c <;> simp [Fl.add, add_assoc]

theorem fl_neg_add (a b : Fl K) : Fl.neg (Fl.add a b) = Fl.add (Fl.neg a) (Fl.neg b) := by
  cases a <;> cases b <;> simp [Fl.add, Fl.neg, add_comm]

instance : Std.Associative (Fl.add : Fl K → Fl K → Fl K) := ⟨fl_add_assoc⟩
instance : Std.Commutative (Fl.add : Fl K → Fl K → Fl K) := ⟨fl_add_comm⟩

theorem grow_cancel (L M A l S N : Fl K) (cut : Fl K) : Fl.add (Fl.add (Fl.add L (Fl.sub M (Fl.add A cut))) l) (Fl.sub (Fl.add S (Fl.add A cut)) N) =
    Fl.add (Fl.add cut (Fl.neg cut)) (Fl.add (Fl.add (Fl.add L (Fl.sub M A)) l) (Fl.sub (Fl.add S A) N)) := by
  unfold Fl.sub
  rw [fl_neg_add]
  ac_rfl

theorem prune_cancel (L g P l S N : Fl K) (cut : Fl K) : Fl.add (Fl.add (Fl.add L (Fl.sub (Fl.add g cut) P)) l) (Fl.sub N (Fl.add S cut)) =
    Fl.add (Fl.add cut (Fl.neg cut)) (Fl.add (Fl.add (Fl.add L (Fl.sub g P)) l) (Fl.sub N S)) := by
  unfold Fl.sub
  rw [fl_neg_add]
  ac_rfl

end

variable {K : Type} [Field K] [LinearOrder K] {n p p' : Nat} {c : Fin p' → Fin p} {X : Fin n → Fin p → Fl K} {k : Nat}

/-! ### proposals -/

theorem columns_bound (rows : Fin n → Bool) : (columns X rows).length ≤ p := by
  refine le_trans (List.length_filter_le _ _) ?_
  simp

theorem column_bound (rows : Fin n → Bool) (j : Fin p) : (column X rows j).length ≤ n := by
  unfold column
  rw [List.length_map]
  refine le_trans (List.length_filter_le _ _) ?_
  simp

theorem proposeGrow_merge (hk : 0 < k) (hc : EqualCopies c k) (t : RTree K p') (h : t.splittable (copied c X) ≠ []) :
    Trans (max n p') (Move.merge c) (proposeGrow (copied c X) t) (proposeGrow X (t.merge c)) := by
  rw [proposeGrow_eq t h, proposeGrow_eq (t.merge c) (by rw [splittable_merge hk hc]; simpa using h), splittable_merge hk hc]
  refine trans_bind trans_pick_same fun nd => ?_
  rw [rows_merge]
  refine trans_bind (trans_pick_copies hk (columns_copied hc _) (le_trans (columns_bound _) (le_max_right _ _))) fun j => ?_
  refine trans_bind (e := id) (trans_pickUntil (by simp [column_copied]) (le_trans (column_bound _ _) (le_max_left _ _)) fun v _ => rfl) fun v => trans_pure rfl

theorem proposePrune_merge {t : RTree K p'} (hs : Sound t) (hf : Faithful c t) : Trans (max n p') (Move.merge c) (proposePrune t) (proposePrune (t.merge c)) := by
  rw [proposePrune_eq, proposePrune_eq, prunable_merge hs hf]
  refine trans_bind trans_pick_same fun nd => ?_
  rcases nd with ⟨path, v | ⟨j, v⟩⟩
  · exact trans_fail _
  · exact trans_pure rfl

theorem proposeR_merge (hk : 0 < k) (hc : EqualCopies c k) {t : RTree K p'} (hs : Sound t) (hf : Faithful c t) (ms : List Method) :
    Trans (max n p') (fun q => (q.1.merge c, q.2)) (proposeR (copied c X) t ms) (proposeR X (t.merge c) ms) := by
  induction ms with
  | nil => exact trans_fail _
  | cons m ms ih =>
    have hsp : (t.merge c).splittable X = [] ↔ t.splittable (copied c X) = [] := by rw [splittable_merge hk hc]; simp
    have hq : (t.merge c).prunable = [] ↔ t.prunable = [] := by rw [prunable_merge hs hf]; simp
    cases m with
    | grow =>
      by_cases h : t.splittable (copied c X) = []
      · have h1 : proposeR (copied c X) t (.grow :: ms) = proposeR (copied c X) t ms := by funext us; simp only [proposeR, propose, if_pos h]
        have h2 : proposeR X (t.merge c) (.grow :: ms) = proposeR X (t.merge c) ms := by funext us; simp only [proposeR, propose, if_pos (hsp.2 h)]
        rw [h1, h2]
        exact ih
      · have h1 : proposeR (copied c X) t (.grow :: ms) = rbind (proposeGrow (copied c X) t) fun mv => rpure (mv, ms) := by
          funext us
          simp only [proposeR, propose, if_neg h, rbind, rpure]
          rcases proposeGrow (copied c X) t us with e | ⟨mv, us'⟩ <;> rfl
        have h2 : proposeR X (t.merge c) (.grow :: ms) = rbind (proposeGrow X (t.merge c)) fun mv => rpure (mv, ms) := by
          funext us
          simp only [proposeR, propose, if_neg (fun hn => h (hsp.1 hn)), rbind, rpure]
          rcases proposeGrow X (t.merge c) us with e | ⟨mv, us'⟩ <;> rfl
        rw [h1, h2]
        exact trans_bind (proposeGrow_merge hk hc t h) fun mv => trans_pure rfl
    | prune =>
      by_cases h : t.prunable = []
      · have h1 : proposeR (copied c X) t (.prune :: ms) = proposeR (copied c X) t ms := by funext us; simp only [proposeR, propose, if_pos h]
        have h2 : proposeR X (t.merge c) (.prune :: ms) = proposeR X (t.merge c) ms := by funext us; simp only [proposeR, propose, if_pos (hq.2 h)]
        rw [h1, h2]
        exact ih
      · have h1 : proposeR (copied c X) t (.prune :: ms) = rbind (proposePrune t) fun mv => rpure (mv, ms) := by
          funext us
          simp only [proposeR, propose, if_neg h, rbind, rpure]
          rcases proposePrune t us with e | ⟨mv, us'⟩ <;> rfl
        have h2 : proposeR X (t.merge c) (.prune :: ms) = rbind (proposePrune (t.merge c)) fun mv => rpure (mv, ms) := by
          funext us
          simp only [proposeR, propose, if_neg (fun hn => h (hq.1 hn)), rbind, rpure]
          rcases proposePrune (t.merge c) us with e | ⟨mv, us'⟩ <;> rfl
        rw [h1, h2]
        exact trans_bind (proposePrune_merge hs hf) fun mv => trans_pure rfl

/-! ### the ratio -/

variable [MathFns K]

theorem negLog_fin (hl : FiniteLogs K) {m : Nat} (hm : 0 < m) : ∃ a, (negLog (m : Int) : Fl K) = .fin a := by
  obtain ⟨a, ha⟩ := hl m hm
  refine ⟨-a, ?_⟩
  simp only [negLog, Fl.ofInt, Fl.log, Int.cast_natCast, ha, Fl.neg]

/-- The probability of a cut is the same, or is finite with and without the copies. -/
theorem cutProbability_merge (hl : FiniteLogs K) (hk : 0 < k) (hc : EqualCopies c k) (rows : Fin n → Bool) (j : Fin p') (v : Fl K) :
    cutProbability (copied c X) rows j v = cutProbability X rows (c j) v ∨ ∃ a b, cutProbability (copied c X) rows j v = .fin a ∧ cutProbability X rows (c j) v = .fin b := by
  have hfr : frequency (copied c X) rows j v = frequency X rows (c j) v := rfl
  unfold cutProbability
  rw [hfr, columns_copied_length hc]
  rcases Nat.eq_zero_or_pos (columns X rows).length with h0 | h0
  · left; rw [h0, Nat.mul_zero]
  · obtain ⟨a, ha⟩ := negLog_fin hl (Nat.mul_pos hk h0)
    obtain ⟨b, hb⟩ := negLog_fin hl h0
    rw [ha, hb]
    cases Fl.log (frequency X rows (c j) v) with
    | nan => left; rfl
    | ninf => left; rfl
    | pinf => left; rfl
    | fin x => right; exact ⟨a + x, b + x, rfl, rfl⟩

theorem cancel_merge (hl : FiniteLogs K) (hk : 0 < k) (hc : EqualCopies c k) (rows : Fin n → Bool) (j : Fin p') (v : Fl K) :
    Fl.add (cutProbability (copied c X) rows j v) (Fl.neg (cutProbability (copied c X) rows j v)) = Fl.add (cutProbability X rows (c j) v) (Fl.neg (cutProbability X rows (c j) v)) := by
  rcases cutProbability_merge (X := X) hl hk hc rows j v with h | ⟨a, b, h1, h2⟩
  · rw [h]
  · rw [h1, h2]
    simp [Fl.add, Fl.neg]

theorem likelihood_merge (P : Params K) (y : Fin n → K) (rows : Fin n → Bool) (j : Fin p') (v : Fl K) : likelihood P X y rows (c j) v = likelihood P (copied c X) y rows j v := rfl

theorem ratio_merge (hl : FiniteLogs K) (hk : 0 < k) (hc : EqualCopies c k) (P : Params K) (pGrow pPrune : K) (y : Fin n → K) {t : RTree K p'} (hs : Sound t) (hf : Faithful c t) (mv : Move K p') :
    ratio P pGrow pPrune X y (t.merge c) (mv.merge c) = ratio P pGrow pPrune (copied c X) y t mv := by
  cases mv with
  | grow path j v =>
    simp only [ratio, Move.merge, splittable_merge hk hc, prunable_merge hs hf, List.length_map, rows_path_merge path 0 0, likelihood_merge]
    rw [grow_cancel, grow_cancel, cancel_merge hl hk hc]
  | prune path j v =>
    simp only [ratio, Move.merge, splittable_merge hk hc, prunable_merge hs hf, List.length_map, rows_path_merge path 0 0, likelihood_merge]
    rw [prune_cancel, prune_cancel, cancel_merge hl hk hc]

theorem leafValues_merge (P : Params K) (y : Fin n → K) (t : RTree K p') (zs : List K) :
    leafValues P X y (t.merge c) zs = match leafValues P (copied c X) y t zs with
      | .error e => .error e
      | .ok (t', zs') => .ok (t'.merge c, zs') := by
  induction t generalizing zs with
  | nil => rfl
  | cons nd t ih =>
    rcases nd with ⟨path, v | ⟨j, v⟩⟩
    · cases zs with
      | nil => rfl
      | cons z zs =>
        have ih' := ih zs
        simp only [RTree.merge] at ih' ⊢
        simp only [List.map_cons, RNode.merge, Content.merge, leafValues, rows_path_merge path v v]
        cases (Sampler.leafValue P (Fl.ofInt (count (RNode.rows (copied c X) ⟨path, .leaf v⟩))) (.fin (total y (RNode.rows (copied c X) ⟨path, .leaf v⟩))) (.fin z)).toFinite with
        | error e => rfl
        | ok w =>
          simp only [ih']
          rcases leafValues P (copied c X) y t zs with e | ⟨t', zs'⟩ <;> rfl
    · have ih' := ih zs
      simp only [RTree.merge] at ih' ⊢
      simp only [List.map_cons, RNode.merge, Content.merge, leafValues]
      simp only [ih']
      rcases leafValues P (copied c X) y t zs with e | ⟨t', zs'⟩ <;> rfl

/-! ### the trees that occur -/

/-- The leaves partition the rows, and merging the columns does not merge nodes. -/
def Fine (c : Fin p' → Fin p) (t : RTree K p') : Prop := Sound t ∧ Faithful c t

theorem fine_apply {X' : Fin n → Fin p' → Fl K} {t : RTree K p'} (h : Fine c t) {mv : Move K p'} (hm : IsProposed X' t mv) : Fine c (t.apply mv) := by
  cases mv with
  | grow path j v =>
    obtain ⟨w, hw, -⟩ := hm
    have hin := (List.mem_filter.1 hw).1
    exact ⟨sound_grow h.1 hin j v, faithful_grow h.1 h.2 hin j v⟩
  | prune path j v => exact ⟨sound_prune h.1 hm, faithful_prune h.2 (List.mem_filter.1 hm).1⟩

theorem fine_leafValues {X' : Fin n → Fin p' → Fl K} {t t' : RTree K p'} (h : Fine c t) {P : Params K} {y : Fin n → K} {zs zs' : List K} (hlv : leafValues P X' y t zs = .ok (t', zs')) : Fine c t' := by
  have hsame := leafValues_same P y hlv
  refine ⟨sound_same h.1 hsame, faithful_paths h.2 fun b hb => ?_⟩
  obtain ⟨i, hi, rfl⟩ := List.mem_iff_getElem.1 hb
  have hlen := hsame.length_eq
  have := (List.forall₂_iff_get.1 hsame).2 i (by omega) hi
  exact ⟨t[i]'(by omega), List.getElem_mem _, this.1.symm⟩

theorem fine_body {X' : Fin n → Fin p' → Fl K} {t t' : RTree K p'} (h : Fine c t) {P : Params K} {pGrow pPrune : K} {y : Fin n → K} {r r' : Rand K} {b : Bool}
    (hb : treeBody P pGrow pPrune X' y t r = .ok (b, t', r')) : Fine c t' := by
  unfold treeBody treeStep at hb
  rcases e1 : propose X' t r.picks r.methods with er | ⟨mv, us, ms⟩
  · rw [e1] at hb; cases hb
  · rw [e1] at hb
    have hm := propose_mem e1
    cases e2 : r.uniforms with
    | nil => rw [e2] at hb; cases hb
    | cons u rest =>
      rw [e2] at hb
      simp only at hb
      rcases e3 : leafValues P X' y (if Fl.lt (.fin u) (ratio P pGrow pPrune X' y t mv) then t.apply mv else t) r.normals with er | ⟨t2, zs⟩
      · rw [e3] at hb; cases hb
      · rw [e3] at hb
        simp only [Except.ok.injEq, Prod.mk.injEq] at hb
        rw [← hb.2.1]
        refine fine_leafValues ?_ e3
        split
        · exact fine_apply h hm
        · exact h

theorem fine_trees {X' : Fin n → Fin p' → Fl K} {P : Params K} {pGrow pPrune : K} {y : Fin n → K} : ∀ {todo done : List (RTree K p')} {r r' : Rand K} {bs : List Bool} {ts : List (RTree K p')},
    (∀ t ∈ done, Fine c t) → (∀ t ∈ todo, Fine c t) → sweepTrees P pGrow pPrune X' y done todo r = .ok (bs, ts, r') → ∀ t ∈ ts, Fine c t
  | [], done, r, r', bs, ts, hd, _, h => by
    simp only [sweepTrees, Except.ok.injEq, Prod.mk.injEq] at h
    rw [← h.2.1]; exact hd
  | t :: todo, done, r, r', bs, ts, hd, ht, h => by
    simp only [sweepTrees] at h
    rcases e1 : treeBody P pGrow pPrune X' (fun i => y i - forest (done ++ todo) (X' i)) t r with er | ⟨b, t1, r1⟩
    · rw [e1] at h; cases h
    · rw [e1] at h
      simp only at h
      rcases e2 : sweepTrees P pGrow pPrune X' y (done ++ [t1]) todo r1 with er | ⟨bs2, all, r2⟩
      · rw [e2] at h; cases h
      · rw [e2] at h
        simp only [Except.ok.injEq, Prod.mk.injEq] at h
        rw [← h.2.1]
        refine fine_trees ?_ (fun u hu => ht u (List.mem_cons_of_mem _ hu)) e2
        intro u hu
        rcases List.mem_append.1 hu with hu | hu
        · exact hd u hu
        · rw [List.mem_singleton.1 hu]
          exact fine_body (ht t List.mem_cons_self) e1

/-! ### the sweeps -/

/-- The result of the step for a tree with merged columns. -/
def mergeTree (c : Fin p' → Fin p) (q : (Bool × RTree K p') × Rand K) : (Bool × RTree K p) × Rand K := ((q.1.1, q.1.2.merge c), q.2)

theorem body_merge (hl : FiniteLogs K) (hk : 0 < k) (hc : EqualCopies c k) (P : Params K) (pGrow pPrune : K) (y : Fin n → K) {t : RTree K p'} (ht : Fine c t) (r : Rand K) :
    Trans (max n p') (mergeTree c) (onPicks (bodyPair P pGrow pPrune (copied c X) y t) r) (onPicks (bodyPair P pGrow pPrune X y (t.merge c)) r) := by
  rw [body_eq, body_eq]
  refine trans_bind_on (P := fun q => IsProposed (copied c X) t q.1) (proposeR_merge hk hc ht.1 ht.2 r.methods) ?_ fun q hq => ?_
  · intro us a rest h
    simp only [proposeR] at h
    rcases e : propose (copied c X) t us r.methods with er | ⟨mv, us', ms⟩
    · rw [e] at h; cases h
    · rw [e] at h
      simp only [Except.ok.injEq, Prod.mk.injEq] at h
      rw [← h.1]
      exact propose_mem e
  have h : afterPropose P pGrow pPrune X y (t.merge c) r (q.1.merge c, q.2) = match afterPropose P pGrow pPrune (copied c X) y t r q with
      | .error e => .error e
      | .ok a => .ok (mergeTree c a) := by
    simp only [afterPropose]
    cases r.uniforms with
    | nil => rfl
    | cons u uniforms =>
      simp only [ratio_merge hl hk hc P pGrow pPrune y ht.1 ht.2]
      have h1 : (if Fl.lt (.fin u) (ratio P pGrow pPrune (copied c X) y t q.1) then (t.merge c).apply (q.1.merge c) else t.merge c) =
          RTree.merge c (if Fl.lt (.fin u) (ratio P pGrow pPrune (copied c X) y t q.1) then t.apply q.1 else t) := by
        rw [apply_merge ht.2 hq]
        split <;> rfl
      rw [h1, leafValues_merge]
      rcases leafValues P (copied c X) y (if Fl.lt (.fin u) (ratio P pGrow pPrune (copied c X) y t q.1) then t.apply q.1 else t) r.normals with e | ⟨t2, zs⟩ <;> rfl
  rw [h]
  cases afterPropose P pGrow pPrune (copied c X) y t r q with
  | error e => exact trans_fail _
  | ok a => exact trans_pure rfl

theorem trees_merge (hl : FiniteLogs K) (hk : 0 < k) (hc : EqualCopies c k) (P : Params K) (pGrow pPrune : K) (y : Fin n → K) (done todo : List (RTree K p')) (hd : ∀ t ∈ done, Fine c t) (ht : ∀ t ∈ todo, Fine c t)
    (r : Rand K) : Trans (max n p') (fun q => ((q.1.1, q.1.2.map (RTree.merge c)), q.2)) (onPicks (treesPair P pGrow pPrune (copied c X) y done todo) r)
      (onPicks (treesPair P pGrow pPrune X y (done.map (RTree.merge c)) (todo.map (RTree.merge c))) r) := by
  induction todo generalizing done r with
  | nil =>
    have h : ∀ {p : Nat} (X : Fin n → Fin p → Fl K) (y : Fin n → K) done, onPicks (treesPair P pGrow pPrune X y done []) r = rpure (([], done), { r with picks := [] }) := fun _ _ _ => rfl
    rw [List.map_nil, h, h]
    exact trans_pure rfl
  | cons t ts ih =>
    have h : ∀ {p : Nat} (X : Fin n → Fin p → Fl K) (y : Fin n → K) done t ts, onPicks (treesPair P pGrow pPrune X y done (t :: ts)) r =
        rbind (onPicks (bodyPair P pGrow pPrune X (fun i => y i - forest (done ++ ts) (X i)) t) r) fun a =>
          rbind (onPicks (treesPair P pGrow pPrune X y (done ++ [a.1.2]) ts) a.2) fun b => rpure ((a.1.1 :: b.1.1, b.1.2), b.2) := by
      intro p X y done t ts
      funext us
      simp only [onPicks, treesPair, sweepTrees, bodyPair, rbind, rpure]
      rcases treeBody P pGrow pPrune X (fun i => y i - forest (done ++ ts) (X i)) t { r with picks := us } with e | ⟨b, t1, r1⟩
      · rfl
      · simp only
        rcases sweepTrees P pGrow pPrune X y (done ++ [t1]) ts r1 with e | ⟨bs, all, r2⟩ <;> rfl
    rw [List.map_cons, h, h]
    have hy : (fun i => y i - forest (done.map (RTree.merge c) ++ ts.map (RTree.merge c)) (X i)) = fun i => y i - forest (done ++ ts) (copied c X i) := by
      funext i
      rw [← List.map_append, forest_merge]
      rfl
    rw [hy]
    have htt := ht t List.mem_cons_self
    refine trans_bind_on (P := fun a => Fine c a.1.2) (body_merge hl hk hc P pGrow pPrune _ htt r) ?_ fun a ha => ?_
    · intro us a rest e
      simp only [onPicks, bodyPair] at e
      rcases e1 : treeBody P pGrow pPrune (copied c X) (fun i => y i - forest (done ++ ts) (copied c X i)) t { r with picks := us } with er | ⟨b, t1, r1⟩
      · rw [e1] at e; cases e
      · rw [e1] at e
        simp only [Except.ok.injEq, Prod.mk.injEq] at e
        rw [← e.1]
        exact fine_body htt e1
    have ih' := ih (done ++ [a.1.2]) (fun u hu => by
      rcases List.mem_append.1 hu with hu | hu
      · exact hd u hu
      · rw [List.mem_singleton.1 hu]; exact ha) (fun u hu => ht u (List.mem_cons_of_mem _ hu)) a.2
    rw [List.map_append, List.map_singleton] at ih'
    exact trans_bind ih' fun b => trans_pure rfl

theorem sigmaStep_merge (s : Settings K) (y : Fin n → K) (ts : List (RTree K p')) (gs : List K) : sigmaStep s X y (ts.map (RTree.merge c)) gs = sigmaStep s (copied c X) y ts gs := by
  unfold sigmaStep
  simp only [forest_merge]
  rfl

theorem sweep_merge (hl : FiniteLogs K) (hk : 0 < k) (hc : EqualCopies c k) (s : Settings K) (y : Fin n → K) (st : State K p') (hst : ∀ t ∈ st.trees, Fine c t) (r : Rand K) :
    Trans (max n p') (fun q => ((q.1.1, q.1.2.merge c), q.2)) (onPicks (sweepPair s (copied c X) y st) r) (onPicks (sweepPair s X y (st.merge c)) r) := by
  have h : ∀ {p : Nat} (X : Fin n → Fin p → Fl K) (y : Fin n → K) st, onPicks (sweepPair s X y st) r =
      rbind (onPicks (treesPair (s.params st.sigma) s.pGrow s.pPrune X y [] st.trees) r) fun a => match sigmaStep s X y a.1.2 a.2.gammas with
        | .error e => rfail e
        | .ok (v, gs) => rpure ((a.1.1, ⟨a.1.2, v⟩), { a.2 with gammas := gs }) := by
    intro p X y st
    funext us
    simp only [onPicks, sweepPair, sweep, treesPair, rbind]
    rcases sweepTrees (s.params st.sigma) s.pGrow s.pPrune X y [] st.trees { r with picks := us } with e | ⟨bs, ts, r1⟩
    · rfl
    · simp only
      rcases sigmaStep s X y ts r1.gammas with e | ⟨v, gs⟩ <;> rfl
  rw [h, h]
  refine trans_bind (trees_merge hl hk hc (s.params st.sigma) s.pGrow s.pPrune y [] st.trees (fun t ht => by cases ht) hst r) fun a => ?_
  simp only [sigmaStep_merge]
  rcases sigmaStep s (copied c X) y a.1.2 a.2.gammas with e | ⟨v, gs⟩
  · exact trans_fail _
  · exact trans_pure rfl

theorem sweeps_merge (hl : FiniteLogs K) (hk : 0 < k) (hc : EqualCopies c k) (s : Settings K) (y : Fin n → K) (m : Nat) (st : State K p') (hst : ∀ t ∈ st.trees, Fine c t) (r : Rand K) :
    Trans (max n p') (fun q => ((q.1.1.map (fun a => (a.1, a.2.merge c)), q.1.2.merge c), q.2)) (onPicks (sweepsPair s (copied c X) y m st) r) (onPicks (sweepsPair s X y m (st.merge c)) r) := by
  induction m generalizing st r with
  | zero =>
    have h : ∀ {p : Nat} (X : Fin n → Fin p → Fl K) (y : Fin n → K) st, onPicks (sweepsPair s X y 0 st) r = rpure (([], st), { r with picks := [] }) := fun _ _ _ => rfl
    rw [h, h]
    exact trans_pure rfl
  | succ m ih =>
    have h : ∀ {p : Nat} (X : Fin n → Fin p → Fl K) (y : Fin n → K) st, onPicks (sweepsPair s X y (m + 1) st) r =
        rbind (onPicks (sweepPair s X y st) r) fun a => rbind (onPicks (sweepsPair s X y m a.1.2) a.2) fun b => rpure ((a.1 :: b.1.1, b.1.2), b.2) := by
      intro p X y st
      funext us
      simp only [onPicks, sweepsPair, sweeps, sweepPair, rbind, rpure]
      rcases sweep s X y st { r with picks := us } with e | ⟨bs, s1, r1⟩
      · rfl
      · simp only
        rcases sweeps s X y m s1 r1 with e | ⟨l, s2, r2⟩ <;> rfl
    rw [h, h]
    refine trans_bind_on (P := fun a => ∀ t ∈ a.1.2.trees, Fine c t) (sweep_merge hl hk hc s y st hst r) ?_ fun a ha => trans_bind (ih a.1.2 ha a.2) fun b => trans_pure rfl
    intro us a rest e
    simp only [onPicks, sweepPair, sweep] at e
    rcases e1 : sweepTrees (s.params st.sigma) s.pGrow s.pPrune (copied c X) y [] st.trees { r with picks := us } with er | ⟨bs, ts, r1⟩
    · rw [e1] at e; cases e
    · rw [e1] at e
      simp only at e
      rcases e2 : sigmaStep s (copied c X) y ts r1.gammas with er | ⟨v, gs⟩
      · rw [e2] at e; cases e
      · rw [e2] at e
        simp only [Except.ok.injEq, Prod.mk.injEq] at e
        rw [← e.1]
        exact fine_trees (fun t ht => by cases ht) hst e1

end Bart.Reference
