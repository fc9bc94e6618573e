import Verif.Proofs.LayerPerm
import Verif.Proofs.RefCopy

/-! The reference sampler with layers on data in which every column is present several times. -/

set_option linter.unusedSectionVars false

namespace Bart.Layers
open Spec Reference Translate
variable {K : Type} [Field K] [LinearOrder K] {n p p' : Nat}

/-- What became of a leaf, with the column of which the given one is a copy. -/
def Rule.merge (c : Fin p' → Fin p) (r : Rule K p') : Rule K p := r.map (fun q => (c q.1, q.2))

/-- The growths with the columns of which the given ones are copies. -/
abbrev mergeLayers (c : Fin p' → Fin p) (L : List (List (Rule K p'))) : List (List (Rule K p)) := L.map (List.map (Rule.merge c))

/-- The tree with the columns of which the given ones are copies. -/
def LTree.merge (c : Fin p' → Fin p) (t : LTree K p') : LTree K p := ⟨mergeLayers c t.layers, t.values⟩

/-- The state with the columns of which the given ones are copies. -/
def State.merge (c : Fin p' → Fin p) (s : State K p') : State K p := ⟨s.trees.map (LTree.merge c), s.sigma⟩

/-- The comparisons with the columns of which the given ones are copies. -/
abbrev mergePath (c : Fin p' → Fin p) (path : List (Cond K p')) : List (Cond K p) := path.map (Cond.merge c)

section
variable {c : Fin p' → Fin p} {X : Fin n → Fin p → Fl K} {k : Nat}

theorem expand_merge (path : List (Cond K p')) (r : Rule K p') : expand (mergePath c path) (r.merge c) = (expand path r).map (mergePath c) := by
  cases r with
  | none => rfl
  | some q => simp [expand, Rule.merge, mergePath, Cond.merge]

theorem paths_merge (L : List (List (Rule K p'))) : paths (mergeLayers c L) = (paths L).map (mergePath c) := by
  induction L with
  | nil => rfl
  | cons rules rest ih =>
    rw [mergeLayers, List.map_cons]
    unfold paths
    rw [ih, List.map_flatten]
    congr 1
    rw [List.zipWith_map, List.map_zipWith]
    congr 1
    funext a b
    exact expand_merge a b

theorem meets_merge (path : List (Cond K p')) (x : Fin p → Fl K) : meets (mergePath c path) x = meets path (fun j => x (c j)) := by
  unfold meets mergePath
  rw [List.all_map]
  rfl

theorem rowsOn_merge (path : List (Cond K p')) : rowsOn X (mergePath c path) = rowsOn (copied c X) path := by
  funext i
  exact meets_merge path (X i)

theorem ltree_value_merge (t : LTree K p') (x : Fin p → Fl K) : (t.merge c).value x = t.value (fun j => x (c j)) := by
  unfold LTree.value LTree.merge
  simp only [paths_merge]
  rw [List.zip_map_left, List.filter_map, List.getLast?_map]
  have h : (fun q : List (Cond K p) × K => meets q.1 x) ∘ Prod.map (mergePath c) id = fun q => meets q.1 (fun j => x (c j)) := by
    funext q
    exact meets_merge q.1 x
  rw [h]
  cases (((paths t.layers).zip t.values).filter (fun q => meets q.1 (fun j => x (c j)))).getLast? <;> rfl

theorem layer_forest_merge (ts : List (LTree K p')) (x : Fin p → Fl K) : forest (ts.map (LTree.merge c)) x = forest ts (fun j => x (c j)) := by
  unfold forest
  rw [List.map_map]
  congr 2
  funext t
  exact ltree_value_merge t x

theorem counted_merge (path : List (Cond K p')) (r : Rule K p') : counted (mergePath c path) (r.merge c) = (counted path r).map (fun q => (c q.1, q.2)) := by
  cases r with
  | some q => rfl
  | none =>
    simp only [counted, Rule.merge, Option.map_none, List.getLast?_map, Option.map_map, mergePath]
    congr 1

theorem growRule_merge (hk : 0 < k) (hc : EqualCopies c k) (path : List (Cond K p')) :
    Trans (max n p') (Rule.merge c) (growRule (copied c X) path) (growRule X (mergePath c path)) := by
  rw [growRule_eq, growRule_eq, rowsOn_merge]
  have he : columns X (rowsOn (copied c X) path) = [] ↔ columns (copied c X) (rowsOn (copied c X) path) = [] := by
    rw [← List.length_eq_zero_iff, ← List.length_eq_zero_iff, columns_copied_length hc, Nat.mul_eq_zero]
    exact ⟨Or.inr, fun h => h.resolve_left hk.ne'⟩
  by_cases h : columns (copied c X) (rowsOn (copied c X) path) = []
  · rw [if_pos h, if_pos (he.2 h)]
    exact trans_pure rfl
  · rw [if_neg h, if_neg (fun hn => h (he.1 hn))]
    refine trans_bind (trans_pick_copies hk (columns_copied hc _) ?_) fun j => ?_
    · refine le_trans (List.length_filter_le _ _) ?_
      simp
    refine trans_bind (e := id) (trans_pickUntil (by simp [column_copied]) ?_ fun v _ => rfl) fun v => trans_pure rfl
    unfold column
    rw [List.length_map]
    refine le_trans (List.length_filter_le _ _) ?_
    simp

theorem growRules_merge (hk : 0 < k) (hc : EqualCopies c k) (ps : List (List (Cond K p'))) :
    Trans (max n p') (List.map (Rule.merge c)) (growRules (copied c X) ps) (growRules X (ps.map (mergePath c))) := by
  induction ps with
  | nil => exact trans_pure rfl
  | cons path ps ih =>
    rw [List.map_cons, growRules_cons, growRules_cons]
    exact trans_bind (growRule_merge hk hc path) fun r => trans_bind ih fun l => trans_pure rfl

variable [MathFns K]

theorem likelihoodOf_merge (P : Params K) (y : Fin n → K) (path : List (Cond K p')) (r : Rule K p') :
    likelihoodOf P X y (mergePath c path) (r.merge c) = likelihoodOf P (copied c X) y path r := by
  cases r with
  | some q => simp only [likelihoodOf, Rule.merge, Option.map_some, rowsOn_merge]; rfl
  | none => simp only [likelihoodOf, Rule.merge, Option.map_none, rowsOn_merge]

theorem growTerm_merge (P : Params K) (pGrow pPrune : K) (y : Fin n → K) (d : Nat) (path : List (Cond K p')) (r : Rule K p') :
    growTerm P pGrow pPrune X y d (mergePath c path) (r.merge c) = growTerm P pGrow pPrune (copied c X) y d path r := by
  unfold growTerm
  rw [counted_merge]
  cases counted path r with
  | none => rfl
  | some q => simp only [Option.map_some, rowsOn_merge, likelihoodOf_merge]; rfl

theorem pruneTerm_merge (P : Params K) (pGrow pPrune : K) (y : Fin n → K) (d : Nat) (path : List (Cond K p')) (r : Rule K p') :
    pruneTerm P pGrow pPrune X y d (mergePath c path) (r.merge c) = pruneTerm P pGrow pPrune (copied c X) y d path r := by
  unfold pruneTerm
  rw [counted_merge]
  cases counted path r with
  | none => rfl
  | some q => simp only [Option.map_some, rowsOn_merge, likelihoodOf_merge]; rfl

theorem proposeL_merge (hk : 0 < k) (hc : EqualCopies c k) (P : Params K) (pGrow pPrune : K) (y : Fin n → K) (L : List (List (Rule K p'))) (me : Method) :
    Trans (max n p') (fun q => (mergeLayers c q.1, q.2)) (proposeL P pGrow pPrune (copied c X) y L me) (proposeL P pGrow pPrune X y (mergeLayers c L) me) := by
  cases me with
  | grow =>
    rw [proposeL_grow, proposeL_grow, paths_merge]
    refine trans_bind (growRules_merge hk hc (paths L)) fun rules => ?_
    have h : List.zipWith (growTerm P pGrow pPrune X y (mergeLayers c L).length) ((paths L).map (mergePath c)) (rules.map (Rule.merge c)) =
        List.zipWith (growTerm P pGrow pPrune (copied c X) y L.length) (paths L) rules := by
      rw [List.zipWith_map, List.length_map]
      congr 1
      funext a b
      exact growTerm_merge P pGrow pPrune y L.length a b
    rw [h]
    cases sumTerms (List.zipWith (growTerm P pGrow pPrune (copied c X) y L.length) (paths L) rules) with
    | error e => exact trans_fail _
    | ok ratio => exact trans_pure rfl
  | prune =>
    cases L with
    | nil => exact trans_pure (a := (([], .fin 0) : List (List (Rule K p')) × Fl K)) rfl
    | cons rules rest =>
      have h : List.zipWith (pruneTerm P pGrow pPrune X y (mergeLayers c rest).length) (paths (mergeLayers c rest)) (rules.map (Rule.merge c)) =
          List.zipWith (pruneTerm P pGrow pPrune (copied c X) y rest.length) (paths rest) rules := by
        rw [paths_merge, List.zipWith_map, List.length_map]
        congr 1
        funext a b
        exact pruneTerm_merge P pGrow pPrune y rest.length a b
      have e1 : ∀ {p : Nat} (X : Fin n → Fin p → Fl K) (y : Fin n → K) rules rest, proposeL P pGrow pPrune X y (rules :: rest) .prune =
          match sumTerms (List.zipWith (pruneTerm P pGrow pPrune X y rest.length) (paths rest) rules) with
          | .error e => rfail e
          | .ok ratio => rpure (rest, ratio) := by
        intro p X y rules rest
        funext us
        simp only [proposeL, propose]
        cases sumTerms (List.zipWith (pruneTerm P pGrow pPrune X y rest.length) (paths rest) rules) <;> rfl
      rw [show mergeLayers c (rules :: rest) = rules.map (Rule.merge c) :: mergeLayers c rest from rfl, e1, e1, h]
      cases sumTerms (List.zipWith (pruneTerm P pGrow pPrune (copied c X) y rest.length) (paths rest) rules) with
      | error e => exact trans_fail _
      | ok ratio => exact trans_pure rfl

theorem leafValues_merge (P : Params K) (y : Fin n → K) (ps : List (List (Cond K p'))) (zs : List K) :
    leafValues P X y (ps.map (mergePath c)) zs = leafValues P (copied c X) y ps zs := by
  induction ps generalizing zs with
  | nil => rfl
  | cons path ps ih =>
    cases zs with
    | nil => rfl
    | cons z zs => simp only [List.map_cons, leafValues, rowsOn_merge, ih]

/-- The result of the step for a tree with the columns of which the given ones are copies. -/
def mergeTree (c : Fin p' → Fin p) (q : (Bool × LTree K p') × Rand K) : (Bool × LTree K p) × Rand K := ((q.1.1, q.1.2.merge c), q.2)

theorem body_merge (hk : 0 < k) (hc : EqualCopies c k) (P : Params K) (pGrow pPrune : K) (y : Fin n → K) (t : LTree K p') (r : Rand K) :
    Trans (max n p') (mergeTree c) (onPicks (bodyPair P pGrow pPrune (copied c X) y t) r) (onPicks (bodyPair P pGrow pPrune X y (t.merge c)) r) := by
  rw [body_eq, body_eq]
  cases r.methods with
  | nil => exact trans_fail _
  | cons me ms =>
    refine trans_bind (proposeL_merge hk hc P pGrow pPrune y t.layers me) fun q => ?_
    have h : afterPropose P X y (t.merge c) r ms (mergeLayers c q.1, q.2) = match afterPropose P (copied c X) y t r ms q with
        | .error e => .error e
        | .ok a => .ok (mergeTree c a) := by
      simp only [afterPropose]
      cases r.uniforms with
      | nil => rfl
      | cons u uniforms =>
        have h1 : (if Fl.lt (.fin u) q.2 then mergeLayers c q.1 else (t.merge c).layers) = mergeLayers c (if Fl.lt (.fin u) q.2 then q.1 else t.layers) := by
          split <;> rfl
        simp only [h1, paths_merge, leafValues_merge]
        rcases leafValues P (copied c X) y (paths (if Fl.lt (.fin u) q.2 then q.1 else t.layers)) r.normals with e | ⟨vs, zs⟩ <;> rfl
    rw [h]
    cases afterPropose P (copied c X) y t r ms q with
    | error e => exact trans_fail _
    | ok a => exact trans_pure rfl

theorem trees_merge (hk : 0 < k) (hc : EqualCopies c k) (P : Params K) (pGrow pPrune : K) (y : Fin n → K) (done todo : List (LTree K p')) (r : Rand K) :
    Trans (max n p') (fun q => ((q.1.1, q.1.2.map (LTree.merge c)), q.2)) (onPicks (treesPair P pGrow pPrune (copied c X) y done todo) r)
      (onPicks (treesPair P pGrow pPrune X y (done.map (LTree.merge c)) (todo.map (LTree.merge c))) r) := by
  induction todo generalizing done r with
  | nil =>
    have h : ∀ {p : Nat} (X : Fin n → Fin p → Fl K) (y : Fin n → K) done, onPicks (treesPair P pGrow pPrune X y done []) r = rpure (([], done), { r with picks := [] }) := fun _ _ _ => rfl
    rw [List.map_nil, h, h]
    exact trans_pure rfl
  | cons t ts ih =>
    have h : ∀ {p : Nat} (X : Fin n → Fin p → Fl K) (y : Fin n → K) done t ts, onPicks (treesPair P pGrow pPrune X y done (t :: ts)) r =
        rbind (onPicks (bodyPair P pGrow pPrune X (fun i => y i - forest (done ++ ts) (X i)) t) r) fun a =>
          rbind (onPicks (treesPair P pGrow pPrune X y (done ++ [a.1.2]) ts) a.2) fun b => rpure ((a.1.1 :: b.1.1, b.1.2), b.2) := by
      intro p X y done t ts
      funext us
      simp only [onPicks, treesPair, sweepTrees, bodyPair, rbind, rpure]
      rcases treeBody P pGrow pPrune X (fun i => y i - forest (done ++ ts) (X i)) t { r with picks := us } with e | ⟨b, t1, r1⟩
      · rfl
      · simp only
        rcases sweepTrees P pGrow pPrune X y (done ++ [t1]) ts r1 with e | ⟨bs, all, r2⟩ <;> rfl
    rw [List.map_cons, h, h]
    have hy : (fun i => y i - forest (done.map (LTree.merge c) ++ ts.map (LTree.merge c)) (X i)) = fun i => y i - forest (done ++ ts) (copied c X i) := by
      funext i
      rw [← List.map_append, layer_forest_merge]
      rfl
    rw [hy]
    refine trans_bind (body_merge hk hc P pGrow pPrune _ t r) fun a => ?_
    have ih' := ih (done ++ [a.1.2]) a.2
    rw [List.map_append, List.map_singleton] at ih'
    exact trans_bind ih' fun b => trans_pure rfl

theorem sigmaStep_merge (s : Settings K) (y : Fin n → K) (ts : List (LTree K p')) (gs : List K) : sigmaStep s X y (ts.map (LTree.merge c)) gs = sigmaStep s (copied c X) y ts gs := by
  unfold sigmaStep
  simp only [layer_forest_merge]
  rfl

theorem sweep_merge (hk : 0 < k) (hc : EqualCopies c k) (s : Settings K) (y : Fin n → K) (st : State K p') (r : Rand K) :
    Trans (max n p') (fun q => ((q.1.1, q.1.2.merge c), q.2)) (onPicks (sweepPair s (copied c X) y st) r) (onPicks (sweepPair s X y (st.merge c)) r) := by
  have h : ∀ {p : Nat} (X : Fin n → Fin p → Fl K) (y : Fin n → K) st, onPicks (sweepPair s X y st) r =
      rbind (onPicks (treesPair (s.params st.sigma) s.pGrow s.pPrune X y [] st.trees) r) fun a => match sigmaStep s X y a.1.2 a.2.gammas with
        | .error e => rfail e
        | .ok (v, gs) => rpure ((a.1.1, ⟨a.1.2, v⟩), { a.2 with gammas := gs }) := by
    intro p X y st
    funext us
    simp only [onPicks, sweepPair, sweep, treesPair, rbind]
    rcases sweepTrees (s.params st.sigma) s.pGrow s.pPrune X y [] st.trees { r with picks := us } with e | ⟨bs, ts, r1⟩
    · rfl
    · simp only
      rcases sigmaStep s X y ts r1.gammas with e | ⟨v, gs⟩ <;> rfl
  rw [h, h]
  refine trans_bind (trees_merge hk hc (s.params st.sigma) s.pGrow s.pPrune y [] st.trees r) fun a => ?_
  simp only [sigmaStep_merge]
  rcases sigmaStep s (copied c X) y a.1.2 a.2.gammas with e | ⟨v, gs⟩
  · exact trans_fail _
  · exact trans_pure rfl

theorem sweeps_merge (hk : 0 < k) (hc : EqualCopies c k) (s : Settings K) (y : Fin n → K) (m : Nat) (st : State K p') (r : Rand K) :
    Trans (max n p') (fun q => ((q.1.1.map (fun a => (a.1, a.2.merge c)), q.1.2.merge c), q.2)) (onPicks (sweepsPair s (copied c X) y m st) r) (onPicks (sweepsPair s X y m (st.merge c)) r) := by
  induction m generalizing st r with
  | zero =>
    have h : ∀ {p : Nat} (X : Fin n → Fin p → Fl K) (y : Fin n → K) st, onPicks (sweepsPair s X y 0 st) r = rpure (([], st), { r with picks := [] }) := fun _ _ _ => rfl
    rw [h, h]
    exact trans_pure rfl
  | succ m ih =>
    have h : ∀ {p : Nat} (X : Fin n → Fin p → Fl K) (y : Fin n → K) st, onPicks (sweepsPair s X y (m + 1) st) r =
        rbind (onPicks (sweepPair s X y st) r) fun a => rbind (onPicks (sweepsPair s X y m a.1.2) a.2) fun b => rpure ((a.1 :: b.1.1, b.1.2), b.2) := by
      intro p X y st
      funext us
      simp only [onPicks, sweepsPair, sweeps, sweepPair, rbind, rpure]
      rcases sweep s X y st { r with picks := us } with e | ⟨bs, s1, r1⟩
      · rfl
      · simp only
        rcases sweeps s X y m s1 r1 with e | ⟨l, s2, r2⟩ <;> rfl
    rw [h, h]
    exact trans_bind (sweep_merge hk hc s y st r) fun a => trans_bind (ih a.1.2 a.2) fun b => trans_pure rfl

end
end Bart.Layers
