import Verif.Spec.Layers
import Verif.Proofs.RefPerm

/-! The reference sampler with layers on data with rearranged rows and columns. -/

set_option linter.unusedSectionVars false

namespace Bart.Layers
open Spec Reference Translate
variable {K : Type} [Field K] [LinearOrder K] {n p : Nat}

/-- What became of a leaf, with the new number of the column. -/
def Rule.relabel (σ : Equiv.Perm (Fin p)) (r : Rule K p) : Rule K p := r.map (fun q => (σ.symm q.1, q.2))

/-- The tree with the new numbers of the columns. -/
def LTree.relabel (σ : Equiv.Perm (Fin p)) (t : LTree K p) : LTree K p := ⟨t.layers.map (List.map (Rule.relabel σ)), t.values⟩

/-- The state with the new numbers of the columns. -/
def State.relabel (σ : Equiv.Perm (Fin p)) (s : State K p) : State K p := ⟨s.trees.map (LTree.relabel σ), s.sigma⟩

/-- The comparisons with the new numbers of the columns. -/
abbrev relPath (σ : Equiv.Perm (Fin p)) (path : List (Cond K p)) : List (Cond K p) := path.map (Cond.relabel σ)

section
variable {ρ : Equiv.Perm (Fin n)} {σ : Equiv.Perm (Fin p)} {X : Fin n → Fin p → Fl K}

theorem expand_relabel (path : List (Cond K p)) (r : Rule K p) : expand (relPath σ path) (r.relabel σ) = (expand path r).map (relPath σ) := by
  cases r with
  | none => rfl
  | some q => simp [expand, Rule.relabel, relPath, Cond.relabel]

theorem paths_relabel (L : List (List (Rule K p))) : paths (L.map (List.map (Rule.relabel σ))) = (paths L).map (relPath σ) := by
  induction L with
  | nil => rfl
  | cons rules rest ih =>
    rw [List.map_cons]
    unfold paths
    rw [ih, List.map_flatten]
    congr 1
    rw [List.zipWith_map, List.map_zipWith]
    congr 1
    funext a b
    exact expand_relabel a b

theorem meets_relabel (path : List (Cond K p)) (x : Fin p → Fl K) : meets (relPath σ path) (fun j => x (σ j)) = meets path x := by
  unfold meets relPath
  rw [List.all_map]
  congr 1
  funext c
  exact holds_relabel c x

theorem rowsOn_relabel (path : List (Cond K p)) : rowsOn (reorder ρ σ X) (relPath σ path) = rowsOn X path ∘ ρ := by
  funext i
  exact meets_relabel path (X (ρ i))

theorem ltree_value_relabel (t : LTree K p) (x : Fin p → Fl K) : (t.relabel σ).value (fun j => x (σ j)) = t.value x := by
  unfold LTree.value LTree.relabel
  simp only [paths_relabel]
  rw [List.zip_map_left, List.filter_map, List.getLast?_map]
  have h : (fun q : List (Cond K p) × K => meets q.1 (fun j => x (σ j))) ∘ Prod.map (relPath σ) id = fun q => meets q.1 x := by
    funext q
    exact meets_relabel q.1 x
  rw [h]
  cases (((paths t.layers).zip t.values).filter (fun q => meets q.1 x)).getLast? <;> rfl

theorem layer_forest_relabel (ts : List (LTree K p)) (x : Fin p → Fl K) : forest (ts.map (LTree.relabel σ)) (fun j => x (σ j)) = forest ts x := by
  unfold forest
  rw [List.map_map]
  congr 2
  funext t
  exact ltree_value_relabel t x

theorem counted_relabel (path : List (Cond K p)) (r : Rule K p) : counted (relPath σ path) (r.relabel σ) = (counted path r).map (fun q => (σ.symm q.1, q.2)) := by
  cases r with
  | some q => rfl
  | none =>
    simp only [counted, Rule.relabel, Option.map_none, List.getLast?_map, Option.map_map, relPath]
    congr 1

theorem growRule_eq (path : List (Cond K p)) :
    growRule X path = if columns X (rowsOn X path) = [] then rpure none else
      rbind (pick (columns X (rowsOn X path))) fun j =>
        rbind (pickUntil (column X (rowsOn X path) j) fun v => (column X (rowsOn X path) j).any fun m => Fl.lt v m) fun v => rpure (some (j, v)) := by
  have hd : ∀ (col : List (Fl K)) us, drawCut col us = pickUntil col (fun v => col.any fun m => Fl.lt v m) us := by
    intro col us
    induction us with
    | nil => rfl
    | cons u us ih =>
      unfold drawCut pickUntil
      rw [ih]
      cases choice col u <;> rfl
  funext us
  unfold growRule
  by_cases h : columns X (rowsOn X path) = []
  · rw [if_pos h, if_pos h]; rfl
  · rw [if_neg h, if_neg h]
    cases us with
    | nil => rfl
    | cons u us =>
      simp only [rbind, pick]
      cases choice (columns X (rowsOn X path)) u with
      | error e => rfl
      | ok j =>
        simp only [hd]
        cases pickUntil (column X (rowsOn X path) j) (fun v => (column X (rowsOn X path) j).any fun m => Fl.lt v m) us with
        | error e => rfl
        | ok q => rfl

theorem growRules_cons (path : List (Cond K p)) (ps : List (List (Cond K p))) :
    growRules X (path :: ps) = rbind (growRule X path) fun r => rbind (growRules X ps) fun l => rpure (r :: l) := by
  funext us
  simp only [growRules, rbind, rpure]
  rcases growRule X path us with e | ⟨r, us1⟩
  · rfl
  · simp only
    rcases growRules X ps us1 with e | ⟨l, us2⟩ <;> rfl

end

section
variable {ρ : Equiv.Perm (Fin n)} {σ : Equiv.Perm (Fin p)} {X : Fin n → Fin p → Fl K} (hX : SameColumns ρ σ X)
include hX

theorem growRule_trans (path : List (Cond K p)) : Trans (max n p) (Rule.relabel σ) (growRule X path) (growRule (reorder ρ σ X) (relPath σ path)) := by
  rw [growRule_eq, growRule_eq, rowsOn_relabel]
  have he : columns (reorder ρ σ X) (rowsOn X path ∘ ρ) = [] ↔ columns X (rowsOn X path) = [] := by
    rw [← List.isEmpty_iff, ← List.isEmpty_iff, columns_isEmpty hX]
  by_cases h : columns X (rowsOn X path) = []
  · rw [if_pos h, if_pos (he.2 h)]
    exact trans_pure rfl
  · rw [if_neg h, if_neg (fun hc => h (he.1 hc))]
    refine trans_bind (trans_pick (hX _) ?_) fun j => ?_
    · refine le_trans (List.length_filter_le _ _) ?_
      simp
    have hpm := (column_reorder (ρ := ρ) (σ := σ) (X := X) (rowsOn X path) j).symm
    refine trans_bind (e := id) (trans_pickUntil (by simpa using hpm) ?_ fun v _ => ?_) fun v => trans_pure rfl
    · unfold column
      rw [List.length_map]
      refine le_trans (List.length_filter_le _ _) ?_
      simp
    · rw [Bool.eq_iff_iff, List.any_eq_true, List.any_eq_true]
      simp only [id, hpm.mem_iff]

theorem growRules_trans (ps : List (List (Cond K p))) :
    Trans (max n p) (List.map (Rule.relabel σ)) (growRules X ps) (growRules (reorder ρ σ X) (ps.map (relPath σ))) := by
  induction ps with
  | nil => exact trans_pure rfl
  | cons path ps ih =>
    rw [List.map_cons, growRules_cons, growRules_cons]
    exact trans_bind (growRule_trans hX path) fun r => trans_bind ih fun l => trans_pure rfl

variable [MathFns K]

omit hX in
theorem likelihoodOf_relabel (P : Params K) (y : Fin n → K) (path : List (Cond K p)) (r : Rule K p) :
    likelihoodOf P (reorder ρ σ X) (y ∘ ρ) (relPath σ path) (r.relabel σ) = likelihoodOf P X y path r := by
  cases r with
  | some q => simp only [likelihoodOf, Rule.relabel, Option.map_some, rowsOn_relabel, likelihood_reorder]
  | none => simp only [likelihoodOf, Rule.relabel, Option.map_none, rowsOn_relabel, count_reorder, total_reorder]

omit hX in
theorem growTerm_relabel (P : Params K) (pGrow pPrune : K) (y : Fin n → K) (d : Nat) (path : List (Cond K p)) (r : Rule K p) :
    growTerm P pGrow pPrune (reorder ρ σ X) (y ∘ ρ) d (relPath σ path) (r.relabel σ) = growTerm P pGrow pPrune X y d path r := by
  unfold growTerm
  rw [counted_relabel]
  cases counted path r with
  | none => rfl
  | some q => simp only [Option.map_some, rowsOn_relabel, frequency_reorder, likelihoodOf_relabel]

omit hX in
theorem pruneTerm_relabel (P : Params K) (pGrow pPrune : K) (y : Fin n → K) (d : Nat) (path : List (Cond K p)) (r : Rule K p) :
    pruneTerm P pGrow pPrune (reorder ρ σ X) (y ∘ ρ) d (relPath σ path) (r.relabel σ) = pruneTerm P pGrow pPrune X y d path r := by
  unfold pruneTerm
  rw [counted_relabel]
  cases counted path r with
  | none => rfl
  | some q => simp only [Option.map_some, rowsOn_relabel, frequency_reorder, likelihoodOf_relabel]

/-- The growths with the new numbers of the columns. -/
abbrev relLayers (σ : Equiv.Perm (Fin p)) (L : List (List (Rule K p))) : List (List (Rule K p)) := L.map (List.map (Rule.relabel σ))

/-- `propose` with its result as a pair of the result and the remaining picks. -/
def proposeL (P : Params K) (pGrow pPrune : K) (X : Fin n → Fin p → Fl K) (y : Fin n → K) (L : List (List (Rule K p))) (me : Method) : Reader (List (List (Rule K p)) × Fl K) := fun us =>
  match propose P pGrow pPrune X y L me us with
  | .error e => .error e
  | .ok (L', ratio, us') => .ok ((L', ratio), us')

omit hX in
theorem proposeL_grow (P : Params K) (pGrow pPrune : K) (X : Fin n → Fin p → Fl K) (y : Fin n → K) (L : List (List (Rule K p))) :
    proposeL P pGrow pPrune X y L .grow = rbind (growRules X (paths L)) fun rules => match sumTerms (List.zipWith (growTerm P pGrow pPrune X y L.length) (paths L) rules) with
      | .error e => rfail e
      | .ok ratio => rpure (rules :: L, ratio) := by
  funext us
  simp only [proposeL, propose, rbind]
  rcases growRules X (paths L) us with e | ⟨rules, us1⟩
  · rfl
  · simp only
    cases sumTerms (List.zipWith (growTerm P pGrow pPrune X y L.length) (paths L) rules) <;> rfl

theorem proposeL_trans (P : Params K) (pGrow pPrune : K) (y : Fin n → K) (L : List (List (Rule K p))) (me : Method) :
    Trans (max n p) (fun q => (relLayers σ q.1, q.2)) (proposeL P pGrow pPrune X y L me) (proposeL P pGrow pPrune (reorder ρ σ X) (y ∘ ρ) (relLayers σ L) me) := by
  cases me with
  | grow =>
    rw [proposeL_grow, proposeL_grow, paths_relabel]
    refine trans_bind (growRules_trans hX (paths L)) fun rules => ?_
    have h : List.zipWith (growTerm P pGrow pPrune (reorder ρ σ X) (y ∘ ρ) (relLayers σ L).length) ((paths L).map (relPath σ)) (rules.map (Rule.relabel σ)) =
        List.zipWith (growTerm P pGrow pPrune X y L.length) (paths L) rules := by
      rw [List.zipWith_map, List.length_map]
      congr 1
      funext a b
      exact growTerm_relabel P pGrow pPrune y L.length a b
    rw [h]
    cases sumTerms (List.zipWith (growTerm P pGrow pPrune X y L.length) (paths L) rules) with
    | error e => exact trans_fail _
    | ok ratio => exact trans_pure rfl
  | prune =>
    cases L with
    | nil => exact trans_pure (a := (([], .fin 0) : List (List (Rule K p)) × Fl K)) rfl
    | cons rules rest =>
      have h : List.zipWith (pruneTerm P pGrow pPrune (reorder ρ σ X) (y ∘ ρ) (relLayers σ rest).length) (paths (relLayers σ rest)) (rules.map (Rule.relabel σ)) =
          List.zipWith (pruneTerm P pGrow pPrune X y rest.length) (paths rest) rules := by
        rw [paths_relabel, List.zipWith_map, List.length_map]
        congr 1
        funext a b
        exact pruneTerm_relabel P pGrow pPrune y rest.length a b
      have e1 : ∀ (X : Fin n → Fin p → Fl K) (y : Fin n → K) rules rest, proposeL P pGrow pPrune X y (rules :: rest) .prune =
          match sumTerms (List.zipWith (pruneTerm P pGrow pPrune X y rest.length) (paths rest) rules) with
          | .error e => rfail e
          | .ok ratio => rpure (rest, ratio) := by
        intro X y rules rest
        funext us
        simp only [proposeL, propose]
        cases sumTerms (List.zipWith (pruneTerm P pGrow pPrune X y rest.length) (paths rest) rules) <;> rfl
      rw [show relLayers σ (rules :: rest) = rules.map (Rule.relabel σ) :: relLayers σ rest from rfl, e1, e1, h]
      cases sumTerms (List.zipWith (pruneTerm P pGrow pPrune X y rest.length) (paths rest) rules) with
      | error e => exact trans_fail _
      | ok ratio => exact trans_pure rfl

omit hX in
theorem leafValues_relabel (P : Params K) (y : Fin n → K) (ps : List (List (Cond K p))) (zs : List K) :
    leafValues P (reorder ρ σ X) (y ∘ ρ) (ps.map (relPath σ)) zs = leafValues P X y ps zs := by
  induction ps generalizing zs with
  | nil => rfl
  | cons path ps ih =>
    cases zs with
    | nil => rfl
    | cons z zs => simp only [List.map_cons, leafValues, rowsOn_relabel, count_reorder, total_reorder, ih]

/-- The result of the step for a tree with the new numbers of the columns. -/
def relTree (σ : Equiv.Perm (Fin p)) (q : (Bool × LTree K p) × Rand K) : (Bool × LTree K p) × Rand K := ((q.1.1, q.1.2.relabel σ), q.2)

/-- `treeBody` with its result as a pair of the result and the remaining random numbers. -/
def bodyPair (P : Params K) (pGrow pPrune : K) (X : Fin n → Fin p → Fl K) (y : Fin n → K) (t : LTree K p) (r : Rand K) : Except PyErr ((Bool × LTree K p) × Rand K) :=
  match treeBody P pGrow pPrune X y t r with
  | .error e => .error e
  | .ok (b, t', r') => .ok ((b, t'), r')

/-- What `treeBody` does after the proposal. -/
def afterPropose (P : Params K) (X : Fin n → Fin p → Fl K) (y : Fin n → K) (t : LTree K p) (r : Rand K) (ms : List Method) (q : List (List (Rule K p)) × Fl K) : Except PyErr ((Bool × LTree K p) × Rand K) :=
  match r.uniforms with
  | [] => .error .outOfDraws
  | u :: uniforms =>
    let accept := Fl.lt (.fin u) q.2
    match leafValues P X y (paths (if accept then q.1 else t.layers)) r.normals with
    | .error e => .error e
    | .ok (values, zs) => .ok ((accept, ⟨if accept then q.1 else t.layers, values⟩), { r with methods := ms, picks := [], uniforms := uniforms, normals := zs })

omit hX in
theorem body_eq (P : Params K) (pGrow pPrune : K) (X : Fin n → Fin p → Fl K) (y : Fin n → K) (t : LTree K p) (r : Rand K) :
    onPicks (bodyPair P pGrow pPrune X y t) r = match r.methods with
      | [] => rfail .outOfDraws
      | me :: ms => rbind (proposeL P pGrow pPrune X y t.layers me) fun q => match afterPropose P X y t r ms q with
        | .error e => rfail e
        | .ok a => rpure a := by
  funext us
  simp only [onPicks, bodyPair, treeBody, treeStep, afterPropose]
  cases r.methods with
  | nil => rfl
  | cons me ms =>
    simp only [rbind, proposeL]
    rcases propose P pGrow pPrune X y t.layers me us with e | ⟨L, ratio, us'⟩
    · rfl
    · simp only
      cases r.uniforms with
      | nil => rfl
      | cons u uniforms =>
        simp only
        rcases leafValues P X y (paths (if Fl.lt (.fin u) ratio then L else t.layers)) r.normals with e | ⟨vs, zs⟩
        · rfl
        · rfl

theorem body_trans (P : Params K) (pGrow pPrune : K) (y : Fin n → K) (t : LTree K p) (r : Rand K) :
    Trans (max n p) (relTree σ) (onPicks (bodyPair P pGrow pPrune X y t) r) (onPicks (bodyPair P pGrow pPrune (reorder ρ σ X) (y ∘ ρ) (t.relabel σ)) r) := by
  rw [body_eq, body_eq]
  cases r.methods with
  | nil => exact trans_fail _
  | cons me ms =>
    refine trans_bind (proposeL_trans hX P pGrow pPrune y t.layers me) fun q => ?_
    have h : afterPropose P (reorder ρ σ X) (y ∘ ρ) (t.relabel σ) r ms (relLayers σ q.1, q.2) = match afterPropose P X y t r ms q with
        | .error e => .error e
        | .ok a => .ok (relTree σ a) := by
      simp only [afterPropose]
      cases r.uniforms with
      | nil => rfl
      | cons u uniforms =>
        have h1 : (if Fl.lt (.fin u) q.2 then relLayers σ q.1 else (t.relabel σ).layers) = relLayers σ (if Fl.lt (.fin u) q.2 then q.1 else t.layers) := by
          split <;> rfl
        simp only [h1, paths_relabel, leafValues_relabel]
        rcases leafValues P X y (paths (if Fl.lt (.fin u) q.2 then q.1 else t.layers)) r.normals with e | ⟨vs, zs⟩ <;> rfl
    rw [h]
    cases afterPropose P X y t r ms q with
    | error e => exact trans_fail _
    | ok a => exact trans_pure rfl

/-- `sweepTrees` with its result as a pair. -/
def treesPair (P : Params K) (pGrow pPrune : K) (X : Fin n → Fin p → Fl K) (y : Fin n → K) (done todo : List (LTree K p)) (r : Rand K) : Except PyErr ((List Bool × List (LTree K p)) × Rand K) :=
  match sweepTrees P pGrow pPrune X y done todo r with
  | .error e => .error e
  | .ok (bs, ts, r') => .ok ((bs, ts), r')

theorem trees_trans (P : Params K) (pGrow pPrune : K) (y : Fin n → K) (done todo : List (LTree K p)) (r : Rand K) :
    Trans (max n p) (fun q => ((q.1.1, q.1.2.map (LTree.relabel σ)), q.2)) (onPicks (treesPair P pGrow pPrune X y done todo) r)
      (onPicks (treesPair P pGrow pPrune (reorder ρ σ X) (y ∘ ρ) (done.map (LTree.relabel σ)) (todo.map (LTree.relabel σ))) r) := by
  induction todo generalizing done r with
  | nil =>
    have h : ∀ (X : Fin n → Fin p → Fl K) (y : Fin n → K) done, onPicks (treesPair P pGrow pPrune X y done []) r = rpure (([], done), { r with picks := [] }) := fun _ _ _ => rfl
    rw [List.map_nil, h, h]
    exact trans_pure rfl
  | cons t ts ih =>
    have h : ∀ (X : Fin n → Fin p → Fl K) (y : Fin n → K) done t ts, onPicks (treesPair P pGrow pPrune X y done (t :: ts)) r =
        rbind (onPicks (bodyPair P pGrow pPrune X (fun i => y i - forest (done ++ ts) (X i)) t) r) fun a =>
          rbind (onPicks (treesPair P pGrow pPrune X y (done ++ [a.1.2]) ts) a.2) fun b => rpure ((a.1.1 :: b.1.1, b.1.2), b.2) := by
      intro X y done t ts
      funext us
      simp only [onPicks, treesPair, sweepTrees, bodyPair, rbind, rpure]
      rcases treeBody P pGrow pPrune X (fun i => y i - forest (done ++ ts) (X i)) t { r with picks := us } with e | ⟨b, t1, r1⟩
      · rfl
      · simp only
        rcases sweepTrees P pGrow pPrune X y (done ++ [t1]) ts r1 with e | ⟨bs, all, r2⟩ <;> rfl
    rw [List.map_cons, h, h]
    have hy : (fun i => (y ∘ ρ) i - forest (done.map (LTree.relabel σ) ++ ts.map (LTree.relabel σ)) (reorder ρ σ X i)) = (fun i => y i - forest (done ++ ts) (X i)) ∘ ρ := by
      funext i
      rw [← List.map_append]
      simp only [Function.comp_apply]
      rw [← layer_forest_relabel (σ := σ) (done ++ ts) (X (ρ i))]
      rfl
    rw [hy]
    refine trans_bind (body_trans hX P pGrow pPrune _ t r) fun a => ?_
    have ih' := ih (done ++ [a.1.2]) a.2
    rw [List.map_append, List.map_singleton] at ih'
    exact trans_bind ih' fun b => trans_pure rfl

omit hX in
theorem sigmaStep_relabel (c : Settings K) (y : Fin n → K) (ts : List (LTree K p)) (gs : List K) :
    sigmaStep c (reorder ρ σ X) (y ∘ ρ) (ts.map (LTree.relabel σ)) gs = sigmaStep c X y ts gs := by
  have h : ∑ i, ((y ∘ ρ) i - forest (ts.map (LTree.relabel σ)) (reorder ρ σ X i)) * ((y ∘ ρ) i - forest (ts.map (LTree.relabel σ)) (reorder ρ σ X i)) =
      ∑ i, (y i - forest ts (X i)) * (y i - forest ts (X i)) := by
    rw [← Equiv.sum_comp ρ fun i => (y i - forest ts (X i)) * (y i - forest ts (X i))]
    refine Finset.sum_congr rfl fun i _ => ?_
    rw [← layer_forest_relabel (σ := σ) ts (X (ρ i))]
    rfl
  unfold sigmaStep
  rw [h]

/-- `sweep` with its result as a pair. -/
def sweepPair (c : Settings K) (X : Fin n → Fin p → Fl K) (y : Fin n → K) (s : State K p) (r : Rand K) : Except PyErr ((List Bool × State K p) × Rand K) :=
  match sweep c X y s r with
  | .error e => .error e
  | .ok (bs, s', r') => .ok ((bs, s'), r')

theorem sweep_trans (c : Settings K) (y : Fin n → K) (s : State K p) (r : Rand K) :
    Trans (max n p) (fun q => ((q.1.1, q.1.2.relabel σ), q.2)) (onPicks (sweepPair c X y s) r) (onPicks (sweepPair c (reorder ρ σ X) (y ∘ ρ) (s.relabel σ)) r) := by
  have h : ∀ (X : Fin n → Fin p → Fl K) (y : Fin n → K) s, onPicks (sweepPair c X y s) r =
      rbind (onPicks (treesPair (c.params s.sigma) c.pGrow c.pPrune X y [] s.trees) r) fun a => match sigmaStep c X y a.1.2 a.2.gammas with
        | .error e => rfail e
        | .ok (v, gs) => rpure ((a.1.1, ⟨a.1.2, v⟩), { a.2 with gammas := gs }) := by
    intro X y s
    funext us
    simp only [onPicks, sweepPair, sweep, treesPair, rbind]
    rcases sweepTrees (c.params s.sigma) c.pGrow c.pPrune X y [] s.trees { r with picks := us } with e | ⟨bs, ts, r1⟩
    · rfl
    · simp only
      rcases sigmaStep c X y ts r1.gammas with e | ⟨v, gs⟩ <;> rfl
  rw [h, h]
  refine trans_bind (trees_trans hX (c.params s.sigma) c.pGrow c.pPrune y [] s.trees r) fun a => ?_
  simp only [sigmaStep_relabel]
  rcases sigmaStep c X y a.1.2 a.2.gammas with e | ⟨v, gs⟩
  · exact trans_fail _
  · exact trans_pure rfl

/-- `sweeps` with its result as a pair. -/
def sweepsPair (c : Settings K) (X : Fin n → Fin p → Fl K) (y : Fin n → K) (k : Nat) (s : State K p) (r : Rand K) : Except PyErr ((List (List Bool × State K p) × State K p) × Rand K) :=
  match sweeps c X y k s r with
  | .error e => .error e
  | .ok (l, s', r') => .ok ((l, s'), r')

theorem sweeps_trans (c : Settings K) (y : Fin n → K) (k : Nat) (s : State K p) (r : Rand K) :
    Trans (max n p) (fun q => ((q.1.1.map (fun a => (a.1, a.2.relabel σ)), q.1.2.relabel σ), q.2)) (onPicks (sweepsPair c X y k s) r)
      (onPicks (sweepsPair c (reorder ρ σ X) (y ∘ ρ) k (s.relabel σ)) r) := by
  induction k generalizing s r with
  | zero =>
    have h : ∀ (X : Fin n → Fin p → Fl K) (y : Fin n → K) s, onPicks (sweepsPair c X y 0 s) r = rpure (([], s), { r with picks := [] }) := fun _ _ _ => rfl
    rw [h, h]
    exact trans_pure rfl
  | succ k ih =>
    have h : ∀ (X : Fin n → Fin p → Fl K) (y : Fin n → K) s, onPicks (sweepsPair c X y (k + 1) s) r =
        rbind (onPicks (sweepPair c X y s) r) fun a => rbind (onPicks (sweepsPair c X y k a.1.2) a.2) fun b => rpure ((a.1 :: b.1.1, b.1.2), b.2) := by
      intro X y s
      funext us
      simp only [onPicks, sweepsPair, sweeps, sweepPair, rbind, rpure]
      rcases sweep c X y s { r with picks := us } with e | ⟨bs, s1, r1⟩
      · rfl
      · simp only
        rcases sweeps c X y k s1 r1 with e | ⟨l, s2, r2⟩ <;> rfl
    rw [h, h]
    exact trans_bind (sweep_trans hX c y s r) fun a => trans_bind (ih a.1.2 a.2) fun b => trans_pure rfl

end
end Bart.Layers
