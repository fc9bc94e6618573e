import Verif.Spec.LayerNodes
import Verif.Proofs.LayerView
import Verif.Spec.StoredTrees

/-! All nodes of a tree of the oblivious tree sampler are those of the tree of the reference implementation. -/

set_option linter.unusedSectionVars false

namespace Bart.Oblivious
open Bart Spec Reference
variable {K : Type} [Field K] [LinearOrder K] {n p : Nat} {X : Fin n → Fin p → Fl K}

/-- The nodes of a tree: depth, the comparisons on the way to the node, and `split.splitting_variable`. -/
def nodesOf (t : Tree K n p) : List (Nat × List (Cond K p) × Option (Fin p)) :=
  t.nodes.map (fun i => ((t.heap.node i).depth, (t.heap.node i).split.combined.conditions.map shownCond, (t.heap.node i).split.combined.splittingVariable))

theorem nodesOf_view {t t' : Tree K n p} (h : t'.nodes.map (nodeView t'.heap) = t.nodes.map (nodeView t.heap)) : nodesOf t' = nodesOf t := by
  have key : ∀ u : Tree K n p, nodesOf u = (u.nodes.map (nodeView u.heap)).map (fun v => (v.depth, v.condition.conditions.map shownCond, v.condition.splittingVariable)) := by
    intro u
    unfold nodesOf
    rw [List.map_map]
    rfl
  rw [key, key, h]

/-- Every growth has an entry for each leaf. -/
def Full : List (List (Layers.Rule K p)) → Prop
  | [] => True
  | rules :: rest => Full rest ∧ rules.length = 2 ^ rest.length

theorem expand_length (path : List (Cond K p)) (rule : Layers.Rule K p) : (Layers.expand path rule).length = 2 := by
  cases rule with
  | none => rfl
  | some q => rfl

theorem flatten_expand_length : ∀ (ps : List (List (Cond K p))) (rules : List (Layers.Rule K p)), ps.length = rules.length → (List.zipWith Layers.expand ps rules).flatten.length = 2 * rules.length := by
  intro ps
  induction ps with
  | nil => intro rules h; cases rules with
    | nil => rfl
    | cons a l => simp at h
  | cons a ps ih =>
    intro rules h
    cases rules with
    | nil => simp at h
    | cons b rules =>
      simp only [List.length_cons, add_left_inj] at h
      rw [List.zipWith_cons_cons, List.flatten_cons, List.length_append, ih rules h, expand_length, List.length_cons]
      omega

theorem Full.paths_length : ∀ {layers : List (List (Layers.Rule K p))}, Full layers → (Layers.paths layers).length = 2 ^ layers.length := by
  intro layers
  induction layers with
  | nil => intro _; rfl
  | cons rules rest ih =>
    intro h
    have h1 := ih h.1
    unfold Layers.paths
    rw [flatten_expand_length _ _ (h1.trans h.2.symm), h.2, List.length_cons, pow_succ]
    omega

theorem Lv.full {t : Tree K n p} : ∀ {layers : List (List (Layers.Rule K p))}, Lv t layers → Full layers := by
  intro layers
  induction layers with
  | nil => intro _; trivial
  | cons rules rest ih =>
    intro h
    refine ⟨ih h.1, ?_⟩
    rw [← h.2.1.length_eq, ← (ih h.1).paths_length, ← h.1.paths, List.length_map]

theorem Lv.nodes {t : Tree K n p} : ∀ {layers : List (List (Layers.Rule K p))}, Lv t layers →
    ((t.nodes.filter (fun i => decide ((t.heap.node i).depth ≤ layers.length))).map (fun i => ((t.heap.node i).depth, pathOf t.heap i))).Perm (Layers.nodes layers) := by
  have key : ∀ e, (idsAt t e).map (fun i => ((t.heap.node i).depth, pathOf t.heap i)) = ((idsAt t e).map (pathOf t.heap)).map (fun q => (e, q)) := by
    intro e
    rw [List.map_map]
    apply List.map_congr_left
    intro i hi
    have := (List.mem_filter.1 hi).2
    simp at this
    simp [this]
  intro layers
  induction layers with
  | nil =>
    intro h
    have e : t.nodes.filter (fun i => decide ((t.heap.node i).depth ≤ ([] : List (List (Layers.Rule K p))).length)) = idsAt t 0 := by
      unfold idsAt
      apply List.filter_congr
      intro i _
      simp
    rw [e, key, show (idsAt t 0).map (pathOf t.heap) = [[]] from h]
    exact .refl _
  | cons rules rest ih =>
    intro h
    have h1 := ih h.1
    have e1 : (t.nodes.filter (fun i => decide ((t.heap.node i).depth ≤ (rules :: rest).length))).filter (fun i => decide ((t.heap.node i).depth ≤ rest.length)) =
        t.nodes.filter (fun i => decide ((t.heap.node i).depth ≤ rest.length)) := by
      rw [List.filter_filter]
      apply List.filter_congr
      intro i _
      rw [← Bool.decide_and, decide_eq_decide, List.length_cons]
      omega
    have e2 : (t.nodes.filter (fun i => decide ((t.heap.node i).depth ≤ (rules :: rest).length))).filter (fun i => !decide ((t.heap.node i).depth ≤ rest.length)) = idsAt t (rest.length + 1) := by
      unfold idsAt
      rw [List.filter_filter]
      apply List.filter_congr
      intro i _
      rw [← decide_not, ← Bool.decide_and, decide_eq_decide, List.length_cons]
      omega
    have h2 := List.filter_append_perm (fun i => decide ((t.heap.node i).depth ≤ rest.length)) (t.nodes.filter (fun i => decide ((t.heap.node i).depth ≤ (rules :: rest).length)))
    rw [e1, e2] at h2
    have h3 := (h2.map (fun i => ((t.heap.node i).depth, pathOf t.heap i))).symm
    rw [List.map_append, key, h.2.2] at h3
    exact h3.trans (h1.append_right _)

theorem Struct.combined_init {h : Heap K n p} {s : Shape} : ∀ {d : Nat}, Struct X h s d → (∃ q, (h.node s.root).split.combined = CombinedCondition.init q) →
    ∀ i ∈ s.ids, ∃ q, (h.node i).split.combined = CombinedCondition.init q := by
  induction s with
  | leaf j => intro d _ h0 i hi; simp [Shape.ids] at hi; subst hi; exact h0
  | node j l r ihl ihr =>
    intro d hS h0 i hi
    obtain ⟨-, -, -, -, hk, h1, h2⟩ := hS
    simp only [Shape.ids, List.mem_cons, List.mem_append] at hi
    rcases hk with ⟨e1, e2, -⟩ | ⟨path, cl, cr, -, -, e1, e2, -⟩
    · rcases hi with rfl | hi | hi
      · exact h0
      · exact ihl h1 (by rw [e1]; exact h0) i hi
      · exact ihr h2 (by rw [e2]; exact h0) i hi
    · rcases hi with rfl | hi | hi
      · exact h0
      · exact ihl h1 ⟨_, e1⟩ i hi
      · exact ihr h2 ⟨_, e2⟩ i hi

theorem Shows.nodes {y : Option (Fin n → K)} {t : Tree K n p} {s : Shape} {d : Nat} (hT : OTree X y t s d) {T : Layers.LTree K p} (hS : Shows t T) :
    (nodesOf t).Perm ((Layers.nodes T.layers).map (fun q => (q.1, q.2, q.2.getLast?.map Cond.column))) ∧ Full T.layers := by
  refine ⟨?_, hS.1.1.full⟩
  have h1 := hS.1.1.nodes
  have hd : d = T.layers.length := by
    have hl := hT.leaves
    have hne : t.leafNodes ≠ [] := by
      intro h0
      rw [h0] at hl
      have := Nat.two_pow_pos d
      rw [List.length_nil] at hl
      omega
    obtain ⟨i, hi⟩ := List.exists_mem_of_ne_nil _ hne
    rw [← hT.level i hi, hS.1.2 i hi]
  have e : t.nodes.filter (fun i => decide ((t.heap.node i).depth ≤ T.layers.length)) = t.nodes := by
    rw [List.filter_eq_self]
    intro i hi
    have := (hT.depth_le hi).1
    rw [hd] at this
    simpa using this
  rw [e] at h1
  have h2 := h1.map (fun q => (q.1, q.2, q.2.getLast?.map Cond.column))
  rw [List.map_map] at h2
  convert h2 using 1
  unfold nodesOf
  apply List.map_congr_left
  intro i hi
  obtain ⟨q, hq⟩ := hT.inv.struct.combined_init ⟨_, hT.inv.top⟩ i (hT.inv.perm.mem_iff.1 hi)
  simp only [Function.comp, pathOf, hq, CombinedCondition.init, List.getLast?_map, Option.map_map]
  rfl

/-! ### counting -/

theorem expand_count (path : List (Cond K p)) (rule : Layers.Rule K p) (j : Fin p) :
    ((Layers.expand path rule).map (fun q => q.getLast?.map Cond.column)).count (some j) =
      2 * ((if rule.any (fun q => decide (q.1 = j)) then 1 else 0) + (if rule.isNone && path.getLast?.any (fun c => decide (c.column = j)) then 1 else 0)) := by
  cases rule with
  | none =>
    simp only [Layers.expand, List.map_cons, List.map_nil, List.count_cons, List.count_nil, Option.any_none, Option.isNone_none, Bool.true_and]
    cases path.getLast? with
    | none => simp
    | some c =>
      by_cases h : c.column = j <;> simp [h]
  | some q =>
    simp only [Layers.expand, List.map_cons, List.map_nil, List.count_cons, List.count_nil]
    by_cases h : q.1 = j <;> simp [h]

theorem flatten_expand_count (j : Fin p) : ∀ (ps : List (List (Cond K p))) (rules : List (Layers.Rule K p)), ps.length = rules.length →
    ((List.zipWith Layers.expand ps rules).flatten.map (fun q => q.getLast?.map Cond.column)).count (some j) =
      2 * (rules.countP (fun rule => rule.any (fun q => decide (q.1 = j))) + (ps.zip rules).countP (fun q => q.2.isNone && q.1.getLast?.any (fun c => decide (c.column = j)))) := by
  intro ps
  induction ps with
  | nil => intro rules h; cases rules with
    | nil => rfl
    | cons a l => simp at h
  | cons a ps ih =>
    intro rules h
    cases rules with
    | nil => simp at h
    | cons b rules =>
      simp only [List.length_cons, add_left_inj] at h
      rw [List.zipWith_cons_cons, List.flatten_cons, List.map_append, List.count_append, ih rules h, expand_count, List.zip_cons_cons, List.countP_cons, List.countP_cons]
      dsimp only
      omega

/-- Every split by column `j` has two nodes below it, and so has every doubling of a leaf below a comparison with column `j`. -/
theorem Full.count {layers : List (List (Layers.Rule K p))} (h : Full layers) (j : Fin p) :
    ((Layers.nodes layers).map (fun q => q.2.getLast?.map Cond.column)).count (some j) = 2 * (Layers.splitsOn layers j + Layers.doublingsOn layers j) := by
  induction layers with
  | nil => simp [Layers.nodes, Layers.splitsOn, Layers.doublingsOn]
  | cons rules rest ih =>
    have h1 := ih h.1
    have h2 := flatten_expand_count j (Layers.paths rest) rules (h.1.paths_length.trans h.2.symm)
    have e : Layers.splitsOn (rules :: rest) j = rules.countP (fun rule => rule.any (fun q => decide (q.1 = j))) + Layers.splitsOn rest j := by
      unfold Layers.splitsOn
      rw [List.flatten_cons, List.countP_append]
    rw [e]
    simp only [Layers.nodes, Layers.doublingsOn, Layers.paths, List.map_append, List.map_map, List.count_append] at h1 h2 ⊢
    rw [h1, show ((fun q : Nat × List (Cond K p) => q.2.getLast?.map Cond.column) ∘ fun path => (rest.length + 1, path)) = fun q => q.getLast?.map Cond.column from rfl, h2]
    omega

theorem Full.depths {layers : List (List (Layers.Rule K p))} (h : Full layers) : (Layers.nodes layers).map Prod.fst = Layers.fullDepths layers.length := by
  induction layers with
  | nil => rfl
  | cons rules rest ih =>
    have h1 := h.paths_length
    simp only [Layers.nodes, List.map_append, List.map_map]
    rw [ih h.1]
    have e : (Layers.paths (rules :: rest)).map (Prod.fst ∘ fun path => (rest.length + 1, path)) = List.replicate (2 ^ (rest.length + 1)) (rest.length + 1) := by
      rw [show (Prod.fst ∘ fun path : List (Cond K p) => (rest.length + 1, path)) = Function.const _ (rest.length + 1) from rfl, List.map_const, h1, List.length_cons]
    rw [e, List.length_cons]
    unfold Layers.fullDepths
    rw [List.range_succ (n := rest.length + 1), List.flatMap_append]
    simp

theorem Full.length {layers : List (List (Layers.Rule K p))} (h : Full layers) : (Layers.nodes layers).length = 2 ^ (layers.length + 1) - 1 := by
  induction layers with
  | nil => rfl
  | cons rules rest ih =>
    have h1 := h.paths_length
    simp only [Layers.nodes, List.length_append, List.length_map]
    rw [ih h.1, h1, List.length_cons, pow_succ 2 (rest.length + 1)]
    have := Nat.two_pow_pos (rest.length + 1)
    omega

end Bart.Oblivious
