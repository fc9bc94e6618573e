import Verif.Spec.Features
import Verif.Props.RunnerProps

/-! Feature proportions and feature selection: C56 - C61. -/

set_option linter.unusedSectionVars false

namespace Bart
open Spec
variable {K : Type} [Field K] [LinearOrder K] {n p : Nat} {X : Fin n → Fin p → Fl K}

/-! ### split variables of a tree -/

theorem Repr.rootOk {y : Option (Fin n → K)} {h : Heap K n p} {s : Shape} {path : List (SplitCondition K p)} {d : Nat} (hR : Repr X y h s path d) : NodeOk X y h s.root path := by
  cases s with
  | leaf i => exact hR.2.2.2.2
  | node i l r => exact hR.2.2.2.2.1

theorem Repr.var {y : Option (Fin n → K)} {h : Heap K n p} {s : Shape} {path : List (SplitCondition K p)} {d : Nat} (hR : Repr X y h s path d) :
    (h.node s.root).split.combined.splittingVariable = path.getLast?.map (·.splittingVariable) := by
  rw [hR.rootOk.combined]; rfl

theorem Repr.count_var {y : Option (Fin n → K)} {h : Heap K n p} (j : Fin p) : ∀ {s : Shape} {path : List (SplitCondition K p)} {d : Nat}, Repr X y h s path d →
    s.ids.countP (fun i => decide ((h.node i).split.combined.splittingVariable = some j)) =
      (if path.getLast?.map (·.splittingVariable) = some j then 1 else 0) +
      2 * s.ids.countP (fun i => decide ((rule h i).map Prod.fst = some j) && decide ((h.node i).kind = .decision)) := by
  intro s
  induction s with
  | leaf i =>
    intro path d hR
    have hv := hR.var
    simp only [Shape.root] at hv
    simp [Shape.ids, hv, hR.1]
  | node i l r ihl ihr =>
    intro path d hR
    have hv := hR.var
    obtain ⟨r1, r2, r3, r4, r5, cl, cr, hp, hl, hr⟩ := hR
    have e1 := ihl hl
    have e2 := ihr hr
    have hrule : (rule h i).map Prod.fst = some cl.splittingVariable := by
      unfold rule
      rw [r2]
      simp only [hl.rootOk.combined, CombinedCondition.init]
      simp
    simp only [List.getLast?_concat, Option.map_some, hp.var] at e1 e2
    simp only [Shape.root] at hv
    simp only [Shape.ids, List.countP_cons, List.countP_append, e1, e2, hv, hrule, r1]
    by_cases h1 : cl.splittingVariable = j
    · by_cases h2 : path.getLast?.map (·.splittingVariable) = some j <;> simp [h1, h2] <;> omega
    · by_cases h2 : path.getLast?.map (·.splittingVariable) = some j <;> simp [h1, h2] <;> omega

theorem Repr.count_none {y : Option (Fin n → K)} {h : Heap K n p} : ∀ {s : Shape} {path : List (SplitCondition K p)} {d : Nat}, Repr X y h s path d →
    s.ids.countP (fun i => decide ((h.node i).split.combined.splittingVariable = none)) = if path = [] then 1 else 0 := by
  intro s
  induction s with
  | leaf i =>
    intro path d hR
    have hv := hR.var
    simp only [Shape.root] at hv
    simp [Shape.ids, hv]
  | node i l r ihl ihr =>
    intro path d hR
    have hv := hR.var
    obtain ⟨r1, r2, r3, r4, r5, cl, cr, hp, hl, hr⟩ := hR
    simp only [Shape.root] at hv
    simp only [Shape.ids, List.countP_cons, List.countP_append, ihl hl, ihr hr, hv]
    simp

/-- The variables of the last conditions of the nodes. -/
def treeVars (t : Tree K n p) : List (Option (Fin p)) := t.nodes.map (fun i => (t.heap.node i).split.combined.splittingVariable)

theorem reachable_count [IsStrictOrderedRing K] (hX : NoNan X) {t : Tree K n p} (ht : ReachableTree X t) :
    (∀ j, (treeVars t).count (some j) = 2 * decisionsOn t j) ∧ (treeVars t).count none = 1 := by
  obtain ⟨y, s, hI⟩ := reachable_tree_inv hX ht
  have key : ∀ (v : Option (Fin p)), (treeVars t).count v = s.ids.countP (fun i => decide ((t.heap.node i).split.combined.splittingVariable = v)) := by
    intro v
    unfold treeVars List.count
    rw [List.countP_map, hI.perm.countP_eq]
    apply List.countP_congr
    simp
  refine ⟨fun j => ?_, ?_⟩
  · rw [key, hI.repr.count_var j]
    simp only [List.getLast?_nil, Option.map_none, reduceCtorEq, if_false, Nat.zero_add]
    unfold decisionsOn Tree.decisionNodes
    rw [List.filter_filter, ← List.countP_eq_length_filter, hI.perm.countP_eq]
  · rw [key, hI.repr.count_none]; simp

theorem sample_vars (x : Sample K p) : x.trees.flatMap (fun t => t.nodes.map (fun i => (t.heap.node i).split.combined.splittingVariable)) =
    ((storedContent x.live x.stored).map (fun l => l.map (fun v => v.condition.splittingVariable))).flatten := by
  unfold Sample.trees BModel.storedTrees storedContent
  rw [List.flatMap, List.map_zipWith, List.map_zipWith]
  congr 1
  congr 1
  funext t ids
  simp [Tree.stored, nodeView]

theorem model_vars (M : BModel K n p) : ((liveContent M).map (fun l => l.map (fun v => v.condition.splittingVariable))).flatten = M.trees.flatMap treeVars := by
  unfold liveContent
  rw [List.flatMap, List.map_map]
  congr 1
  apply List.map_congr_left
  intro t _
  simp [treeVars, nodeView]

theorem splitVariables_show {xs : List (Sample K p)} {Ms : List (BModel K n p)} (h : Show xs Ms) : splitVariables xs = (treesOf Ms).flatMap treeVars := by
  unfold Show at h
  induction h with
  | nil => rfl
  | cons e _ ih =>
    unfold splitVariables treesOf at ih ⊢
    rw [List.flatMap_cons, List.flatMap_cons, List.flatMap_append, ih, sample_vars, e, model_vars]

theorem count_flatMap_treeVars [IsStrictOrderedRing K] (hX : NoNan X) : ∀ {ts : List (Tree K n p)}, (∀ t ∈ ts, ReachableTree X t) →
    (∀ j, (ts.flatMap treeVars).count (some j) = 2 * totalDecisionsOn ts j) ∧ (ts.flatMap treeVars).count none = ts.length ∧ (ts.flatMap treeVars).length = totalNodes ts := by
  intro ts
  induction ts with
  | nil => intro _; simp [totalDecisionsOn, totalNodes]
  | cons t ts ih =>
    intro h
    obtain ⟨i1, i2, i3⟩ := ih (fun t ht => h t (by simp [ht]))
    obtain ⟨c1, c2⟩ := reachable_count hX (h t (by simp))
    refine ⟨fun j => ?_, ?_, ?_⟩
    · rw [List.flatMap_cons, List.count_append, i1, c1]; simp [totalDecisionsOn]; omega
    · rw [List.flatMap_cons, List.count_append, i2, c2]; simp; omega
    · rw [List.flatMap_cons, List.length_append, i3]; simp [totalNodes, treeVars]

/-! ### dicts -/

namespace Dict
variable {κ α : Type} [DecidableEq κ]

theorem keys_set (d : List (κ × α)) (k : κ) (v : α) : keys (set d k v) = if k ∈ keys d then keys d else keys d ++ [k] := by
  induction d with
  | nil => simp [set, keys]
  | cons x d ih =>
    obtain ⟨k0, v0⟩ := x
    simp only [set]
    by_cases h : k0 = k
    · simp [h, keys]
    · simp only [if_neg h]
      simp only [keys, List.map_cons, List.mem_cons, Ne.symm h, false_or] at ih ⊢
      rw [ih]
      by_cases hm : k ∈ List.map Prod.fst d <;> simp only [hm, if_true, if_false, List.cons_append]

theorem set_new {d : List (κ × α)} {k : κ} (h : k ∉ keys d) (v : α) : set d k v = d ++ [(k, v)] := by
  induction d with
  | nil => simp [set]
  | cons x d ih =>
    obtain ⟨k0, v0⟩ := x
    simp only [keys, List.map_cons, List.mem_cons, not_or] at h
    simp only [set, if_neg (Ne.symm h.1), List.cons_append]
    rw [ih h.2]

theorem set_same {d : List (κ × α)} {f : κ → α} (hd : ∀ x ∈ d, x.2 = f x.1) {k : κ} (h : k ∈ keys d) : set d k (f k) = d := by
  induction d with
  | nil => simp [keys] at h
  | cons x d ih =>
    obtain ⟨k0, v0⟩ := x
    simp only [set]
    by_cases h0 : k0 = k
    · subst h0; rw [if_pos rfl]; have := hd (k0, v0) (by simp); simp at this; rw [this]
    · rw [if_neg h0, ih (fun x hx => hd x (by simp [hx]))]
      simpa [keys, Ne.symm h0] using h

theorem get?_eq_some {d : List (κ × α)} (hd : IsDict d) {k : κ} {v : α} : get? d k = some v ↔ (k, v) ∈ d := by
  induction d with
  | nil => simp [get?]
  | cons x d ih =>
    obtain ⟨k0, v0⟩ := x
    simp only [IsDict, List.map_cons, List.nodup_cons] at hd
    simp only [get?, List.mem_cons, Prod.mk.injEq]
    by_cases h : k0 = k
    · subst h
      simp only [if_true, Option.some.injEq, true_and]
      constructor
      · intro h; exact Or.inl h.symm
      · rintro (h | h)
        · exact h.symm
        · exact absurd (List.mem_map.2 ⟨_, h, rfl⟩) hd.1
    · rw [if_neg h, ih hd.2]; simp [Ne.symm h]

theorem get?_eq_none {d : List (κ × α)} {k : κ} : get? d k = none ↔ k ∉ keys d := by
  induction d with
  | nil => simp [get?, keys]
  | cons x d ih =>
    obtain ⟨k0, v0⟩ := x
    simp only [get?, keys, List.map_cons, List.mem_cons, not_or]
    by_cases h : k0 = k
    · simp [h]
    · rw [if_neg h, ih]; simp [keys, Ne.symm h]

/-- Building a dict from a function of the keys. -/
theorem foldl_set (f : κ → α) : ∀ (l : List κ) (d : List (κ × α)), IsDict d → (∀ x ∈ d, x.2 = f x.1) →
    IsDict (l.foldl (fun d k => set d k (f k)) d) ∧ ∀ k v, (k, v) ∈ l.foldl (fun d k => set d k (f k)) d ↔ (k ∈ keys d ∨ k ∈ l) ∧ v = f k := by
  intro l
  induction l with
  | nil =>
    intro d h1 h2
    refine ⟨h1, fun k v => ?_⟩
    simp only [List.foldl_nil, List.not_mem_nil, or_false]
    constructor
    · intro h; exact ⟨List.mem_map.2 ⟨_, h, rfl⟩, h2 _ h⟩
    · rintro ⟨h, rfl⟩
      obtain ⟨⟨k', v'⟩, hx, rfl⟩ := List.mem_map.1 h
      have := h2 _ hx
      simp at this; rw [← this]; exact hx
  | cons k0 l ih =>
    intro d h1 h2
    rw [List.foldl_cons]
    by_cases hk : k0 ∈ keys d
    · rw [set_same h2 hk]
      obtain ⟨i1, i2⟩ := ih d h1 h2
      refine ⟨i1, fun k v => ?_⟩
      rw [i2]
      constructor
      · rintro ⟨h | h, e⟩ <;> simp [h, e]
      · rintro ⟨h | h, e⟩
        · simp [h, e]
        · rcases List.mem_cons.1 h with rfl | h
          · simp [hk, e]
          · simp [h, e]
    · rw [set_new hk]
      obtain ⟨i1, i2⟩ := ih (d ++ [(k0, f k0)]) (by
        unfold IsDict; rw [List.map_append, List.nodup_append]
        refine ⟨h1, by simp, ?_⟩
        intro a ha b hb
        simp at hb; subst hb
        rintro rfl; exact hk ha) (by
        intro x hx
        rcases List.mem_append.1 hx with hx | hx
        · exact h2 x hx
        · simp at hx; subst hx; rfl)
      refine ⟨i1, fun k v => ?_⟩
      rw [i2]
      simp only [keys, List.map_append, List.mem_append, List.map_cons, List.map_nil, List.mem_singleton, List.mem_cons]
      tauto

theorem foldl_set_nodup (f : κ → α) : ∀ (l : List κ) (d : List (κ × α)), l.Nodup → (∀ k ∈ l, k ∉ keys d) →
    l.foldl (fun d k => set d k (f k)) d = d ++ l.map (fun k => (k, f k)) := by
  intro l
  induction l with
  | nil => intro d _ _; simp
  | cons k0 l ih =>
    intro d h1 h2
    rw [List.nodup_cons] at h1
    rw [List.foldl_cons, set_new (h2 k0 (by simp)), ih _ h1.2]
    · simp
    · intro k hk
      simp only [keys, List.map_append, List.mem_append, List.map_cons, List.map_nil, List.mem_singleton, not_or]
      exact ⟨h2 k (by simp [hk]), fun h => h1.1 (h ▸ hk)⟩

end Dict

/-! ### C57 -/

theorem featureSplitProportions_eq (xs : List (Sample K p)) (columns : Option (List (Fin p))) : featureSplitProportions xs columns =
    (columns.getD ((List.finRange p).filter (fun j => (splitVariables xs).contains (some j)))).foldl
      (fun d j => Dict.set d j (((splitVariables xs).count (some j) : K) / ((splitVariables xs).length : K))) [] := by
  have hf : (fun (d : List (Fin p × K)) j => Dict.set d j (if (splitVariables xs).contains (some j) then ((splitVariables xs).count (some j) : K) / ((splitVariables xs).length : K) else 0)) =
      fun d j => Dict.set d j (((splitVariables xs).count (some j) : K) / ((splitVariables xs).length : K)) := by
    funext d j
    by_cases h : (splitVariables xs).contains (some j)
    · rw [if_pos h]
    · rw [if_neg h]
      rw [List.contains_iff_mem] at h
      rw [List.count_eq_zero_of_not_mem h]; simp
  unfold featureSplitProportions
  simp only [hf]
  cases columns <;> rfl

variable [IsStrictOrderedRing K]

/-- C57: the proportion of column `j` is the number of nodes that were created by a split on `j`, two for each decision node about `j`, divided by the number of all nodes. It lies
between 0 and 1. The map has the given columns as keys; without `columns` those on which there is a split. -/
theorem C57_proportions (hX : NoNan X) {xs : List (Sample K p)} {Ms : List (BModel K n p)} (hM : ∀ t ∈ treesOf Ms, ReachableTree X t) (h : Show xs Ms) (columns : Option (List (Fin p))) :
    IsDict (featureSplitProportions xs columns) ∧
    ∀ j v, (j, v) ∈ featureSplitProportions xs columns ↔
      (match columns with
        | none => 0 < totalDecisionsOn (treesOf Ms) j
        | some l => j ∈ l) ∧ v = (2 * totalDecisionsOn (treesOf Ms) j : K) / (totalNodes (treesOf Ms) : K) := by
  obtain ⟨c1, c2, c3⟩ := count_flatMap_treeVars hX hM
  have hs := splitVariables_show h
  rw [featureSplitProportions_eq]
  obtain ⟨i1, i2⟩ := Dict.foldl_set (fun j => ((splitVariables xs).count (some j) : K) / ((splitVariables xs).length : K))
    (columns.getD ((List.finRange p).filter (fun j => (splitVariables xs).contains (some j)))) [] (by simp [IsDict]) (by simp)
  refine ⟨i1, fun j v => ?_⟩
  rw [i2, hs, c1, c3]
  simp only [Dict.keys, List.map_nil, List.not_mem_nil, false_or, Nat.cast_mul, Nat.cast_ofNat]
  refine and_congr ?_ Iff.rfl
  cases columns with
  | some l => simp
  | none =>
    simp only [Option.getD_none, List.mem_filter, List.mem_finRange, true_and, List.contains_iff_mem]
    rw [← List.count_pos_iff, c1]
    omega

theorem totalDecisionsOn_sum (hX : NoNan X) {ts : List (Tree K n p)} (hM : ∀ t ∈ ts, ReachableTree X t) :
    2 * ((List.finRange p).map (totalDecisionsOn ts)).sum + ts.length = totalNodes ts := by
  obtain ⟨c1, c2, c3⟩ := count_flatMap_treeVars hX hM
  have key : ∀ l : List (Option (Fin p)), ((List.finRange p).map (fun j => l.count (some j))).sum + l.count none = l.length := by
    intro l
    induction l with
    | nil => simp
    | cons a l ih =>
      cases a with
      | none => simp [List.count_cons] at ih ⊢; omega
      | some k =>
        have hk : ((List.finRange p).map (fun j => (some k :: l).count (some j))).sum = ((List.finRange p).map (fun j => l.count (some j))).sum + 1 := by
          have e : ∀ j : Fin p, (some k :: l).count (some j) = l.count (some j) + (if j = k then 1 else 0) := by
            intro j
            rw [List.count_cons]
            by_cases h : j = k
            · simp [h]
            · simp [h, Ne.symm h]
          simp only [e]
          rw [List.sum_map_add]
          congr 1
          rw [← List.sum_toFinset _ (List.nodup_finRange p)]
          simp
        rw [hk]
        simp only [List.count_cons, List.length_cons] at ih ⊢
        simp; omega
  have := key (ts.flatMap treeVars)
  rw [c2, c3] at this
  rw [← this]
  simp only [c1]
  rw [List.sum_map_mul_left]

/-- C57: each proportion is at least 0 and at most 1; over all columns, and also over those on which there is a split, they add up to 1 minus the share of the roots. -/
theorem C57_sum (hX : NoNan X) {xs : List (Sample K p)} {Ms : List (BModel K n p)} (hM : ∀ t ∈ treesOf Ms, ReachableTree X t) (h : Show xs Ms) :
    (∀ columns, ∀ x ∈ featureSplitProportions xs columns, 0 ≤ x.2 ∧ x.2 ≤ 1) ∧
    (treesOf Ms ≠ [] → ∀ columns, (columns = none ∨ columns = some (List.finRange p)) →
      ((featureSplitProportions xs columns).map Prod.snd).sum = 1 - ((treesOf Ms).length : K) / (totalNodes (treesOf Ms) : K)) := by
  have hsum := totalDecisionsOn_sum hX hM
  obtain ⟨c1, c2, c3⟩ := count_flatMap_treeVars hX hM
  have hs := splitVariables_show h
  constructor
  · rintro columns ⟨j, v⟩ hx
    obtain ⟨-, rfl⟩ := ((C57_proportions hX hM h columns).2 j v).1 hx
    have hle : 2 * totalDecisionsOn (treesOf Ms) j ≤ totalNodes (treesOf Ms) := by
      have : totalDecisionsOn (treesOf Ms) j ≤ ((List.finRange p).map (totalDecisionsOn (treesOf Ms))).sum :=
        List.single_le_sum (by simp) _ (List.mem_map.2 ⟨j, by simp, rfl⟩)
      omega
    have hle' : (2 * totalDecisionsOn (treesOf Ms) j : K) ≤ (totalNodes (treesOf Ms) : K) := by exact_mod_cast hle
    exact ⟨by positivity, div_le_one_of_le₀ hle' (by positivity)⟩
  · intro hne columns hc
    have hpos : 0 < (totalNodes (treesOf Ms) : K) := by
      have : 0 < (treesOf Ms).length := List.length_pos_iff.2 hne
      have : 0 < totalNodes (treesOf Ms) := by omega
      exact_mod_cast this
    have e0 : (((List.finRange p).map (fun j => (2 * totalDecisionsOn (treesOf Ms) j : K) / (totalNodes (treesOf Ms) : K))).sum) =
        1 - ((treesOf Ms).length : K) / (totalNodes (treesOf Ms) : K) := by
      have : ((List.finRange p).map (fun j => (2 * totalDecisionsOn (treesOf Ms) j : K) / (totalNodes (treesOf Ms) : K))).sum =
          (2 * ((((List.finRange p).map (totalDecisionsOn (treesOf Ms))).sum : ℕ) : K)) / (totalNodes (treesOf Ms) : K) := by
        rw [Nat.cast_list_sum, List.map_map]
        simp only [div_eq_mul_inv]
        rw [List.sum_map_mul_right, List.sum_map_mul_left]
        rfl
      rw [this, eq_sub_iff_add_eq, ← add_div, div_eq_one_iff_eq hpos.ne']
      exact_mod_cast hsum
    rw [← e0]
    have hcount : ∀ j : Fin p, ((splitVariables xs).count (some j) : K) / ((splitVariables xs).length : K) =
        (2 * totalDecisionsOn (treesOf Ms) j : K) / (totalNodes (treesOf Ms) : K) := by
      intro j; rw [hs, c1, c3]; push_cast; rfl
    rw [featureSplitProportions_eq]
    simp only [hcount]
    rcases hc with rfl | rfl
    · rw [Option.getD_none, Dict.foldl_set_nodup _ _ _ ((List.nodup_finRange p).filter _) (by simp [Dict.keys])]
      simp only [List.nil_append, List.map_map, Function.comp_def]
      have : ∀ l : List (Fin p), ((l.filter (fun j => (splitVariables xs).contains (some j))).map (fun j => (2 * totalDecisionsOn (treesOf Ms) j : K) / (totalNodes (treesOf Ms) : K))).sum =
          (l.map (fun j => (2 * totalDecisionsOn (treesOf Ms) j : K) / (totalNodes (treesOf Ms) : K))).sum := by
        intro l
        induction l with
        | nil => rfl
        | cons j l ih =>
          by_cases hj : (splitVariables xs).contains (some j)
          · rw [List.filter_cons, if_pos hj, List.map_cons, List.map_cons, List.sum_cons, List.sum_cons, ih]
          · rw [List.filter_cons, if_neg hj, ih]
            have : (2 * totalDecisionsOn (treesOf Ms) j : K) / (totalNodes (treesOf Ms) : K) = 0 := by
              rw [← hcount, List.count_eq_zero_of_not_mem (by simpa using hj)]; simp
            simp [this]
      exact this _
    · rw [Option.getD_some, Dict.foldl_set_nodup _ _ _ (List.nodup_finRange p) (by simp [Dict.keys])]
      simp [Function.comp_def]

section fit
variable [MathFns K] [FloorRing K]

theorem forall₂_of_forall {α β : Type} {R : α → β → Prop} : ∀ {l : List α}, (∀ a ∈ l, ∃ b, R a b) → ∃ l', List.Forall₂ R l l' := by
  intro l
  induction l with
  | nil => intro _; exact ⟨[], .nil⟩
  | cons a l ih =>
    intro h
    obtain ⟨b, hb⟩ := h a (by simp)
    obtain ⟨l', hl⟩ := ih (fun a ha => h a (by simp [ha]))
    exact ⟨b :: l', .cons hb hl⟩

/-- The samples of one chain show reachable models. -/
theorem chain_shows (hX : NoNan X) {s : SkModel K p} (hp1 : s.pGrow ≠ 0) (hp2 : s.pPrune ≠ 0) {y : Fin n → K} {r : Rand K} {o : ChainOut K p} (h : s.runChain X y r = .ok o) :
    ∀ x ∈ o.models, ∃ M : BModel K n p, ReachableModel X M ∧ M.trees.length = s.nTrees ∧ storedContent x.live x.stored = liveContent M := by
  obtain ⟨d, m, m', ch, r', e1, e2, rfl⟩ := runChain_spec h
  obtain ⟨-, -, -, hf, -, hnt, -⟩ := constructModel_spec e1
  have hm : ReachableModel X m := ⟨y, s.pGrow, s.pPrune, m, 0, hp1, hp2, hf, .nil m⟩
  obtain ⟨-, h2, -, -, h5⟩ := C44_samples hX (c := s.sampleParams) hm hp1 hp2 e2
  intro x hx
  obtain ⟨st, hst, rfl⟩ := List.mem_map.1 hx
  obtain ⟨i, hi, rfl⟩ := List.getElem_of_mem hst
  obtain ⟨st, m0, r0, mus, M, rM, k1, k2, k3, k4, -⟩ := h5 i ((storedTimes s.nSamples s.sampleParams.thin)[i]'(by rw [← h2]; exact hi)) (by simp)
  rw [List.getElem?_eq_getElem hi, Option.some.injEq] at k1
  subst k1
  refine ⟨M, ⟨y, s.pGrow, s.pPrune, m, _, hp1, hp2, hf, .sweep k2.run k3⟩, ?_, k4⟩
  obtain ⟨y', -, hI, -, -, -, -, hn, -⟩ := reachable_model_inv (N := False) hX (by simp) hp1 hp2 hf (.sweep k2.run k3)
  rw [hI.len, hn, hnt]

/-- The samples of chains run on a data set show models that the sampler reached. -/
theorem chains_show (hX : NoNan X) {s : SkModel K p} (hp1 : s.pGrow ≠ 0) (hp2 : s.pPrune ≠ 0) {y : Fin n → K} {rl : List (Rand K)} {os : List (ChainOut K p)}
    (e2 : List.Forall₂ (fun r o => s.runChain X y r = .ok o) rl os) {c : Combined K p} (e3 : combineChains os = .ok c) :
    ∃ Ms : List (BModel K n p), Show c.models Ms ∧ (∀ M ∈ Ms, ReachableModel X M ∧ M.trees.length = s.nTrees) ∧ ∀ t ∈ treesOf Ms, ReachableTree X t := by
  obtain ⟨c1, -⟩ := C51_combine e3
  have hall : ∀ x ∈ c.models, ∃ M : BModel K n p, (ReachableModel X M ∧ M.trees.length = s.nTrees) ∧ storedContent x.live x.stored = liveContent M := by
    rw [c1]
    clear e3 c1
    induction e2 with
    | nil => simp
    | cons e _ ih =>
      intro x hx
      rw [List.flatMap_cons, List.mem_append] at hx
      rcases hx with hx | hx
      · obtain ⟨M, h1, h2, h3⟩ := chain_shows hX hp1 hp2 e x hx
        exact ⟨M, ⟨h1, h2⟩, h3⟩
      · exact ih x hx
  obtain ⟨Ms, hMs⟩ := forall₂_of_forall hall
  have hM : ∀ M ∈ Ms, ReachableModel X M ∧ M.trees.length = s.nTrees := by
    clear hall e3 c1 e2
    generalize c.models = xs at hMs
    induction hMs with
    | nil => simp
    | cons e _ ih =>
      intro M hM
      rcases List.mem_cons.1 hM with rfl | hM
      · exact e.1
      · exact ih M hM
  refine ⟨Ms, List.Forall₂.imp (S := fun (x : Sample K p) (M : BModel K n p) => storedContent x.live x.stored = liveContent M) (fun _ _ h => h.2) hMs, hM, ?_⟩
  intro t ht
  obtain ⟨M, hM1, hM2⟩ := List.mem_flatMap.1 ht
  exact model_trees_reachable hX (hM M hM1).1 t hM2

/-- C57 for a fitted model: its samples show models that the sampler reached, with `n_trees` trees each, so that `C57_proportions` and `C57_sum` apply. -/
theorem C57_fit (hX : NoNan X) {s s' : SkModel K p} (hp1 : s.pGrow ≠ 0) (hp2 : s.pPrune ≠ 0) {y : Fin n → K} {rs : Nat → Rand K} (h : s.fit X y rs = .ok s') :
    ∃ (c : Combined K p) (Ms : List (BModel K n p)), s'.samples = some c ∧ Show c.models Ms ∧ (∀ M ∈ Ms, ReachableModel X M ∧ M.trees.length = s.nTrees) ∧
      (∀ t ∈ treesOf Ms, ReachableTree X t) ∧ ∀ columns, s'.featureSplitProportions columns = .ok (featureSplitProportions c.models columns) := by
  obtain ⟨d, m, os, c, e1, e2, e3, rfl⟩ := fit_spec h
  obtain ⟨Ms, h1, h2, h3⟩ := chains_show hX hp1 hp2 e2 e3
  exact ⟨c, Ms, rfl, h1, h2, h3, fun columns => rfl⟩

end fit

/-! ### C58 -/

section kept
variable {κ : Type} [LinearOrder κ]

theorem mapM_ok {α β : Type} {f : α → Except PyErr β} {g : α → β} : ∀ {l : List α}, (∀ a ∈ l, f a = .ok (g a)) → l.mapM f = .ok (l.map g) := by
  intro l
  induction l with
  | nil => intro _; rfl
  | cons a l ih =>
    intro h
    rw [List.mapM_cons, h a (by simp), ih (fun a ha => h a (by simp [ha]))]
    rfl

/-- The value of a key, for keys that occur. -/
theorem Dict.get?_of_mem {d : List (κ × K)} (hd : IsDict d) {k : κ} (h : k ∈ Dict.keys d) : ∃ v, Dict.get? d k = some v ∧ (k, v) ∈ d := by
  cases e : Dict.get? d k with
  | none => exact absurd h (Dict.get?_eq_none.1 e)
  | some v => exact ⟨v, rfl, (Dict.get?_eq_some hd).1 e⟩

/-- C58: `is_kept` has one entry for each feature, in increasing order of the features, true iff the proportion exceeds the threshold. -/
theorem C58_is_kept {props thresholds : List (κ × K)} (hp : IsDict props) (ht : IsDict thresholds) (hk : ∀ f ∈ Dict.keys props, f ∈ Dict.keys thresholds) :
    ∃ (fs : List κ) (bs : List Bool), isKept props thresholds = .ok bs ∧ keptFeatures props thresholds = .ok ((fs.zip bs).filterMap (fun x => if x.2 then some x.1 else none)) ∧
      fs.Pairwise (· < ·) ∧ (∀ f, f ∈ fs ↔ ∃ a, (f, a) ∈ props) ∧ bs.length = fs.length ∧
      ∀ (i : Nat) f b, fs[i]? = some f → bs[i]? = some b → (b = true ↔ ∃ a t, (f, a) ∈ props ∧ (f, t) ∈ thresholds ∧ t < a) := by
  classical
  set fs := (Dict.keys props).insertionSort (· ≤ ·) with hfs
  have hmem : ∀ f, f ∈ fs ↔ f ∈ Dict.keys props := fun f => (List.perm_insertionSort (· ≤ ·) (Dict.keys props)).mem_iff
  have hok : ∀ f ∈ fs, (match Dict.get? props f, Dict.get? thresholds f with
      | some a, some b => (Except.ok (decide (b < a)) : Except PyErr Bool)
      | _, _ => .error .keyError) = .ok (decide (∃ a t, (f, a) ∈ props ∧ (f, t) ∈ thresholds ∧ t < a)) := by
    intro f hf
    obtain ⟨a, e1, e2⟩ := Dict.get?_of_mem hp ((hmem f).1 hf)
    obtain ⟨b, e3, e4⟩ := Dict.get?_of_mem ht (hk f ((hmem f).1 hf))
    rw [e1, e3]
    simp only [Except.ok.injEq, decide_eq_decide]
    constructor
    · intro h; exact ⟨a, b, e2, e4, h⟩
    · rintro ⟨a', t', h1, h2, h3⟩
      have := (Dict.get?_eq_some hp).2 h1
      rw [e1] at this; injection this with this; subst this
      have := (Dict.get?_eq_some ht).2 h2
      rw [e3] at this; injection this with this; subst this
      exact h3
  have hb : isKept props thresholds = .ok (fs.map (fun f => decide (∃ a t, (f, a) ∈ props ∧ (f, t) ∈ thresholds ∧ t < a))) := by
    unfold isKept
    rw [← hfs]
    exact mapM_ok hok
  refine ⟨fs, _, hb, ?_, ?_, ?_, by simp, ?_⟩
  · unfold keptFeatures; rw [hb]
  · have h1 : fs.Pairwise (· ≤ ·) := List.pairwise_insertionSort _ _
    have h2 : fs.Nodup := (List.perm_insertionSort (· ≤ ·) (Dict.keys props)).nodup_iff.2 hp
    exact (h1.and h2).imp (fun h => lt_of_le_of_ne h.1 h.2)
  · intro f
    rw [hmem]
    simp [Dict.keys]
  · intro i f b h1 h2
    rw [List.getElem?_map, h1] at h2
    simp only [Option.map_some, Option.some.injEq] at h2
    rw [← h2]; simp

/-- C58: `kept_features` lists in increasing order exactly the features whose proportion exceeds the threshold; `partition_into_passed_and_failed_features` returns these items
and the others. -/
theorem C58_kept {props thresholds : List (κ × K)} (hp : IsDict props) (ht : IsDict thresholds) (hk : ∀ f ∈ Dict.keys props, f ∈ Dict.keys thresholds) :
    ∃ (l : List κ) (passed failed : List (κ × K)), keptFeatures props thresholds = .ok l ∧ l.Pairwise (· < ·) ∧
      (∀ f, f ∈ l ↔ ∃ a t, (f, a) ∈ props ∧ (f, t) ∈ thresholds ∧ t < a) ∧
      partitionFeatures props thresholds = .ok (passed, failed) ∧
      (∀ x, x ∈ passed ↔ x ∈ props ∧ ∃ t, (x.1, t) ∈ thresholds ∧ t < x.2) ∧ ∀ x, x ∈ failed ↔ x ∈ props ∧ ∃ t, (x.1, t) ∈ thresholds ∧ x.2 ≤ t := by
  obtain ⟨fs, bs, -, h2, h3, h4, h5, h6⟩ := C58_is_kept hp ht hk
  have hmem : ∀ f, f ∈ (fs.zip bs).filterMap (fun x => if x.2 then some x.1 else none) ↔ ∃ a t, (f, a) ∈ props ∧ (f, t) ∈ thresholds ∧ t < a := by
    intro f
    rw [List.mem_filterMap]
    constructor
    · rintro ⟨⟨g, b⟩, hx, hy⟩
      obtain ⟨i, hi, e⟩ := List.getElem_of_mem hx
      rw [List.getElem_zip] at e
      injection e with e1 e2
      by_cases hb : b = true
      · simp only [hb, if_true, Option.some.injEq] at hy
        subst hy
        rw [List.length_zip] at hi
        exact (h6 i g b (by rw [List.getElem?_eq_getElem (by omega), e1]) (by rw [List.getElem?_eq_getElem (by omega), e2])).1 hb
      · simp [hb] at hy
    · intro h
      obtain ⟨a, t, e1, e2, e3⟩ := id h
      obtain ⟨i, hi, rfl⟩ := List.getElem_of_mem ((h4 f).2 ⟨a, e1⟩)
      have hi' : i < bs.length := by omega
      have := (h6 i _ _ (List.getElem?_eq_getElem hi) (List.getElem?_eq_getElem hi')).2 h
      refine ⟨(fs[i], bs[i]), ?_, by simp [this]⟩
      rw [List.mem_iff_getElem]
      exact ⟨i, by rw [List.length_zip]; omega, by simp⟩
  refine ⟨_, _, _, h2, ?_, hmem, by unfold partitionFeatures; rw [h2], ?_, ?_⟩
  · have hsub : ((fs.zip bs).filterMap (fun x => if x.2 then some x.1 else none)).Sublist fs := by
      clear h2 h3 h4 h5 h6 hmem
      induction fs generalizing bs with
      | nil => simp
      | cons f fs ih =>
        cases bs with
        | nil => simp
        | cons b bs =>
          cases b with
          | true => simpa using (ih bs)
          | false => simpa using (ih bs).cons f
    exact h3.sublist hsub
  · rintro ⟨f, v⟩
    rw [List.mem_filter, List.contains_iff_mem, hmem]
    refine and_congr_right (fun hx => ?_)
    constructor
    · rintro ⟨a, t, e1, e2, e3⟩
      have := (Dict.get?_eq_some hp).2 e1
      rw [(Dict.get?_eq_some hp).2 hx] at this; injection this with this; subst this
      exact ⟨t, e2, e3⟩
    · rintro ⟨t, e2, e3⟩; exact ⟨v, t, hx, e2, e3⟩
  · rintro ⟨f, v⟩
    rw [List.mem_filter, Bool.not_eq_true', ← Bool.not_eq_true, List.contains_iff_mem, hmem]
    refine and_congr_right (fun hx => ?_)
    constructor
    · intro h
      obtain ⟨t, -, ht'⟩ := Dict.get?_of_mem ht (hk f (List.mem_map.2 ⟨_, hx, rfl⟩))
      refine ⟨t, ht', ?_⟩
      by_contra hc
      exact h ⟨v, t, hx, ht', lt_of_not_ge hc⟩
    · rintro ⟨t, e2, e3⟩ ⟨a, t', e4, e5, e6⟩
      have := (Dict.get?_eq_some hp).2 e4
      rw [(Dict.get?_eq_some hp).2 hx] at this; injection this with this; subst this
      have := (Dict.get?_eq_some ht).2 e5
      rw [(Dict.get?_eq_some ht).2 e2] at this; injection this with this; subst this
      exact absurd e6 (not_lt.2 e3)

/-- C58, an example. -/
example : keptFeatures [(2, 1/2), (0, 1/4), (1, (1/4 : ℚ))] [(0, 1/8), (1, 1/4), (2, 1/3)] = .ok [0, (2 : ℕ)] ∧
    partitionFeatures [(2, 1/2), (0, 1/4), (1, 1/4)] [(0, 1/8), (1, 1/4), (2, 1/3)] = .ok ([(2, 1/2), (0, 1/4)], [((1 : ℕ), (1/4 : ℚ))]) := by
  decide +kernel

end kept

/-! ### C60 -/

section percentile
variable [FloorRing K]

theorem sorted_atMost {a : List K} (ha : a.Pairwise (· ≤ ·)) {t : K} : ∀ {i : Nat} (hi : i < a.length), a[i] ≤ t → i + 1 ≤ atMost a t := by
  induction a with
  | nil => intro i hi; simp at hi
  | cons x a ih =>
    intro i hi h
    rw [List.pairwise_cons] at ha
    cases i with
    | zero => simp only [List.getElem_cons_zero] at h; simp [atMost, h]
    | succ i =>
      simp only [List.getElem_cons_succ] at h
      have := ih ha.2 (by simpa using hi) h
      have hx : x ≤ t := (ha.1 _ (List.getElem_mem _)).trans h
      unfold atMost at this ⊢
      rw [List.filter_cons, if_pos (by simpa using hx), List.length_cons]
      omega

theorem sorted_atMost_le {a : List K} (ha : a.Pairwise (· ≤ ·)) {t : K} : ∀ {i : Nat} (hi : i < a.length), t < a[i] → atMost a t ≤ i := by
  induction a with
  | nil => intro i hi; simp at hi
  | cons x a ih =>
    intro i hi h
    rw [List.pairwise_cons] at ha
    cases i with
    | zero =>
      simp only [List.getElem_cons_zero] at h
      have : ((x :: a).filter (fun x => decide (x ≤ t))) = [] := by
        rw [List.filter_eq_nil_iff]
        intro b hb
        rcases List.mem_cons.1 hb with rfl | hb
        · simpa using h
        · simpa using h.trans_le (ha.1 b hb)
      simp [atMost, this]
    | succ i =>
      simp only [List.getElem_cons_succ] at h
      have := ih ha.2 (by simpa using hi) h
      unfold atMost at this ⊢
      rw [List.filter_cons]
      split
      · rw [List.length_cons]; omega
      · omega

theorem sorted_below {a : List K} (ha : a.Pairwise (· ≤ ·)) {t : K} : ∀ {i : Nat} (hi : i < a.length), t ≤ a[i] → below a t ≤ i := by
  induction a with
  | nil => intro i hi; simp at hi
  | cons x a ih =>
    intro i hi h
    rw [List.pairwise_cons] at ha
    cases i with
    | zero =>
      simp only [List.getElem_cons_zero] at h
      have : ((x :: a).filter (fun x => decide (x < t))) = [] := by
        rw [List.filter_eq_nil_iff]
        intro b hb
        rcases List.mem_cons.1 hb with rfl | hb
        · simpa using h
        · simpa using h.trans (ha.1 b hb)
      simp [below, this]
    | succ i =>
      simp only [List.getElem_cons_succ] at h
      have := ih ha.2 (by simpa using hi) h
      unfold below at this ⊢
      rw [List.filter_cons]
      split
      · rw [List.length_cons]; omega
      · omega

/-- What `np.percentile` returns: a point between two neighbouring order statistics. -/
theorem percentile_spec {l : List K} (hl : l ≠ []) {q : K} (h0 : 0 ≤ q) (h1 : q ≤ 100) : ∃ (t : K) (a : List K) (i : Nat) (_ : i < a.length) (_ : min (i + 1) (a.length - 1) < a.length), percentile l q = .ok t ∧
    a.Perm l ∧ a.Pairwise (· ≤ ·) ∧ (i : K) ≤ q / 100 * ((l.length : K) - 1) ∧ q / 100 * ((l.length : K) - 1) < i + 1 ∧ a[i] ≤ t ∧ t ≤ a[min (i + 1) (a.length - 1)] ∧
    (a[i] < a[min (i + 1) (a.length - 1)] → t < a[min (i + 1) (a.length - 1)]) := by
  have hpos : 0 < l.length := List.length_pos_iff.2 hl
  have hpos' : (1 : K) ≤ l.length := by exact_mod_cast hpos
  set a := l.insertionSort (· ≤ ·) with ha
  have hperm : a.Perm l := List.perm_insertionSort _ _
  have hlen : a.length = l.length := hperm.length_eq
  have hsort : a.Pairwise (· ≤ ·) := List.pairwise_insertionSort _ _
  set v := q / 100 * ((l.length : K) - 1) with hv
  have hv0 : 0 ≤ v := by
    have : (0 : K) ≤ (l.length : K) - 1 := by linarith
    positivity
  have hv1 : v ≤ (l.length : K) - 1 := by
    have : (0 : K) ≤ (l.length : K) - 1 := by linarith
    have hq : q / 100 ≤ 1 := by rw [div_le_one (by norm_num)]; exact h1
    nlinarith
  have hf0 : 0 ≤ ⌊v⌋ := Int.floor_nonneg.2 hv0
  set i := ⌊v⌋.toNat with hi
  have hic : (i : K) = (⌊v⌋ : K) := by
    rw [hi]
    have : ((⌊v⌋.toNat : ℤ) : K) = (⌊v⌋ : K) := by rw [Int.toNat_of_nonneg hf0]
    exact_mod_cast this
  have hiv : (i : K) ≤ v := by rw [hic]; exact Int.floor_le v
  have hvi : v < i + 1 := by rw [hic]; exact Int.lt_floor_add_one v
  have hil : i < a.length := by
    have : (i : K) < (a.length : K) := by rw [hlen]; linarith
    exact_mod_cast this
  have hil' : min (i + 1) (a.length - 1) < a.length := by omega
  have hle : a[i] ≤ a[min (i + 1) (a.length - 1)] := by
    rcases Nat.lt_or_ge i (min (i + 1) (a.length - 1)) with h | h
    · exact List.pairwise_iff_getElem.1 hsort _ _ hil hil' h
    · have : i = min (i + 1) (a.length - 1) := by omega
      exact le_of_eq (by congr 1)
  have e1 : a.getD i 0 = a[i] := by simp [hil]
  have e2 : a.getD (min (i + 1) (l.length - 1)) 0 = a[min (i + 1) (a.length - 1)] := by
    rw [← hlen, List.getD_eq_getElem?_getD, List.getElem?_eq_getElem hil', Option.getD_some]
  refine ⟨a[i] + (a[min (i + 1) (a.length - 1)] - a[i]) * (v - i), a, i, hil, hil', ?_, hperm, hsort, hiv, hvi, ?_, ?_, ?_⟩
  · unfold percentile
    rw [if_neg (by push Not; exact ⟨h0, h1⟩), if_neg hpos.ne']
    simp only
    rw [← ha, ← hv, ← hi, e1, e2]
  · have : 0 ≤ (a[min (i + 1) (a.length - 1)] - a[i]) * (v - i) := mul_nonneg (by linarith) (by linarith)
    linarith
  · nlinarith
  · intro h; nlinarith

theorem atMost_perm {a l : List K} (h : a.Perm l) (t : K) : atMost a t = atMost l t := (h.filter _).length_eq
theorem below_perm {a l : List K} (h : a.Perm l) (t : K) : below a t = below l t := (h.filter _).length_eq

/-- C60, what the argument means: of `n` null values more than `q / 100 * (n - 1)` are at most the threshold and at most `q / 100 * (n - 1) + 1` are below it. So the argument is
a number between 0 and 100, not between 0 and 1. -/
theorem C60_percentile_partial {l : List K} (hl : l ≠ []) {q : K} (h0 : 0 ≤ q) (h1 : q ≤ 100) : ∃ t, percentile l q = .ok t ∧
    q / 100 * ((l.length : K) - 1) < atMost l t ∧ (below l t : K) ≤ q / 100 * ((l.length : K) - 1) + 1 := by
  obtain ⟨t, a, i, hi, hi', e, hp, hs, h2, h3, h4, h5, -⟩ := percentile_spec hl h0 h1
  refine ⟨t, e, ?_, ?_⟩
  · have := sorted_atMost hs hi h4
    rw [atMost_perm hp] at this
    have : ((i + 1 : ℕ) : K) ≤ atMost l t := by exact_mod_cast this
    push_cast at this
    linarith
  · have := sorted_below hs hi' h5
    rw [below_perm hp] at this
    have : below l t ≤ i + 1 := this.trans (min_le_left _ _)
    have : (below l t : K) ≤ ((i + 1 : ℕ) : K) := by exact_mod_cast this
    push_cast at this
    linarith

/-- C60 is false for all null distributions with two or more values that are different: with `percentile=0.95` fewer than 95% of them are at most the threshold,
in fact at most one plus one in a hundred. -/
theorem C60_refuted {l : List K} (hl : 2 ≤ l.length) (hn : l.Nodup) : ∃ t, percentile l (95 / 100) = .ok t ∧ (atMost l t : K) < 95 / 100 * l.length ∧
    (atMost l t : K) ≤ 1 + (l.length : K) / 100 := by
  have hne : l ≠ [] := by rintro rfl; simp at hl
  obtain ⟨t, a, i, hi, hi', e, hp, hs, h2, h3, h4, h5, h6⟩ := percentile_spec (q := (95 / 100 : K)) hne (by norm_num) (by norm_num)
  have hlc : (2 : K) ≤ l.length := by exact_mod_cast hl
  have hlen := hp.length_eq
  have hii : i + 1 ≤ a.length - 1 := by
    have : ((i + 2 : ℕ) : K) < (l.length + 1 : ℕ) := by push_cast; linarith
    have : i + 2 < l.length + 1 := by exact_mod_cast this
    omega
  have hmin : min (i + 1) (a.length - 1) = i + 1 := min_eq_left hii
  have hlt : a[i] < a[min (i + 1) (a.length - 1)] := by
    refine lt_of_le_of_ne (List.pairwise_iff_getElem.1 hs _ _ hi hi' (by omega)) (fun hc => ?_)
    have := (hp.nodup_iff.2 hn).getElem_inj_iff.1 hc
    omega
  have := sorted_atMost_le hs hi' (h6 hlt)
  rw [atMost_perm hp, hmin] at this
  have : (atMost l t : K) ≤ ((i + 1 : ℕ) : K) := by exact_mod_cast this
  push_cast at this
  exact ⟨t, e, by linarith, by linarith⟩

theorem mapM_forall₂ {α β : Type} {f : α → Except PyErr β} : ∀ {l : List α} {l' : List β}, l.mapM f = .ok l' → List.Forall₂ (fun a b => f a = .ok b) l l' := by
  intro l
  induction l with
  | nil => intro l' h; injection h with h; subst h; exact .nil
  | cons a l ih =>
    intro l' h
    rw [List.mapM_cons] at h
    cases e : f a with
    | error x => rw [e] at h; cases h
    | ok b =>
      rw [e] at h
      cases e' : l.mapM f with
      | error x =>
        have : (do let r ← l.mapM f; pure (b :: r)) = (Except.ok l' : Except PyErr _) := h
        rw [e'] at this; cases this
      | ok bs =>
        have : (do let r ← l.mapM f; pure (b :: r)) = (Except.ok l' : Except PyErr _) := h
        rw [e'] at this
        injection this with this; subst this
        exact .cons e (ih e')

/-- C60 for `local_thresholds`: each feature gets the percentile of its own null values. -/
theorem C60_local_partial {κ : Type} {null : List (κ × List K)} {th : List (κ × K)} {q : K} (h : localThresholds null q = .ok th) :
    List.Forall₂ (fun x y => y.1 = x.1 ∧ percentile x.2 q = .ok y.2) null th := by
  refine (mapM_forall₂ h).imp (S := fun (x : κ × List K) (y : κ × K) => y.1 = x.1 ∧ percentile x.2 q = .ok y.2) ?_
  intro x y h
  cases e : percentile x.2 q with
  | error a => rw [e] at h; cases h
  | ok t => rw [e] at h; injection h with h; subst h; exact ⟨rfl, rfl⟩

/-- C60: `global_thresholds` raises AttributeError on every input. -/
theorem C60_global_refuted {κ : Type} (null : List (κ × List K)) (q : K) : globalThresholds null q = .error .attributeError := rfl

end percentile

/-- C60, an example: ten null values 1/10, ..., 1; the threshold for 0.95 is exceeded by all but the smallest, the one for 95 by only one. -/
example : localThresholds [(0, (List.range 10).map (fun i => ((i : ℚ) + 1) / 10))] (95 / 100) = .ok [((0 : ℕ), 2171 / 20000)] ∧
    percentile ((List.range 10).map (fun i => ((i : ℚ) + 1) / 10)) 95 = .ok (191 / 200) := by
  decide +kernel

end Bart
