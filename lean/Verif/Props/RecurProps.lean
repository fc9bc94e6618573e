import Verif.Spec.Recur
import Verif.Proofs.NoReturn
import Verif.Props.AcceptProps

/-! Property theorem C106 (the tree sampler does not come back), over the reals. -/

set_option linter.unusedSectionVars false

namespace Bart
open Spec Sampler Lik

section look
variable {K : Type} [Field K] [LinearOrder K] {n p : Nat} {X : Fin n → Fin p → Fl K} {y : Option (Fin n → K)} {t t' : Tree K n p} {s : Shape}
open Reference

theorem TreeInv.tidy (hI : TreeInv X y t s) : Tidy (look t) := by
  refine ⟨?_, ?_, ?_⟩
  · intro a ha b hb e
    obtain ⟨i, hi, rfl⟩ := List.mem_map.1 ha
    obtain ⟨j, hj, rfl⟩ := List.mem_map.1 hb
    rw [hI.path_inj hi hj e]
  · refine List.Nodup.map_on (fun i hi j hj e => hI.path_inj hi hj ?_) hI.nodes_nodup
    exact congrArg RNode.path e
  · intro path j v b hin
    obtain ⟨i, hi, e⟩ := List.mem_map.1 hin
    obtain ⟨u, hu, rfl⟩ := Shape.exists_sub (hI.perm.mem_iff.1 hi)
    obtain ⟨q, d, hR⟩ := hI.repr.sub hu
    cases u with
    | leaf k =>
      have h1 : (t.heap.node k).kind = .leaf := hR.1
      rw [Shape.root, TreeInv.look_leaf h1] at e
      simp at e
    | node k l r =>
      have h1 : (t.heap.node k).kind = .decision := hR.1
      have hroot : (t.heap.node k).split.combined.conditions = q := hR.root_path.1
      obtain ⟨cl, cr, -, er', hl, hr, el, er⟩ := hR.rule_eq
      have ml : l.root ∈ t.nodes := hI.perm.mem_iff.2 (hu.ids_subset _ (by simp [Shape.ids, l.root_mem]))
      have mr : r.root ∈ t.nodes := hI.perm.mem_iff.2 (hu.ids_subset _ (by simp [Shape.ids, r.root_mem]))
      have pl : pathOf t.heap l.root = pathOf t.heap k ++ [⟨cl.splittingVariable, cl.splittingValue, true⟩] := by
        unfold pathOf; rw [hl.root_path.1, hroot, List.map_append, List.map_singleton, el]
      have pr : pathOf t.heap r.root = pathOf t.heap k ++ [⟨cl.splittingVariable, cl.splittingValue, false⟩] := by
        unfold pathOf; rw [hr.root_path.1, hroot, List.map_append, List.map_singleton, er]
      simp only [Shape.root, lookNode, contentOf, h1, er', RNode.mk.injEq, Content.split.injEq] at e
      obtain ⟨rfl, rfl, rfl⟩ := e
      cases b with
      | true => exact ⟨_, List.mem_map.2 ⟨_, ml, rfl⟩, pl⟩
      | false => exact ⟨_, List.mem_map.2 ⟨_, mr, rfl⟩, pr⟩

theorem mem_look_splits {d : At K p} : d ∈ (look t).splits ↔ ∃ i ∈ t.decisionNodes, pathOf t.heap i = d.1 ∧ rule t.heap i = some d.2 := by
  obtain ⟨q, j, v⟩ := d
  unfold RTree.splits look Tree.decisionNodes
  simp only [Set.mem_setOf_eq, List.mem_map, List.mem_filter, decide_eq_true_eq]
  constructor
  · rintro ⟨i, hi, e⟩
    unfold lookNode contentOf at e
    injection e with e1 e2
    split at e2
    · next j' v' hk hr =>
      injection e2 with e2 e3; subst e2 e3
      exact ⟨i, ⟨hi, by simpa using hk⟩, e1, hr⟩
    · cases e2
  · rintro ⟨i, ⟨hi, hk⟩, e1, hr⟩
    refine ⟨i, hi, ?_⟩
    have hk' : (t.heap.node i).kind = .decision := by simpa using hk
    simp [lookNode, contentOf, hk', hr, e1]

/-- A comparison as a triple. -/
def tripleOf (c : Cond K p) : Fin p × Fl K × Op := (c.column, c.value, if c.low then .le else .gt)

/-- A triple as a comparison. -/
def ofTriple (c : Fin p × Fl K × Op) : Cond K p := ⟨c.1, c.2.1, decide (c.2.2 = .le)⟩

theorem look_splits_eq : (look t).splits = (fun d : List (Fin p × Fl K × Op) × Fin p × Fl K => (d.1.map ofTriple, d.2)) '' treeSplits t := by
  ext d
  rw [mem_look_splits]
  constructor
  · rintro ⟨i, hi, e1, e2⟩
    obtain ⟨q, jv⟩ := d
    refine ⟨(_, jv), ⟨i, hi, rfl, e2⟩, ?_⟩
    simp only [List.map_map]
    simp only at e1
    rw [← e1]
    rfl
  · rintro ⟨d', ⟨i, hi, e1, e2⟩, rfl⟩
    refine ⟨i, hi, ?_, e2⟩
    simp only
    rw [← e1, List.map_map]
    rfl

theorem treeSplits_eq (hI : TreeInv X y t s) : treeSplits t = (fun d : At K p => (d.1.map tripleOf, d.2)) '' (look t).splits := by
  have key : ∀ i ∈ t.decisionNodes, (t.heap.node i).split.combined.conditions.map (fun c => (c.splittingVariable, c.splittingValue, c.operator)) = (pathOf t.heap i).map tripleOf := by
    intro i hi
    have g := hI.goodConds (List.mem_filter.1 hi).1
    unfold pathOf
    rw [List.map_map]
    apply List.map_congr_left
    intro c hc
    rcases (g c hc).1 with h | h <;> simp [tripleOf, condOf, h]
  ext d
  constructor
  · rintro ⟨i, hi, e1, e2⟩
    refine ⟨(pathOf t.heap i, d.2), mem_look_splits.2 ⟨i, hi, rfl, e2⟩, ?_⟩
    simp only
    rw [← key i hi, e1]
  · rintro ⟨d', hd', rfl⟩
    obtain ⟨i, hi, e1, e2⟩ := mem_look_splits.1 hd'
    exact ⟨i, hi, by rw [key i hi, e1], e2⟩

/-- Nodes that are what they were up to leaf values: the same splits and paths. -/
theorem _root_.Bart.Sampler.SameShape.look {y' : Option (Fin n → K)} {s' : Shape} (hI : TreeInv X y t s) (hI' : TreeInv X y' t' s') (h : SameShape t t') :
    (look t').splits = (look t).splits ∧ (look t').map RNode.path = (look t).map RNode.path := by
  have hp : ∀ i ∈ t.nodes, pathOf t'.heap i = pathOf t.heap i := by
    intro i hi
    unfold pathOf
    rw [(h.node i hi).split]
  have hd : t'.decisionNodes = t.decisionNodes := by
    unfold Tree.decisionNodes
    rw [h.nodes]
    apply List.filter_congr
    intro i hi
    rw [(h.node i hi).kind]
  have hrule : ∀ i ∈ t.decisionNodes, rule t'.heap i = rule t.heap i := by
    intro i hi
    have hin := (List.mem_filter.1 hi).1
    unfold rule
    rw [(h.node i hin).left]
    cases hl : (t.heap.node i).left with
    | none => rfl
    | some l =>
      have hln : l ∈ t.nodes := by
        obtain ⟨u, hu, rfl⟩ := Shape.exists_sub (hI.perm.mem_iff.1 hin)
        obtain ⟨q, d, hR⟩ := hI.repr.sub hu
        cases u with
        | leaf k =>
          have h1 : (t.heap.node k).kind = .leaf := hR.1
          have := (List.mem_filter.1 hi).2
          simp [Shape.root, h1] at this
        | node k a b =>
          obtain ⟨-, r2, -⟩ := hR
          simp only [Shape.root] at hl
          rw [r2] at hl; injection hl with hl
          rw [← hl]
          exact hI.perm.mem_iff.2 (hu.ids_subset _ (by simp [Shape.ids, a.root_mem]))
      simp only [(h.node l hln).split]
  constructor
  · ext d
    rw [mem_look_splits, mem_look_splits, hd]
    constructor
    · rintro ⟨i, hi, e1, e2⟩
      exact ⟨i, hi, by rw [← hp i (List.mem_filter.1 hi).1]; exact e1, by rw [← hrule i hi]; exact e2⟩
    · rintro ⟨i, hi, e1, e2⟩
      exact ⟨i, hi, by rw [hp i (List.mem_filter.1 hi).1]; exact e1, by rw [hrule i hi]; exact e2⟩
  · unfold Bart.look
    rw [List.map_map, List.map_map, h.nodes]
    exact List.map_congr_left hp

end look

/-! ### C106 -/

section recur
variable {n p : Nat} {X : Fin n → Fin p → Fl ℝ} {m : Params ℝ} {pGrow pPrune : ℝ} {y : Fin n → ℝ}
open Reference

/-- One step keeps the target and is a step of the walk. -/
theorem fixedStep_walk (hX : NoNan X) (h1 : GoodParams m) (h2 : GoodPrior m) (hg : 0 < pGrow) (hp : 0 < pPrune) {t t' : Tree ℝ n p} (ht : ReachableTree X t) (hy : HasTarget t y)
    (h : FixedStep m pGrow pPrune y t t') :
    ReachableTree X t' ∧ HasTarget t' y ∧ Tidy (look t) ∧ Tidy (look t') ∧
      WalkStep (gain m pGrow pPrune X y) (fun k => Real.log k) (look t).splits (look t).prunable.length (look t').splits (look t').prunable.length ∧
      ∀ A C, (∀ r j b, (⟨j, X r j, b⟩ : Cond ℝ p) ∈ A) → Within A C X (look t) → Within A C X (look t') := by
  have hstep : SamplerStep t t' := by
    cases h with
    | tree hu h => exact .tree hg.ne' hp.ne' h
    | leaf hi h => exact .leaf hi h
    | target h => exact .updateY h
    | predict h => exact .predict h
  have hr := (samplerStep_keeps hX ht ⟨y, hy⟩ hstep).1
  obtain ⟨y0, s, hI⟩ := reachable_tree_inv hX ht
  have := hI.target hy; subst this
  obtain ⟨y1, s', hI'⟩ := reachable_tree_inv hX hr
  have shape : SameShape t t' → WalkStep (gain m pGrow pPrune X y) (fun k => Real.log k) (look t).splits (look t).prunable.length (look t').splits (look t').prunable.length ∧
      ∀ A C, (∀ r j b, (⟨j, X r j, b⟩ : Cond ℝ p) ∈ A) → Within A C X (look t) → Within A C X (look t') := by
    intro hs
    obtain ⟨e1, e2⟩ := hs.look hI hI'
    exact ⟨Or.inl ⟨e1, prunable_length_eq hI.tidy hI'.tidy e1⟩, fun A C _ hw => by unfold Within; rw [e2]; exact hw⟩
  have target : HasTarget t' y := by
    cases h with
    | @tree mu r r' hu h =>
      have := treeStep_core hX hI m hg.ne' hp.ne' r
      rw [h] at this
      obtain ⟨s', hI'⟩ := this.inv hI
      exact hI'.hasTarget
    | @leaf i r r' hi h =>
      have hs : SameShape t t' := leafSteps_shape (is := [i]) (r := r) (r' := r') hX m ht (by simpa using hi) (by unfold leafSteps; rw [h]; rfl)
      obtain ⟨h', v, x, rfl⟩ := leafStep_core hI m hi h
      intro k hk
      have hk' : k ∈ t.nodes := hk
      have hsp := (hs.node k hk').split
      have e1 := x.node k (hI.mem_lt hk')
      have e2 : ({ t with heap := h'.setValue i v } : Tree ℝ n p).heap.dataOf k = h'.dataOf k := by
        unfold Heap.dataOf
        rw [hsp, ← e1]
        rfl
      rw [e2]
      exact (hI.ext (TreeExt.withHeap x)).hasTarget k hk'
    | target h =>
      obtain ⟨t2, e, hI'', -⟩ := updateY_spec hI (some y)
      rw [h] at e; injection e with e; subst e
      exact hI''.hasTarget
    | predict h =>
      obtain ⟨e1, e2, -⟩ := predict_cases h
      intro k hk
      rw [e1]
      exact hy k (by rw [← e2]; exact hk)
  refine ⟨hr, target, hI.tidy, hI'.tidy, ?_⟩
  cases h with
  | @tree mu r r' hu h =>
    have := treeStep_ref hX m hI hg.ne' hp.ne' r
    rw [h] at this
    exact ⟨treeStep_walk hX h1 h2 hg hp hI.tidy hI'.tidy hu this, fun A C hA hw => within_step hX hA hw this⟩
  | @leaf i r r' hi h => exact shape (leafSteps_shape (is := [i]) (r := r) (r' := r') hX m ht (by simpa using hi) (by unfold leafSteps; rw [h]; rfl))
  | target h => exact shape (updateY_shape hX ht h)
  | predict h => exact shape (predict_shape h)

/-- A step of the tree sampler changes the splits if and only if it reports a mutation. -/
theorem C106_accepted (hX : NoNan X) (hg : pGrow ≠ 0) (hp : pPrune ≠ 0) {t t' : Tree ℝ n p} (ht : ReachableTree X t) (hy : HasTarget t y) {r r' : Rand ℝ} {mu : Option TreeMutation}
    (h : treeStep m pGrow pPrune t r = .ok (mu, t', r')) : treeSplits t' ≠ treeSplits t ↔ mu ≠ none := by
  obtain ⟨y0, s, hI⟩ := reachable_tree_inv hX ht
  have := hI.target hy; subst this
  have hr := treeStep_ref hX m hI hg hp r
  rw [h] at hr
  obtain ⟨y1, s', hI'⟩ := reachable_tree_inv hX (ht.treeStep realFns m ⟨y, hy⟩ hg hp h)
  cases mu with
  | some mu =>
    simp only [ne_eq, reduceCtorEq, not_false_eq_true, iff_true]
    intro e
    refine treeStep_changes hI.tidy hr ?_
    rw [look_splits_eq, look_splits_eq, e]
  | none =>
    simp only [ne_eq, not_true_eq_false, iff_false, not_not]
    have : look t' = look t := by
      simp only at hr
      unfold Reference.treeStep at hr
      split at hr
      · cases hr
      · split at hr
        · cases hr
        · injection hr with hr; injection hr with h3 h4; injection h4 with h4 h5
          simp only [Option.isSome_none] at h3
          rw [h3] at h4
          exact h4.symm
    rw [treeSplits_eq hI, treeSplits_eq hI', this]

theorem log_mono : Monotone fun k : ℕ => Real.log k := by
  intro a b hab
  rcases Nat.eq_zero_or_pos a with rfl | ha
  · simpa using Real.log_natCast_nonneg b
  · exact Real.log_le_log (by exact_mod_cast ha) (by exact_mod_cast hab)

/-- While settings, sigma and target stay the same, a tree whose splits come back has not changed in between. -/
theorem C106_never_returns (hX : NoNan X) (h1 : GoodParams m) (h2 : GoodPrior m) (hg : 0 < pGrow) (hp : 0 < pPrune) {f : ℕ → Tree ℝ n p} (h0 : ReachableTree X (f 0)) (hy : HasTarget (f 0) y)
    {k : ℕ} (h : ∀ i < k, FixedStep m pGrow pPrune y (f i) (f (i + 1))) {a b : ℕ} (hab : a ≤ b) (hb : b ≤ k) (he : treeSplits (f b) = treeSplits (f a)) :
    ∀ i, a ≤ i → i ≤ b → treeSplits (f i) = treeSplits (f a) := by
  have inv : ∀ i ≤ k, ReachableTree X (f i) ∧ HasTarget (f i) y := by
    intro i
    induction i with
    | zero => intro _; exact ⟨h0, hy⟩
    | succ i ih =>
      intro hi
      obtain ⟨r1, r2⟩ := ih (by omega)
      obtain ⟨q1, q2, -⟩ := fixedStep_walk hX h1 h2 hg hp r1 r2 (h i (by omega))
      exact ⟨q1, q2⟩
  have tidy : ∀ i ≤ k, Tidy (look (f i)) := by
    intro i hi
    obtain ⟨_, _, hI⟩ := reachable_tree_inv hX (inv i hi).1
    exact hI.tidy
  have hs : (look (f b)).splits = (look (f a)).splits := by rw [look_splits_eq, look_splits_eq, he]
  have key := walk_no_return (f := fun i => (look (f (a + i))).splits) (l := fun i => (look (f (a + i))).prunable.length) (m := b - a) (gain := gain m pGrow pPrune X y) log_mono
    (fun i hi => (fixedStep_walk hX h1 h2 hg hp (inv (a + i) (by omega)).1 (inv (a + i) (by omega)).2 (h (a + i) (by omega))).2.2.2.2.1)
    (by simp only [show a + (b - a) = b by omega, Nat.add_zero]; exact hs)
    (by simp only [show a + (b - a) = b by omega, Nat.add_zero]; exact prunable_length_eq (tidy a (by omega)) (tidy b hb) hs)
  have all : ∀ i, a + i ≤ b → (look (f (a + i))).splits = (look (f a)).splits := by
    intro i
    induction i with
    | zero => intro _; rfl
    | succ i ih => intro hi; exact (key i (by omega)).trans (ih (by omega))
  intro i hai hib
  obtain ⟨_, _, hI⟩ := reachable_tree_inv hX (inv i (by omega)).1
  obtain ⟨_, _, hI'⟩ := reachable_tree_inv hX (inv a (by omega)).1
  rw [treeSplits_eq hI, treeSplits_eq hI']
  have := all (i - a) (by omega)
  rw [show a + (i - a) = i by omega] at this
  rw [this]

open Classical in
/-- While settings, sigma and target stay the same, the number of changes of a tree is bounded: the bound depends on the data and the first tree only. -/
theorem C106_bounded (hX : NoNan X) {t : Tree ℝ n p} (ht : ReachableTree X t) :
    ∃ B : ℕ, ∀ (m : Params ℝ) (pGrow pPrune : ℝ) (y : Fin n → ℝ), GoodParams m → GoodPrior m → 0 < pGrow → 0 < pPrune → HasTarget t y →
      ∀ (f : ℕ → Tree ℝ n p) (k : ℕ), f 0 = t → (∀ i < k, FixedStep m pGrow pPrune y (f i) (f (i + 1))) →
        ((Finset.range k).filter fun i => treeSplits (f (i + 1)) ≠ treeSplits (f i)).card ≤ B := by
  obtain ⟨A, C, hA, hd, hw⟩ := exists_within X (look t)
  have hfin : {S : Set (At ℝ p) | S ⊆ possible A C}.Finite := (possible_finite hA C).finite_subsets
  refine ⟨hfin.toFinset.card, fun m pGrow pPrune y h1 h2 hg hp hy f k hf h => ?_⟩
  have inv : ∀ i ≤ k, ReachableTree X (f i) ∧ HasTarget (f i) y ∧ Within A C X (look (f i)) := by
    intro i
    induction i with
    | zero => intro _; rw [hf]; exact ⟨ht, hy, hw⟩
    | succ i ih =>
      intro hi
      obtain ⟨r1, r2, r3⟩ := ih (by omega)
      obtain ⟨q1, q2, -, -, -, q3⟩ := fixedStep_walk hX h1 h2 hg hp r1 r2 (h i (by omega))
      exact ⟨q1, q2, q3 A C hd r3⟩
  have tidy : ∀ i ≤ k, Tidy (look (f i)) := by
    intro i hi
    obtain ⟨_, _, hI⟩ := reachable_tree_inv hX (inv i hi).1
    exact hI.tidy
  refine Finset.card_le_card_of_injOn (fun i => (look (f (i + 1))).splits) (fun i hi => ?_) ?_
  · have hi' := Finset.mem_range.1 (Finset.mem_filter.1 hi).1
    exact hfin.mem_toFinset.2 (splits_possible (tidy (i + 1) hi') (inv (i + 1) hi').2.2)
  · have key : ∀ i j, i < j → j < k → treeSplits (f (j + 1)) ≠ treeSplits (f j) → (look (f (i + 1))).splits ≠ (look (f (j + 1))).splits := by
      intro i j hij hj hne e
      have he : treeSplits (f (j + 1)) = treeSplits (f (i + 1)) := by
        obtain ⟨_, _, hI⟩ := reachable_tree_inv hX (inv (j + 1) hj).1
        obtain ⟨_, _, hI'⟩ := reachable_tree_inv hX (inv (i + 1) (by omega)).1
        rw [treeSplits_eq hI, treeSplits_eq hI', e]
      have h3 := C106_never_returns hX h1 h2 hg hp (by rw [hf]; exact ht) (by rw [hf]; exact hy) h (a := i + 1) (b := j + 1) (by omega) (by omega) he j (by omega) (by omega)
      exact hne (he.trans h3.symm)
    intro i hi j hj e
    obtain ⟨hi1, hi2⟩ := Finset.mem_filter.1 hi
    obtain ⟨hj1, hj2⟩ := Finset.mem_filter.1 hj
    rw [Finset.mem_range] at hi1 hj1
    rcases lt_trichotomy i j with hlt | heq | hgt
    · exact absurd e (key i j hlt hj1 hj2)
    · exact heq
    · exact absurd e.symm (key j i hgt hi1 hi2)

/-- There are runs to which C106 applies and in which the tree changes (whatever the proper parameters and the target). -/
example {m : Params ℝ} (h1 : GoodParams m) (h2 : GoodPrior m) (y : Fin 3 → ℝ) : ∃ (f : ℕ → Tree ℝ 3 1) (pGrow pPrune : ℝ), 0 < pGrow ∧ 0 < pPrune ∧ ReachableTree (rampX 3) (f 0) ∧
    HasTarget (f 0) y ∧ (∀ i < 1, FixedStep m pGrow pPrune y (f i) (f (i + 1))) ∧ treeSplits (f 1) ≠ treeSplits (f 0) := by
  obtain ⟨t, t1, t2, t3, mu, mu', h, -⟩ := exRoundTrip3 y
  obtain ⟨us, ms, us', ms', hpr⟩ := h.grow
  obtain ⟨s, s', i, D, L, R, l, r, U, j, v, hI, x1, rfl, hg, -⟩ := h.unfold (rampX_noNan 3)
  obtain ⟨c, hc⟩ := grow_ratio_fin (rampX_noNan 3) hI x1 hg h1 h2
  obtain ⟨t9, e9⟩ := hc 1 (Real.exp (1 - c)) one_pos (Real.exp_pos _)
  rw [div_one, Real.log_exp, sub_add_cancel] at e9
  have he := Real.exp_pos (1 - c)
  have hlt : Fl.lt (.fin 0 : Fl ℝ) (.fin 1) = true := by simp [Fl.lt]
  obtain ⟨t4, e4, x4⟩ := ratio_grow m hI x1 hg (pPrune := Real.exp (1 - c)) one_ne_zero
  rw [e9] at e4; injection e4 with e4; injection e4 with e4 e5; subst e5
  obtain ⟨t5, s5, e5, -⟩ := IsProposal.mutate (mu := ⟨.grow, i, D⟩) hI (x1.trans x4) (Or.inl ⟨i, D, L, R, j, v, rfl, hg.ext x4.heap⟩)
  have hstep : treeStep m 1 (Real.exp (1 - c)) t ⟨ms, us, [0], [], []⟩ = .ok (some ⟨.grow, i, D⟩, t5, ⟨ms', us', [], [], []⟩) := by
    unfold Sampler.treeStep treeSample
    simp only [hpr, e9, hlt, if_true, e5]
  refine ⟨fun k => if k = 0 then t else t5, 1, Real.exp (1 - c), one_pos, he, h.reach, h.target, ?_, ?_⟩
  · intro k hk
    obtain rfl : k = 0 := by omega
    exact .tree (by simp) hstep
  · exact (C106_accepted (rampX_noNan 3) one_ne_zero he.ne' h.reach h.target hstep).2 (by simp)

end recur
end Bart
