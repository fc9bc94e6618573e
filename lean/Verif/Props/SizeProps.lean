import Verif.Props.RecurProps
import Verif.Proofs.RunRel
import Verif.Props.ForestProps

/-! Property theorem C107 (what the splits of a sampled tree are like, and how large it can be). -/

set_option linter.unusedSectionVars false

namespace Bart
open Spec Sampler Reference
variable {K : Type} [Field K] [LinearOrder K] {n p : Nat} {X : Fin n → Fin p → Fl K}

/-- Every split is at an entry of a column that can be split, not the largest one, among the rows of the node. -/
def Chosen (X : Fin n → Fin p → Fl K) (t : RTree K p) : Prop :=
  ∀ path j v, (path, j, v) ∈ t.splits → j ∈ columns X (RNode.rows X ⟨path, .leaf 0⟩) ∧ v ∈ column X (RNode.rows X ⟨path, .leaf 0⟩) j ∧
    ∃ w ∈ column X (RNode.rows X ⟨path, .leaf 0⟩) j, Fl.lt v w = true

theorem chosen_step [MathFns K] {P : Params K} {pGrow pPrune : K} {y : Fin n → K} {t t' : RTree K p} {r r' : Rand K} {b : Bool} (ht : Tidy t) (hc : Chosen X t)
    (h : Reference.treeStep P pGrow pPrune X y t r = .ok (b, t', r')) : Chosen X t' := by
  unfold Reference.treeStep at h
  split at h
  · cases h
  · next mv us ms hmv =>
    have hm := propose_mem hmv
    split at h
    · cases h
    · next u rest hu =>
      injection h with h; injection h with h3 h4; injection h4 with h4 h5
      split at h4
      swap
      · subst h4; exact hc
      subst h4
      cases mv with
      | grow path j v =>
        obtain ⟨w, hin, hj, hv, hlt⟩ := hm
        obtain ⟨-, e2⟩ := splits_grow ht (List.mem_filter.1 hin).1 j v
        intro q j' v' hd
        rw [e2] at hd
        rcases hd with hd | hd
        · simp only [Prod.mk.injEq] at hd
          obtain ⟨rfl, rfl, rfl⟩ := hd
          exact ⟨hj, hv, hlt⟩
        · exact hc q j' v' hd
      | prune path j v =>
        obtain ⟨-, e2⟩ := splits_prune ht hm
        intro q j' v' hd
        rw [e2] at hd
        exact hc q j' v' hd.1

/-- Everything the sampler does respects this. -/
theorem chosen_rel [MathFns K] (hX : NoNan X) : TreeRel X (fun t t' : Tree K n p => Chosen X (look t) → Chosen X (look t')) := by
  have shape : ∀ {t t' : Tree K n p}, ReachableTree X t → ReachableTree X t' → SameShape t t' → Chosen X (look t) → Chosen X (look t') := by
    intro t t' ht ht' hs hc
    obtain ⟨_, _, hI⟩ := reachable_tree_inv hX ht
    obtain ⟨_, _, hI'⟩ := reachable_tree_inv hX ht'
    unfold Chosen
    rw [(hs.look hI hI').1]
    exact hc
  exact {
    refl := fun _ h => h
    trans := fun _ _ _ h h' h0 => h' (h h0)
    predict := fun ht h => shape ht (predict_reach ht h) (predict_shape h)
    updateY := fun {t y t'} ht h => shape ht (ht.op (op := .updateY y) trivial h) (updateY_shape hX ht h)
    treeStep := by
      intro t m pGrow pPrune r mu t' r' ht hz hp1 hp2 h hc
      obtain ⟨y, s, hI⟩ := reachable_tree_inv hX ht
      obtain ⟨z, hz⟩ := hz
      have := hI.target hz; subst this
      have hr := treeStep_ref hX m hI hp1 hp2 r
      rw [h] at hr
      exact chosen_step hI.tidy hc hr
    leafStep := by
      intro t m i r t' r' ht hi h
      exact shape ht (ht.leafStep _ m hi h) (leafSteps_shape (is := [i]) (r := r) (r' := r') hX m ht (by simpa using hi) (by unfold leafSteps; rw [h]; rfl))
    copy := by
      intro t ht
      obtain ⟨_, _, hI⟩ := reachable_tree_inv hX ht
      exact shape ht ht.copy (SameShape.ofExt hI (deepCopy_ext t)) }

theorem model_chosen [MathFns K] (hX : NoNan X) {m : BModel K n p} (h : ReachableModel X m) : ∀ t ∈ m.trees, Chosen X (look t) := by
  obtain ⟨y0, pg, pp, m0, k, h1, h2, h3, h4⟩ := h
  have hr := (chosen_rel hX).run hX h1 h2 (construct_reach h3) h4
  have h0 : ∀ t ∈ m0.trees, Chosen X (look t) := by
    obtain ⟨nz, d, sigma, nT, al, be, kk, hd, hc⟩ := h3
    obtain ⟨m', y, t, e, hy, hI, e1, e2, e3, e4, e5, e6, e7, e8, hG, hn, -⟩ := construct_inv (N := False) (fun h => h.elim) hd sigma nT al be kk
    rw [hc] at e; injection e with e; subst e
    intro t' ht' path j v hd
    rw [e8] at ht'
    obtain ⟨-, rfl⟩ := List.mem_replicate.1 ht'
    obtain ⟨i, hi, -⟩ := mem_look_splits.1 hd
    obtain ⟨s, hT⟩ := hG.inv
    exfalso
    have hs := hT.perm
    rw [hn] at hs
    cases s with
    | leaf k =>
      have := hT.mem_decisionNodes.1 hi
      simp [Shape.decisions] at this
    | node k l r =>
      have := hs.length_eq
      have hl := List.length_pos_of_mem l.root_mem
      have hl2 := List.length_pos_of_mem r.root_mem
      simp only [Shape.ids, List.length_cons, List.length_append, List.length_nil] at this
      omega
  have key : ∀ {l l' : List (Tree K n p)}, List.Forall₂ (fun t t' : Tree K n p => Chosen X (look t) → Chosen X (look t')) l l' → (∀ t ∈ l, Chosen X (look t)) → ∀ t ∈ l', Chosen X (look t) := by
    intro l l' hf
    induction hf with
    | nil => intro _ t ht; cases ht
    | cons hxy _ ih =>
      intro h0 t ht
      rcases List.mem_cons.1 ht with rfl | ht
      · exact hxy (h0 _ (by simp))
      · exact ih (fun t ht => h0 t (by simp [ht])) t ht
  exact key hr.2 h0

theorem three_rows {rows : Fin n → Bool} {j : Fin p} (h : HasTwoValues (column X rows j).tail) : 3 ≤ count rows := by
  obtain ⟨a, ha, b, hb, hab⟩ := h
  rw [← column_length X rows j]
  have h2 : 2 ≤ (column X rows j).tail.length := by
    by_contra hc
    match hl : (column X rows j).tail, ha, hb with
    | [], ha, _ => cases ha
    | [c], ha, hb =>
      rw [List.mem_singleton] at ha hb
      exact hab (ha.trans hb.symm)
    | _ :: _ :: _, _, _ => rw [hl] at hc; simp at hc
  rw [List.length_tail] at h2
  omega

/-- C107, the splits: the rule `(j, v)` of a decision node of a model that the sampler has worked on is about a column that has two different values among the training rows of the node (the first row
of the node not counted); `v` is a value of that column among the rows of the node, and not the largest. The node has at least three training rows. -/
theorem C107_splits [MathFns K] (hX : NoNan X) {m : BModel K n p} (h : ReachableModel X m) {t : Tree K n p} (ht : t ∈ m.trees) {i : NodeId} (hi : i ∈ t.decisionNodes) :
    ∃ j v, rule t.heap i = some (j, v) ∧ HasTwoValues (column X (t.heap.inSample (t.heap.node i).split) j).tail ∧ v ∈ column X (t.heap.inSample (t.heap.node i).split) j ∧
      (∃ w ∈ column X (t.heap.inSample (t.heap.node i).split) j, Fl.lt v w = true) ∧ 3 ≤ count (t.heap.inSample (t.heap.node i).split) := by
  obtain ⟨y, s, hI⟩ := reachable_tree_inv hX (model_trees_reachable hX h t ht)
  have hin := (List.mem_filter.1 hi).1
  obtain ⟨j, v, e1, e2⟩ := hI.look_decision hin (by simpa using (List.mem_filter.1 hi).2)
  have hrows : RNode.rows X ⟨pathOf t.heap i, .leaf 0⟩ = t.heap.inSample (t.heap.node i).split := by
    have := hI.rows_eq hX hin
    funext r
    rw [inSample_eq]
    exact congrFun this r
  obtain ⟨c1, c2, c3⟩ := model_chosen hX h t ht (pathOf t.heap i) j v (mem_look_splits.2 ⟨i, hi, rfl, e1⟩)
  rw [hrows] at c1 c2 c3
  have h2 : HasTwoValues (column X (t.heap.inSample (t.heap.node i).split) j).tail := by
    have := (List.mem_filter.1 c1).2
    simp only [List.any_eq_true, decide_eq_true_eq] at this
    obtain ⟨a, ha, b, hb, hab⟩ := this
    exact ⟨a, ha, b, hb, hab⟩
  exact ⟨j, v, e1, h2, c2, c3, three_rows h2⟩

/-- The size of a part of a tree in which every node has rows and every decision node has three. -/
theorem Repr.size {y : Option (Fin n → K)} {h : Heap K n p} (hX : NoNan X) {s : Shape} : ∀ {path : List (SplitCondition K p)} {d : Nat}, Repr X y h s path d →
    (∀ i ∈ s.ids, 1 ≤ count (rowsOf (h.dataOf i))) → (∀ i ∈ s.decisions, 3 ≤ count (rowsOf (h.dataOf i))) →
    s.leaves.length ≤ count (rowsOf (h.dataOf s.root)) ∧ (∀ i ∈ s.ids, (h.node i).depth + 1 ≤ d + count (rowsOf (h.dataOf s.root))) ∧
      (s.decisions ≠ [] → s.leaves.length + 1 ≤ count (rowsOf (h.dataOf s.root)) ∧ ∀ i ∈ s.ids, (h.node i).depth + 2 ≤ d + count (rowsOf (h.dataOf s.root))) := by
  induction s with
  | leaf k =>
    intro path d hR h1 h3
    have hk := h1 k (by simp [Shape.ids])
    refine ⟨by simpa [Shape.leaves, Shape.root] using hk, ?_, by simp [Shape.decisions]⟩
    intro i hi
    simp only [Shape.ids, List.mem_singleton] at hi; subst hi
    have := hR.root_path.2
    simp only [Shape.root] at this ⊢
    omega
  | node k l r ihl ihr =>
    intro path d hR h1 h3
    have hroot := hR.root_path.2
    have hk3 := h3 k (by simp [Shape.decisions])
    obtain ⟨-, -, -, -, hok, cl, cr, hp, hl, hr⟩ := hR
    obtain ⟨l1, l2, l3⟩ := ihl hl (fun i hi => h1 i (by simp [Shape.ids, hi])) (fun i hi => h3 i (by simp [Shape.decisions, hi]))
    obtain ⟨r1, r2, r3⟩ := ihr hr (fun i hi => h1 i (by simp [Shape.ids, hi])) (fun i hi => h3 i (by simp [Shape.decisions, hi]))
    have cl1 := h1 l.root (by simp [Shape.ids, l.root_mem])
    have cr1 := h1 r.root (by simp [Shape.ids, r.root_mem])
    have hc : count (rowsOf (h.dataOf k)) = count (rowsOf (h.dataOf l.root)) + count (rowsOf (h.dataOf r.root)) := by
      rw [← count_split (rowsOf (h.dataOf k)) (fun q => sat cl (X q))]
      congr 2
      · funext q
        rw [hok.rows, hl.root_ok.1.rows, List.all_append]
        simp
      · funext q
        rw [hok.rows, hr.root_ok.1.rows, List.all_append]
        simp [hp.sat_compl (hX q _)]
    simp only [Shape.root] at hroot ⊢
    have hll : l.leaves.length + r.leaves.length + 1 ≤ count (rowsOf (h.dataOf k)) := by
      by_cases hdl : l.decisions = []
      · by_cases hdr : r.decisions = []
        · have leaf1 : ∀ u : Shape, u.decisions = [] → u.leaves.length = 1 := by
            intro u hu
            cases u with
            | leaf i => rfl
            | node i a b => simp [Shape.decisions] at hu
          rw [leaf1 l hdl, leaf1 r hdr]
          omega
        · have := (r3 hdr).1; omega
      · have := (l3 hdl).1; omega
    have part : ∀ (u : Shape) (q : List (SplitCondition K p)), Repr X y h u q (d + 1) → count (rowsOf (h.dataOf u.root)) + 1 ≤ count (rowsOf (h.dataOf k)) →
        (u.decisions ≠ [] → ∀ i ∈ u.ids, (h.node i).depth + 2 ≤ d + 1 + count (rowsOf (h.dataOf u.root))) → ∀ i ∈ u.ids, (h.node i).depth + 2 ≤ d + count (rowsOf (h.dataOf k)) := by
      intro u q hu hcu hd i hi
      by_cases hdu : u.decisions = []
      · cases u with
        | leaf a =>
          simp only [Shape.ids, List.mem_singleton] at hi; subst hi
          have := hu.root_path.2
          simp only [Shape.root] at this
          omega
        | node a b c => simp [Shape.decisions] at hdu
      · have := hd hdu i hi; omega
    have hdep : ∀ i ∈ (Shape.node k l r).ids, (h.node i).depth + 2 ≤ d + count (rowsOf (h.dataOf k)) := by
      intro i hi
      simp only [Shape.ids, List.mem_cons, List.mem_append] at hi
      rcases hi with rfl | hi | hi
      · omega
      · exact part l _ hl (by omega) (fun hd => (l3 hd).2) i hi
      · exact part r _ hr (by omega) (fun hd => (r3 hd).2) i hi
    refine ⟨by simp only [Shape.leaves, List.length_append]; omega, fun i hi => by have := hdep i hi; omega, fun _ => ⟨by simp only [Shape.leaves, List.length_append]; omega, hdep⟩⟩

/-- C107, the size: a tree of a model that the sampler has worked on has at most `n - 1` leaves and at most `n - 2` levels below the root, `n` the number of training rows, or is a single leaf.
In particular with one or two training rows it is a single leaf. -/
theorem C107_size [MathFns K] (hX : NoNan X) (hn : 0 < n) {m : BModel K n p} (h : ReachableModel X m) {t : Tree K n p} (ht : t ∈ m.trees) :
    t.leafNodes.length ≤ max 1 (n - 1) ∧ (∀ i ∈ t.nodes, (t.heap.node i).depth ≤ n - 2) ∧ (n ≤ 2 → t.nodes.length = 1) := by
  obtain ⟨y0, hM⟩ := Spec.ReachableModel.inv hX hn h
  obtain ⟨y, fl, hG, -⟩ := hM.fitted t ht
  obtain ⟨s, hI⟩ := hG.inv
  have h1 : ∀ i ∈ s.ids, 1 ≤ count (rowsOf (t.heap.dataOf i)) := by
    intro i hi
    obtain ⟨r, hr⟩ := hG.ne trivial i (hI.perm.mem_iff.2 hi)
    exact Finset.card_pos.2 ⟨r, by simpa using hr⟩
  have h3 : ∀ i ∈ s.decisions, 3 ≤ count (rowsOf (t.heap.dataOf i)) := by
    intro i hi
    obtain ⟨_, _, _, _, _, _, h3⟩ := C107_splits hX h ht (hI.mem_decisionNodes.2 hi)
    have : t.heap.inSample (t.heap.node i).split = rowsOf (t.heap.dataOf i) := by funext r; exact inSample_eq _ _ _
    rwa [this] at h3
  obtain ⟨a1, a2, a3⟩ := hI.repr.size hX h1 h3
  have hroot : count (rowsOf (t.heap.dataOf s.root)) = n := by
    have : rowsOf (t.heap.dataOf s.root) = fun _ => true := by
      funext r
      rw [hI.repr.root_ok.1.rows]; rfl
    rw [this]; simp [count]
  rw [hroot] at a1 a2 a3
  have hleaves : t.leafNodes.length = s.leaves.length := by
    have : t.leafNodes.Perm s.leaves := (List.perm_ext_iff_of_nodup (hI.nodes_nodup.filter _) ((List.nodup_append.1 (s.ids_perm.nodup_iff.1 (hI.perm.nodup_iff.1 hI.nodes_nodup))).1)).2 fun i => hI.mem_leafNodes
    exact this.length_eq
  rw [hleaves]
  by_cases hd : s.decisions = []
  · cases s with
    | leaf k =>
      refine ⟨by simp [Shape.leaves], fun i hi => ?_, fun _ => by rw [hI.perm.length_eq]; rfl⟩
      have := hI.perm.mem_iff.1 hi
      simp only [Shape.ids, List.mem_singleton] at this; subst this
      have := hI.repr.root_path.2
      simp only [Shape.root] at this
      omega
    | node k l r => simp [Shape.decisions] at hd
  · obtain ⟨b1, b2⟩ := a3 hd
    refine ⟨by omega, fun i hi => ?_, fun h2 => ?_⟩
    · have := b2 i (hI.perm.mem_iff.1 hi); omega
    · have := b2 s.root s.root_mem
      obtain ⟨k, hk⟩ := List.exists_mem_of_ne_nil _ hd
      have := h3 k hk
      have hle : count (rowsOf (t.heap.dataOf k)) ≤ n := (Finset.card_le_univ _).trans (by simp)
      omega

/-- C107, the values: on any set of new rows such a tree takes at most `n - 1` different values (one if `n` is at most 2). -/
theorem C107_values [MathFns K] (hX : NoNan X) (hn : 0 < n) {m : BModel K n p} (h : ReachableModel X m) {t : Tree K n p} (ht : t ∈ m.trees) {q : Nat} (Z : Fin q → Fin p → Fl K)
    (hZ : ∀ r, GoodRow (Z r)) : (Finset.univ.image (t.predictX Z)).card ≤ max 1 (n - 1) := by
  obtain ⟨y, s, hI⟩ := reachable_tree_inv hX (model_trees_reachable hX h t ht)
  refine le_trans ?_ (C107_size hX hn h ht).1
  have hsub : Finset.univ.image (t.predictX Z) ⊆ (t.leafNodes.map fun i => (t.heap.node i).value).toFinset := by
    intro v hv
    obtain ⟨r, -, rfl⟩ := Finset.mem_image.1 hv
    obtain ⟨i, i1, -, i3, i4⟩ := hI.leaf_of_newRow (hZ r)
    rw [List.mem_toFinset, List.mem_map]
    refine ⟨i, i1, ?_⟩
    unfold Tree.predictX
    exact (predictX_fold t.heap Z r _ _ _ (fun j hj hjr => by rw [i4 j hj hjr]) (Or.inl ⟨i, i1, i3⟩)).symm
  exact (Finset.card_le_card hsub).trans ((List.toFinset_card_le _).trans (by simp))

/-! ### fitted models -/

section fit
variable [IsStrictOrderedRing K] [MathFns K] [FloorRing K]

theorem fit_depths (hX : NoNan X) {s s' : SkModel K p} (hp1 : s.pGrow ≠ 0) (hp2 : s.pPrune ≠ 0) {y : Fin n → K} {rs : Nat → Rand K} (h : s.fit X y rs = .ok s') {c : Combined K p}
    (hc : s'.samples = some c) : ∀ x ∈ c.models, ∀ e ∈ x.depths, e ≤ n - 2 := by
  obtain ⟨d, m, os, _, e1, -⟩ := fit_spec h
  obtain ⟨hn0, -⟩ := constructModel_spec e1
  obtain ⟨c', Ms, e, hS, hM, -⟩ := C57_fit hX hp1 hp2 h
  rw [hc] at e; injection e with e; subst e
  clear h hc
  unfold Show at hS
  generalize c.models = xs at hS
  induction hS with
  | nil => simp
  | @cons x M xs Ms hx _ ih =>
    intro x' hx'
    rcases List.mem_cons.1 hx' with rfl | hx'
    · rw [depths_content hx]
      intro e he
      obtain ⟨t, ht, he⟩ := List.mem_flatMap.1 he
      obtain ⟨i, hi, rfl⟩ := List.mem_map.1 he
      exact (C107_size hX hn0 (hM M (by simp)).1 ht).2.1 i hi
    · exact ih (fun M hM' => hM M (by simp [hM'])) x' hx'

/-- C107 for a fitted model: the decision trees of C88 have at most `n - 2` levels below the root, `n` the number of training rows. -/
theorem C107_fit (hX : NoNan X) {s s' : SkModel K p} (hp1 : s.pGrow ≠ 0) (hp2 : s.pPrune ≠ 0) {y : Fin n → K} {rs : Nat → Rand K} (h : s.fit X y rs = .ok s') (hns : 0 < s.nSamples)
    {lo hi : K} (hlo : IsLeast (Set.range y) lo) (hhi : IsGreatest (Set.range y) hi) :
    ∃ forests : List (List (DecTree K p)), forests.length = s.nChains * (storedTimes s.nSamples s.thin).length ∧ (∀ F ∈ forests, F.length = s.nTrees ∧ ∀ D ∈ F, ∀ e ∈ D.depths 0, e ≤ n - 2) ∧
      ∀ (q : Nat) (Z : Fin q → Fin p → Fl K), (∀ r, GoodRow (Z r)) →
        s'.predict (some ⟨q, Z⟩) = .ok (List.ofFn (fun r => mean (forests.map (fun F => originalScale lo hi ((F.map (fun D => D.eval (Z r))).sum))))) := by
  obtain ⟨d, c, forests, hd, hd', hc, hlen, hne, hF⟩ := fit_forests hX hp1 hp2 h hns
  refine ⟨forests, by rw [← hF.length_eq, hlen], ?_, Described.predict hd hd' hc hne hF hlo hhi⟩
  have hdep := fit_depths hX hp1 hp2 h hc
  clear hlen hne hc
  generalize c.models = xs at hF hdep
  induction hF with
  | nil => simp
  | cons hx _ ih =>
    intro F hF
    rcases List.mem_cons.1 hF with rfl | hF
    · exact ⟨hx.len, fun D hD e he => hdep _ (by simp) e (hx.depths.mem_iff.2 (List.mem_flatMap.2 ⟨D, hD, he⟩))⟩
    · exact ih (fun x hx => hdep x (by simp [hx])) F hF

end fit

/-! ### concrete cases -/

section examples
attribute [local instance] exFns

/-- A tree with the largest possible size for three rows: two leaves, one level below the root. The split is at the value 1 or 2 of the data, below the largest value 3. -/
example : ∃ m : BModel ℚ 3 1, ReachableModel exX m ∧ (m.trees.any fun t => decide (t.leafNodes.length = 3 - 1) && t.nodes.any (fun i => decide ((t.heap.node i).depth = 3 - 2))) = true :=
  exReachModel _ (by decide +kernel)

/-- `C107_fit` applies to the fitted example, in which the bound 3 - 2 is attained. -/
example : (match exFit true with
    | .ok s => (match s.samples with | some c => c.models.any (fun x => x.depths.any (fun e => decide (e = 3 - 2))) | none => false)
    | .error _ => false) = true ∧ NoNan exX ∧ (exSk true).pGrow ≠ 0 ∧ (exSk true).pPrune ≠ 0 ∧ 0 < (exSk true).nSamples ∧ IsLeast (Set.range exY) 0 ∧ IsGreatest (Set.range exY) 2 := by
  refine ⟨by decide +kernel, by unfold NoNan; decide +kernel, by decide +kernel, by decide +kernel, by decide, ⟨⟨0, by decide +kernel⟩, ?_⟩, ⟨⟨2, by decide +kernel⟩, ?_⟩⟩
  · rintro _ ⟨r, rfl⟩; revert r; decide +kernel
  · rintro _ ⟨r, rfl⟩; revert r; decide +kernel

end examples

end Bart
