import Verif.Spec.DecisionTree
import Verif.Props.FeatureProps
import Verif.Props.RunnerProps
import Verif.Model.Diagnostics

/-! C88: a fitted model is a list of sums of decision trees. C89: where predictions are constant. -/

set_option linter.unusedSectionVars false

namespace Bart
open Spec
variable {K : Type} [Field K] [LinearOrder K] [IsStrictOrderedRing K] {n p : Nat} {X : Fin n → Fin p → Fl K}

/-! ### lemmas -/

/-- The decision tree below a node. -/
def toDecTree (h : Heap K n p) : Shape → DecTree K p
  | .leaf i => .leaf (h.node i).value
  | .node i l r =>
    match rule h i with
    | some (j, v) => .node j v (toDecTree h l) (toDecTree h r)
    | none => .leaf 0

theorem rule_of_repr {y : Option (Fin n → K)} {h : Heap K n p} {i : NodeId} {l r : Shape} {q : List (SplitCondition K p)} {d : Nat} (hR : Repr X y h (.node i l r) q d) :
    ∃ c, c ∈ (h.node l.root).split.combined.conditions ∧ rule h i = some (c.splittingVariable, c.splittingValue) := by
  obtain ⟨-, r2, -, -, -, cl, cr, -, hl, -⟩ := hR
  have hc : (h.node l.root).split.combined.conditions = q ++ [cl] := by rw [hl.rootOk.combined]; rfl
  refine ⟨cl, by rw [hc]; simp, ?_⟩
  unfold rule
  rw [r2]
  simp [hc]

theorem toDecTree_eval {y : Option (Fin n → K)} {h : Heap K n p} {x : Fin p → Fl K} : ∀ {s : Shape} {q : List (SplitCondition K p)} {d : Nat}, Repr X y h s q d →
    ∀ {i : NodeId}, Walk h x s.root i → (toDecTree h s).eval x = (h.node i).value := by
  intro s
  induction s with
  | leaf k =>
    intro q d hR i hw
    simp only [Shape.root] at hw
    cases hw with
    | leaf _ => rfl
    | left h1 _ _ _ _ => rw [hR.1] at h1; cases h1
    | right h1 _ _ _ _ => rw [hR.1] at h1; cases h1
  | node k l r ihl ihr =>
    intro q d hR i hw
    simp only [Shape.root] at hw
    obtain ⟨c, -, hc⟩ := rule_of_repr hR
    obtain ⟨r1, r2, r3, -, -, cl, cr, -, hl, hr⟩ := hR
    have e : (toDecTree h (.node k l r)).eval x = if Fl.le (x c.splittingVariable) c.splittingValue then (toDecTree h l).eval x else (toDecTree h r).eval x := by
      simp only [toDecTree, hc, DecTree.eval]
    rw [e]
    cases hw with
    | leaf h1 => rw [r1] at h1; cases h1
    | left h1 h2 h3 h4 h5 =>
      rw [r2] at h2; rw [hc] at h3
      cases h2; cases h3
      rw [if_pos h4]; exact ihl hl h5
    | right h1 h2 h3 h4 h5 =>
      rw [r3] at h2; rw [hc] at h3
      cases h2; cases h3
      rw [if_neg (by rw [h4]; simp)]; exact ihr hr h5

theorem toDecTree_cuts {y : Option (Fin n → K)} {h : Heap K n p} : ∀ {s : Shape} {q : List (SplitCondition K p)} {d : Nat}, Repr X y h s q d →
    ∀ c ∈ (toDecTree h s).cuts, ∃ i ∈ s.ids, ∃ k ∈ (h.node i).split.combined.conditions, c = (k.splittingVariable, k.splittingValue) := by
  intro s
  induction s with
  | leaf k => intro q d _ c hc; simp [toDecTree, DecTree.cuts] at hc
  | node k l r ihl ihr =>
    intro q d hR c hc
    obtain ⟨c0, hm, hr0⟩ := rule_of_repr hR
    obtain ⟨-, -, -, -, -, cl, cr, -, hl, hr⟩ := hR
    simp only [toDecTree, hr0, DecTree.cuts, List.mem_cons, List.mem_append] at hc
    rcases hc with rfl | hc | hc
    · exact ⟨l.root, by simp [Shape.ids, l.root_mem], c0, hm, rfl⟩
    · obtain ⟨i, hi, k', hk, e⟩ := ihl hl c hc
      exact ⟨i, by simp [Shape.ids, hi], k', hk, e⟩
    · obtain ⟨i, hi, k', hk, e⟩ := ihr hr c hc
      exact ⟨i, by simp [Shape.ids, hi], k', hk, e⟩

theorem toDecTree_depths {y : Option (Fin n → K)} {h : Heap K n p} : ∀ {s : Shape} {q : List (SplitCondition K p)} {d : Nat}, Repr X y h s q d →
    (s.ids.map (fun i => (h.node i).depth)) = (toDecTree h s).depths d := by
  intro s
  induction s with
  | leaf k => intro q d hR; simp [toDecTree, DecTree.depths, Shape.ids, hR.2.2.2.1]
  | node k l r ihl ihr =>
    intro q d hR
    obtain ⟨c0, hm, hr0⟩ := rule_of_repr hR
    obtain ⟨-, -, -, hd, -, cl, cr, -, hl, hr⟩ := hR
    simp only [toDecTree, hr0, DecTree.depths, Shape.ids, List.map_cons, List.map_append, hd, ihl hl, ihr hr]

/-- An entry of a column that is not the largest one. -/
def TrainingCut (X : Fin n → Fin p → Fl K) (c : Fin p × Fl K) : Prop := ∃ r r', X r c.1 = c.2 ∧ Fl.lt c.2 (X r' c.1) = true

/-- A tree of a model is a decision tree. -/
theorem tree_decTree {y : Option (Fin n → K)} {t : Tree K n p} {fl : CacheFlags} (hG : Good True X y t fl) :
    ∃ D : DecTree K p, (∀ c ∈ D.cuts, TrainingCut X c) ∧ (∀ (q : Nat) (Z : Fin q → Fin p → Fl K) (r : Fin q), GoodRow (Z r) → t.predictX Z r = D.eval (Z r)) ∧
      (t.nodes.map (fun i => (t.heap.node i).depth)).Perm (D.depths 0) := by
  obtain ⟨s, hI⟩ := hG.inv
  refine ⟨toDecTree t.heap s, ?_, ?_, ?_⟩
  · intro c hc
    obtain ⟨i, hi, k, hk, rfl⟩ := toDecTree_cuts hI.repr c hc
    exact hG.cuts trivial i (hI.perm.mem_iff.2 hi) k hk
  · intro q Z r hr
    obtain ⟨i, -, hw, e⟩ := hI.predictX_eq Z r hr
    rw [e, toDecTree_eval hI.repr hw]
  · rw [← toDecTree_depths hI.repr]
    exact hI.perm.map _

variable [MathFns K]

theorem model_forest (hX : NoNan X) (hn : 0 < n) {m : BModel K n p} (hm : ReachableModel X m) :
    ∃ F : List (DecTree K p), F.length = m.trees.length ∧ (∀ D ∈ F, ∀ c ∈ D.cuts, TrainingCut X c) ∧
      (∀ (q : Nat) (Z : Fin q → Fin p → Fl K) (r : Fin q), GoodRow (Z r) → m.predictX Z r = (F.map (fun D => D.eval (Z r))).sum) ∧
      (m.trees.flatMap (fun t => t.nodes.map (fun i => (t.heap.node i).depth))).Perm (F.flatMap (fun D => D.depths 0)) := by
  obtain ⟨y, hI⟩ := hm.inv hX hn
  have hall : ∀ t ∈ m.trees, ∃ D : DecTree K p, (∀ c ∈ D.cuts, TrainingCut X c) ∧ (∀ (q : Nat) (Z : Fin q → Fin p → Fl K) (r : Fin q), GoodRow (Z r) → t.predictX Z r = D.eval (Z r)) ∧
      (t.nodes.map (fun i => (t.heap.node i).depth)).Perm (D.depths 0) := by
    intro t ht
    obtain ⟨y', fl, hG, -⟩ := hI.fitted t ht
    exact tree_decTree hG
  obtain ⟨F, hF⟩ := forall₂_of_forall hall
  refine ⟨F, hF.length_eq.symm, ?_, ?_, ?_⟩
  · clear hall hI hm
    generalize m.trees = ts at hF
    induction hF with
    | nil => simp
    | cons h _ ih =>
      intro D hD
      rcases List.mem_cons.1 hD with rfl | hD
      · exact h.1
      · exact ih D hD
  · intro q Z r hr
    unfold BModel.predictX
    congr 1
    clear hall hI hm
    generalize m.trees = ts at hF
    induction hF with
    | nil => rfl
    | cons h _ ih => simp only [List.map_cons, h.2.1 q Z r hr, ih]
  · clear hall hI hm
    generalize m.trees = ts at hF
    induction hF with
    | nil => exact .refl _
    | cons h _ ih => rw [List.flatMap_cons, List.flatMap_cons]; exact h.2.2.append ih

variable [FloorRing K]

/-- The decision trees `F` describe the sample `x`. -/
structure DescribedBy (X : Fin n → Fin p → Fl K) (nTrees : Nat) (x : Sample K p) (F : List (DecTree K p)) : Prop where
  len : F.length = nTrees
  cuts : ∀ D ∈ F, ∀ c ∈ D.cuts, TrainingCut X c
  predict : ∀ (q : Nat) (Z : Fin q → Fin p → Fl K) (r : Fin q), GoodRow (Z r) → x.predictX Z r = (F.map (fun D => D.eval (Z r))).sum
  depths : x.depths.Perm (F.flatMap (fun D => D.depths 0))

theorem depths_content {x : Sample K p} {M : BModel K n p} (h : storedContent x.live x.stored = liveContent M) :
    x.depths = M.trees.flatMap (fun t => t.nodes.map (fun i => (t.heap.node i).depth)) := by
  have h1 : x.depths = (storedContent x.live x.stored).flatMap (fun l => l.map NodeView.depth) := by
    unfold Sample.depths Sample.trees BModel.storedTrees storedContent
    rw [List.flatMap_def, List.flatMap_def, List.map_zipWith, List.map_zipWith]
    simp [Tree.stored, nodeView, Function.comp_def]
  have h2 : (liveContent M).flatMap (fun l => l.map NodeView.depth) = M.trees.flatMap (fun t => t.nodes.map (fun i => (t.heap.node i).depth)) := by
    unfold liveContent
    rw [List.flatMap_map]
    simp [nodeView, Function.comp_def]
  rw [h1, h, h2]

theorem chain_forest (hX : NoNan X) {s : SkModel K p} (hp1 : s.pGrow ≠ 0) (hp2 : s.pPrune ≠ 0) {y : Fin n → K} {r : Rand K} {o : ChainOut K p} (h : s.runChain X y r = .ok o) :
    ∀ x ∈ o.models, ∃ F : List (DecTree K p), DescribedBy X s.nTrees x F := by
  obtain ⟨d, m, m', ch, r', e1, e2, rfl⟩ := runChain_spec h
  obtain ⟨hn0, -, -, hf, -, hnt, -⟩ := constructModel_spec e1
  have hm : ReachableModel X m := ⟨y, s.pGrow, s.pPrune, m, 0, hp1, hp2, hf, .nil m⟩
  obtain ⟨-, h2, -, -, h5⟩ := C44_samples hX (c := s.sampleParams) hm hp1 hp2 e2
  intro x hx
  obtain ⟨st, hst, rfl⟩ := List.mem_map.1 hx
  obtain ⟨i, hi, rfl⟩ := List.getElem_of_mem hst
  obtain ⟨st, m0, r0, mus, M, rM, k1, k2, k3, k4, -, k6, -⟩ := h5 i ((storedTimes s.nSamples s.sampleParams.thin)[i]'(by rw [← h2]; exact hi)) (by simp)
  rw [List.getElem?_eq_getElem hi, Option.some.injEq] at k1
  subst k1
  obtain ⟨F, f1, f2, f3, f4⟩ := model_forest hX hn0 (m := M) ⟨y, s.pGrow, s.pPrune, m, _, hp1, hp2, hf, .sweep k2.run k3⟩
  obtain ⟨y', -, hI, -, -, -, -, hn, -⟩ := reachable_model_inv (N := False) hX (by simp) hp1 hp2 hf (.sweep k2.run k3)
  refine ⟨F, by rw [f1, hI.len, hn, hnt], f2, ?_, ?_⟩
  · intro q Z r hr
    rw [← f3 q Z r hr]
    exact congrFun (k6 Z) r
  · rw [depths_content k4]; exact f4

/-- The samples of a fitted model are described by lists of decision trees. -/
theorem fit_forests (hX : NoNan X) {s s' : SkModel K p} (hp1 : s.pGrow ≠ 0) (hp2 : s.pPrune ≠ 0) {y : Fin n → K} {rs : Nat → Rand K} (h : s.fit X y rs = .ok s') (hns : 0 < s.nSamples) :
    ∃ (d : Data K n p) (c : Combined K p) (forests : List (List (DecTree K p))), SkModel.convertData X y = .ok d ∧ s'.data = some ⟨n, d⟩ ∧ s'.samples = some c ∧
      c.models.length = s.nChains * (storedTimes s.nSamples s.thin).length ∧ c.models ≠ [] ∧ List.Forall₂ (DescribedBy X s.nTrees) c.models forests := by
  obtain ⟨d, m, os, c, e1, e2, e3, rfl⟩ := fit_spec h
  obtain ⟨-, -, hd, -⟩ := constructModel_spec e1
  obtain ⟨c1, -, -, l1, -⟩ := C51_combine e3
  have hlen : c.models.length = s.nChains * (storedTimes s.nSamples s.thin).length := by
    rw [l1]
    have hl := e2.length_eq
    simp only [List.length_map, List.length_range] at hl
    have : ∀ o ∈ os, o.chain.model.length = (storedTimes s.nSamples s.thin).length := by
      clear e3 l1 c1 h hl
      generalize (List.range s.nChains).map rs = rl at e2
      induction e2 with
      | nil => simp
      | cons e _ ih =>
        intro o ho
        rcases List.mem_cons.1 ho with rfl | ho
        · exact (chain_facts hX hp1 hp2 e).2.1
        · exact ih o ho
    rw [List.map_congr_left this]
    simp [hl]
  have hne : c.models ≠ [] := by
    intro h0
    rw [h0] at hlen
    have hch : s.nChains ≠ 0 := by
      intro h0
      rw [h0] at e2
      cases e2
      unfold combineChains at e3; cases e3
    have : 0 ∈ storedTimes s.nSamples s.thin := by
      unfold storedTimes
      classical
      simp only [List.mem_filter, List.mem_range, decide_eq_true_eq]
      exact ⟨hns, 0, by simp⟩
    have := List.length_pos_of_mem this
    have := Nat.mul_pos (Nat.pos_of_ne_zero hch) this
    rw [← hlen] at this
    simp at this
  have hall : ∀ x ∈ c.models, ∃ F : List (DecTree K p), DescribedBy X s.nTrees x F := by
    rw [c1]
    clear e3 c1 h l1 hlen hne
    generalize (List.range s.nChains).map rs = rl at e2
    induction e2 with
    | nil => simp
    | cons e _ ih =>
      intro x hx
      rw [List.flatMap_cons, List.mem_append] at hx
      rcases hx with hx | hx
      · exact chain_forest hX hp1 hp2 e x hx
      · exact ih x hx
  obtain ⟨forests, hF⟩ := forall₂_of_forall hall
  exact ⟨d, c, forests, hd, rfl, rfl, hlen, hne, hF⟩

theorem Described.all {nTrees : Nat} {xs : List (Sample K p)} {forests : List (List (DecTree K p))} (hF : List.Forall₂ (DescribedBy X nTrees) xs forests) :
    (∀ F ∈ forests, F.length = nTrees ∧ ∀ D ∈ F, ∀ c ∈ D.cuts, TrainingCut X c) := by
  induction hF with
  | nil => simp
  | cons h _ ih =>
    intro F hF
    rcases List.mem_cons.1 hF with rfl | hF
    · exact ⟨h.len, h.cuts⟩
    · exact ih F hF

theorem Described.predict {y : Fin n → K} {d : Data K n p} (hd : SkModel.convertData X y = .ok d) {s' : SkModel K p} (hd' : s'.data = some ⟨n, d⟩) {c : Combined K p} (hc : s'.samples = some c)
    (hne : c.models ≠ []) {nTrees : Nat} {forests : List (List (DecTree K p))} (hF : List.Forall₂ (DescribedBy X nTrees) c.models forests) {lo hi : K} (hlo : IsLeast (Set.range y) lo)
    (hhi : IsGreatest (Set.range y) hi) (q : Nat) (Z : Fin q → Fin p → Fl K) (hZ : ∀ r, GoodRow (Z r)) :
    s'.predict (some ⟨q, Z⟩) = .ok (List.ofFn (fun r => mean (forests.map (fun F => originalScale lo hi ((F.map (fun D => D.eval (Z r))).sum))))) := by
  obtain ⟨f, hf, hfr⟩ := C48_predict hd (s := s') hd' hc hne hlo hhi Z
  rw [hf]
  congr 2
  funext r
  rw [(hfr r).1]
  congr 1
  clear hne hf hfr hc
  generalize c.models = xs at hF
  induction hF with
  | nil => rfl
  | cons h _ ih => simp only [List.map_cons, h.predict q Z r (hZ r), ih]

/-! ### C88 -/

/-- C88: a fitted model is, for prediction, a list of `n_trees` decision trees for each stored sample. Each comparison in them is with an entry of the training data in the same column
that is not the largest one there. The prediction for a row (without NaN and -inf) is the mean over the samples of the sum of the values of the trees, on the original scale (`lo` and `hi` are the smallest and the
largest entry of the training target). -/
theorem C88_forest (hX : NoNan X) {s s' : SkModel K p} (hp1 : s.pGrow ≠ 0) (hp2 : s.pPrune ≠ 0) {y : Fin n → K} {rs : Nat → Rand K} (h : s.fit X y rs = .ok s') (hns : 0 < s.nSamples)
    {lo hi : K} (hlo : IsLeast (Set.range y) lo) (hhi : IsGreatest (Set.range y) hi) :
    ∃ forests : List (List (DecTree K p)), forests.length = s.nChains * (storedTimes s.nSamples s.thin).length ∧ forests ≠ [] ∧
      (∀ F ∈ forests, F.length = s.nTrees ∧ ∀ D ∈ F, ∀ c ∈ D.cuts, ∃ r r', X r c.1 = c.2 ∧ Fl.lt c.2 (X r' c.1) = true) ∧
      ∀ (q : Nat) (Z : Fin q → Fin p → Fl K), (∀ r, GoodRow (Z r)) →
        s'.predict (some ⟨q, Z⟩) = .ok (List.ofFn (fun r => mean (forests.map (fun F => originalScale lo hi ((F.map (fun D => D.eval (Z r))).sum))))) := by
  obtain ⟨d, c, forests, hd, hd', hc, hlen, hne, hF⟩ := fit_forests hX hp1 hp2 h hns
  refine ⟨forests, by rw [← hF.length_eq, hlen], ?_, Described.all hF, Described.predict hd hd' hc hne hF hlo hhi⟩
  intro h0; rw [h0] at hF
  exact hne (List.length_eq_zero_iff.1 (by rw [hF.length_eq]; rfl))

/-! ### C89 -/

theorem DecTree.eval_congr {D : DecTree K p} {x x' : Fin p → Fl K} (h : ∀ c ∈ D.cuts, Fl.le (x c.1) c.2 = Fl.le (x' c.1) c.2) : D.eval x = D.eval x' := by
  induction D with
  | leaf v => rfl
  | node j cut l r ihl ihr =>
    simp only [DecTree.cuts, List.mem_cons, List.mem_append] at h
    simp only [DecTree.eval, h (j, cut) (.inl rfl), ihl (fun c hc => h c (.inr (.inl hc))), ihr (fun c hc => h c (.inr (.inr hc)))]

/-- C89: the prediction for a row is a function of this row alone, and two rows get the same prediction if they compare in the same way with each entry of the training data that is not the
largest one of its column. -/
theorem C89_piecewise_constant (hX : NoNan X) {s s' : SkModel K p} (hp1 : s.pGrow ≠ 0) (hp2 : s.pPrune ≠ 0) {y : Fin n → K} {rs : Nat → Rand K} (h : s.fit X y rs = .ok s')
    (hns : 0 < s.nSamples) :
    ∃ f : (Fin p → Fl K) → K, (∀ (q : Nat) (Z : Fin q → Fin p → Fl K), (∀ r, GoodRow (Z r)) → s'.predict (some ⟨q, Z⟩) = .ok (List.ofFn (fun r => f (Z r)))) ∧
      ∀ x x' : Fin p → Fl K, (∀ j r, (∃ r', Fl.lt (X r j) (X r' j) = true) → Fl.le (x j) (X r j) = Fl.le (x' j) (X r j)) → f x = f x' := by
  obtain ⟨d, m, os, c, e1, -⟩ := fit_spec h
  obtain ⟨-, -, hd, -⟩ := constructModel_spec e1
  obtain ⟨lo, hi, ⟨r1, h1⟩, ⟨r2, h2⟩, h3, -⟩ := convertData_spec hd
  obtain ⟨forests, -, -, f2, f3⟩ := C88_forest hX hp1 hp2 h hns (lo := lo) (hi := hi) ⟨⟨r1, h1⟩, by rintro _ ⟨r, rfl⟩; exact (h3 r).1⟩
    ⟨⟨r2, h2⟩, by rintro _ ⟨r, rfl⟩; exact (h3 r).2⟩
  refine ⟨fun x => mean (forests.map (fun F => originalScale lo hi ((F.map (fun D => D.eval x)).sum))), f3, ?_⟩
  intro x x' hxx
  simp only []
  congr 1
  refine List.map_congr_left fun F hF => ?_
  congr 2
  refine List.map_congr_left fun D hD => DecTree.eval_congr ?_
  intro c hc
  obtain ⟨r, r', a, b⟩ := (f2 F hF).2 D hD c hc
  rw [← a]
  exact hxx c.1 r ⟨r', by rw [a]; exact b⟩

/-- C89, beyond the data: raising an entry that is at least the largest training entry of its column, or lowering one that is below the smallest, changes no prediction. -/
theorem C89_extrapolation (hX : NoNan X) {s s' : SkModel K p} (hp1 : s.pGrow ≠ 0) (hp2 : s.pPrune ≠ 0) {y : Fin n → K} {rs : Nat → Rand K} (h : s.fit X y rs = .ok s')
    (hns : 0 < s.nSamples) {q : Nat} (Z Z' : Fin q → Fin p → Fl K) (hZ : ∀ r, GoodRow (Z r)) (hZ' : ∀ r, GoodRow (Z' r))
    (hd : ∀ r j, Z' r j = Z r j ∨ ((∀ i, Fl.le (X i j) (Z r j) = true) ∧ ∀ i, Fl.le (X i j) (Z' r j) = true) ∨
      ((∀ i, Fl.lt (Z r j) (X i j) = true) ∧ ∀ i, Fl.lt (Z' r j) (X i j) = true)) :
    s'.predict (some ⟨q, Z'⟩) = s'.predict (some ⟨q, Z⟩) := by
  obtain ⟨f, f1, f2⟩ := C89_piecewise_constant hX hp1 hp2 h hns
  rw [f1 q Z hZ, f1 q Z' hZ']
  congr 2
  funext r
  apply f2
  rintro j i ⟨i', hi'⟩
  rcases hd r j with e | ⟨e1, e2⟩ | ⟨e1, e2⟩
  · rw [e]
  · have k1 := e1 i'; have k2 := e2 i'
    revert hi' k1 k2
    cases X i j <;> cases X i' j <;> cases Z r j <;> cases Z' r j <;> simp [Fl.lt, Fl.le] <;> intros <;> first | (constructor <;> intro <;> order) | order
  · have k1 := e1 i; have k2 := e2 i
    revert k1 k2
    cases X i j <;> cases Z r j <;> cases Z' r j <;> simp [Fl.lt, Fl.le] <;> intros <;> first | (constructor <;> intro <;> order) | order

/-! ### examples -/

section ex
attribute [local instance] exFns

/-- C88 and C89, the example: predictions of the fitted example for rows below the data, at and between its entries 1, 2, 3, and above. They change between 1 and 3 only, and with the entry 3 the value for all larger
entries is reached. -/
example : (match exFit true with
    | .ok s => (match s.predict (some ⟨6, fun r _ => if r = 5 then .pinf else .fin (r.val - 1)⟩) with
      | .ok f => decide (f[0]? = f[1]? ∧ f[1]? = f[2]? ∧ f[2]? ≠ f[4]? ∧ f[4]? = f[5]?)
      | .error _ => false)
    | .error _ => false) = true ∧ NoNan exX ∧ (exSk true).pGrow ≠ 0 ∧ (exSk true).pPrune ≠ 0 ∧ 0 < (exSk true).nSamples ∧ (∀ r : Fin 1, GoodRow (fun _ : Fin 1 => (Fl.pinf : Fl ℚ))) := by
  refine ⟨by decide +kernel, by unfold NoNan; decide +kernel, by decide +kernel, by decide +kernel, by decide, fun _ => by unfold GoodRow; decide⟩

end ex

end Bart
