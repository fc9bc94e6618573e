import Verif.Props.TreeProps

/-! Property theorems C22 (in-sample prediction of a tree).

Full statement of C22: for every reachable tree `t`, `t.predict` returns an array `f` with `f r` the value of the leaf that contains
row `r`. It is false in two ways (`C22_refuted_stale`, `C22_refuted_index_error`): `set_value` does not invalidate the cached
prediction, and the array is sized by the first listed node, which after a first grow does not hold all rows. -/

set_option linter.unusedSectionVars false

namespace Bart
open Spec
variable {K : Type} [Field K] [LinearOrder K] {n p : Nat}

/-- What a history says about the prediction cache: `predicted`: `predict` was called before; `changed`: a grow or prune was applied;
`fresh`: `predict` was called and nothing that invalidates (grow, prune, `update_y`) came since; `stale`: `set_value` was called
while `fresh`. -/
structure CacheFlags where
  predicted : Bool
  changed : Bool
  fresh : Bool
  stale : Bool

def CacheFlags.step (fl : CacheFlags) : TreeOp K n p → CacheFlags
  | .grow .. => { fl with changed := true, fresh := false, stale := false }
  | .prune .. => { fl with changed := true, fresh := false, stale := false }
  | .updateY .. => { fl with fresh := false, stale := false }
  | .setValue .. => { fl with stale := fl.stale || fl.fresh }
  | .predict => { fl with predicted := true, fresh := true }
  | _ => fl

/-- The flags of a history. -/
def cacheFlags (ops : List (TreeOp K n p)) : CacheFlags := ops.foldl CacheFlags.step ⟨false, false, false, false⟩

/-- What holds of the cache. -/
structure PredInv (t : Tree K n p) (fl : CacheFlags) : Prop where
  cache : t.cacheUpToDate = fl.fresh
  buf : fl.predicted = true → ∃ f, t.prediction = .sized f
  nobuf : fl.predicted = false → t.prediction = .none ∧ fl.fresh = false
  root : fl.changed = false → ∃ i, t.nodes = [i] ∧ ∀ r, rowsOf (t.heap.dataOf i) r = true
  right : fl.fresh = true → fl.stale = false → ∃ f, t.prediction = .sized f ∧
    ∀ r, ∀ i ∈ t.leafNodes, rowsOf (t.heap.dataOf i) r = true → f r = (t.heap.node i).value

theorem predict_correct {X : Fin n → Fin p → Fl K} (hX : NoNan X) {y : Option (Fin n → K)} {t : Tree K n p} {s : Shape}
    (hI : TreeInv X y t s) {fl : CacheFlags} (hP : PredInv t fl) (hok : fl.predicted = true ∨ fl.changed = false) :
    ∃ f t', t.predict = .ok (.sized f, t') ∧
      (fl.stale = false ∨ fl.fresh = false → ∀ r, ∀ i ∈ t.leafNodes, rowsOf (t.heap.dataOf i) r = true → f r = (t.heap.node i).value) := by
  cases hf : fl.fresh with
  | true =>
    cases hp : fl.predicted with
    | false => have := (hP.nobuf hp).2; rw [hf] at this; cases this
    | true =>
      obtain ⟨f, hfb⟩ := hP.buf hp
      refine ⟨f, t, by unfold Tree.predict; simp [hP.cache, hf, hfb], ?_⟩
      intro hs
      simp only [Bool.true_eq_false, or_false] at hs
      obtain ⟨g, hg, hv⟩ := hP.right hf hs
      rw [hfb] at hg; injection hg with hg; subst hg
      exact hv
  | false =>
    have hc : t.cacheUpToDate = false := by rw [hP.cache, hf]
    cases hp : fl.predicted with
    | true =>
      obtain ⟨f, hfb⟩ := hP.buf hp
      obtain ⟨g, e, hv⟩ := hI.predict_sized hX hc hfb
      exact ⟨g, _, e, fun _ => hv⟩
    | false =>
      have hg : fl.changed = false := by simpa [hp] using hok
      obtain ⟨i, hn, hr⟩ := hP.root hg
      have hcount : count (rowsOf (t.heap.dataOf i)) = n := by
        unfold count; simp [hr]
      have := hI.predict_none hc (hP.nobuf hp).1 hn
      rw [if_pos hcount] at this
      have hI' : TreeInv X y { t with prediction := .sized (fun _ => 0) } s := ⟨hI.repr, hI.perm, hI.nodup, hI.lt⟩
      obtain ⟨g, e, hv⟩ := hI'.predict_sized hX hc rfl
      exact ⟨g, _, this.trans e, fun _ => hv⟩

theorem ext_facts {X : Fin n → Fin p → Fl K} {y : Option (Fin n → K)} {t t' : Tree K n p} {s : Shape} (hI : TreeInv X y t s)
    (he : HeapExt t.heap t'.heap) (hn : t'.nodes = t.nodes) :
    t'.leafNodes = t.leafNodes ∧ (∀ i ∈ t.nodes, rowsOf (t'.heap.dataOf i) = rowsOf (t.heap.dataOf i)) ∧
      (∀ i ∈ t.nodes, (t'.heap.node i).value = (t.heap.node i).value) := by
  have hnode : ∀ i ∈ t.nodes, t'.heap.node i = t.heap.node i := fun i hi => he.node i (hI.mem_lt hi)
  refine ⟨?_, fun i hi => ?_, fun i hi => by rw [hnode i hi]⟩
  · unfold Tree.leafNodes
    rw [hn]
    apply List.filter_congr
    intro i hi
    rw [hnode i hi]
  · obtain ⟨q, hk⟩ := hI.repr.nodeOk i (hI.perm.mem_iff.1 hi)
    funext r
    have := (he.data _ hk.data_lt).1.mask
    simp only [rowsOf, Heap.dataOf, hnode i hi]
    rw [this]

theorem PredInv.ext {X : Fin n → Fin p → Fl K} {y : Option (Fin n → K)} {t t' : Tree K n p} {s : Shape} (hI : TreeInv X y t s)
    {fl : CacheFlags} (hP : PredInv t fl) (he : HeapExt t.heap t'.heap) (hn : t'.nodes = t.nodes)
    (hc : t'.cacheUpToDate = t.cacheUpToDate) (hp : t'.prediction = t.prediction) : PredInv t' fl := by
  obtain ⟨e1, e2, e3⟩ := ext_facts hI he hn
  refine ⟨hc.trans hP.cache, fun h => ?_, fun h => ?_, fun h => ?_, fun h h2 => ?_⟩
  · rw [hp]; exact hP.buf h
  · rw [hp]; exact hP.nobuf h
  · obtain ⟨i, a, b⟩ := hP.root h
    exact ⟨i, hn.trans a, fun r => by rw [e2 i (by rw [a]; simp)]; exact b r⟩
  · obtain ⟨f, a, b⟩ := hP.right h h2
    refine ⟨f, hp.trans a, fun r i hi hr => ?_⟩
    rw [e1] at hi
    have him : i ∈ t.nodes := (List.mem_filter.1 hi).1
    rw [e3 i him]
    exact b r i hi (by rw [← e2 i him]; exact hr)

theorem PredInv.step {X : Fin n → Fin p → Fl K} (hX : NoNan X) {y : Option (Fin n → K)} {t : Tree K n p} {s : Shape}
    (hI : TreeInv X y t s) {fl : CacheFlags} (hP : PredInv t fl) {op : TreeOp K n p} (hop : TreeOp.ok t op) {t' : Tree K n p}
    (h : t.step op = .ok t') : PredInv t' (fl.step op) := by
  cases op with
  | grow i j v =>
    obtain ⟨-, -, t1, -, -, -, -, -, hc, hp, -⟩ := grow_step hX hI hop.2 hop.1 h
    refine ⟨hc, fun h => ?_, fun h => ?_, fun h => by simp [CacheFlags.step] at h, fun h => by simp [CacheFlags.step] at h⟩
    · rw [hp]; exact hP.buf h
    · rw [hp]; exact ⟨(hP.nobuf h).1, rfl⟩
  | prune i =>
    obtain ⟨-, t1, l, r, -, -, -, -, -, -, hc, hp, -⟩ := prune_step hI hop h
    refine ⟨hc, fun h => ?_, fun h => ?_, fun h => by simp [CacheFlags.step] at h, fun h => by simp [CacheFlags.step] at h⟩
    · rw [hp]; exact hP.buf h
    · rw [hp]; exact ⟨(hP.nobuf h).1, rfl⟩
  | proposeGrow i j v =>
    unfold Tree.step at h
    simp only at h
    split at h
    · cases h
    · next m t1 e =>
      injection h with h; subst h
      obtain ⟨-, -, -, a, b, c, d, -⟩ := proposeGrow_spec hX hI hop.2 hop.1 e
      exact hP.ext hI d a b c
  | proposePrune i =>
    unfold Tree.step at h
    simp only at h
    split at h
    · cases h
    · next m t1 e =>
      injection h with h; subst h
      obtain ⟨-, -, a, b, c, d, -⟩ := proposePrune_spec hI hop e
      exact hP.ext hI d a b c
  | updateY y' =>
    obtain ⟨t1, e, -, hn, hc, hp, -, hd⟩ := updateY_spec hI y'
    change t.updateY y' = _ at h
    rw [e] at h; injection h with h; subst h
    refine ⟨hc, fun h => ?_, fun h => ?_, fun h => ?_, fun h => by simp [CacheFlags.step] at h⟩
    · rw [hp]; exact hP.buf h
    · rw [hp]; exact ⟨(hP.nobuf h).1, rfl⟩
    · obtain ⟨i, a, b⟩ := hP.root h
      exact ⟨i, hn.trans a, fun r => by rw [hd i (by rw [a]; simp)]; exact b r⟩
  | setValue i v =>
    unfold Tree.step at h
    simp only at h
    split at h
    · injection h with h; subst h
      have hdat : ∀ k r, rowsOf ((t.heap.setValue i v).dataOf k) r = rowsOf (t.heap.dataOf k) r := by
        intro k r
        by_cases hk : k = i
        · subst hk; simp [Heap.dataOf, Heap.setValue, Heap.setNode]
        · simp [Heap.dataOf, Heap.setValue, Heap.setNode, hk]
      refine ⟨hP.cache, hP.buf, hP.nobuf, fun h => ?_, fun h1 h2 => ?_⟩
      · obtain ⟨k, a, b⟩ := hP.root h
        exact ⟨k, a, fun r => by rw [hdat]; exact b r⟩
      · simp only [CacheFlags.step] at h1 h2
        rw [h1] at h2; simp at h2
    · cases h
  | predict =>
    unfold Tree.step at h
    simp only at h
    split at h
    · cases h
    · next b t1 e =>
      injection h with h; subst h
      obtain ⟨e1, e2, e3, e4⟩ := predict_cases e
      have hleaf : t1.leafNodes = t.leafNodes := by unfold Tree.leafNodes; rw [e1, e2]
      have hroot : fl.changed = false → ∃ i, t1.nodes = [i] ∧ ∀ r, rowsOf (t1.heap.dataOf i) r = true := by
        rw [e1, e2]; exact hP.root
      have main : ∃ f, b = .sized f ∧ (fl.stale = false ∨ fl.fresh = false → ∀ r, ∀ i ∈ t.leafNodes,
          rowsOf (t.heap.dataOf i) r = true → f r = (t.heap.node i).value) := by
        by_cases hok : fl.predicted = true ∨ fl.changed = false
        · obtain ⟨f, t2, h1, h2⟩ := predict_correct hX hI hP hok
          rw [e] at h1; injection h1 with h1; injection h1 with h1 h3
          exact ⟨f, h1, h2⟩
        · have hp : fl.predicted = false := by simpa using (not_or.1 hok).1
          have hc : t.cacheUpToDate = false := by rw [hP.cache]; exact (hP.nobuf hp).2
          obtain ⟨i0, rest, hn⟩ : ∃ i0 rest, t.nodes = i0 :: rest := by
            apply List.exists_cons_of_ne_nil
            intro hc; have := hI.leafNodes_ne_nil; unfold Tree.leafNodes at this; rw [hc] at this; simp at this
          have := hI.predict_none hc (hP.nobuf hp).1 hn
          rw [e] at this
          split at this
          · have hI' : TreeInv X y { t with prediction := .sized (fun _ => 0) } s := ⟨hI.repr, hI.perm, hI.nodup, hI.lt⟩
            obtain ⟨g, e5, hv⟩ := hI'.predict_sized hX hc rfl
            rw [e5] at this; injection this with this; injection this with this _
            exact ⟨g, this, fun _ => hv⟩
          · cases this
      obtain ⟨f, hb, hr⟩ := main
      refine ⟨e3, fun _ => ⟨f, e4.trans hb⟩, fun h => by simp [CacheFlags.step] at h, hroot, fun _ h2 => ⟨f, e4.trans hb, ?_⟩⟩
      rw [hleaf, e1]
      exact hr (Or.inl h2)
  | splittableLeaves =>
    unfold Tree.step at h
    simp only at h
    injection h with h; subst h
    exact hP.ext hI (splittableLeaves_spec hI).1 rfl rfl rfl

theorem PredInv.run {X : Fin n → Fin p → Fl K} (hX : NoNan X) {y : Fin n → K} {t0 t : Tree K n p} {ops : List (TreeOp K n p)}
    (h0 : Fresh X y t0) (hr : Run t0 ops t) : PredInv t (cacheFlags ops) ∧ ∃ y' s, TreeInv X y' t s := by
  obtain ⟨⟨y', hI0⟩, hn, hc, hp, hrow⟩ := fresh_tree_inv h0
  have key : ∀ {t0 t : Tree K n p} {ops : List (TreeOp K n p)}, Run t0 ops t → Fresh X y t0 → TreeInv X (some y') t0 (.leaf 0) → PredInv t0 ⟨false, false, false, false⟩ →
      PredInv t (cacheFlags ops) ∧ ∃ y' s, TreeInv X y' t s := by
    intro t0 t ops hr h0 hI0 hP0
    induction hr with
    | nil => exact ⟨hP0, _, _, hI0⟩
    | snoc _ hok hst ih =>
      obtain ⟨hP, y2, s2, hI⟩ := ih
      obtain ⟨s3, hI3⟩ := step_inv hX hI hok hst
      refine ⟨?_, _, _, hI3⟩
      unfold cacheFlags at hP ⊢
      rw [List.foldl_append]
      exact hP.step hX hI hok hst
  refine key hr h0 hI0 ⟨hc, fun h => by simp at h, fun _ => ⟨hp, rfl⟩, fun _ => ⟨0, hn, hrow⟩, fun h => by simp at h⟩

/-- C22, the part that holds: if `predict` was called before on this tree (or it was never grown or pruned), `predict` returns one
entry per training row; and if no `set_value` came between the last prediction and now without a grow, prune or `update_y` in between,
each entry is the value of the leaf containing that row. Missing: the histories of `C22_refuted_stale` and `C22_refuted_index_error`. -/
theorem C22_in_sample_partial {X : Fin n → Fin p → Fl K} (hX : NoNan X) {y : Fin n → K} {t0 t : Tree K n p}
    {ops : List (TreeOp K n p)} (h0 : Fresh X y t0) (hr : Run t0 ops t)
    (hok : (cacheFlags ops).predicted = true ∨ (cacheFlags ops).changed = false) :
    ∃ f t', t.predict = .ok (.sized f, t') ∧
      ((cacheFlags ops).stale = false → ∀ r, ∀ i ∈ t.leafNodes, t.heap.inSample (t.heap.node i).split r = true →
        f r = (t.heap.node i).value) := by
  obtain ⟨hP, y', s, hI⟩ := PredInv.run hX h0 hr
  obtain ⟨f, t', h1, h2⟩ := predict_correct hX hI hP hok
  exact ⟨f, t', h1, fun hs => h2 (Or.inl hs)⟩

/-- C23, second half: where `predict()` is right it equals `predict(X_train)`. -/
theorem C23_in_sample_eq_out_of_sample {X : Fin n → Fin p → Fl K} (hX : ∀ r, GoodRow (X r)) {y : Fin n → K} {t0 t : Tree K n p}
    {ops : List (TreeOp K n p)} (h0 : Fresh X y t0) (hr : Run t0 ops t)
    (hok : (cacheFlags ops).predicted = true ∨ (cacheFlags ops).changed = false) (hst : (cacheFlags ops).stale = false) :
    ∃ t', t.predict = .ok (.sized (t.predictX X), t') := by
  have hX' : NoNan X := fun r v => (hX r v).1
  obtain ⟨hP, y', s, hI⟩ := PredInv.run hX' h0 hr
  obtain ⟨f, t', h1, h2⟩ := predict_correct hX' hI hP hok
  have : f = t.predictX X := by
    funext r
    obtain ⟨i, i1, i2, i3, -⟩ := hI.leaf_of_row (hX' r)
    obtain ⟨k, -, k2, k3⟩ := hI.predictX_eq X r (hX r)
    rw [h2 (Or.inl hst) r i i1 i3, k3, Walk.unique i2 k2]
  exact ⟨t', this ▸ h1⟩

/-- A prediction as a list, for the examples. -/
def predictList (t : Tree ℚ 3 1) : Option (List ℚ) :=
  match t.predict with
  | .ok (.sized f, _) => some (List.ofFn f)
  | _ => none

def exHist : List (TreeOp ℚ 3 1) := [.predict, .grow 0 0 (.fin 1), .setValue 1 5, .setValue 2 6]

example : (checkRun exRoot exHist).any (fun t => decide (predictList t = some [5, 6, 6])) = true ∧
    (cacheFlags exHist).predicted = true ∧ (cacheFlags exHist).stale = false := by decide +kernel

example : ∀ r, GoodRow (exX r) := by unfold GoodRow; decide +kernel

/-- C22 is false: after `predict` a `set_value` has no effect on the next `predict`. -/
theorem C22_refuted_stale : ∃ (t : Tree ℚ 3 1) (i : NodeId), ReachableTree exX t ∧ i ∈ t.leafNodes ∧
    (t.heap.node i).value = 5 ∧ t.heap.inSample (t.heap.node i).split 0 = true ∧ predictList t = some [0, 0, 0] := by
  obtain ⟨t, h1, h2⟩ := exReach' [.predict, .setValue 0 5] (fun t => decide (0 ∈ t.leafNodes ∧ (t.heap.node 0).value = 5 ∧
    t.heap.inSample (t.heap.node 0).split 0 = true ∧ predictList t = some [0, 0, 0])) (by decide +kernel)
  have h2 := of_decide_eq_true h2
  exact ⟨t, 0, h1, h2⟩

/-- C22 is false: after a first grow into two children that both hold rows, `predict` raises IndexError (whatever the data). -/
theorem C22_refuted_index_error {X : Fin n → Fin p → Fl K} (hX : NoNan X) {y : Fin n → K} {t0 t1 : Tree K n p}
    (h0 : Fresh X y t0) {j : Fin p} {v : Fl K} (hv : v ≠ .nan) (h1 : t0.step (.grow 0 j v) = .ok t1)
    {a : Fin n} (hright : Fl.gt (X a j) v = true) : t1.predict = .error .indexError := by
  obtain ⟨⟨y', hI⟩, hn, hc, hp, hrow⟩ := fresh_tree_inv h0
  obtain ⟨-, -, t2, e2, -, -, hI1, n1, c1, p1, d1, nn1, same1, -⟩ := grow_step hX hI hv (by rw [hn]; simp) h1
  obtain ⟨-, -, -, -, -, -, -, -, -, -, -, -, -, path, hk, cr, hpp, okl, okr⟩ := proposeGrow_spec hX hI hv (by rw [hn]; simp) e2
  rw [hn] at n1
  simp at n1
  have := hI1.predict_none c1 (p1.trans hp) n1
  rw [if_neg] at this
  · exact this
  · intro hcnt
    have hall : ∀ r, rowsOf (t1.heap.dataOf t0.heap.nextNode) r = true := by
      intro r
      by_contra hr
      have hlt : count (rowsOf (t1.heap.dataOf t0.heap.nextNode)) < n := by
        unfold count
        have : (Finset.univ.filter (fun r => rowsOf (t1.heap.dataOf t0.heap.nextNode) r = true)) ⊂ Finset.univ := by
          rw [Finset.ssubset_univ_iff]
          intro hu
          have := hu ▸ Finset.mem_univ r
          simp at this
          exact hr this
        have := Finset.card_lt_card this
        simpa using this
      omega
    have ha := hall a
    have e3 : rowsOf (t1.heap.dataOf t0.heap.nextNode) a = rowsOf (t2.heap.dataOf t0.heap.nextNode) a := by
      simp only [rowsOf, Heap.dataOf, d1, (same1 _).2.2.2]
    rw [e3, okl.rows] at ha
    simp only [List.all_append, List.all_cons, List.all_nil, Bool.and_true, Bool.and_eq_true] at ha
    have : Fl.le (X a j) v = true := by simpa [sat, leCond, holdsOp] using ha.2
    rw [Fl.gt_eq_not_le (hX a j) hv, this] at hright
    cases hright

example : (match exRoot.step (.grow 0 0 (.fin 1)) with | .ok t => (match t.predict with | .error .indexError => true | _ => false) | _ => false)
    = true := by decide +kernel

end Bart
