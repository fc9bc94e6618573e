import Verif.Model.Samplers
import Verif.Spec.Forest
import Verif.Proofs.TreeSampler
import Verif.Props.PredictProps

/-! One tree under the samplers. -/

set_option linter.unusedSectionVars false

namespace Bart
open Spec
variable {K : Type} [Field K] [LinearOrder K] {n p : Nat} {N : Prop}

theorem rowValue_of_leaf {t : Tree K n p} {r : Fin n} {v : K} (h1 : ∃ i ∈ t.leafNodes, rowsOf (t.heap.dataOf i) r = true)
    (h2 : ∀ i ∈ t.leafNodes, rowsOf (t.heap.dataOf i) r = true → v = (t.heap.node i).value) : rowValue t r = v := by
  unfold rowValue
  cases hf : t.leafNodes.find? (fun i => rowsOf (t.heap.dataOf i) r) with
  | none =>
    obtain ⟨i, hi, hr⟩ := h1
    rw [List.find?_eq_none] at hf
    exact absurd hr (hf i hi)
  | some i => exact (h2 i (List.mem_of_find?_eq_some hf) (by simpa using List.find?_some hf)).symm

theorem rowValue_congr {t t' : Tree K n p} (h1 : t'.leafNodes = t.leafNodes)
    (h2 : ∀ i ∈ t.leafNodes, rowsOf (t'.heap.dataOf i) = rowsOf (t.heap.dataOf i) ∧ (t'.heap.node i).value = (t.heap.node i).value) (r : Fin n) :
    rowValue t' r = rowValue t r := by
  unfold rowValue
  rw [h1]
  have : t.leafNodes.find? (fun i => rowsOf (t'.heap.dataOf i) r) = t.leafNodes.find? (fun i => rowsOf (t.heap.dataOf i) r) := by
    revert h2
    generalize t.leafNodes = l
    intro h2
    induction l with
    | nil => rfl
    | cons a l ih =>
      simp only [List.find?_cons]
      rw [(h2 a (by simp)).1, ih (fun i hi => h2 i (by simp [hi]))]
  rw [this]
  cases hf : t.leafNodes.find? (fun i => rowsOf (t.heap.dataOf i) r) with
  | none => rfl
  | some i => exact (h2 i (List.mem_of_find?_eq_some hf)).2

theorem TreeExt.rowValue {X : Fin n → Fin p → Fl K} {y : Option (Fin n → K)} {t t' : Tree K n p} {s : Shape} (hI : TreeInv X y t s)
    (he : TreeExt t t') (r : Fin n) : rowValue t' r = rowValue t r :=
  rowValue_congr (he.leafNodes hI) (fun i hi => by
    have hin := (List.mem_filter.1 hi).1
    exact ⟨he.rows hI hin, by rw [he.heap.node i (hI.mem_lt hin)]⟩) r

/-- Each condition of a node compares a column with an entry of that column that is not the largest one. -/
def CutsFrom (X : Fin n → Fin p → Fl K) (t : Tree K n p) : Prop :=
  ∀ i ∈ t.nodes, ∀ c ∈ (t.heap.node i).split.combined.conditions, 
    ∃ r r', X r c.splittingVariable = c.splittingValue ∧ Fl.lt c.splittingValue (X r' c.splittingVariable) = true

/-- A tree between two calls of the sampler: it represents a tree over `X` with target `y`, and its prediction cache is
described by `fl`; if `N` holds, no node is empty and the cuts are entries of `X`. -/
structure Good (N : Prop) (X : Fin n → Fin p → Fl K) (y : Option (Fin n → K)) (t : Tree K n p) (fl : CacheFlags) : Prop where
  inv : ∃ s, TreeInv X y t s
  pred : PredInv t fl
  ne : N → NoEmptyNode t
  cuts : N → CutsFrom X t

theorem Good.ext {X : Fin n → Fin p → Fl K} {y : Option (Fin n → K)} {t t' : Tree K n p} {fl : CacheFlags} (hG : Good N X y t fl) (he : TreeExt t t') :
    Good N X y t' fl := by
  obtain ⟨⟨s, hI⟩, hP, hne, hcu⟩ := hG
  refine ⟨⟨s, hI.ext he⟩, hP.ext hI he.heap he.nodes he.cache he.pred, ?_, ?_⟩
  · intro hN i hi
    rw [he.nodes] at hi
    rw [he.rows hI hi]
    exact hne hN i hi
  · intro hN i hi
    rw [he.nodes] at hi
    rw [he.heap.node i (hI.mem_lt hi)]
    exact hcu hN i hi

/-- Applying a proposal keeps everything. -/
theorem Good.mutate {X : Fin n → Fin p → Fl K} (hX : NoNan X) {y : Option (Fin n → K)} {t t1 : Tree K n p} {s : Shape} {fl : CacheFlags}
    (hI : TreeInv X y t s) (hG : Good N X y t fl) (he : TreeExt t t1) {mu : TreeMutation} (hp : IsProposal X y t s t1.heap mu) :
    ∃ t', t1.mutate mu = .ok t' ∧ Good N X y t' { fl with changed := true, fresh := false, stale := false } := by
  obtain ⟨t', s', e, hI', hc, hpr, hmem, hd, -, -, hsame⟩ := hp.mutate hI he
  refine ⟨t', e, ⟨s', hI'⟩, ⟨hc, fun h => ?_, fun h => ?_, fun h => by simp at h, fun h => by simp at h⟩, ?_, ?_⟩
  · rw [hpr, he.pred]; exact hG.pred.buf h
  · rw [hpr, he.pred]; exact ⟨(hG.pred.nobuf h).1, rfl⟩
  · have hdof : ∀ k, t'.heap.dataOf k = t1.heap.dataOf k := by
      intro k; unfold Heap.dataOf; rw [hd, (hsame k).2.2.2]
    intro hN k hk
    rcases hmem k hk with hk | ⟨i, hi, hsp, -⟩ | ⟨hkind, D, L, R, hu, hl, hr, hkk⟩
    · rw [hdof, he.rows hI hk]; exact hG.ne hN k hk
    · have : t'.heap.dataOf k = t1.heap.dataOf i := by
        unfold Heap.dataOf; rw [hd, hsp, he.heap.node i (hI.mem_lt hi)]
      rw [this, he.rows hI hi]
      exact hG.ne hN i hi
    · rcases hp with ⟨i, D', L', R', j, v, rfl, hg⟩ | ⟨i, l, r, U, rfl, hg⟩
      · simp only at hu; subst hu
        rw [hg.children.1] at hl; rw [hg.children.2.1] at hr
        injection hl with hl; injection hr with hr
        subst hl hr
        rw [hdof]
        obtain ⟨n1, n2⟩ := hg.nonempty hX
        rcases hkk with rfl | rfl
        · exact n1
        · exact n2
      · cases hkind
  · intro hN k hk
    rcases hmem k hk with hk | ⟨i, hi, hsp, -⟩ | ⟨hkind, D, L, R, hu, hl, hr, hkk⟩
    · rw [(hsame k).2.2.2, he.heap.node k (hI.mem_lt hk)]; exact hG.cuts hN k hk
    · rw [hsp]; exact hG.cuts hN i hi
    · rcases hp with ⟨i, D', L', R', j, v, rfl, hg⟩ | ⟨i, l, r, U, rfl, hg⟩
      · simp only at hu; subst hu
        rw [hg.children.1] at hl; rw [hg.children.2.1] at hr
        injection hl with hl; injection hr with hr
        subst hl hr
        rw [(hsame k).2.2.2]
        intro c hc
        rcases hg.childConds hkk c hc with h | ⟨h1, h2⟩
        · have hin := (List.mem_filter.1 hg.leaf).1
          rw [he.heap.node i (hI.mem_lt hin)] at h
          exact hG.cuts hN i hin c h
        · obtain ⟨r, -, hv⟩ := mem_column.1 hg.vcol
          obtain ⟨m, hm, hlt⟩ := hg.vmax
          obtain ⟨r', -, hv'⟩ := mem_column.1 hm
          exact ⟨r, r', by rw [h1, h2]; exact hv, by rw [h1, h2, hv']; exact hlt⟩
      · cases hkind

/-- Without a leaf value that changes under a valid cache, `predict` gives the current values. -/
theorem Good.predict {X : Fin n → Fin p → Fl K} (hX : NoNan X) {y : Option (Fin n → K)} {t : Tree K n p} {fl : CacheFlags} (hG : Good N X y t fl)
    (hok : fl.predicted = true ∨ fl.changed = false) (hst : fl.stale = false ∨ fl.fresh = false) :
    ∃ t', t.predict = .ok (.sized (rowValue t), t') ∧ Good N X y t' { fl with predicted := true, fresh := true, stale := false } ∧
      (∀ r, rowValue t' r = rowValue t r) ∧ t'.heap = t.heap ∧ t'.nodes = t.nodes := by
  obtain ⟨⟨s, hI⟩, hP, hne, hcu⟩ := hG
  obtain ⟨f, t', e, hv⟩ := predict_correct hX hI hP hok
  have hf : f = rowValue t := by
    funext r
    obtain ⟨i, i1, -, i3, -⟩ := hI.leaf_of_row (hX r)
    exact (rowValue_of_leaf ⟨i, i1, i3⟩ (fun k hk hr => hv hst r k hk hr)).symm
  obtain ⟨e1, e2, e3, e4⟩ := predict_cases e
  have hl : t'.leafNodes = t.leafNodes := by unfold Tree.leafNodes; rw [e1, e2]
  subst hf
  refine ⟨t', e, ⟨⟨s, ?_⟩, ?_, ?_, ?_⟩, ?_, e1, e2⟩
  · exact ⟨by rw [e1]; exact hI.repr, by rw [e2]; exact hI.perm, hI.nodup, by rw [e1]; exact hI.lt⟩
  · refine ⟨e3, fun _ => ⟨_, e4⟩, fun h => by simp at h, fun h => ?_, fun _ _ => ⟨_, e4, fun r i hi hr => ?_⟩⟩
    · rw [e1, e2]; exact hP.root h
    · rw [hl] at hi; rw [e1] at hr ⊢
      exact hv hst r i hi hr
  · intro hN i hi; rw [e2] at hi; rw [e1]; exact hne hN i hi
  · intro hN i hi; rw [e2] at hi; rw [e1]; exact hcu hN i hi
  · intro r; unfold rowValue; rw [hl, e1]

/-- `update_y`. -/
theorem Good.updateY {X : Fin n → Fin p → Fl K} {y : Option (Fin n → K)} {t : Tree K n p} {fl : CacheFlags} (hG : Good N X y t fl)
    (y' : Option (Fin n → K)) : ∃ t', t.updateY y' = .ok t' ∧ Good N X y' t' { fl with fresh := false, stale := false } ∧
      (∀ r, rowValue t' r = rowValue t r) ∧ t'.nodes = t.nodes ∧ t'.heap.node = t.heap.node ∧
      (∀ i ∈ t.nodes, rowsOf (t'.heap.dataOf i) = rowsOf (t.heap.dataOf i)) := by
  obtain ⟨⟨s, hI⟩, hP, hne, hcu⟩ := hG
  obtain ⟨t', e, hI', hn, hc, hp, hu, hd⟩ := updateY_spec hI y'
  have hrows : ∀ i ∈ t.nodes, rowsOf (t'.heap.dataOf i) = rowsOf (t.heap.dataOf i) := by
    intro i hi; rw [hd i hi]; rfl
  have hl : t'.leafNodes = t.leafNodes := by unfold Tree.leafNodes; rw [hn, hu.node]
  refine ⟨t', e, ⟨⟨s, hI'⟩, ⟨hc, fun h => ?_, fun h => ?_, fun h => ?_, fun h => by simp at h⟩, ?_, ?_⟩, ?_, hn, hu.node, hrows⟩
  · rw [hp]; exact hP.buf h
  · rw [hp]; exact ⟨(hP.nobuf h).1, rfl⟩
  · obtain ⟨i, a, b⟩ := hP.root h
    exact ⟨i, hn.trans a, fun r => by rw [hrows i (by rw [a]; simp)]; exact b r⟩
  · intro hN i hi; rw [hn] at hi; rw [hrows i hi]; exact hne hN i hi
  · intro hN i hi; rw [hn] at hi; rw [hu.node]; exact hcu hN i hi
  · exact rowValue_congr hl (fun i hi => ⟨hrows i (List.mem_filter.1 hi).1, by rw [hu.node]⟩)

/-- `set_value`. -/
theorem Good.setValue {X : Fin n → Fin p → Fl K} (hX : NoNan X) {y : Option (Fin n → K)} {t : Tree K n p} {fl : CacheFlags} (hG : Good N X y t fl)
    {i : NodeId} (hi : i ∈ t.leafNodes) (v : K) :
    Good N X y { t with heap := t.heap.setValue i v } { fl with stale := fl.stale || fl.fresh } := by
  obtain ⟨⟨s, hI⟩, hP, hne, hcu⟩ := hG
  have hin := (List.mem_filter.1 hi).1
  have hk : (t.heap.node i).kind = .leaf := by have := (List.mem_filter.1 hi).2; simpa using this
  have hst : t.step (.setValue i v) = .ok { t with heap := t.heap.setValue i v } := by
    unfold Tree.step; simp [hk]
  refine ⟨⟨s, setValue_inv hI i v⟩, hP.step hX hI (op := .setValue i v) hin hst, ?_, ?_⟩
  · intro hN k hk
    obtain ⟨r, hr⟩ := hne hN k hk
    refine ⟨r, ?_⟩
    rw [← hr]
    by_cases h : k = i
    · subst h; simp [rowsOf, Heap.dataOf, Heap.setValue, Heap.setNode]
    · simp [rowsOf, Heap.dataOf, Heap.setValue, Heap.setNode, h]
  · intro hN k hk
    have : ((t.heap.setValue i v).node k).split = (t.heap.node k).split := by
      by_cases h : k = i
      · subst h; simp [Heap.setValue, Heap.setNode]
      · simp [Heap.setValue, Heap.setNode, h]
    simp only [this]
    exact hcu hN k hk

namespace Sampler
variable [MathFns K]

theorem treeStep_spec {X : Fin n → Fin p → Fl K} (hX : NoNan X) {y : Fin n → K} {t : Tree K n p} {fl : CacheFlags} (hG : Good N X (some y) t fl)
    (m : Params K) {pGrow pPrune : K} (hp1 : pGrow ≠ 0) (hp2 : pPrune ≠ 0) (r : Rand K) :
    match treeStep m pGrow pPrune t r with
    | .error e => e = .outOfDraws
    | .ok (mu, t', _) => TreeStepSpec X y t mu t' ∧
        Good N X (some y) t' (if mu.isSome then { fl with changed := true, fresh := false, stale := false } else fl) := by
  obtain ⟨s, hI⟩ := hG.inv
  have hpr := propose_spec hX r.methods hI r.picks
  unfold treeStep treeSample
  cases h1 : t.propose r.picks r.methods with
  | error e => rw [h1] at hpr; simpa using hpr
  | ok q =>
    obtain ⟨mu, t1, us, ms⟩ := q
    rw [h1] at hpr
    obtain ⟨x1, hm⟩ := hpr
    obtain ⟨v, t2, e2, x2⟩ := Lik.ratio_ok hX m hI x1 hm hp1 hp2
    simp only [e2]
    cases hu : r.uniforms with
    | nil => rfl
    | cons u rest =>
      simp only
      by_cases hlt : Fl.lt (.fin u) v = true
      · simp only [hlt, if_true]
        obtain ⟨t', e3, hG'⟩ := hG.mutate hX hI (x1.trans x2) (hm.ext x2.heap)
        rw [e3]
        refine ⟨TreeStepSpec.accept (x1.trans x2) (fun s' hs' => ?_) e3, by simpa using hG'⟩
        have hpr := propose_spec hX r.methods hs' r.picks
        rw [h1] at hpr
        exact hpr.2.ext x2.heap
      · simp only [hlt, if_false, Bool.false_eq_true]
        exact ⟨TreeStepSpec.reject (x1.trans x2), by simpa using hG.ext (x1.trans x2)⟩

theorem leafStep_spec {X : Fin n → Fin p → Fl K} (hX : NoNan X) {y : Fin n → K} {t : Tree K n p} {fl : CacheFlags} (hG : Good N X (some y) t fl)
    (m : Params K) {i : NodeId} (hi : i ∈ t.leafNodes) (r : Rand K) :
    match leafStep m t i r with
    | .error e => e = .outOfDraws ∨ e = .nonFinite
    | .ok (t', _) => ∃ h v, HeapExt t.heap h ∧ t' = { t with heap := h.setValue i v } ∧
        (∃ z zs, r.normals = z :: zs ∧
          leafValue m (Fl.ofInt (count (rowsOf (t.heap.dataOf i)))) (.fin (total y (rowsOf (t.heap.dataOf i)))) (.fin z) = .fin v) ∧
        Good N X (some y) t' { fl with stale := fl.stale || fl.fresh } := by
  obtain ⟨s, hI⟩ := hG.inv
  have hin := (List.mem_filter.1 hi).1
  obtain ⟨q, hk⟩ := hI.repr.nodeOk i (hI.perm.mem_iff.1 hin)
  obtain ⟨h', e1, x1⟩ := Lik.sumYOf_spec hk
  unfold leafStep
  simp only [e1]
  cases hz : r.normals with
  | nil => exact Or.inl rfl
  | cons z zs =>
    simp only [Lik.nObsv_spec hk]
    cases hv : (leafValue m (Fl.ofInt (count (rowsOf (t.heap.dataOf i)))) (.fin (total y (rowsOf (t.heap.dataOf i)))) (.fin z)) with
    | fin v =>
      simp only [Fl.toFinite]
      have hx : TreeExt t { t with heap := h' } := TreeExt.withHeap x1
      refine ⟨h', v, x1, rfl, ⟨z, zs, rfl, hv⟩, ?_⟩
      exact (hG.ext hx).setValue hX (by rw [hx.leafNodes hI]; exact hi) v
    | nan => exact Or.inr rfl
    | pinf => exact Or.inr rfl
    | ninf => exact Or.inr rfl

/-- Nodes are what they were up to the leaf values. -/
structure SameShape (t t' : Tree K n p) : Prop where
  nodes : t'.nodes = t.nodes
  node : ∀ i ∈ t.nodes, SameNode (t.heap.node i) (t'.heap.node i)

theorem SameShape.leafNodes {t t' : Tree K n p} (h : SameShape t t') : t'.leafNodes = t.leafNodes := by
  unfold Tree.leafNodes
  rw [h.nodes]
  apply List.filter_congr
  intro i hi
  rw [(h.node i hi).kind]

theorem leafSteps_spec {X : Fin n → Fin p → Fl K} (hX : NoNan X) {y : Fin n → K} (m : Params K) {fl : CacheFlags} (hf : fl.fresh = false) (is : List NodeId) :
    ∀ {t : Tree K n p} (_ : Good N X (some y) t fl) (_ : ∀ i ∈ is, i ∈ t.leafNodes) (r : Rand K),
    match leafSteps m is t r with
    | .error e => e = .outOfDraws ∨ e = .nonFinite
    | .ok (t', _) => Good N X (some y) t' fl ∧ SameShape t t' := by
  induction is with
  | nil => intro t hG _ r; exact ⟨hG, rfl, fun i _ => SameNode.refl _⟩
  | cons i is ih =>
    intro t hG hi r
    obtain ⟨s, hI⟩ := hG.inv
    have h1 := leafStep_spec hX hG m (hi i (by simp)) r
    unfold leafSteps
    cases e : leafStep m t i r with
    | error er => rw [e] at h1; exact h1
    | ok q =>
      obtain ⟨t1, r1⟩ := q
      rw [e] at h1
      obtain ⟨h, v, x, rfl, -, hG1⟩ := h1
      have hfl : ({ fl with stale := fl.stale || fl.fresh } : CacheFlags) = fl := by
        cases fl; simp_all
      rw [hfl] at hG1
      have hsh : SameShape t { t with heap := h.setValue i v } := by
        refine ⟨rfl, fun k hk => ?_⟩
        have := x.node k (hI.mem_lt hk)
        by_cases hki : k = i
        · subst hki; simp [Heap.setValue, Heap.setNode, this]; exact ⟨rfl, rfl, rfl, rfl, rfl⟩
        · simp [Heap.setValue, Heap.setNode, hki, this]; exact SameNode.refl _
      have h2 := ih hG1 (fun k hk => by rw [hsh.leafNodes]; exact hi k (by simp [hk])) r1
      simp only
      generalize leafSteps m is _ r1 = q at h2
      cases q with
      | error er => exact h2
      | ok q =>
        obtain ⟨t2, r2⟩ := q
        exact ⟨h2.1, h2.2.nodes.trans hsh.nodes, fun k hk => (hsh.node k hk).trans (h2.2.node k (by rw [hsh.nodes]; exact hk))⟩

end Sampler
end Bart
