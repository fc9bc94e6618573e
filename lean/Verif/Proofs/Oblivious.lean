import Verif.Model.Oblivious
import Verif.Proofs.LikLemmas

/-! What the oblivious tree sampler (bartpy/samplers/oblivioustrees) does. -/

set_option linter.unusedSectionVars false

namespace Bart
open Spec
variable {K : Type} [Field K] [LinearOrder K] {n p : Nat} {X : Fin n → Fin p → Fl K}

/-- The variable drawn is splittable; only running out of splittable columns makes it fail. -/
theorem CovariateMatrix.randomSplittableVariable_spec {c : CovariateMatrix K n p} (h : CMInv c) (u : Nat) :
    match c.randomSplittableVariable u with
    | .ok (v, c') => v ∈ c.refSplittable ∧ SameCM c c' ∧ CMInv c'
    | .error e => e = .noSplittableVariable ∧ c.refSplittable = [] := by
  obtain ⟨a1, a2, a3⟩ := CovariateMatrix.isAtLeastOneSplittable_spec h
  obtain ⟨b1, b2, b3⟩ := CovariateMatrix.splittable_spec a3
  have href : c.isAtLeastOneSplittable.2.refSplittable = c.refSplittable := by
    unfold CovariateMatrix.refSplittable
    apply List.filter_congr
    intro j _
    rw [a2.col]
  unfold CovariateMatrix.randomSplittableVariable
  simp only [a1]
  by_cases hne : c.refSplittable = []
  · simp [hne]
  · have hne' : c.isAtLeastOneSplittable.2.splittable.1 ≠ [] := by rw [b1, href]; exact hne
    obtain ⟨v, hv, hc⟩ := choice_ok_of_ne_nil hne' u
    simp only [ne_eq, hne, not_false_eq_true, decide_true, if_true, hc]
    refine ⟨?_, a2.trans b2, b3⟩
    rw [← href, ← b1]; exact hv

namespace Oblivious

/-- The conditions a splittable node proposes are a cut at a value of a splittable column below its maximum. -/
theorem sampleSplitCondition_spec (hX : NoNan X) {y : Option (Fin n → K)} {h : Heap K n p} {i : NodeId}
    {path : List (SplitCondition K p)} (hk : NodeOk X y h i path) (hs : ∃ j, isNotConstant (column X (rowsOf (h.dataOf i)) j) = true) (us : List Nat) :
    match sampleSplitCondition h i us with
    | (h', _, r) => HeapExt h h' ∧ h'.node = h.node ∧ h'.nextNode = h.nextNode ∧
      match r with
      | .ok (c0, c1) => ∃ j v, c0 = leCond j v ∧ c1 = gtCond j v ∧ isNotConstant (column X (rowsOf (h.dataOf i)) j) = true ∧
          v ∈ column X (rowsOf (h.dataOf i)) j ∧ ∃ m ∈ column X (rowsOf (h.dataOf i)) j, Fl.lt v m = true
      | .error e => e = .outOfDraws := by
  have href : ∀ j, j ∈ (h.dataOf i).X.refSplittable ↔ isNotConstant (column X (rowsOf (h.dataOf i)) j) = true := by
    intro j; simp [CovariateMatrix.refSplittable, hk.col j]
  unfold sampleSplitCondition
  cases us with
  | nil => exact ⟨HeapExt.refl h, rfl, rfl, rfl⟩
  | cons u us =>
    simp only
    have hv := CovariateMatrix.randomSplittableVariable_spec hk.inv.X u
    cases hc : (h.dataOf i).X.randomSplittableVariable u with
    | error e =>
      exfalso
      rw [hc] at hv
      obtain ⟨j, hj⟩ := hs
      have := (href j).2 hj
      rw [hv.2] at this
      cases this
    | ok q =>
      obtain ⟨j, c⟩ := q
      rw [hc] at hv
      obtain ⟨hj, h2, h3⟩ := hv
      rw [href] at hj
      have hext := HeapExt.setX hk.inv h2 h3
      have hdof := setDataOf_self h i { h.dataOf i with X := c }
      have hcol : ∀ j, c.col j = column X (rowsOf (h.dataOf i)) j := by
        intro j; rw [h2.col]; exact hk.col j
      simp only [hdof]
      have hnn : NoNan c.X := by rw [h2.X, hk.hX]; exact hX
      have hsp := CovariateMatrix.randomSplittableValue_spec h3 hnn j us
      have href2 : ∀ k, k ∈ c.refSplittable ↔ isNotConstant (column X (rowsOf (h.dataOf i)) k) = true := by
        intro k; simp [CovariateMatrix.refSplittable, hcol k]
      cases hr : c.randomSplittableValue j us with
      | error e =>
        rw [hr] at hsp
        simp only at hsp
        rw [href2] at hsp
        rcases hsp with ⟨-, hn⟩ | ⟨rfl, -⟩
        · exact absurd hj hn
        · exact ⟨hext, rfl, rfl, rfl⟩
      | ok q =>
        obtain ⟨v, us', c'⟩ := q
        rw [hr] at hsp
        obtain ⟨g1, g2, g3, g4, g5⟩ := hsp
        refine ⟨?_, rfl, rfl, j, v, rfl, rfl, hj, by rw [← hcol j]; exact g2, by rw [← hcol j]; exact g3⟩
        refine hext.trans ?_
        have hinv : DataInv ((h.setDataOf i { h.dataOf i with X := c }).dataOf i) := by
          rw [hdof]; exact (Data.withX_spec hk.inv h2 h3).2
        have := HeapExt.setX (c := c') hinv (by rw [hdof]; exact g4) g5
        rw [hdof] at this
        exact this

/-- The node built for a leaf `i` of `t` that cannot be split: `D` with two leaves `L`, `R` with the split of `i`. -/
structure DupProp (X : Fin n → Fin p → Fl K) (t : Tree K n p) (h : Heap K n p) (i D L R : NodeId) : Prop where
  leaf : i ∈ t.leafNodes
  nodup : [D, L, R].Nodup
  old : i < h.nextNode
  lt : ∀ k ∈ [D, L, R], k < h.nextNode
  new : ∀ k ∈ [D, L, R], t.heap.nextNode ≤ k
  nodeD : h.node D = decRec (h.node i).depth (h.node i).split L R
  nodeL : h.node L = leafRec ((h.node i).depth + 1) (h.node i).split
  nodeR : h.node R = leafRec ((h.node i).depth + 1) (h.node i).split
  const : ∀ j, isNotConstant (column X (rowsOf (h.dataOf i)) j) = false
  ok : ∃ y q, NodeOk X y h i q

theorem DupProp.ext {t : Tree K n p} {h h' : Heap K n p} {i D L R : NodeId} (hg : DupProp X t h i D L R) (he : HeapExt h h') : DupProp X t h' i D L R := by
  obtain ⟨y, q, ok⟩ := hg.ok
  have hi := he.node i hg.old
  refine ⟨hg.leaf, hg.nodup, hg.old.trans_le he.nextNode, fun k hk => (hg.lt k hk).trans_le he.nextNode, hg.new, ?_, ?_, ?_, ?_, y, q, he.nodeOk hg.old ok⟩
  · rw [he.node D (hg.lt D (by simp)), hi]; exact hg.nodeD
  · rw [he.node L (hg.lt L (by simp)), hi]; exact hg.nodeL
  · rw [he.node R (hg.lt R (by simp)), hi]; exact hg.nodeR
  · rw [he.rowsOf hg.old ok]; exact hg.const

/-- What is built for leaf `i` of `t`. -/
def Built (X : Fin n → Fin p → Fl K) (y : Option (Fin n → K)) (t : Tree K n p) (h : Heap K n p) (i D L R : NodeId) : Prop :=
  (∃ j v, GrowProp X y t h i D L R j v) ∨ DupProp X t h i D L R

theorem Built.ext {y : Option (Fin n → K)} {t : Tree K n p} {h h' : Heap K n p} {i D L R : NodeId} (hb : Built X y t h i D L R) (he : HeapExt h h') :
    Built X y t h' i D L R := by
  rcases hb with ⟨j, v, hg⟩ | hg
  · exact .inl ⟨j, v, hg.ext he⟩
  · exact .inr (hg.ext he)

/-- What is built for an extension of the tree is built for the tree. -/
theorem Built.base {y : Option (Fin n → K)} {t t1 : Tree K n p} {s : Shape} {h : Heap K n p} {i D L R : NodeId} (hI : TreeInv X y t s) (he : TreeExt t t1)
    (hb : Built X y t1 h i D L R) : Built X y t h i D L R := by
  rcases hb with ⟨j, v, hg⟩ | hg
  · exact .inl ⟨j, v, by rw [← he.leafNodes hI]; exact hg.leaf, hg.ready, hg.nodup, by rw [← he.nodes]; exact hg.fresh, hg.old, hg.lt, hg.valL, hg.valR,
      hg.rule, hg.split, hg.rowsL, hg.rowsR, hg.splittable, hg.vcol, hg.vmax, fun k hk => he.heap.nextNode.trans (hg.new k hk)⟩
  · exact .inr ⟨by rw [← he.leafNodes hI]; exact hg.leaf, hg.nodup, hg.old, hg.lt, fun k hk => he.heap.nextNode.trans (hg.new k hk), hg.nodeD, hg.nodeL, hg.nodeR, hg.const, hg.ok⟩

theorem Built.facts {y : Option (Fin n → K)} {t : Tree K n p} {h : Heap K n p} {i D L R : NodeId} (hb : Built X y t h i D L R) :
    i ∈ t.leafNodes ∧ [D, L, R].Nodup ∧ i < h.nextNode ∧ (∀ k ∈ [D, L, R], k < h.nextNode) ∧ (∀ k ∈ [D, L, R], t.heap.nextNode ≤ k) ∧
    (h.node D).left = some L ∧ (h.node D).right = some R ∧ (h.node D).kind = .decision ∧ (h.node L).kind = .leaf ∧ (h.node R).kind = .leaf := by
  rcases hb with ⟨j, v, hg⟩ | hg
  · obtain ⟨c1, c2, -, -, -, -, c3, c4, c5⟩ := hg.children
    exact ⟨hg.leaf, hg.nodup, hg.old, hg.lt, hg.new, c1, c2, c3, c4, c5⟩
  · refine ⟨hg.leaf, hg.nodup, hg.old, hg.lt, hg.new, ?_, ?_, ?_, ?_, ?_⟩
    · rw [hg.nodeD]; rfl
    · rw [hg.nodeD]; rfl
    · rw [hg.nodeD]; rfl
    · rw [hg.nodeL]; rfl
    · rw [hg.nodeR]; rfl

/-- What `is_splittable` answers. -/
theorem isSplittable_fst {y : Option (Fin n → K)} {t : Tree K n p} {s : Shape} (hI : TreeInv X y t s) {i : NodeId} (hin : i ∈ t.nodes) :
    (t.heap.isSplittable i).1 = decide (∃ j, isNotConstant (column X (rowsOf (t.heap.dataOf i)) j) = true) := by
  obtain ⟨q, hk⟩ := hI.repr.nodeOk i (hI.perm.mem_iff.1 hin)
  have := (filterSplittable_spec [i] (h := t.heap) (X := X) (y := y) (by simpa using ⟨hI.mem_lt hin, q, hk⟩)).2
  unfold Tree.filterSplittable Tree.filterSplittable at this
  simp only [List.filter_cons, List.filter_nil] at this
  by_cases h1 : (t.heap.isSplittable i).1 = true <;>
    by_cases h2 : ∃ j, isNotConstant (column X (rowsOf (t.heap.dataOf i)) j) = true <;> simp_all

/-- What `sample_split_node` returns. -/
theorem sampleSplitNode_spec (hX : NoNan X) {y : Option (Fin n → K)} {t : Tree K n p} {s : Shape} (hI : TreeInv X y t s) {i : NodeId} (hi : i ∈ t.leafNodes)
    (us : List Nat) :
    match sampleSplitNode t.heap i us with
    | (h1, _, .ok D) => HeapExt t.heap h1 ∧ ∃ L R, Built X y t h1 i D L R
    | (h1, _, .error e) => HeapExt t.heap h1 ∧ (e = .outOfDraws ∨ y = none) := by
  have hin : i ∈ t.nodes := (List.mem_filter.1 hi).1
  obtain ⟨q, hk⟩ := hI.repr.nodeOk i (hI.perm.mem_iff.1 hin)
  obtain ⟨a1, a2, a3⟩ := CovariateMatrix.isAtLeastOneSplittable_spec hk.inv.X
  have he0 : HeapExt t.heap (t.heap.isSplittable i).2 := isSplittable_ext hk.inv
  have hb := isSplittable_fst hI hin
  have hk0 := he0.nodeOk (hI.mem_lt hin) hk
  have hr0 := he0.rowsOf (hI.mem_lt hin) hk
  have hn0 : (t.heap.isSplittable i).2.node = t.heap.node := rfl
  have hx0 : TreeExt t { t with heap := (t.heap.isSplittable i).2 } := TreeExt.withHeap he0
  have hI0 := hI.ext hx0
  unfold sampleSplitNode
  simp only [hb]
  by_cases hs : ∃ j, isNotConstant (column X (rowsOf (t.heap.dataOf i)) j) = true
  · simp only [hs, decide_true, if_true]
    have hss := sampleSplitCondition_spec hX hk0 (by rw [hr0]; exact hs) us
    generalize sampleSplitCondition (t.heap.isSplittable i).2 i us = res at hss
    obtain ⟨h1, us1, res⟩ := res
    obtain ⟨e1, e2, e3, hres⟩ := hss
    cases res with
    | error e => exact ⟨he0.trans e1, .inl hres⟩
    | ok c =>
      obtain ⟨c0, c1⟩ := c
      obtain ⟨j, v, rfl, rfl, hns, hvc, hvm⟩ := hres
      have hvn : v ≠ .nan := by obtain ⟨r, -, hr⟩ := mem_column.1 hvc; rw [← hr]; exact hX r j
      have hx1 : TreeExt t { t with heap := h1 } := TreeExt.withHeap (he0.trans e1)
      have hI1 := hI.ext hx1
      have hin1 : i ∈ ({ t with heap := h1 } : Tree K n p).nodes := hin
      have hlt0 := hI1.mem_lt hin1
      simp only
      cases y with
      | none =>
        cases hs' : h1.splitNode i (leCond j v) (gtCond j v) with
        | error e => exact ⟨he0.trans e1, .inr rfl⟩
        | ok r =>
          obtain ⟨q', hk'⟩ := hI1.repr.nodeOk i (hI1.perm.mem_iff.1 hin1)
          exact absurd hs' (splitNode_none hk' _ _ _)
      | some y' =>
        have hil1 : i ∈ ({ t with heap := h1 } : Tree K n p).leafNodes := by rw [hx1.leafNodes hI]; exact hi
        obtain ⟨m, t2, hp⟩ := proposeGrow_ok (j := j) hX hI1 hvn hil1
        obtain ⟨-, -, rfl, g1, g2, g3, he, hn, hrd, v1, v2, hrule, hsp, path, okp, cr, hpair, okL, okR⟩ := proposeGrow_spec hX hI1 hvn hin1 hp
        unfold Tree.proposeGrow at hp
        simp only at hp
        split at hp
        · cases hp
        · next d h2 hs' =>
          rw [hs']
          simp only
          split at hp
          · cases hp
          · next m' hm =>
            simp only [Except.ok.injEq, Prod.mk.injEq] at hp
            obtain ⟨rfl, rfl⟩ := hp
            have hd : d = h1.nextNode + 2 := by
              unfold Tree.growMutation at hm
              split at hm
              · cases hm
              · simp only [Except.ok.injEq, TreeMutation.mk.injEq] at hm; exact hm.2.2
            subst hd
            have hx2 : TreeExt t { t with heap := h2 } := hx1.trans ⟨he, rfl, rfl, rfl⟩
            have hr2 := hx2.rows hI hin
            simp only at hr2 he hn okL okR okp
            refine ⟨(he0.trans e1).trans he, h1.nextNode, h1.nextNode + 1, .inl ⟨j, v, hi, hrd, by simp, ?_, hlt0.trans_le he.nextNode, ?_, v1, v2, hrule,
              by rw [hsp, he.node i hlt0], ?_, ?_, by rw [hr2, ← hr0]; exact hns, by rw [hr2, ← hr0]; exact hvc, by rw [hr2, ← hr0]; exact hvm, ?_⟩⟩
            · intro k hk hkn
              have : k < h1.nextNode := hI1.mem_lt (i := k) hkn
              simp at hk; omega
            · intro k hk
              show k < h2.nextNode
              rw [hn]; simp at hk; omega
            · intro r
              rw [he.rowsOf hlt0 okp, okp.rows, okL.rows]
              simp [sat, leCond, holdsOp]
            · intro r
              rw [he.rowsOf hlt0 okp, okp.rows, okR.rows]
              have := hpair.sat_compl (x := X r) (hX r _)
              simp [this]
              simp [sat, leCond, holdsOp]
            · intro k hk
              have : t.heap.nextNode ≤ h1.nextNode := hx1.heap.nextNode
              simp at hk; omega
  · simp only [hs, decide_false, Bool.false_eq_true, if_false]
    have hlt := hI.mem_lt hin
    have hlt' : i < (t.heap.isSplittable i).2.nextNode := hlt.trans_le he0.nextNode
    generalize (t.heap.isSplittable i).2 = h0 at *
    have x1 : HeapExt h0 (h0.newLeaf (h0.node i).split ((h0.node i).depth + 1)).2 := HeapExt.allocNode h0 _
    generalize hL : h0.newLeaf (h0.node i).split ((h0.node i).depth + 1) = L at *
    have x2 : HeapExt L.2 (L.2.newLeaf (h0.node i).split ((h0.node i).depth + 1)).2 := HeapExt.allocNode L.2 _
    generalize hR : L.2.newLeaf (h0.node i).split ((h0.node i).depth + 1) = R at *
    have x3 : HeapExt R.2 (R.2.newDecision (h0.node i).split L.1 R.1 (h0.node i).depth).2 := HeapExt.allocNode R.2 _
    generalize hD : R.2.newDecision (h0.node i).split L.1 R.1 (h0.node i).depth = D at *
    have xx := he0.trans (x1.trans (x2.trans x3))
    have l1 : L.1 = h0.nextNode := by rw [← hL]; rfl
    have l2 : L.2.nextNode = h0.nextNode + 1 := by rw [← hL]; rfl
    have r1 : R.1 = h0.nextNode + 1 := by rw [← hR]; exact l2
    have r2 : R.2.nextNode = h0.nextNode + 2 := by rw [← hR]; show L.2.nextNode + 1 = _; omega
    have d1 : D.1 = h0.nextNode + 2 := by rw [← hD]; exact r2
    have d2 : D.2.nextNode = h0.nextNode + 3 := by rw [← hD]; show R.2.nextNode + 1 = _; omega
    have nL : D.2.node L.1 = leafRec ((h0.node i).depth + 1) (h0.node i).split := by
      rw [x3.node _ (by omega), x2.node _ (by omega), ← hL]
      simp [Heap.newLeaf, Heap.allocNode, leafRec]
    have nR : D.2.node R.1 = leafRec ((h0.node i).depth + 1) (h0.node i).split := by
      rw [x3.node _ (by omega), ← hR]
      simp [Heap.newLeaf, Heap.allocNode, leafRec]
    have nD : D.2.node D.1 = decRec (h0.node i).depth (h0.node i).split L.1 R.1 := by
      rw [← hD]
      simp [Heap.newDecision, Heap.allocNode, decRec]
    have ni : D.2.node i = h0.node i := by
      rw [x3.node _ (by omega), x2.node _ (by omega), x1.node _ hlt']
    refine ⟨xx, L.1, R.1, .inr ⟨hi, ?_, ?_, ?_, ?_, by rw [ni]; exact nD, by rw [ni]; exact nL, by rw [ni]; exact nR, ?_, y, q, xx.nodeOk hlt hk⟩⟩
    · rw [d1, l1, r1]; simp
    · rw [d2]; omega
    · intro k hk'
      rw [d2]
      simp at hk'
      omega
    · intro k hk'
      have := he0.nextNode
      simp at hk'
      omega
    · intro j
      rw [xx.rowsOf hlt hk]
      by_contra hne
      exact hs ⟨j, by simpa using hne⟩

/-- One proposed grow: existing leaf, decision node, its two leaves. -/
structure Quad where
  i : NodeId
  D : NodeId
  L : NodeId
  R : NodeId

/-- The mutation. -/
def Quad.mu (q : Quad) : TreeMutation := { kind := .grow, existing := q.i, updated := q.D }

def Quad.news (q : Quad) : List NodeId := [q.D, q.L, q.R]

/-- What `grow_mutations` returns. -/
theorem growMutations_spec (hX : NoNan X) {y : Option (Fin n → K)} {s : Shape} : ∀ (is : List NodeId) {t : Tree K n p} (_ : TreeInv X y t s) (_ : ∀ i ∈ is, i ∈ t.leafNodes)
    (us : List Nat),
    match growMutations is t.heap us with
    | (h1, _, .ok ms) => HeapExt t.heap h1 ∧ ∃ qs : List Quad, ms = qs.map Quad.mu ∧ qs.map Quad.i = is ∧ (qs.flatMap Quad.news).Nodup ∧
        (∀ q ∈ qs, Built X y t h1 q.i q.D q.L q.R)
    | (h1, _, .error e) => HeapExt t.heap h1 ∧ (e = .outOfDraws ∨ y = none) := by
  intro is
  induction is with
  | nil => intro t _ _ us; exact ⟨HeapExt.refl _, [], rfl, rfl, by simp, by simp⟩
  | cons i is ih =>
    intro t hI his us
    unfold growMutations
    have h1 := sampleSplitNode_spec hX hI (his i (by simp)) us
    generalize sampleSplitNode t.heap i us = res at h1
    obtain ⟨h', us1, res⟩ := res
    cases res with
    | error e => exact h1
    | ok D =>
      obtain ⟨he, L, R, hb⟩ := h1
      have hleaf : (h'.node i).kind = .leaf := by
        have := (List.mem_filter.1 (his i (by simp))).2
        rw [he.node i (hI.mem_lt (List.mem_filter.1 (his i (by simp))).1)]
        simpa using this
      have hm : Tree.growMutation h' i D = .ok { kind := .grow, existing := i, updated := D } := by
        unfold Tree.growMutation; simp [hleaf]
      simp only [hm]
      have hx : TreeExt t { t with heap := h' } := TreeExt.withHeap he
      have h2 := ih (hI.ext hx) (fun k hk => by rw [hx.leafNodes hI]; exact his k (by simp [hk])) us1
      simp only at h2
      generalize growMutations is h' us1 = res2 at h2
      obtain ⟨h'', us2, res2⟩ := res2
      cases res2 with
      | error e => exact ⟨he.trans h2.1, h2.2⟩
      | ok ms =>
        obtain ⟨he2, qs, rfl, hq1, hq2, hq3⟩ := h2
        refine ⟨he.trans he2, ⟨i, D, L, R⟩ :: qs, rfl, by simp [hq1], ?_, ?_⟩
        · rw [List.flatMap_cons, List.nodup_append]
          obtain ⟨-, f2, -, f4, -⟩ := hb.facts
          refine ⟨f2, hq2, ?_⟩
          rintro a ha b hb' rfl
          obtain ⟨q, hq, hbq⟩ := List.mem_flatMap.1 hb'
          have k1 := f4 a ha
          have k2 := (hq3 q hq).facts.2.2.2.2.1 a hbq
          simp only at k2
          omega
        · intro q hq
          rcases List.mem_cons.1 hq with rfl | hq
          · exact hb.ext he2
          · exact (hq3 q hq).base hI hx

/-! ### applying the proposals -/

/-- Applying grows to disjoint leaves: which nodes there are afterwards. Nothing is assumed about the data of the new nodes. -/
theorem mutateAll_grow : ∀ (qs : List Quad) {t : Tree K n p}, t.nodes.Nodup → (qs.map Quad.i).Nodup → (∀ q ∈ qs, q.i ∈ t.nodes) → (qs.flatMap Quad.news).Nodup →
    (∀ k ∈ qs.flatMap Quad.news, k ∉ t.nodes) → (∀ q ∈ qs, (t.heap.node q.D).left = some q.L ∧ (t.heap.node q.D).right = some q.R) →
    ∃ t', mutateAll (qs.map Quad.mu) t = .ok t' ∧ t'.heap.data = t.heap.data ∧
      (∀ k, (t'.heap.node k).kind = (t.heap.node k).kind ∧ (t'.heap.node k).split = (t.heap.node k).split) ∧
      (∀ k, k ∈ t'.nodes ↔ (k ∈ t.nodes ∧ k ∉ qs.map Quad.i) ∨ k ∈ qs.flatMap Quad.news) ∧
      (∀ k, (∀ i ∈ qs.map Quad.i, (t.heap.node k).left ≠ some i ∧ (t.heap.node k).right ≠ some i) → t'.heap.node k = t.heap.node k) := by
  intro qs
  induction qs with
  | nil => intro t _ _ _ _ _ _; exact ⟨t, rfl, rfl, fun _ => ⟨rfl, rfl⟩, by simp, fun _ _ => rfl⟩
  | cons q qs ih =>
    intro t h1 h2 h3 h4 h5 h6
    obtain ⟨hl, hr⟩ := h6 q (by simp)
    have hqi := h3 q (by simp)
    simp only [List.map_cons, List.nodup_cons] at h2
    rw [List.flatMap_cons, List.nodup_append] at h4
    obtain ⟨n1, n2, n3⟩ := h4
    let ns := t.nodes.erase q.i ++ [q.L] ++ [q.R] ++ [q.D]
    have hns : ns.Nodup := by
      have : ([q.L] ++ [q.R] ++ [q.D]).Nodup := by
        simp only [Quad.news] at n1
        simp only [List.nodup_cons, List.mem_cons, List.not_mem_nil, or_false, not_or] at n1
        simp [n1.1.1, n1.1.2, Ne.symm n1.1.1, Ne.symm n1.1.2, n1.2.1, Ne.symm n1.2.1]
      show (t.nodes.erase q.i ++ [q.L] ++ [q.R] ++ [q.D]).Nodup
      rw [List.append_assoc, List.append_assoc, List.nodup_append]
      refine ⟨h1.erase _, by simpa using this, ?_⟩
      rintro a ha b hb rfl
      refine h5 a ?_ (List.mem_of_mem_erase ha)
      rw [List.flatMap_cons]
      apply List.mem_append_left
      simp only [Quad.news]
      simp only [List.mem_append, List.mem_singleton] at hb
      simp only [List.mem_cons, List.not_mem_nil, or_false]
      tauto
    have hmut : t.mutate q.mu = .ok { t with cacheUpToDate := false, nodes := ns, heap := { t.heap with node := fun j => if j ∈ ns then relinkRec q.mu (t.heap.node j) else t.heap.node j } } := by
      unfold Tree.mutate
      have : Tree.mutateNodes t.heap t.nodes q.mu = .ok ns := by
        simp [Tree.mutateNodes, Quad.mu, Tree.removeNode, hqi, hl, hr, Tree.childOf, ns]
      rw [this]
      simp only
      rw [relink_foldl q.mu ns t.heap hns]
    let t1 : Tree K n p := { t with cacheUpToDate := false, nodes := ns, heap := { t.heap with node := fun j => if j ∈ ns then relinkRec q.mu (t.heap.node j) else t.heap.node j } }
    have hkeep : ∀ k, ((t.heap.node k).left ≠ some q.i ∧ (t.heap.node k).right ≠ some q.i) → t1.heap.node k = t.heap.node k := by
      intro k ⟨a, b⟩
      show (if k ∈ ns then relinkRec q.mu (t.heap.node k) else t.heap.node k) = t.heap.node k
      split
      · simp [relinkRec, Quad.mu, a, b]
      · rfl
    have hsame : ∀ k, (t1.heap.node k).kind = (t.heap.node k).kind ∧ (t1.heap.node k).split = (t.heap.node k).split := by
      intro k
      show (if k ∈ ns then relinkRec q.mu (t.heap.node k) else t.heap.node k).kind = _ ∧ (if k ∈ ns then relinkRec q.mu (t.heap.node k) else t.heap.node k).split = _
      split <;> simp [relinkRec]
    have hnewq : ∀ k ∈ qs.flatMap Quad.news, k ≠ q.i := by
      rintro k hk rfl
      exact h5 _ (by rw [List.flatMap_cons]; exact List.mem_append_right _ hk) hqi
    have hD : ∀ q' ∈ qs, (t1.heap.node q'.D).left = some q'.L ∧ (t1.heap.node q'.D).right = some q'.R := by
      intro q' hq'
      obtain ⟨a, b⟩ := h6 q' (by simp [hq'])
      rw [hkeep q'.D ⟨?_, ?_⟩]
      · exact ⟨a, b⟩
      · rw [a]; intro e; injection e with e
        exact hnewq q'.L (List.mem_flatMap.2 ⟨q', hq', by simp [Quad.news]⟩) e
      · rw [b]; intro e; injection e with e
        exact hnewq q'.R (List.mem_flatMap.2 ⟨q', hq', by simp [Quad.news]⟩) e
    have hmem : ∀ k, k ∈ t1.nodes ↔ (k ∈ t.nodes ∧ k ≠ q.i) ∨ k ∈ q.news := by
      intro k
      show k ∈ t.nodes.erase q.i ++ [q.L] ++ [q.R] ++ [q.D] ↔ _
      rw [List.append_assoc, List.append_assoc, List.mem_append, h1.mem_erase_iff]
      simp only [Quad.news, List.mem_append, List.mem_cons, List.not_mem_nil, or_false]
      tauto
    obtain ⟨t', g1, g2, g3, g4, g5⟩ := ih (t := t1) hns h2.2 (by
        intro q' hq'
        rw [hmem]
        exact .inl ⟨h3 q' (by simp [hq']), fun e => h2.1 (e ▸ List.mem_map_of_mem hq')⟩) n2 (by
        intro k hk hc
        rw [hmem] at hc
        rcases hc with hc | hc
        · exact h5 k (by rw [List.flatMap_cons]; exact List.mem_append_right _ hk) hc.1
        · exact n3 k hc k hk rfl) hD
    refine ⟨t', ?_, g2, fun k => ⟨(g3 k).1.trans (hsame k).1, (g3 k).2.trans (hsame k).2⟩, ?_, ?_⟩
    · simp only [List.map_cons, mutateAll, hmut]
      exact g1
    · intro k
      rw [g4, hmem]
      simp only [List.map_cons, List.mem_cons, List.flatMap_cons, List.mem_append, not_or]
      constructor
      · rintro (⟨⟨a, b⟩ | a, c⟩ | a)
        · exact .inl ⟨a, b, c⟩
        · exact .inr (.inl a)
        · exact .inr (.inr a)
      · rintro (⟨a, b, c⟩ | a | a)
        · exact .inl ⟨.inl ⟨a, b⟩, c⟩
        · refine .inl ⟨.inr a, ?_⟩
          intro hc
          obtain ⟨q', hq', rfl⟩ := List.mem_map.1 hc
          exact h5 q'.i (by rw [List.flatMap_cons]; exact List.mem_append_left _ a) (h3 q' (by simp [hq']))
        · exact .inr a
    · intro k hk
      have e1 := hkeep k (hk q.i (by simp))
      rw [g5 k, e1]
      intro i hi
      rw [e1]
      exact hk i (by simp only [List.map_cons, List.mem_cons]; exact .inr hi)

theorem mutate_node {t t1 : Tree K n p} {m : TreeMutation} (f1 : t.mutate m = .ok t1) (hn : t1.nodes.Nodup) (k : NodeId) :
    t1.heap.node k = t.heap.node k ∨ t1.heap.node k = relinkRec m (t.heap.node k) := by
  unfold Tree.mutate at f1
  split at f1
  · cases f1
  · next ns e =>
    injection f1 with f1
    subst f1
    simp only at hn ⊢
    rw [relink_foldl _ ns t.heap hn]
    simp only
    split
    · exact .inr rfl
    · exact .inl rfl

/-- A grow that can be applied. -/
structure Pend (X : Fin n → Fin p → Fl K) (y : Option (Fin n → K)) (t : Tree K n p) (q : Quad) : Prop where
  leaf : q.i ∈ t.leafNodes
  ready : Ready X y t.heap (.leaf q.i) (.node q.D (.leaf q.L) (.leaf q.R))
  fresh : ∀ k ∈ q.news, k ∉ t.nodes
  lt : ∀ k ∈ q.news, k < t.heap.nextNode

theorem Pend.next {y : Option (Fin n → K)} {t t' : Tree K n p} {q q' : Quad} (hp : Pend X y t q') (hq : q.i ∈ t.nodes) (hne : q'.i ≠ q.i) (hn : ∀ k ∈ q'.news, k ∉ q.news)
    (hnodes : t'.nodes = t.nodes.erase q.i ++ [q.L] ++ [q.R] ++ [q.D]) (hdata : t'.heap.data = t.heap.data) (hnn : t'.heap.nextNode = t.heap.nextNode)
    (hnd : t'.heap.nextData = t.heap.nextData) (hnode : ∀ k, t'.heap.node k = t.heap.node k ∨ t'.heap.node k = relinkRec q.mu (t.heap.node k))
    : Pend X y t' q' := by
  obtain ⟨path, d, hRo, hRn⟩ := hp.ready
  have hin : q'.i ∈ t.nodes := (List.mem_filter.1 hp.leaf).1
  have hmn : q.i ∉ q'.news := fun h => hp.fresh _ h hq
  have hold : t'.heap.node q'.i = t.heap.node q'.i := by
    rcases hnode q'.i with e | e
    · exact e
    · rw [e]; exact hRo.relink_id (m := q.mu) (by simpa [Shape.ids, Quad.mu] using hne.symm) _ (by simp [Shape.ids])
  have hnew : ∀ k ∈ q'.news, t'.heap.node k = t.heap.node k := by
    intro k hk
    rcases hnode k with e | e
    · exact e
    · rw [e]; exact hRn.relink_id (m := q.mu) (by simpa [Shape.ids, Quad.mu, Quad.news] using hmn) _ (by simpa [Shape.ids, Quad.news] using hk)
  refine ⟨?_, ⟨path, d, hRo.of_nodes_eq ?_ hdata hnd, hRn.of_nodes_eq ?_ hdata hnd⟩, ?_, fun k hk => by rw [hnn]; exact hp.lt k hk⟩
  · unfold Tree.leafNodes
    rw [List.mem_filter, hnodes, hold]
    refine ⟨?_, (List.mem_filter.1 hp.leaf).2⟩
    simp only [List.append_assoc, List.mem_append]
    exact .inl ((List.mem_erase_of_ne hne).2 hin)
  · intro k hk; simp [Shape.ids] at hk; subst hk; exact hold
  · intro k hk; exact hnew k (by simpa [Shape.ids, Quad.news] using hk)
  · intro k hk hc
    rw [hnodes] at hc
    simp only [List.append_assoc, List.mem_append, List.mem_singleton] at hc
    rcases hc with hc | hc | hc | hc
    · exact hp.fresh k hk (List.mem_of_mem_erase hc)
    · exact hn k hk (by simp [Quad.news, hc])
    · exact hn k hk (by simp [Quad.news, hc])
    · exact hn k hk (by simp [Quad.news, hc])

/-- Applying real grows keeps the invariant. -/
theorem mutateAll_inv {y : Option (Fin n → K)} : ∀ (qs : List Quad) {t : Tree K n p} {s : Shape}, TreeInv X y t s → (qs.map Quad.i).Nodup → (qs.flatMap Quad.news).Nodup →
    (∀ q ∈ qs, Pend X y t q) → ∃ t' s', mutateAll (qs.map Quad.mu) t = .ok t' ∧ TreeInv X y t' s' := by
  intro qs
  induction qs with
  | nil => intro t s hI _ _ _; exact ⟨t, s, rfl, hI⟩
  | cons q qs ih =>
    intro t s hI h1 h2 h3
    have hp := h3 q (by simp)
    rw [List.flatMap_cons, List.nodup_append] at h2
    obtain ⟨n1, n2, n3⟩ := h2
    simp only [List.map_cons, List.nodup_cons] at h1
    have hin : q.i ∈ t.nodes := (List.mem_filter.1 hp.leaf).1
    have hq : ∀ k, k ∉ ([] : List NodeId) := by simp
    obtain ⟨t1, f1, f2, f3, f4, f5, f6, f7, f8, f9, f10⟩ := mutate_grow hI hp.leaf hp.ready n1 hp.fresh hp.lt
    have hnode := mutate_node f1 f2.nodes_nodup
    obtain ⟨t', s', g1, g2⟩ := ih f2 h1.2 n2 (fun q' hq' => (h3 q' (by simp [hq'])).next hin (fun e => h1.1 (e ▸ List.mem_map_of_mem hq'))
      (fun k hk hc => n3 k hc k (List.mem_flatMap.2 ⟨q', hq', hk⟩) rfl) f3 f6 f7 f8 hnode)
    refine ⟨t', s', ?_, g2⟩
    simp only [List.map_cons, mutateAll]
    rw [show t.mutate q.mu = .ok t1 from f1]
    exact g1

/-! ### prunes -/

/-- A subtree elsewhere is still there after a replacement. -/
theorem Shape.Sub.replace_of_disjoint {i : NodeId} {s' u a : Shape} : ∀ {s : Shape}, a.Sub s → u.Sub s → u.root = i → s.ids.Nodup → a.root ∉ u.ids → i ∉ a.ids →
    a.Sub (s.replace i s') := by
  intro s
  induction s with
  | leaf j =>
    intro h1 h2 h3 h4 h5 h6
    simp only [Shape.Sub] at h1 h2
    subst h1; subst h2
    exact absurd (by simp [Shape.ids, Shape.root]) h5
  | node j l r ihl ihr =>
    intro h1 h2 h3 h4 h5 h6
    simp only [Shape.ids, List.nodup_cons, List.mem_append, not_or, List.nodup_append] at h4
    obtain ⟨⟨hjl, hjr⟩, hln, hrn, hdis⟩ := h4
    by_cases hji : j = i
    · subst hji
      have hu : u = .node j l r := by
        rcases h2 with h2 | h2 | h2
        · exact h2
        · exact absurd (h2.ids_subset _ (h3 ▸ u.root_mem)) hjl
        · exact absurd (h2.ids_subset _ (h3 ▸ u.root_mem)) hjr
      subst hu
      exact absurd (Shape.Sub.ids_subset (t := a) h1 _ a.root_mem) h5
    · have key : ∀ x : Shape, a.Sub x → (∀ h : u.Sub x, a.Sub (x.replace i s')) → (i ∉ x.ids ∨ u.Sub x) → a.Sub (x.replace i s') := by
        intro x hx hi hc
        rcases hc with hc | hc
        · rw [Shape.replace_of_not_mem hc]; exact hx
        · exact hi hc
      have him := u.root_mem
      rw [h3] at him
      simp only [Shape.replace, hji, if_false]
      rcases h1 with h1 | h1 | h1
      · subst h1
        simp only [Shape.ids, List.mem_cons, List.mem_append, not_or] at h6
        rw [Shape.replace_of_not_mem h6.2.1, Shape.replace_of_not_mem h6.2.2]
        exact Shape.Sub.refl _
      · refine .inr (.inl (key l h1 (fun h => ihl h1 h h3 hln h5 h6) ?_))
        rcases h2 with h2 | h2 | h2
        · subst h2; exact absurd h3 hji
        · exact .inr h2
        · exact .inl (fun hc => hdis _ hc _ (h2.ids_subset _ him) rfl)
      · refine .inr (.inr (key r h1 (fun h => ihr h1 h h3 hrn h5 h6) ?_))
        rcases h2 with h2 | h2 | h2
        · subst h2; exact absurd h3 hji
        · exact .inl (fun hc => hdis _ (h2.ids_subset _ him) _ hc rfl)
        · exact .inr h2

/-- A prune. -/
structure PQuad where
  i : NodeId
  l : NodeId
  r : NodeId
  U : NodeId

def PQuad.mu (q : PQuad) : TreeMutation := { kind := .prune, existing := q.i, updated := q.U }

/-- A prune that can be applied. -/
structure PPend (X : Fin n → Fin p → Fl K) (y : Option (Fin n → K)) (t : Tree K n p) (s : Shape) (q : PQuad) : Prop where
  sub : (Shape.node q.i (.leaf q.l) (.leaf q.r)).Sub s
  ready : Ready X y t.heap (.node q.i (.leaf q.l) (.leaf q.r)) (.leaf q.U)
  fresh : q.U ∉ t.nodes
  lt : q.U < t.heap.nextNode

theorem PPend.next {y : Option (Fin n → K)} {t t' : Tree K n p} {s : Shape} {q q' : PQuad} (hI : TreeInv X y t s) (hp : PPend X y t s q') (hq : PPend X y t s q) (hne : q'.i ≠ q.i)
    (hn : q'.U ≠ q.U) (hnodes : t'.nodes = ((t.nodes.erase q.i).erase q.l).erase q.r ++ [q.U]) (hdata : t'.heap.data = t.heap.data) (hnn : t'.heap.nextNode = t.heap.nextNode)
    (hnd : t'.heap.nextData = t.heap.nextData) (hnode : ∀ k, t'.heap.node k = t.heap.node k ∨ t'.heap.node k = relinkRec q.mu (t.heap.node k)) :
    PPend X y t' (s.replace q.i (.leaf q.U)) q' := by
  obtain ⟨path, d, hRo, hRn⟩ := hp.ready
  obtain ⟨path', d', hRo', -⟩ := hq.ready
  have hin : q.i ∈ t.nodes := hI.perm.mem_iff.2 (hq.sub.ids_subset _ (by simp [Shape.ids]))
  have kd : (t.heap.node q'.i).kind = .decision := hRo.1
  have kd' : (t.heap.node q.i).kind = .decision := hRo'.1
  obtain ⟨-, -, -, -, -, _, _, -, kl, kr⟩ := hRo
  obtain ⟨-, -, -, -, -, _, _, -, kl', kr'⟩ := hRo'
  have d1 : q'.i ≠ q.l := fun e => by rw [e] at kd; have := kl'.1; rw [kd] at this; cases this
  have d2 : q'.i ≠ q.r := fun e => by rw [e] at kd; have := kr'.1; rw [kd] at this; cases this
  have d3 : q.i ≠ q'.l := fun e => by rw [e] at kd'; have := kl.1; rw [kd'] at this; cases this
  have d4 : q.i ≠ q'.r := fun e => by rw [e] at kd'; have := kr.1; rw [kd'] at this; cases this
  obtain ⟨path, d, hRo, hRn⟩ := hp.ready
  have hex : q.mu.existing ∉ (Shape.node q'.i (.leaf q'.l) (.leaf q'.r)).ids := by
    simp [Shape.ids, PQuad.mu, hne.symm, d3, d4]
  have hex2 : q.mu.existing ∉ (Shape.leaf q'.U).ids := by
    simp only [Shape.ids, PQuad.mu, List.mem_singleton]
    rintro e; exact hp.fresh (e ▸ hin)
  refine ⟨Shape.Sub.replace_of_disjoint hp.sub hq.sub rfl hI.nodup ?_ hex, ⟨path, d, hRo.of_nodes_eq ?_ hdata hnd, hRn.of_nodes_eq ?_ hdata hnd⟩, ?_, by rw [hnn]; exact hp.lt⟩
  · simp [Shape.ids, Shape.root, hne, d1, d2]
  · intro k hk
    rcases hnode k with e | e
    · exact e
    · rw [e]; exact hRo.relink_id hex k hk
  · intro k hk
    rcases hnode k with e | e
    · exact e
    · rw [e]; exact hRn.relink_id hex2 k hk
  · intro hc
    rw [hnodes] at hc
    simp only [List.mem_append, List.mem_singleton] at hc
    rcases hc with hc | hc
    · exact hp.fresh (List.mem_of_mem_erase (List.mem_of_mem_erase (List.mem_of_mem_erase hc)))
    · exact hn hc

/-- Applying prunes keeps the invariant. -/
theorem mutateAll_prune {y : Option (Fin n → K)} : ∀ (qs : List PQuad) {t : Tree K n p} {s : Shape}, TreeInv X y t s → (qs.map PQuad.i).Nodup → (qs.map PQuad.U).Nodup →
    (∀ q ∈ qs, PPend X y t s q) → ∃ t' s', mutateAll (qs.map PQuad.mu) t = .ok t' ∧ TreeInv X y t' s' ∧
      (∀ k, k ∈ t'.nodes ↔ (k ∈ t.nodes ∧ ∀ q ∈ qs, k ≠ q.i ∧ k ≠ q.l ∧ k ≠ q.r) ∨ k ∈ qs.map PQuad.U) ∧ t'.heap.data = t.heap.data ∧
      (∀ k, (t'.heap.node k).kind = (t.heap.node k).kind ∧ (t'.heap.node k).split = (t.heap.node k).split) := by
  intro qs
  induction qs with
  | nil => intro t s hI _ _ _; exact ⟨t, s, rfl, hI, by simp, rfl, fun _ => ⟨rfl, rfl⟩⟩
  | cons q qs ih =>
    intro t s hI h1 h2 h3
    have hp := h3 q (by simp)
    simp only [List.map_cons, List.nodup_cons] at h1 h2
    obtain ⟨t1, f1, f2, f3, f4, f5, f6, f7, f8, f9, f10⟩ := mutate_prune hI hp.sub hp.ready hp.fresh hp.lt
    have hnode := mutate_node f1 f2.nodes_nodup
    obtain ⟨t', s', g1, g2, g3, g4, g5⟩ := ih f2 h1.2 h2.2 (fun q' hq' => (h3 q' (by simp [hq'])).next hI hp (fun e => h1.1 (e ▸ List.mem_map_of_mem hq'))
      (fun e => h2.1 (e ▸ List.mem_map_of_mem hq')) f3 f6 f7 f8 hnode)
    refine ⟨t', s', ?_, g2, ?_, g4.trans f6, fun k => ⟨(g5 k).1.trans (f9 k).2.1, (g5 k).2.trans (f9 k).2.2.2⟩⟩
    · simp only [List.map_cons, mutateAll]
      rw [show t.mutate q.mu = .ok t1 from f1]
      exact g1
    · intro k
      have hm : k ∈ t1.nodes ↔ (k ∈ t.nodes ∧ k ≠ q.i ∧ k ≠ q.l ∧ k ≠ q.r) ∨ k = q.U := by
        have n1 := hI.nodes_nodup
        rw [f3]
        simp only [List.mem_append, List.mem_singleton, ((n1.erase _).erase _).mem_erase_iff, (n1.erase _).mem_erase_iff, n1.mem_erase_iff]
        tauto
      have hu : k = q.U → ∀ q' ∈ qs, k ≠ q'.i ∧ k ≠ q'.l ∧ k ≠ q'.r := by
        rintro rfl q' hq'
        have hs := (h3 q' (by simp [hq'])).sub.ids_subset
        refine ⟨?_, ?_, ?_⟩ <;> intro e <;> exact hp.fresh (hI.perm.mem_iff.2 (hs _ (by simp [Shape.ids, e])))
      rw [g3, hm]
      simp only [List.map_cons, List.mem_cons, forall_eq_or_imp]
      tauto

/-- What `prune_mutations` returns. -/
theorem pruneMutations_spec {y : Option (Fin n → K)} {s : Shape} : ∀ (is : List NodeId) {t : Tree K n p} (_ : TreeInv X y t s) (_ : ∀ i ∈ is, i ∈ t.prunableDecisionNodes),
    ∃ (h1 : Heap K n p) (qs : List PQuad), pruneMutations is t.heap = (h1, .ok (qs.map PQuad.mu)) ∧ HeapExt t.heap h1 ∧ qs.map PQuad.i = is ∧ (qs.map PQuad.U).Nodup ∧
        (∀ q ∈ qs, PruneProp X y t s h1 q.i q.l q.r q.U) := by
  intro is
  induction is with
  | nil => intro t _ _; exact ⟨t.heap, [], rfl, HeapExt.refl _, rfl, by simp, by simp⟩
  | cons i is ih =>
    intro t hI his
    have him := his i (by simp)
    obtain ⟨m, t1, hp⟩ := proposePrune_ok hI him
    have hin : i ∈ t.nodes := by
      have := (List.mem_filter.1 him).1
      exact (List.mem_filter.1 this).1
    obtain ⟨-, rfl, g1, g2, g3, he, hn, hd, hleaf, l, r, hsub, hl, hr, hrd⟩ := proposePrune_spec hI hin hp
    have hx : TreeExt t t1 := ⟨he, g1, g2, g3⟩
    have hpp : PruneProp X y t s t1.heap i l r t.heap.nextNode := by
      have hlt : ∀ k ∈ [i, l, r], k < t.heap.nextNode := fun k hk => hI.lt k (hsub.ids_subset k (by simpa [Shape.ids] using hk))
      refine ⟨him, hsub, hrd, fun h => by have := hI.mem_lt h; omega, fun k hk => (hlt k hk).trans_le he.nextNode, by rw [hn]; omega, ?_, le_refl _⟩
      rw [he.node i (hlt i (by simp))]
      exact hleaf
    unfold Tree.proposePrune at hp
    simp only at hp
    split at hp
    · cases hp
    · next m' hm =>
      simp only [Except.ok.injEq, Prod.mk.injEq] at hp
      obtain ⟨rfl, rfl⟩ := hp
      obtain ⟨h2, qs, e1, e2, e3, e4, e5⟩ := ih (hI.ext hx) (fun k hk => by rw [prunable_congr hI hx]; exact his k (by simp [hk]))
      refine ⟨h2, ⟨i, l, r, t.heap.nextNode⟩ :: qs, ?_, he.trans e2, by simp [e3], ?_, ?_⟩
      · unfold pruneMutations
        simp only [hm]
        simp only at e1
        rw [e1]
        rfl
      · simp only [List.map_cons, List.nodup_cons]
        refine ⟨?_, e4⟩
        intro hc
        obtain ⟨q, hq, hqe⟩ := List.mem_map.1 hc
        have := (e5 q hq).new
        rw [hn, hqe] at this
        omega
      · intro q hq
        rcases List.mem_cons.1 hq with rfl | hq
        · exact hpp.ext e2
        · have hg := e5 q hq
          exact ⟨by rw [← prunable_congr hI hx]; exact hg.prunable, hg.sub, hg.ready, by rw [← hx.nodes]; exact hg.fresh, hg.old, hg.lt, hg.leaf, he.nextNode.trans hg.new⟩

/-! ### the ratio -/

section ratio
variable [MathFns K]

/-- A mutation that swaps leaf `c` with the decision node `d` with children `l`, `r`. -/
structure Rated (X : Fin n → Fin p → Fl K) (y : Fin n → K) (h : Heap K n p) (mu : TreeMutation) (c d l r : NodeId) : Prop where
  mu : mu = { kind := .grow, existing := c, updated := d } ∨ mu = { kind := .prune, existing := d, updated := c }
  left : (h.node d).left = some l
  right : (h.node d).right = some r
  leaf : (h.node c).kind = .leaf
  okc : ∃ q, NodeOk X (some y) h c q
  okl : ∃ q, NodeOk X (some y) h l q
  okr : ∃ q, NodeOk X (some y) h r q
  lt : ∀ k ∈ [c, d, l, r], k < h.nextNode

theorem Rated.ext {y : Fin n → K} {h h' : Heap K n p} {mu : TreeMutation} {c d l r : NodeId} (hr : Rated X y h mu c d l r) (he : HeapExt h h') : Rated X y h' mu c d l r := by
  have hc := he.node c (hr.lt c (by simp))
  have hd := he.node d (hr.lt d (by simp))
  obtain ⟨qc, okc⟩ := hr.okc
  obtain ⟨ql, okl⟩ := hr.okl
  obtain ⟨qr, okr⟩ := hr.okr
  exact ⟨hr.mu, by rw [hd]; exact hr.left, by rw [hd]; exact hr.right, by rw [hc]; exact hr.leaf, ⟨qc, he.nodeOk (hr.lt c (by simp)) okc⟩,
    ⟨ql, he.nodeOk (hr.lt l (by simp)) okl⟩, ⟨qr, he.nodeOk (hr.lt r (by simp)) okr⟩, fun k hk => (hr.lt k hk).trans_le he.nextNode⟩

theorem Rated.within {y : Fin n → K} {h : Heap K n p} {mu : TreeMutation} {c d l r : NodeId} (hr : Rated X y h mu c d l r) :
    match (h.node l).split.combined.mostRecentSplitCondition with
    | none => logSplitWithinNode h c d = .error .attributeError
    | some _ => ∃ v h', logSplitWithinNode h c d = .ok (v, h') ∧ HeapExt h h' := by
  obtain ⟨qc, okc⟩ := hr.okc
  unfold logSplitWithinNode Heap.mostRecentSplitCondition
  rw [hr.left]
  simp only
  cases (h.node l).split.combined.mostRecentSplitCondition with
  | none => rfl
  | some cd =>
    obtain ⟨p1, p2, p3⟩ := CovariateMatrix.proportionOfValue_spec okc.inv.X cd.splittingVariable cd.splittingValue
    exact ⟨_, _, rfl, HeapExt.setX okc.inv p2 p3⟩

theorem Rated.logGrow {y : Fin n → K} {h : Heap K n p} {mu : TreeMutation} {c d l r : NodeId} (hr : Rated X y h mu c d l r) (sigma : K) (smu : Fl K) :
    ∃ v h', logGrowRatio h c l r sigma smu = .ok (v, h') ∧ HeapExt h h' := by
  obtain ⟨qc, kc⟩ := hr.okc
  obtain ⟨ql, kl⟩ := hr.okl
  obtain ⟨qr, kr⟩ := hr.okr
  have ltc := hr.lt c (by simp)
  have ltl := hr.lt l (by simp)
  have ltr := hr.lt r (by simp)
  obtain ⟨h1, e1, x1⟩ := Lik.sumYOf_spec kl
  obtain ⟨h2, e2, x2⟩ := Lik.sumYOf_spec (x1.nodeOk ltr kr)
  obtain ⟨h3, e3, x3⟩ := Lik.sumYOf_spec (x2.nodeOk (ltc.trans_le x1.nextNode) (x1.nodeOk ltc kc))
  unfold logGrowRatio
  simp only [e1, e2, e3]
  exact ⟨_, h3, rfl, (x1.trans x2).trans x3⟩

/-- The ratio of one proposal: it fails exactly when there is no rule above the new leaves (or a probability is 0). -/
theorem Rated.ratio {y : Fin n → K} {h : Heap K n p} {mu : TreeMutation} {c d l r : NodeId} (m : Params K) (pGrow pPrune : K) (hr : Rated X y h mu c d l r) :
    match logProbabilityRatio m pGrow pPrune h mu with
    | .ok (_, h') => HeapExt h h' ∧ (h.node l).split.combined.mostRecentSplitCondition ≠ none
    | .error e => (e = .attributeError ∧ (h.node l).split.combined.mostRecentSplitCondition = none) ∨ (e = .zeroDivision ∧ (pGrow = 0 ∨ pPrune = 0)) := by
  have hw := hr.within
  have hgm : Tree.growMutation h c d = .ok { kind := .grow, existing := c, updated := d } := by
    unfold Tree.growMutation; simp [hr.leaf]
  unfold logProbabilityRatio
  cases hmr : (h.node l).split.combined.mostRecentSplitCondition with
  | none =>
    rw [hmr] at hw
    simp only at hw
    rcases hr.mu with rfl | rfl
    · simp [logTransitionRatio, hw]
    · simp [logTransitionRatio, hw, hgm]
  | some cd =>
    rw [hmr] at hw
    obtain ⟨v, h1, e1, x1⟩ := hw
    have hr1 := hr.ext x1
    obtain ⟨w, h2, e2, x2⟩ := hr1.logGrow m.sigma (Lik.sigmaM m)
    have hr2 := hr1.ext x2
    have hl1 := x1.node l (hr.lt l (by simp))
    have hl2 := x2.node l (hr1.lt l (by simp))
    have hw2 := hr2.within
    rw [hl2, hl1, hmr] at hw2
    obtain ⟨v3, h3, e3, x3⟩ := hw2
    have hgm2 : Tree.growMutation h2 c d = .ok { kind := .grow, existing := c, updated := d } := by
      unfold Tree.growMutation; simp [hr2.leaf]
    rcases hr.mu with rfl | rfl
    · have hch : Lik.children h1 d = .ok (l, r) := by unfold Lik.children; rw [hr1.left, hr1.right]
      have hch2 : Lik.children h2 d = .ok (l, r) := by unfold Lik.children; rw [hr2.left, hr2.right]
      by_cases h0 : pGrow = 0
      · simp [logTransitionRatio, e1, Lik.pyDiv, h0]
      · simp only [logTransitionRatio, e1, Lik.pyDiv, h0, if_false, logLikihoodRatio, hch, e2, logTreeRatio, hch2, e3]
        exact ⟨(x1.trans x2).trans x3, by simp⟩
    · have hch : Lik.children h1 d = .ok (l, r) := by unfold Lik.children; rw [hr1.left, hr1.right]
      by_cases h0 : pPrune = 0
      · simp [logTransitionRatio, e1, hgm, Lik.pyDiv, h0]
      · simp only [logTransitionRatio, e1, hgm, Lik.pyDiv, h0, if_false, logLikihoodRatio, hch, e2, logTreeRatio, hr2.left, hgm2, e3]
        exact ⟨(x1.trans x2).trans x3, by simp⟩

/-- The sum of the ratios: it fails exactly when one of them does. -/
theorem sumRatios_spec {y : Fin n → K} (m : Params K) (pGrow pPrune : K) : ∀ (mus : List TreeMutation) {h : Heap K n p},
    (∀ mu ∈ mus, ∃ c d l r, Rated X y h mu c d l r) →
    match sumRatios m pGrow pPrune mus h with
    | .ok (_, h') => HeapExt h h' ∧ ∀ mu ∈ mus, ∀ c d l r, Rated X y h mu c d l r → (h.node l).split.combined.mostRecentSplitCondition ≠ none
    | .error e => (e = .attributeError ∧ ∃ mu ∈ mus, ∃ c d l r, Rated X y h mu c d l r ∧ (h.node l).split.combined.mostRecentSplitCondition = none) ∨
        (e = .zeroDivision ∧ (pGrow = 0 ∨ pPrune = 0)) := by
  intro mus
  induction mus with
  | nil => intro h _; exact ⟨HeapExt.refl _, by simp⟩
  | cons mu mus ih =>
    intro h hr
    obtain ⟨c, d, l, r, hc⟩ := hr mu (by simp)
    have h1 := hc.ratio m pGrow pPrune
    unfold sumRatios
    cases e1 : logProbabilityRatio m pGrow pPrune h mu with
    | error e =>
      rw [e1] at h1
      rcases h1 with ⟨a, b⟩ | b
      · exact .inl ⟨a, mu, by simp, c, d, l, r, hc, b⟩
      · exact .inr b
    | ok q =>
      obtain ⟨v, h'⟩ := q
      rw [e1] at h1
      obtain ⟨x1, -⟩ := h1
      have h2 := ih (h := h') (fun mu' hm => by
        obtain ⟨c, d, l, r, hc⟩ := hr mu' (by simp [hm])
        exact ⟨c, d, l, r, hc.ext x1⟩)
      simp only
      cases e2 : sumRatios m pGrow pPrune mus h' with
      | error e =>
        rw [e2] at h2
        rcases h2 with ⟨a, mu', hm, c', d', l', r', hc', b⟩ | b
        · obtain ⟨c'', d'', l'', r'', hc''⟩ := hr mu' (by simp [hm])
          have hx := hc''.ext x1
          have el : l'' = l' := by
            have ed : d'' = d' := by
              rcases hx.mu with e | e <;> rcases hc'.mu with e' | e' <;> rw [e] at e' <;> injection e' <;> first | assumption | (exfalso; rename_i a b c; cases a)
            have := hx.left
            rw [ed, hc'.left] at this
            injection this with this
            exact this.symm
          refine .inl ⟨a, mu', by simp [hm], c'', d'', l'', r'', hc'', ?_⟩
          rw [← x1.node l'' (hc''.lt _ (by simp)), el]
          exact b
        · exact .inr b
      | ok q2 =>
        obtain ⟨v2, h''⟩ := q2
        rw [e2] at h2
        refine ⟨x1.trans h2.1, ?_⟩
        intro mu' hm c' d' l' r' hc'
        rcases List.mem_cons.1 hm with rfl | hm
        · have := hc'.ratio m pGrow pPrune
          rw [e1] at this
          exact this.2
        · have := h2.2 mu' hm c' d' l' r' (hc'.ext x1)
          rwa [x1.node l' (hc'.lt _ (by simp))] at this

/-! ### a step -/

/-- The nodes below the root have at least one condition. -/
theorem Repr.recent {y : Option (Fin n → K)} {h : Heap K n p} : ∀ {s : Shape} {path : List (SplitCondition K p)} {d : Nat}, Repr X y h s path d →
    ∀ i ∈ s.ids, ∃ q, (h.node i).split.combined = CombinedCondition.init (path ++ q) ∧ (i ≠ s.root → q ≠ []) := by
  intro s
  induction s with
  | leaf j =>
    intro path d hR i hi
    simp only [Shape.ids, List.mem_singleton] at hi
    subst hi
    exact ⟨[], by simpa using hR.2.2.2.2.combined, fun h => absurd rfl h⟩
  | node j l r ihl ihr =>
    intro path d hR i hi
    obtain ⟨-, -, -, -, ok, cl, cr, -, hl, hr⟩ := hR
    simp only [Shape.ids, List.mem_cons, List.mem_append] at hi
    rcases hi with rfl | hi | hi
    · exact ⟨[], by simpa using ok.combined, fun h => absurd rfl h⟩
    · obtain ⟨q, e, -⟩ := ihl hl i hi
      exact ⟨cl :: q, by simpa using e, by simp⟩
    · obtain ⟨q, e, -⟩ := ihr hr i hi
      exact ⟨cr :: q, by simpa using e, by simp⟩

/-- A leaf without condition is the whole tree. -/
theorem leaf_no_condition {y : Option (Fin n → K)} {t : Tree K n p} {s : Shape} (hI : TreeInv X y t s) {i : NodeId} (hi : i ∈ t.leafNodes)
    (hn : (t.heap.node i).split.combined.mostRecentSplitCondition = none) : t.nodes = [i] := by
  have hin : i ∈ t.nodes := (List.mem_filter.1 hi).1
  obtain ⟨q, e, hq⟩ := Repr.recent hI.repr i (hI.perm.mem_iff.1 hin)
  have hroot : i = s.root := by
    by_contra hne
    have := hq hne
    rw [e] at hn
    unfold CombinedCondition.mostRecentSplitCondition at hn
    split at hn
    · next h0 => exact this (by simpa [CombinedCondition.init] using h0)
    · exact this (by simpa [CombinedCondition.init] using hn)
  obtain ⟨hsub, -⟩ := hI.leaf_sub hi
  have hk : (t.heap.node i).kind = .leaf := by simpa using (List.mem_filter.1 hi).2
  cases s with
  | leaf j =>
    have hp := hI.perm
    simp only [Shape.root] at hroot
    subst hroot
    exact List.perm_singleton.1 hp
  | node j l r =>
    simp only [Shape.root] at hroot
    subst hroot
    have := hI.repr.1
    rw [hk] at this
    cases this

theorem NodeOk.of_split {y : Option (Fin n → K)} {h : Heap K n p} {i j : NodeId} {q : List (SplitCondition K p)} (hk : NodeOk X y h i q)
    (e : (h.node j).split = (h.node i).split) : NodeOk X y h j q := by
  have ed : h.dataOf j = h.dataOf i := by simp [Heap.dataOf, e]
  exact ⟨by rw [e]; exact hk.data_lt, by rw [e]; exact hk.combined, by rw [ed]; exact hk.inv, by rw [ed]; exact hk.hX, by rw [ed]; exact hk.rows, by rw [ed]; exact hk.y⟩

theorem Built.rated {y : Fin n → K} {t : Tree K n p} {s : Shape} {h : Heap K n p} {i D L R : NodeId} (hI : TreeInv X (some y) t s) (he : HeapExt t.heap h)
    (hb : Built X (some y) t h i D L R) : Rated X y h { kind := .grow, existing := i, updated := D } i D L R := by
  obtain ⟨f1, f2, f3, f4, f5, f6, f7, f8, f9, f10⟩ := hb.facts
  have hin : i ∈ t.nodes := (List.mem_filter.1 f1).1
  obtain ⟨q, hk⟩ := hI.repr.nodeOk i (hI.perm.mem_iff.1 hin)
  have hk := he.nodeOk (hI.mem_lt hin) hk
  have hlt : ∀ k ∈ [i, D, L, R], k < h.nextNode := by
    intro k hk
    rcases List.mem_cons.1 hk with rfl | hk
    · exact f3
    · exact f4 k hk
  have hleaf : (h.node i).kind = .leaf := by
    rw [he.node i (hI.mem_lt hin)]
    simpa using (List.mem_filter.1 f1).2
  rcases hb with ⟨j, v, hg⟩ | hg
  · obtain ⟨a, -, c, d⟩ := hg.nodeOk
    exact ⟨.inl rfl, f6, f7, hleaf, a, c, d, hlt⟩
  · exact ⟨.inl rfl, f6, f7, hleaf, ⟨q, hk⟩, ⟨q, NodeOk.of_split hk (by rw [hg.nodeL]; rfl)⟩, ⟨q, NodeOk.of_split hk (by rw [hg.nodeR]; rfl)⟩, hlt⟩

theorem Built.recent_none {y : Fin n → K} {t : Tree K n p} {s : Shape} {h : Heap K n p} {i D L R : NodeId} (hI : TreeInv X (some y) t s) (he : HeapExt t.heap h)
    (hb : Built X (some y) t h i D L R) (hn : (h.node L).split.combined.mostRecentSplitCondition = none) :
    t.nodes = [i] ∧ ∀ j, isNotConstant (column X (rowsOf (t.heap.dataOf i)) j) = false := by
  obtain ⟨f1, -⟩ := hb.facts
  have hin : i ∈ t.nodes := (List.mem_filter.1 f1).1
  obtain ⟨q, hk⟩ := hI.repr.nodeOk i (hI.perm.mem_iff.1 hin)
  rcases hb with ⟨j, v, hg⟩ | hg
  · have hr := hg.rule
    unfold Spec.rule at hr
    rw [hg.children.1] at hr
    simp only at hr
    simp only [CombinedCondition.mostRecentSplitCondition] at hn
    split at hn
    · next h0 => rw [List.length_eq_zero_iff.1 h0] at hr; simp at hr
    · rw [hn] at hr; simp at hr
  · rw [hg.nodeL] at hn
    simp only [leafRec] at hn
    rw [he.node i (hI.mem_lt hin)] at hn
    refine ⟨leaf_no_condition hI f1 hn, ?_⟩
    rw [← he.rowsOf (hI.mem_lt hin) hk]
    exact hg.const

theorem pruneRated {y : Fin n → K} {t : Tree K n p} {s : Shape} {h : Heap K n p} {i l r U : NodeId} (hg : PruneProp X (some y) t s h i l r U) :
    Rated X y h { kind := .prune, existing := i, updated := U } U i l r := by
  obtain ⟨a, b, c, d⟩ := hg.nodeOk
  obtain ⟨c1, c2, c3, -⟩ := hg.children
  refine ⟨.inr rfl, c1, c2, c3, b, c, d, ?_⟩
  intro k hk
  rcases List.mem_cons.1 hk with rfl | hk
  · exact hg.lt
  · exact hg.old k hk

/-- The two kinds of move. -/
inductive Move (X : Fin n → Fin p → Fl K) (y : Fin n → K) (t : Tree K n p) (s : Shape) (t1 : Tree K n p) : Method → List TreeMutation → Prop where
  | grow (qs : List Quad) : qs.map Quad.i = t.leafNodes → (qs.flatMap Quad.news).Nodup → (∀ q ∈ qs, Built X (some y) t t1.heap q.i q.D q.L q.R) →
      Move X y t s t1 .grow (qs.map Quad.mu)
  | prune (qs : List PQuad) : qs.map PQuad.i = t.prunableDecisionNodes → (qs.map PQuad.U).Nodup → (∀ q ∈ qs, PruneProp X (some y) t s t1.heap q.i q.l q.r q.U) →
      Move X y t s t1 .prune (qs.map PQuad.mu)

theorem Move.ext {y : Fin n → K} {t t1 t2 : Tree K n p} {s : Shape} {me : Method} {mus : List TreeMutation} (h : Move X y t s t1 me mus) (he : TreeExt t1 t2) :
    Move X y t s t2 me mus := by
  cases h with
  | grow qs a b c => exact .grow qs a b (fun q hq => (c q hq).ext he.heap)
  | prune qs a b c => exact .prune qs a b (fun q hq => (c q hq).ext he.heap)

/-- What `propose` returns: the first method drawn decides. -/
theorem propose_spec (hX : NoNan X) {y : Fin n → K} {t : Tree K n p} {s : Shape} (hI : TreeInv X (some y) t s) (us : List Nat) (ms : List Method) :
    match propose t us ms with
    | .ok (mus, t1, _, ms1) => TreeExt t t1 ∧ ∃ me, ms = me :: ms1 ∧ Move X y t s t1 me mus
    | .error e => e = .outOfDraws := by
  cases ms with
  | nil => rfl
  | cons me ms =>
    cases me with
    | grow =>
      have h1 := growMutations_spec hX t.leafNodes hI (fun _ h => h) us
      rcases e : growMutations t.leafNodes t.heap us with ⟨h', us1, res⟩
      rw [e] at h1
      unfold propose sampleMethod
      simp only [e]
      cases res with
      | ok mus =>
        obtain ⟨he, qs, rfl, a, b, c⟩ := h1
        exact ⟨TreeExt.withHeap he, .grow, rfl, .grow qs a b c⟩
      | error e =>
        rcases h1.2 with rfl | h
        · rfl
        · cases h
    | prune =>
      obtain ⟨h1, qs, e, he, a, b, c⟩ := pruneMutations_spec t.prunableDecisionNodes hI (fun _ h => h)
      unfold propose sampleMethod
      simp only [e]
      exact ⟨TreeExt.withHeap he, .prune, rfl, .prune qs a b c⟩

/-- A step of the oblivious tree sampler. -/
theorem treeStep_spec (hX : NoNan X) {y : Fin n → K} {t : Tree K n p} {s : Shape} (hI : TreeInv X (some y) t s) (m : Params K) (pGrow pPrune : K) (r : Rand K) :
    match treeStep m pGrow pPrune t r with
    | .ok (none, t', _) => TreeExt t t'
    | .ok (some mus, t', _) => ∃ t1 me, r.methods.head? = some me ∧ TreeExt t t1 ∧ Move X y t s t1 me mus ∧ mutateAll mus t1 = .ok t'
    | .error e => e = .outOfDraws ∨ (e = .zeroDivision ∧ (pGrow = 0 ∨ pPrune = 0)) ∨
        (e = .attributeError ∧ r.methods.head? = some .grow ∧ ∃ i, t.nodes = [i] ∧ ∀ j, isNotConstant (column X (rowsOf (t.heap.dataOf i)) j) = false) := by
  have hp := propose_spec hX hI r.picks r.methods
  unfold treeStep treeSample
  cases e1 : propose t r.picks r.methods with
  | error e => rw [e1] at hp; exact .inl hp
  | ok q =>
    obtain ⟨mus, t1, us, ms⟩ := q
    rw [e1] at hp
    obtain ⟨he, me, hms, hmv⟩ := hp
    have hrated : ∀ mu ∈ mus, ∃ c d l r, Rated X y t1.heap mu c d l r := by
      intro mu hmu
      cases hmv with
      | grow qs a b c =>
        obtain ⟨q, hq, rfl⟩ := List.mem_map.1 hmu
        exact ⟨_, _, _, _, (c q hq).rated hI he.heap⟩
      | prune qs a b c =>
        obtain ⟨q, hq, rfl⟩ := List.mem_map.1 hmu
        exact ⟨_, _, _, _, pruneRated (c q hq)⟩
    have hs := sumRatios_spec m pGrow pPrune mus hrated
    simp only
    cases e2 : sumRatios m pGrow pPrune mus t1.heap with
    | error e =>
      rw [e2] at hs
      rcases hs with ⟨rfl, mu, hmu, c, d, l, r', hr, hn⟩ | hs
      · right; right
        refine ⟨rfl, ?_⟩
        cases hmv with
        | grow qs a b c' =>
          obtain ⟨q, hq, rfl⟩ := List.mem_map.1 hmu
          have hx := (c' q hq).rated hI he.heap
          rcases hr.mu with e | e
          · simp only [Quad.mu, TreeMutation.mk.injEq] at e
            obtain ⟨-, e3, e4⟩ := e
            have := hx.left
            rw [e4, hr.left] at this
            injection this with this
            rw [this] at hn
            exact ⟨by rw [hms]; rfl, q.i, (c' q hq).recent_none hI he.heap hn⟩
          · simp [Quad.mu] at e
        | prune qs a b c' =>
          obtain ⟨q, hq, rfl⟩ := List.mem_map.1 hmu
          have hx := pruneRated (c' q hq)
          rcases hr.mu with e | e
          · simp [PQuad.mu] at e
          · simp only [PQuad.mu, TreeMutation.mk.injEq] at e
            obtain ⟨-, e3, e4⟩ := e
            have := hx.left
            rw [e3, hr.left] at this
            injection this with this
            rw [this] at hn
            obtain ⟨cd, hcd⟩ := (c' q hq).children.2.2.2.2.2.2
            rw [hcd] at hn
            cases hn
      · exact .inr (.inl hs)
    | ok q2 =>
      obtain ⟨ratio, h2⟩ := q2
      rw [e2] at hs
      have hx2 : TreeExt t { t1 with heap := h2 } := he.trans (TreeExt.withHeap hs.1)
      have hmv2 := hmv.ext (TreeExt.withHeap hs.1)
      simp only
      cases e3 : r.uniforms with
      | nil => exact .inl rfl
      | cons u uniforms =>
        simp only
        by_cases hlt : Fl.lt (.fin u) ratio = true
        · rw [if_pos hlt]
          simp only
          have hok : ∃ t', mutateAll mus { t1 with heap := h2 } = .ok t' := by
            cases hmv2 with
            | grow qs a b c =>
              have hn := hI.ext hx2
              obtain ⟨t', h', -⟩ := mutateAll_grow qs (t := { t1 with heap := h2 }) hn.nodes_nodup (by rw [a]; exact hI.nodes_nodup.filter _)
                (fun q hq => by rw [hx2.nodes]; exact (List.mem_filter.1 (c q hq).facts.1).1) b
                (fun k hk hc => by
                  obtain ⟨q, hq, hkq⟩ := List.mem_flatMap.1 hk
                  rw [hx2.nodes] at hc
                  have := (c q hq).facts.2.2.2.2.1 k hkq
                  have := hI.mem_lt hc
                  omega)
                (fun q hq => ⟨(c q hq).facts.2.2.2.2.2.1, (c q hq).facts.2.2.2.2.2.2.1⟩)
              exact ⟨t', h'⟩
            | prune qs a b c =>
              obtain ⟨t', _, h', -⟩ := mutateAll_prune qs (hI.ext hx2) (by rw [a]; exact (hI.nodes_nodup.filter _).filter _) b
                (fun q hq => ⟨(c q hq).sub, (c q hq).ready, by rw [hx2.nodes]; exact (c q hq).fresh, (c q hq).lt⟩)
              exact ⟨t', h'⟩
          obtain ⟨t', ht'⟩ := hok
          rw [ht']
          exact ⟨_, me, by rw [hms]; rfl, hx2, hmv2, ht'⟩
        · rw [if_neg hlt]
          exact hx2

end ratio

end Oblivious
end Bart
