import Verif.Proofs.ObliviousShape

/-! One step of the oblivious tree sampler keeps the invariant of `ObliviousShape`, also when leaves that cannot be split are doubled. -/

set_option linter.unusedSectionVars false

namespace Bart.Oblivious
open Bart Spec
variable {K : Type} [Field K] [LinearOrder K] {n p : Nat} {X : Fin n → Fin p → Fl K}

/-! ### proposals -/

/-- What is built for leaf `q.i`; the new nodes have numbers from `N` on. -/
structure OBuilt (X : Fin n → Fin p → Fl K) (y : Fin n → K) (N : Nat) (h : Heap K n p) (q : Quad) : Prop where
  nodup : q.news.Nodup
  old : q.i < h.nextNode
  lt : ∀ k ∈ q.news, k < h.nextNode
  new : ∀ k ∈ q.news, N ≤ k
  ready : OReady X (some y) h (.leaf q.i) (.node q.D (.leaf q.L) (.leaf q.R))
  okOld : ∃ c, NodeOk X (some y) h q.i c
  cause : ((h.node q.L).split.combined.mostRecentSplitCondition ≠ none ∧ (h.node q.R).split.combined.mostRecentSplitCondition ≠ none) ∨
    ((h.node q.L).split = (h.node q.i).split ∧ (h.node q.R).split = (h.node q.i).split ∧ ∀ j, isNotConstant (column X (rowsOf (h.dataOf q.i)) j) = false)

theorem OBuilt.ext {y : Fin n → K} {N : Nat} {h h' : Heap K n p} {q : Quad} (hb : OBuilt X y N h q) (he : HeapExt h h') : OBuilt X y N h' q := by
  obtain ⟨c, ok⟩ := hb.okOld
  have hi := he.node _ hb.old
  have hL := he.node q.L (hb.lt _ (by simp [Quad.news]))
  have hR := he.node q.R (hb.lt _ (by simp [Quad.news]))
  refine ⟨hb.nodup, hb.old.trans_le he.nextNode, fun k hk => (hb.lt k hk).trans_le he.nextNode, hb.new, ?_, ⟨c, he.nodeOk hb.old ok⟩, ?_⟩
  · refine hb.ready.ext he (by simpa [Shape.ids] using hb.old) (fun k hk => hb.lt k ?_)
    simpa [Shape.ids, Quad.news] using hk
  · rw [hL, hR, hi, he.rowsOf hb.old ok]; exact hb.cause

theorem OBuilt.mono {y : Fin n → K} {N N' : Nat} {h : Heap K n p} {q : Quad} (hb : OBuilt X y N h q) (hN : N' ≤ N) : OBuilt X y N' h q :=
  ⟨hb.nodup, hb.old, hb.lt, fun k hk => hN.trans (hb.new k hk), hb.ready, hb.okOld, hb.cause⟩

theorem recent_append (path : List (SplitCondition K p)) (c : SplitCondition K p) :
    (CombinedCondition.init (path ++ [c])).mostRecentSplitCondition ≠ none := by
  unfold CombinedCondition.mostRecentSplitCondition
  split
  · next h => simp [CombinedCondition.init] at h
  · simp [CombinedCondition.init]

theorem okOfSplit {y : Option (Fin n → K)} {h : Heap K n p} {i j : NodeId} {q : List (SplitCondition K p)} (hk : NodeOk X y h i q)
    (e : (h.node j).split = (h.node i).split) : NodeOk X y h j q := by
  have ed : h.dataOf j = h.dataOf i := by simp [Heap.dataOf, e]
  exact ⟨by rw [e]; exact hk.data_lt, by rw [e]; exact hk.combined, by rw [ed]; exact hk.inv, by rw [ed]; exact hk.hX, by rw [ed]; exact hk.rows, by rw [ed]; exact hk.y⟩

/-- What `sample_split_node` returns. -/
theorem osampleSplitNode_spec (hX : NoNan X) {y : Fin n → K} {h : Heap K n p} {i : NodeId} {d : Nat} (hlt : i < h.nextNode) (hk : ∃ q, NodeOk X (some y) h i q)
    (hS : Struct X h (.leaf i) d) (us : List Nat) :
    match sampleSplitNode h i us with
    | (h1, _, .ok D) => HeapExt h h1 ∧ ∃ L R, OBuilt X y h.nextNode h1 ⟨i, D, L, R⟩
    | (h1, _, .error e) => HeapExt h h1 ∧ e = .outOfDraws := by
  obtain ⟨q, hk⟩ := hk
  have he0 : HeapExt h (h.isSplittable i).2 := isSplittable_ext hk.inv
  have hb : (h.isSplittable i).1 = decide (∃ j, isNotConstant (column X (rowsOf (h.dataOf i)) j) = true) := by
    have := (filterSplittable_spec [i] (h := h) (X := X) (y := some y) (by simpa using ⟨hlt, q, hk⟩)).2
    unfold Tree.filterSplittable Tree.filterSplittable at this
    simp only [List.filter_cons, List.filter_nil] at this
    by_cases h1 : (h.isSplittable i).1 = true <;>
      by_cases h2 : ∃ j, isNotConstant (column X (rowsOf (h.dataOf i)) j) = true <;> simp_all
  have hrows : rowsOf (h.dataOf i) = pathRows X q := funext hk.rows
  have hk0 := he0.nodeOk hlt hk
  have hr0 := he0.rowsOf hlt hk
  have hlt0 : i < (h.isSplittable i).2.nextNode := hlt.trans_le he0.nextNode
  have hS0 : Struct X (h.isSplittable i).2 (.leaf i) d := hS.of_nodes_eq (fun j hj => by simp [Shape.ids] at hj; subst hj; exact he0.node _ hlt)
  unfold sampleSplitNode
  simp only [hb]
  generalize (h.isSplittable i).2 = h0 at *
  by_cases hs : ∃ j, isNotConstant (column X (rowsOf (h.dataOf i)) j) = true
  · simp only [hs, decide_true, if_true]
    have hss := sampleSplitCondition_spec hX hk0 (by rw [hr0]; exact hs) us
    generalize sampleSplitCondition h0 i us = res at hss
    obtain ⟨h1, us1, res⟩ := res
    obtain ⟨e1, e2, e3, hres⟩ := hss
    cases res with
    | error e => exact ⟨he0.trans e1, hres⟩
    | ok c =>
      obtain ⟨c0, c1⟩ := c
      obtain ⟨j, v, rfl, rfl, hns, hvc, hvm⟩ := hres
      have hvn : v ≠ .nan := by obtain ⟨r, -, hr⟩ := mem_column.1 hvc; rw [← hr]; exact hX r j
      have hk1 := e1.nodeOk hlt0 hk0
      have hlt1 : i < h1.nextNode := hlt0.trans_le e1.nextNode
      obtain ⟨h2, cr, s1, s2, s3, s4, s5, s6, s7, s8, s9, -⟩ := splitNode_spec hk1 (leCond_gtCond_pair j hvn) (fun r => hX r _) rfl rfl
      simp only [s1]
      have hi2 := s3.node i hlt1
      have hk2 := s3.nodeOk hlt1 hk1
      have hS2 : Struct X h2 (.leaf i) d := hS0.of_nodes_eq (fun j hj => by simp [Shape.ids] at hj; subst hj; exact hi2.trans (e1.node _ hlt0))
      have hsD : (h2.node (h1.nextNode + 2)).split = (h2.node i).split := by rw [s7, hi2]; rfl
      have hdep : (h1.node i).depth = d := by rw [← hi2]; exact hS2.2.2.2
      have hN := (he0.trans e1).nextNode
      refine ⟨(he0.trans e1).trans s3, h1.nextNode, h1.nextNode + 1, ?_, hlt1.trans_le s3.nextNode, ?_, ?_, ?_, ⟨q, hk2⟩, .inl ⟨?_, ?_⟩⟩
      · simp [Quad.news]
      · intro k hk
        simp [Quad.news] at hk
        omega
      · intro k hk
        simp [Quad.news] at hk
        omega
      · refine ⟨⟨d, hS2, ?_⟩, ?_, hsD⟩
        · refine ⟨by rw [s7]; rfl, by rw [s7]; rfl, by rw [s7]; rfl, by rw [s7]; exact hdep, .inr ⟨q, leCond j v, cr, s2, ?_, ?_, ?_, ?_, ?_, ?_⟩, ?_, ?_⟩
          · rw [hsD]; exact hk2.combined
          · exact s8.combined
          · exact s9.combined
          · intro hf
            have := hf j
            rw [← hrows] at this
            rw [hr0] at hns
            rw [hns] at this; cases this
          · rw [hr0] at hvc
            obtain ⟨r, hr, hr'⟩ := mem_column.1 hvc
            refine ⟨r, ?_⟩
            rw [hrows] at hr
            simp only [pathRows, List.all_append, Bool.and_eq_true, List.all_cons, List.all_nil, Bool.and_true]
            refine ⟨hr, ?_⟩
            simp only [sat, leCond, hr', holdsOp]
            exact Fl.le_refl hvn
          · obtain ⟨m, hm, hvm⟩ := hvm
            rw [hr0] at hm
            obtain ⟨r, hr, hr'⟩ := mem_column.1 hm
            refine ⟨r, ?_⟩
            rw [hrows] at hr
            simp only [pathRows, List.all_append, Bool.and_eq_true, List.all_cons, List.all_nil, Bool.and_true]
            refine ⟨hr, ?_⟩
            rw [s2.sat_compl (hX r _)]
            simp only [sat, leCond, hr', holdsOp]
            cases v <;> cases m <;> simp_all [Fl.le, Fl.lt]
          · refine ⟨by rw [s5]; rfl, by rw [s5]; rfl, by rw [s5]; rfl, by rw [s5]; show (h1.node i).depth + 1 = _; rw [hdep]⟩
          · refine ⟨by rw [s6]; rfl, by rw [s6]; rfl, by rw [s6]; rfl, by rw [s6]; show (h1.node i).depth + 1 = _; rw [hdep]⟩
        · intro k hk
          simp [Shape.ids] at hk
          rcases hk with rfl | rfl | rfl
          · exact ⟨q, okOfSplit hk2 hsD⟩
          · exact ⟨_, s8⟩
          · exact ⟨_, s9⟩
      · simp only [s8.combined]; exact recent_append _ _
      · simp only [s9.combined]; exact recent_append _ _
  · simp only [hs, decide_false, Bool.false_eq_true, if_false]
    have x1 : HeapExt h0 (h0.newLeaf (h0.node i).split ((h0.node i).depth + 1)).2 := HeapExt.allocNode h0 _
    generalize hL : h0.newLeaf (h0.node i).split ((h0.node i).depth + 1) = L at *
    have x2 : HeapExt L.2 (L.2.newLeaf (h0.node i).split ((h0.node i).depth + 1)).2 := HeapExt.allocNode L.2 _
    generalize hR : L.2.newLeaf (h0.node i).split ((h0.node i).depth + 1) = R at *
    have x3 : HeapExt R.2 (R.2.newDecision (h0.node i).split L.1 R.1 (h0.node i).depth).2 := HeapExt.allocNode R.2 _
    generalize hD : R.2.newDecision (h0.node i).split L.1 R.1 (h0.node i).depth = D at *
    have x0 := x1.trans (x2.trans x3)
    have xx := he0.trans x0
    have l1 : L.1 = h0.nextNode := by rw [← hL]; rfl
    have l2 : L.2.nextNode = h0.nextNode + 1 := by rw [← hL]; rfl
    have r1 : R.1 = h0.nextNode + 1 := by rw [← hR]; exact l2
    have r2 : R.2.nextNode = h0.nextNode + 2 := by rw [← hR]; show L.2.nextNode + 1 = _; omega
    have d1 : D.1 = h0.nextNode + 2 := by rw [← hD]; exact r2
    have d2 : D.2.nextNode = h0.nextNode + 3 := by rw [← hD]; show R.2.nextNode + 1 = _; omega
    have nL : D.2.node L.1 = leafRec ((h0.node i).depth + 1) (h0.node i).split := by
      rw [x3.node _ (by omega), x2.node _ (by omega), ← hL]
      simp [Heap.newLeaf, Heap.allocNode, leafRec]
    have nR : D.2.node R.1 = leafRec ((h0.node i).depth + 1) (h0.node i).split := by
      rw [x3.node _ (by omega), ← hR]
      simp [Heap.newLeaf, Heap.allocNode, leafRec]
    have nD : D.2.node D.1 = decRec (h0.node i).depth (h0.node i).split L.1 R.1 := by
      rw [← hD]
      simp [Heap.newDecision, Heap.allocNode, decRec]
    have ni : D.2.node i = h0.node i := x0.node _ hlt0
    have hk2 := x0.nodeOk hlt0 hk0
    have hdep : (h0.node i).depth = d := hS0.2.2.2
    have hN := he0.nextNode
    refine ⟨xx, L.1, R.1, ?_, ?_, ?_, ?_, ?_, ⟨q, hk2⟩, .inr ⟨by rw [nL, ni]; rfl, by rw [nR, ni]; rfl, ?_⟩⟩
    · show [D.1, L.1, R.1].Nodup
      rw [d1, l1, r1]; simp
    · show i < D.2.nextNode
      omega
    · intro k hk'
      show k < D.2.nextNode
      simp [Quad.news] at hk'
      omega
    · intro k hk'
      simp [Quad.news] at hk'
      omega
    · refine ⟨⟨d, hS0.of_nodes_eq (fun j hj => by simp [Shape.ids] at hj; subst hj; exact ni), ?_⟩, ?_, by show (D.2.node D.1).split = (D.2.node i).split; rw [nD, ni]; rfl⟩
      · refine ⟨by rw [nD]; rfl, by rw [nD]; rfl, by rw [nD]; rfl, by rw [nD]; exact hdep, .inl ⟨?_, ?_, q, ?_, ?_⟩, ?_, ?_⟩
        · show (D.2.node L.1).split = (D.2.node D.1).split
          rw [nL, nD]; rfl
        · show (D.2.node R.1).split = (D.2.node D.1).split
          rw [nR, nD]; rfl
        · rw [nD]; show (h0.node i).split.combined = _; rw [← ni]; exact hk2.combined
        · intro j
          rw [← hrows]
          by_contra hne
          exact hs ⟨j, by simpa using hne⟩
        · exact ⟨by rw [nL]; rfl, by rw [nL]; rfl, by rw [nL]; rfl, by rw [nL]; show (h0.node i).depth + 1 = _; rw [hdep]⟩
        · exact ⟨by rw [nR]; rfl, by rw [nR]; rfl, by rw [nR]; rfl, by rw [nR]; show (h0.node i).depth + 1 = _; rw [hdep]⟩
      · intro k hk'
        simp [Shape.ids] at hk'
        rcases hk' with rfl | rfl | rfl
        · exact ⟨q, okOfSplit hk2 (by rw [nD, ni]; rfl)⟩
        · exact ⟨q, okOfSplit hk2 (by rw [nL, ni]; rfl)⟩
        · exact ⟨q, okOfSplit hk2 (by rw [nR, ni]; rfl)⟩
    · intro j
      rw [xx.rowsOf hlt hk]
      by_contra hne
      exact hs ⟨j, by simpa using hne⟩

/-- What `grow_mutations` returns. -/
theorem ogrowMutations_spec (hX : NoNan X) {y : Fin n → K} : ∀ (is : List NodeId) {h : Heap K n p}
    (_ : ∀ i ∈ is, i < h.nextNode ∧ (∃ q, NodeOk X (some y) h i q) ∧ ∃ d, Struct X h (.leaf i) d) (us : List Nat),
    match growMutations is h us with
    | (h1, _, .ok ms) => HeapExt h h1 ∧ ∃ qs : List Quad, ms = qs.map Quad.mu ∧ qs.map Quad.i = is ∧ (qs.flatMap Quad.news).Nodup ∧
        (∀ q ∈ qs, OBuilt X y h.nextNode h1 q)
    | (h1, _, .error e) => HeapExt h h1 ∧ e = .outOfDraws := by
  intro is
  induction is with
  | nil => intro h _ us; exact ⟨HeapExt.refl _, [], rfl, rfl, by simp, by simp⟩
  | cons i is ih =>
    intro h his us
    unfold growMutations
    obtain ⟨hlt, hk, d, hS⟩ := his i (by simp)
    have h1 := osampleSplitNode_spec hX hlt hk hS us
    generalize sampleSplitNode h i us = res at h1
    obtain ⟨h', us1, res⟩ := res
    cases res with
    | error e => exact h1
    | ok D =>
      obtain ⟨he, L, R, hb⟩ := h1
      have hleaf : (h'.node i).kind = .leaf := by
        rw [he.node i hlt]; exact hS.1
      have hm : Tree.growMutation h' i D = .ok { kind := .grow, existing := i, updated := D } := by
        unfold Tree.growMutation; simp [hleaf]
      simp only [hm]
      have h2 := ih (h := h') (fun k hk => by
        obtain ⟨a, ⟨q, b⟩, d, c⟩ := his k (by simp [hk])
        exact ⟨a.trans_le he.nextNode, ⟨q, he.nodeOk a b⟩, d, c.of_nodes_eq (fun j hj => by simp [Shape.ids] at hj; subst hj; exact he.node _ a)⟩) us1
      generalize growMutations is h' us1 = res2 at h2
      obtain ⟨h'', us2, res2⟩ := res2
      cases res2 with
      | error e => exact ⟨he.trans h2.1, h2.2⟩
      | ok ms =>
        obtain ⟨he2, qs, rfl, hq1, hq2, hq3⟩ := h2
        refine ⟨he.trans he2, ⟨i, D, L, R⟩ :: qs, rfl, by simp [hq1], ?_, ?_⟩
        · rw [List.flatMap_cons, List.nodup_append]
          refine ⟨hb.nodup, hq2, ?_⟩
          rintro a ha b hb' rfl
          obtain ⟨q, hq, hbq⟩ := List.mem_flatMap.1 hb'
          have k1 := hb.lt a ha
          have k2 := (hq3 q hq).new a hbq
          omega
        · intro q hq
          rcases List.mem_cons.1 hq with rfl | hq
          · exact hb.ext he2
          · exact (hq3 q hq).mono he.nextNode

/-- A proposed prune. -/
structure OPrune (X : Fin n → Fin p → Fl K) (y : Fin n → K) (N : Nat) (h : Heap K n p) (q : PQuad) : Prop where
  old : ∀ k ∈ [q.i, q.l, q.r], k < h.nextNode
  lt : q.U < h.nextNode
  new : N ≤ q.U
  ready : OReady X (some y) h (.node q.i (.leaf q.l) (.leaf q.r)) (.leaf q.U)
  okOld : ∀ k ∈ [q.i, q.l, q.r], ∃ c, NodeOk X (some y) h k c

theorem OPrune.ext {y : Fin n → K} {N : Nat} {h h' : Heap K n p} {q : PQuad} (hb : OPrune X y N h q) (he : HeapExt h h') : OPrune X y N h' q := by
  refine ⟨fun k hk => (hb.old k hk).trans_le he.nextNode, hb.lt.trans_le he.nextNode, hb.new, ?_, fun k hk => ?_⟩
  · exact hb.ready.ext he (fun k hk => hb.old k (by simpa [Shape.ids] using hk)) (by simpa [Shape.ids] using hb.lt)
  · obtain ⟨c, ok⟩ := hb.okOld k hk
    exact ⟨c, he.nodeOk (hb.old k hk) ok⟩

theorem OPrune.mono {y : Fin n → K} {N N' : Nat} {h : Heap K n p} {q : PQuad} (hb : OPrune X y N h q) (hN : N' ≤ N) : OPrune X y N' h q :=
  ⟨hb.old, hb.lt, hN.trans hb.new, hb.ready, hb.okOld⟩

/-- What `prune_mutations` returns. -/
theorem opruneMutations_spec {y : Fin n → K} : ∀ (ps : List (NodeId × NodeId × NodeId)) {h : Heap K n p}
    (_ : ∀ q ∈ ps, ∀ k ∈ [q.1, q.2.1, q.2.2], k < h.nextNode ∧ ∃ c, NodeOk X (some y) h k c) (_ : ∀ q ∈ ps, ∃ d, Struct X h (.node q.1 (.leaf q.2.1) (.leaf q.2.2)) d),
    ∃ (h1 : Heap K n p) (qs : List PQuad), pruneMutations (ps.map Prod.fst) h = (h1, .ok (qs.map PQuad.mu)) ∧ HeapExt h h1 ∧
        qs.map (fun q => (q.i, q.l, q.r)) = ps ∧ (qs.map PQuad.U).Nodup ∧ (∀ q ∈ qs, OPrune X y h.nextNode h1 q) := by
  intro ps
  induction ps with
  | nil => intro h _ _; exact ⟨h, [], rfl, HeapExt.refl _, rfl, by simp, by simp⟩
  | cons a ps ih =>
    intro h h1 h2
    obtain ⟨i, l, r⟩ := a
    obtain ⟨d, hS⟩ := h2 (i, l, r) (by simp)
    have h1a := h1 _ (by simp : (i, l, r) ∈ (i, l, r) :: ps)
    simp only at h1a hS
    have he : HeapExt h (h.newLeaf (h.node i).split (h.node i).depth).2 := HeapExt.allocNode h _
    have hu : (h.newLeaf (h.node i).split (h.node i).depth).1 = h.nextNode := rfl
    have hn : (h.newLeaf (h.node i).split (h.node i).depth).2.nextNode = h.nextNode + 1 := rfl
    have hU : (h.newLeaf (h.node i).split (h.node i).depth).2.node h.nextNode = leafRec (h.node i).depth (h.node i).split := by
      simp [Heap.newLeaf, Heap.allocNode, leafRec]
    have hpm : Tree.pruneMutation (h.newLeaf (h.node i).split (h.node i).depth).2 i (h.newLeaf (h.node i).split (h.node i).depth).1 =
        .ok { kind := .prune, existing := i, updated := h.nextNode } := by
      have ei := he.node i (h1a i (by simp)).1
      have el := he.node l (h1a l (by simp)).1
      have er := he.node r (h1a r (by simp)).1
      have e1 : (h.node l).kind = .leaf := hS.2.2.2.2.2.1.1
      have e2 : (h.node r).kind = .leaf := hS.2.2.2.2.2.2.1
      have e3 : (h.node i).left = some l := hS.2.1
      have e4 : (h.node i).right = some r := hS.2.2.1
      unfold Tree.pruneMutation Heap.isPrunable
      simp [Heap.isLeafPtr, ei, el, er, hS.1, e1, e2, e3, e4, hu]
    simp only [List.map_cons]
    unfold pruneMutations
    simp only [hpm]
    generalize h.newLeaf (h.node i).split (h.node i).depth = nl at *
    obtain ⟨nl1, h'⟩ := nl
    simp only at *
    obtain ⟨h'', qs, g1, g2, g3, g4, g5⟩ := ih (h := h') (fun q hq k hk => by
        obtain ⟨x1, c, x2⟩ := h1 q (by simp [hq]) k hk
        exact ⟨x1.trans_le he.nextNode, c, he.nodeOk x1 x2⟩) (fun q hq => by
        obtain ⟨d, x⟩ := h2 q (by simp [hq])
        refine ⟨d, x.of_nodes_eq (fun j hj => he.node j ((h1 q (by simp [hq]) j ?_).1))⟩
        simpa [Shape.ids] using hj)
    rw [g1]
    refine ⟨h'', ⟨i, l, r, h.nextNode⟩ :: qs, rfl, he.trans g2, by simp [g3], ?_, ?_⟩
    · simp only [List.map_cons, List.nodup_cons]
      refine ⟨fun hc => ?_, g4⟩
      obtain ⟨q, hq, e⟩ := List.mem_map.1 hc
      have := (g5 q hq).new
      omega
    · intro q hq
      rcases List.mem_cons.1 hq with rfl | hq
      · refine OPrune.ext ?_ g2
        obtain ⟨ci, oki⟩ := (h1a i (by simp)).2
        have ei := he.node i (h1a i (by simp)).1
        refine ⟨fun k hk => (h1a k hk).1.trans_le he.nextNode, by show h.nextNode < h'.nextNode; omega, le_refl _, ⟨⟨d, ?_, ?_⟩, ?_, ?_⟩, fun k hk => ?_⟩
        · exact hS.of_nodes_eq (fun j hj => he.node j (h1a j (by simpa [Shape.ids] using hj)).1)
        · exact ⟨by rw [hU]; rfl, by rw [hU]; rfl, by rw [hU]; rfl, by rw [hU]; exact hS.2.2.2.1⟩
        · intro k hk
          simp [Shape.ids] at hk
          subst hk
          exact ⟨ci, okOfSplit (he.nodeOk (h1a i (by simp)).1 oki) (by rw [hU, ei]; rfl)⟩
        · show (h'.node h.nextNode).split = (h'.node i).split
          rw [hU, ei]; rfl
        · obtain ⟨x1, c, x2⟩ := h1a k hk
          exact ⟨c, he.nodeOk x1 x2⟩
      · exact (g5 q hq).mono he.nextNode

/-! ### applying the proposals -/

/-- What `mutate` and sequences of it keep; `news` are the nodes put in. -/
structure MutFrame (t t' : Tree K n p) (news : List NodeId) : Prop where
  data : t'.heap.data = t.heap.data
  nextNode : t'.heap.nextNode = t.heap.nextNode
  nextData : t'.heap.nextData = t.heap.nextData
  pred : t'.prediction = t.prediction
  cache : t'.cacheUpToDate = t.cacheUpToDate ∨ t'.cacheUpToDate = false
  fields : ∀ k, (t'.heap.node k).value = (t.heap.node k).value ∧ (t'.heap.node k).kind = (t.heap.node k).kind ∧
    (t'.heap.node k).depth = (t.heap.node k).depth ∧ (t'.heap.node k).split = (t.heap.node k).split
  other : ∀ k, k ∉ t.nodes → k ∉ news → t'.heap.node k = t.heap.node k
  mem : ∀ k ∈ t'.nodes, k ∈ t.nodes ∨ k ∈ news
  left : ∀ k l, (t.heap.node k).left = some l → ∃ l', (t'.heap.node k).left = some l' ∧ (t.heap.node l').split = (t.heap.node l).split ∧ (l' = l ∨ l' ∈ news)
  right : ∀ k l, (t.heap.node k).right = some l → ∃ l', (t'.heap.node k).right = some l' ∧ (t.heap.node l').split = (t.heap.node l).split ∧ (l' = l ∨ l' ∈ news)

/-- A single relinking. -/
theorem link_of_relink {t t' : Tree K n p} {mu : TreeMutation} {news : List NodeId} (hnode : ∀ k, t'.heap.node k = t.heap.node k ∨ t'.heap.node k = relinkRec mu (t.heap.node k))
    (hsp : (t.heap.node mu.updated).split = (t.heap.node mu.existing).split) (hnew : mu.updated ∈ news) :
    (∀ k l, (t.heap.node k).left = some l → ∃ l', (t'.heap.node k).left = some l' ∧ (t.heap.node l').split = (t.heap.node l).split ∧ (l' = l ∨ l' ∈ news)) ∧
    (∀ k l, (t.heap.node k).right = some l → ∃ l', (t'.heap.node k).right = some l' ∧ (t.heap.node l').split = (t.heap.node l).split ∧ (l' = l ∨ l' ∈ news)) := by
  constructor
  · intro k l hl
    rcases hnode k with e | e
    · exact ⟨l, by rw [e]; exact hl, rfl, .inl rfl⟩
    · by_cases hx : l = mu.existing
      · exact ⟨mu.updated, by rw [e]; simp [relinkRec, hl, hx], by rw [hx]; exact hsp, .inr hnew⟩
      · exact ⟨l, by rw [e]; simp [relinkRec, hl, hx], rfl, .inl rfl⟩
  · intro k l hl
    rcases hnode k with e | e
    · exact ⟨l, by rw [e]; exact hl, rfl, .inl rfl⟩
    · by_cases hx : l = mu.existing
      · exact ⟨mu.updated, by rw [e]; simp [relinkRec, hl, hx], by rw [hx]; exact hsp, .inr hnew⟩
      · exact ⟨l, by rw [e]; simp [relinkRec, hl, hx], rfl, .inl rfl⟩

theorem MutFrame.refl (t : Tree K n p) : MutFrame t t [] :=
  ⟨rfl, rfl, rfl, rfl, .inl rfl, fun _ => ⟨rfl, rfl, rfl, rfl⟩, fun _ _ _ => rfl, fun _ h => .inl h, fun _ l h => ⟨l, h, rfl, .inl rfl⟩, fun _ l h => ⟨l, h, rfl, .inl rfl⟩⟩

theorem MutFrame.trans {a b c : Tree K n p} {l m : List NodeId} (h : MutFrame a b l) (h' : MutFrame b c m) : MutFrame a c (l ++ m) := by
  refine ⟨h'.data.trans h.data, h'.nextNode.trans h.nextNode, h'.nextData.trans h.nextData, h'.pred.trans h.pred, ?_, ?_, ?_, ?_, ?_, ?_⟩
  · rcases h'.cache with e | e
    · rw [e]; exact h.cache
    · exact .inr e
  · intro k
    obtain ⟨a1, a2, a3, a4⟩ := h.fields k
    obtain ⟨b1, b2, b3, b4⟩ := h'.fields k
    exact ⟨b1.trans a1, b2.trans a2, b3.trans a3, b4.trans a4⟩
  · intro k h1 h2
    rw [List.mem_append, not_or] at h2
    rw [h'.other k (fun hc => (h.mem k hc).elim h1 h2.1) h2.2, h.other k h1 h2.1]
  · intro k hk
    rcases h'.mem k hk with hk | hk
    · rcases h.mem k hk with hk | hk
      · exact .inl hk
      · exact .inr (List.mem_append_left _ hk)
    · exact .inr (List.mem_append_right _ hk)
  · intro k x hx
    obtain ⟨x1, e1, e2, e3⟩ := h.left k x hx
    obtain ⟨x2, f1, f2, f3⟩ := h'.left k x1 e1
    refine ⟨x2, f1, ?_, ?_⟩
    · rw [← (h.fields x2).2.2.2, f2, (h.fields x1).2.2.2, e2]
    · rcases f3 with rfl | f3
      · exact e3.imp id (List.mem_append_left _)
      · exact .inr (List.mem_append_right _ f3)
  · intro k x hx
    obtain ⟨x1, e1, e2, e3⟩ := h.right k x hx
    obtain ⟨x2, f1, f2, f3⟩ := h'.right k x1 e1
    refine ⟨x2, f1, ?_, ?_⟩
    · rw [← (h.fields x2).2.2.2, f2, (h.fields x1).2.2.2, e2]
    · rcases f3 with rfl | f3
      · exact e3.imp id (List.mem_append_left _)
      · exact .inr (List.mem_append_right _ f3)

/-- A grow that can be applied. -/
structure OPend (X : Fin n → Fin p → Fl K) (y : Fin n → K) (t : Tree K n p) (q : Quad) : Prop where
  leaf : q.i ∈ t.leafNodes
  ready : OReady X (some y) t.heap (.leaf q.i) (.node q.D (.leaf q.L) (.leaf q.R))
  fresh : ∀ k ∈ q.news, k ∉ t.nodes
  lt : ∀ k ∈ q.news, k < t.heap.nextNode

theorem OReady.of_nodes_eq {y : Option (Fin n → K)} {h h' : Heap K n p} {old new : Shape} (hr : OReady X y h old new) (ho : ∀ i ∈ old.ids, h'.node i = h.node i)
    (hn : ∀ i ∈ new.ids, h'.node i = h.node i) (hd : h'.data = h.data) (hnd : h'.nextData = h.nextData) : OReady X y h' old new := by
  obtain ⟨⟨d, h1, h2⟩, h3, h4⟩ := hr
  refine ⟨⟨d, h1.of_nodes_eq ho, h2.of_nodes_eq hn⟩, fun i hi => ?_, ?_⟩
  · obtain ⟨q, hk⟩ := h3 i hi
    have e := hn i hi
    have ed : h'.dataOf i = h.dataOf i := by simp [Heap.dataOf, e, hd]
    exact ⟨q, by rw [e, hnd]; exact hk.data_lt, by rw [e]; exact hk.combined, by rw [ed]; exact hk.inv, by rw [ed]; exact hk.hX, by rw [ed]; exact hk.rows, by rw [ed]; exact hk.y⟩
  · rw [hn _ new.root_mem, ho _ old.root_mem]; exact h4

theorem OPend.next {y : Fin n → K} {t t' : Tree K n p} {q q' : Quad} (hp : OPend X y t q') (hq : q.i ∈ t.nodes) (hne : q'.i ≠ q.i) (hn : ∀ k ∈ q'.news, k ∉ q.news)
    (hnodes : t'.nodes = t.nodes.erase q.i ++ [q.L] ++ [q.R] ++ [q.D]) (hdata : t'.heap.data = t.heap.data) (hnn : t'.heap.nextNode = t.heap.nextNode)
    (hnd : t'.heap.nextData = t.heap.nextData) (hnode : ∀ k, t'.heap.node k = t.heap.node k ∨ t'.heap.node k = relinkRec q.mu (t.heap.node k)) : OPend X y t' q' := by
  obtain ⟨d, hRo, hRn⟩ := hp.ready.struct
  have hin : q'.i ∈ t.nodes := (List.mem_filter.1 hp.leaf).1
  have hmn : q.i ∉ q'.news := fun h => hp.fresh _ h hq
  have hold : t'.heap.node q'.i = t.heap.node q'.i := by
    rcases hnode q'.i with e | e
    · exact e
    · rw [e]; exact hRo.relink_id (m := q.mu) (by simpa [Shape.ids, Quad.mu] using hne.symm) _ (by simp [Shape.ids])
  have hnew : ∀ k ∈ q'.news, t'.heap.node k = t.heap.node k := by
    intro k hk
    rcases hnode k with e | e
    · exact e
    · rw [e]; exact hRn.relink_id (m := q.mu) (by simpa [Shape.ids, Quad.mu, Quad.news] using hmn) _ (by simpa [Shape.ids, Quad.news] using hk)
  refine ⟨?_, hp.ready.of_nodes_eq ?_ ?_ hdata hnd, ?_, fun k hk => by rw [hnn]; exact hp.lt k hk⟩
  · unfold Tree.leafNodes
    rw [List.mem_filter, hnodes, hold]
    refine ⟨?_, (List.mem_filter.1 hp.leaf).2⟩
    simp only [List.append_assoc, List.mem_append]
    exact .inl ((List.mem_erase_of_ne hne).2 hin)
  · intro k hk; simp [Shape.ids] at hk; subst hk; exact hold
  · intro k hk; exact hnew k (by simpa [Shape.ids, Quad.news] using hk)
  · intro k hk hc
    rw [hnodes] at hc
    simp only [List.append_assoc, List.mem_append, List.mem_singleton] at hc
    rcases hc with hc | hc | hc | hc
    · exact hp.fresh k hk (List.mem_of_mem_erase hc)
    · exact hn k hk (by simp [Quad.news, hc])
    · exact hn k hk (by simp [Quad.news, hc])
    · exact hn k hk (by simp [Quad.news, hc])

/-- Applying grows. -/
theorem omutateAll_grow {y : Fin n → K} : ∀ (qs : List Quad) {t : Tree K n p} {s : Shape}, OInv X (some y) t s → (qs.map Quad.i).Nodup → (qs.flatMap Quad.news).Nodup →
    (∀ q ∈ qs, OPend X y t q) → ∃ t' s', mutateAll (qs.map Quad.mu) t = .ok t' ∧ OInv X (some y) t' s' ∧ MutFrame t t' (qs.flatMap Quad.news) ∧
      (∀ k, k ∈ t'.nodes ↔ (k ∈ t.nodes ∧ k ∉ qs.map Quad.i) ∨ k ∈ qs.flatMap Quad.news) ∧
      ((s'.root = s.root ∧ s.root ∉ qs.map Quad.i) ∨ ∃ q ∈ qs, q.i = s.root ∧ s'.root = q.D) ∧
      t'.nodes = t.nodes.filter (fun k => decide (k ∉ qs.map Quad.i)) ++ qs.flatMap (fun q => [q.L, q.R, q.D]) := by
  intro qs
  induction qs with
  | nil => intro t s hI _ _ _; exact ⟨t, s, rfl, hI, MutFrame.refl t, by simp, .inl ⟨rfl, by simp⟩, by simp⟩
  | cons q qs ih =>
    intro t s hI h1 h2 h3
    have hp := h3 q (by simp)
    rw [List.flatMap_cons, List.nodup_append] at h2
    obtain ⟨n1, n2, n3⟩ := h2
    simp only [List.map_cons, List.nodup_cons] at h1
    have hin : q.i ∈ t.nodes := (List.mem_filter.1 hp.leaf).1
    obtain ⟨t1, f1, f2, f3, f4, f5, f6, f7, f8, f9, f10⟩ := omutate_grow hI hp.leaf hp.ready n1 hp.fresh hp.lt
    have hnode : ∀ k, t1.heap.node k = t.heap.node k ∨ t1.heap.node k = relinkRec q.mu (t.heap.node k) := by
      intro k
      rw [f10 k]
      split
      · exact .inr rfl
      · exact .inl rfl
    have hm : ∀ k, k ∈ t1.nodes ↔ (k ∈ t.nodes ∧ k ≠ q.i) ∨ k ∈ q.news := by
      intro k
      rw [f3, List.append_assoc, List.append_assoc, List.mem_append, hI.nodes_nodup.mem_erase_iff]
      simp only [Quad.news, List.mem_append, List.mem_cons, List.not_mem_nil, or_false]
      tauto
    have hF : MutFrame t t1 q.news := by
      obtain ⟨k1, k2⟩ := link_of_relink (news := q.news) hnode hp.ready.split (by simp [Quad.mu, Quad.news])
      refine ⟨f6, f7, f8, f5, .inr f4, f9, fun k hk hk2 => ?_, fun k hk => ?_, k1, k2⟩
      · rw [f10 k, if_neg]
        rw [hm]
        tauto
      · rw [hm] at hk
        tauto
    obtain ⟨t', s', g1, g2, g3, g4, g5, g6⟩ := ih f2 h1.2 n2 (fun q' hq' => (h3 q' (by simp [hq'])).next hin (fun e => h1.1 (e ▸ List.mem_map_of_mem hq'))
      (fun k hk hc => n3 k hc k (List.mem_flatMap.2 ⟨q', hq', hk⟩) rfl) f3 f6 f7 f8 hnode)
    have hold : ∀ q' ∈ qs, q'.i ∈ t.nodes := fun q' hq' => (List.mem_filter.1 (h3 q' (by simp [hq'])).leaf).1
    refine ⟨t', s', ?_, g2, hF.trans g3, ?_, ?_, ?_⟩
    · simp only [List.map_cons, mutateAll]
      rw [show t.mutate q.mu = .ok t1 from f1]
      exact g1
    · intro k
      rw [g4, hm]
      simp only [List.map_cons, List.mem_cons, List.flatMap_cons, List.mem_append, not_or]
      constructor
      · rintro (⟨⟨a, b⟩ | a, c⟩ | a)
        · exact .inl ⟨a, b, c⟩
        · exact .inr (.inl a)
        · exact .inr (.inr a)
      · rintro (⟨a, b, c⟩ | a | a)
        · exact .inl ⟨.inl ⟨a, b⟩, c⟩
        · refine .inl ⟨.inr a, ?_⟩
          intro hc
          obtain ⟨q', hq', rfl⟩ := List.mem_map.1 hc
          exact hp.fresh _ a (hold q' hq')
        · exact .inr a
    · have hr : (s.replace q.i (.node q.D (.leaf q.L) (.leaf q.R))).root = if s.root = q.i then q.D else s.root := by
        rw [Shape.root_replace]; rfl
      rw [hr] at g5
      by_cases he : s.root = q.i
      · rw [if_pos he] at g5
        refine .inr ⟨q, by simp, he.symm, ?_⟩
        rcases g5 with ⟨a, -⟩ | ⟨q', hq', a, -⟩
        · exact a
        · exact absurd (hold q' hq') (by rw [a]; exact hp.fresh _ (by simp [Quad.news]))
      · rw [if_neg he] at g5
        rcases g5 with ⟨a, b⟩ | ⟨q', hq', a, b⟩
        · exact .inl ⟨a, by simp only [List.map_cons, List.mem_cons, not_or]; exact ⟨he, b⟩⟩
        · exact .inr ⟨q', by simp [hq'], a, b⟩
    · rw [g6, f3, hI.nodes_nodup.erase_eq_filter]
      have h4 : ∀ k ∈ q.news, k ∉ qs.map Quad.i := by
        intro k hk hc
        obtain ⟨q', hq', rfl⟩ := List.mem_map.1 hc
        exact hp.fresh _ hk (hold q' hq')
      have e : [q.L, q.R, q.D].filter (fun k => decide (k ∉ qs.map Quad.i)) = [q.L, q.R, q.D] :=
        List.filter_eq_self.2 (fun k hk => by simpa using h4 k (by simp [Quad.news] at hk ⊢; tauto))
      have e' : ∀ l : List NodeId, l ++ [q.L] ++ [q.R] ++ [q.D] = l ++ [q.L, q.R, q.D] := by intro l; simp
      rw [e', List.filter_append, e, List.filter_filter, List.flatMap_cons, List.append_assoc]
      congr 1
      apply List.filter_congr
      intro k _
      simp only [List.map_cons, List.mem_cons, not_or]
      rw [Bool.eq_iff_iff]; simp; tauto

/-- A prune that can be applied. -/
structure OPPend (X : Fin n → Fin p → Fl K) (y : Fin n → K) (t : Tree K n p) (s : Shape) (q : PQuad) : Prop where
  sub : (Shape.node q.i (.leaf q.l) (.leaf q.r)).Sub s
  ready : OReady X (some y) t.heap (.node q.i (.leaf q.l) (.leaf q.r)) (.leaf q.U)
  fresh : q.U ∉ t.nodes
  lt : q.U < t.heap.nextNode

theorem OPPend.next {y : Fin n → K} {t t' : Tree K n p} {s : Shape} {q q' : PQuad} (hI : OInv X (some y) t s) (hp : OPPend X y t s q') (hq : OPPend X y t s q) (hne : q'.i ≠ q.i)
    (hn : q'.U ≠ q.U) (hnodes : t'.nodes = ((t.nodes.erase q.i).erase q.l).erase q.r ++ [q.U]) (hdata : t'.heap.data = t.heap.data) (hnn : t'.heap.nextNode = t.heap.nextNode)
    (hnd : t'.heap.nextData = t.heap.nextData) (hnode : ∀ k, t'.heap.node k = t.heap.node k ∨ t'.heap.node k = relinkRec q.mu (t.heap.node k)) :
    OPPend X y t' (s.replace q.i (.leaf q.U)) q' := by
  obtain ⟨d, hRo, hRn⟩ := hp.ready.struct
  obtain ⟨d', hRo', -⟩ := hq.ready.struct
  have hin : q.i ∈ t.nodes := hI.perm.mem_iff.2 (hq.sub.ids_subset _ (by simp [Shape.ids]))
  have kd : (t.heap.node q'.i).kind = .decision := hRo.1
  have kd' : (t.heap.node q.i).kind = .decision := hRo'.1
  obtain ⟨-, -, -, -, -, kl, kr⟩ := id hRo
  obtain ⟨-, -, -, -, -, kl', kr'⟩ := hRo'
  have d1 : q'.i ≠ q.l := fun e => by rw [e] at kd; have := kl'.1; rw [kd] at this; cases this
  have d2 : q'.i ≠ q.r := fun e => by rw [e] at kd; have := kr'.1; rw [kd] at this; cases this
  have d3 : q.i ≠ q'.l := fun e => by rw [e] at kd'; have := kl.1; rw [kd'] at this; cases this
  have d4 : q.i ≠ q'.r := fun e => by rw [e] at kd'; have := kr.1; rw [kd'] at this; cases this
  have hex : q.mu.existing ∉ (Shape.node q'.i (.leaf q'.l) (.leaf q'.r)).ids := by
    simp [Shape.ids, PQuad.mu, hne.symm, d3, d4]
  have hex2 : q.mu.existing ∉ (Shape.leaf q'.U).ids := by
    simp only [Shape.ids, PQuad.mu, List.mem_singleton]
    rintro e; exact hp.fresh (e ▸ hin)
  refine ⟨Shape.Sub.replace_of_disjoint hp.sub hq.sub rfl hI.nodup ?_ hex, hp.ready.of_nodes_eq ?_ ?_ hdata hnd, ?_, by rw [hnn]; exact hp.lt⟩
  · simp [Shape.ids, Shape.root, hne, d1, d2]
  · intro k hk
    rcases hnode k with e | e
    · exact e
    · rw [e]; exact hRo.relink_id hex k hk
  · intro k hk
    rcases hnode k with e | e
    · exact e
    · rw [e]; exact hRn.relink_id hex2 k hk
  · intro hc
    rw [hnodes] at hc
    simp only [List.mem_append, List.mem_singleton] at hc
    rcases hc with hc | hc
    · exact hp.fresh (List.mem_of_mem_erase (List.mem_of_mem_erase (List.mem_of_mem_erase hc)))
    · exact hn hc

/-- Applying prunes. -/
theorem omutateAll_prune {y : Fin n → K} : ∀ (qs : List PQuad) {t : Tree K n p} {s : Shape}, OInv X (some y) t s → (qs.map PQuad.i).Nodup → (qs.map PQuad.U).Nodup →
    (∀ q ∈ qs, OPPend X y t s q) → ∃ t' s', mutateAll (qs.map PQuad.mu) t = .ok t' ∧ OInv X (some y) t' s' ∧ MutFrame t t' (qs.map PQuad.U) ∧
      (∀ k, k ∈ t'.nodes ↔ (k ∈ t.nodes ∧ ∀ q ∈ qs, k ≠ q.i ∧ k ≠ q.l ∧ k ≠ q.r) ∨ k ∈ qs.map PQuad.U) ∧
      ((s'.root = s.root ∧ s.root ∉ qs.map PQuad.i) ∨ ∃ q ∈ qs, q.i = s.root ∧ s'.root = q.U) ∧
      t'.nodes = t.nodes.filter (fun k => decide (∀ q ∈ qs, k ≠ q.i ∧ k ≠ q.l ∧ k ≠ q.r)) ++ qs.map PQuad.U := by
  intro qs
  induction qs with
  | nil => intro t s hI _ _ _; exact ⟨t, s, rfl, hI, MutFrame.refl t, by simp, .inl ⟨rfl, by simp⟩, by simp⟩
  | cons q qs ih =>
    intro t s hI h1 h2 h3
    have hp := h3 q (by simp)
    simp only [List.map_cons, List.nodup_cons] at h1 h2
    obtain ⟨t1, f1, f2, f3, f4, f5, f6, f7, f8, f9, f10⟩ := omutate_prune hI hp.sub hp.ready hp.fresh hp.lt
    have hnode : ∀ k, t1.heap.node k = t.heap.node k ∨ t1.heap.node k = relinkRec q.mu (t.heap.node k) := by
      intro k
      rw [f10 k]
      split
      · exact .inr rfl
      · exact .inl rfl
    have hm : ∀ k, k ∈ t1.nodes ↔ (k ∈ t.nodes ∧ k ≠ q.i ∧ k ≠ q.l ∧ k ≠ q.r) ∨ k = q.U := by
      intro k
      have n1 := hI.nodes_nodup
      rw [f3]
      simp only [List.mem_append, List.mem_singleton, ((n1.erase _).erase _).mem_erase_iff, (n1.erase _).mem_erase_iff, n1.mem_erase_iff]
      tauto
    have hF : MutFrame t t1 [q.U] := by
      obtain ⟨k1, k2⟩ := link_of_relink (news := [q.U]) hnode hp.ready.split (by simp [PQuad.mu])
      refine ⟨f6, f7, f8, f5, .inr f4, f9, fun k hk hk2 => ?_, fun k hk => ?_, k1, k2⟩
      · rw [f10 k, if_neg]
        rw [hm]
        simp only [List.mem_singleton] at hk2
        tauto
      · rw [hm] at hk
        simp only [List.mem_singleton]
        tauto
    obtain ⟨t', s', g1, g2, g3, g4, g5, g6⟩ := ih f2 h1.2 h2.2 (fun q' hq' => (h3 q' (by simp [hq'])).next hI hp (fun e => h1.1 (e ▸ List.mem_map_of_mem hq'))
      (fun e => h2.1 (e ▸ List.mem_map_of_mem hq')) f3 f6 f7 f8 hnode)
    have hold : ∀ q' ∈ qs, ∀ k ∈ [q'.i, q'.l, q'.r], k ∈ t.nodes := by
      intro q' hq' k hk
      exact hI.perm.mem_iff.2 ((h3 q' (by simp [hq'])).sub.ids_subset _ (by simpa [Shape.ids] using hk))
    refine ⟨t', s', ?_, g2, hF.trans g3, ?_, ?_, ?_⟩
    · simp only [List.map_cons, mutateAll]
      rw [show t.mutate q.mu = .ok t1 from f1]
      exact g1
    · intro k
      have hu : k = q.U → ∀ q' ∈ qs, k ≠ q'.i ∧ k ≠ q'.l ∧ k ≠ q'.r := by
        rintro rfl q' hq'
        have hs := hold q' hq'
        refine ⟨?_, ?_, ?_⟩ <;> intro e <;> exact hp.fresh (hs _ (by simp [e]))
      rw [g4, hm]
      simp only [List.map_cons, List.mem_cons, forall_eq_or_imp]
      tauto
    · have hr : (s.replace q.i (.leaf q.U)).root = if s.root = q.i then q.U else s.root := by
        rw [Shape.root_replace]; rfl
      rw [hr] at g5
      by_cases he : s.root = q.i
      · rw [if_pos he] at g5
        refine .inr ⟨q, by simp, he.symm, ?_⟩
        rcases g5 with ⟨a, -⟩ | ⟨q', hq', a, -⟩
        · exact a
        · exact absurd (hold q' hq' q'.i (by simp)) (by rw [a]; exact hp.fresh)
      · rw [if_neg he] at g5
        rcases g5 with ⟨a, b⟩ | ⟨q', hq', a, b⟩
        · exact .inl ⟨a, by simp only [List.map_cons, List.mem_cons, not_or]; exact ⟨he, b⟩⟩
        · exact .inr ⟨q', by simp [hq'], a, b⟩
    · rw [g6, f3, hI.nodes_nodup.erase_eq_filter, (hI.nodes_nodup.filter _).erase_eq_filter, ((hI.nodes_nodup.filter _).filter _).erase_eq_filter]
      have e : [q.U].filter (fun k => decide (∀ q ∈ qs, k ≠ q.i ∧ k ≠ q.l ∧ k ≠ q.r)) = [q.U] := by
        refine List.filter_eq_self.2 (fun k hk => ?_)
        simp only [List.mem_singleton] at hk
        subst hk
        simp only [decide_eq_true_eq]
        intro q' hq'
        have hs := hold q' hq'
        refine ⟨?_, ?_, ?_⟩ <;> intro e <;> exact hp.fresh (hs _ (by simp [e]))
      rw [List.filter_append, e, List.filter_filter, List.filter_filter, List.filter_filter, List.append_assoc]
      congr 1
      apply List.filter_congr
      intro k _
      rw [Bool.eq_iff_iff]; simp; tauto

end Bart.Oblivious
