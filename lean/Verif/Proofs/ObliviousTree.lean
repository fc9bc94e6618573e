import Verif.Proofs.ObliviousStep

/-! What every tree of the oblivious tree sampler is: all leaves at one depth, each row in a leaf, and leaves that share a row have the same split. -/

set_option linter.unusedSectionVars false

namespace Bart.Oblivious
open Bart Spec
variable {K : Type} [Field K] [LinearOrder K] {n p : Nat} {X : Fin n → Fin p → Fl K}

/-! ### perfect shapes -/

/-- All leaves are `e` levels below the root. -/
def Perfect : Nat → Shape → Prop
  | 0, .leaf _ => True
  | e + 1, .node _ l r => Perfect e l ∧ Perfect e r
  | 0, .node .. => False
  | _ + 1, .leaf _ => False

theorem leaves_pos (s : Shape) : ∃ i, i ∈ s.leaves := by
  have := s.leaves_length
  exact List.exists_mem_of_length_pos (by omega)

theorem Struct.depth_ge {h : Heap K n p} {s : Shape} : ∀ {d : Nat}, Struct X h s d → ∀ i ∈ s.ids, d ≤ (h.node i).depth := by
  induction s with
  | leaf j => intro d hS i hi; simp [Shape.ids] at hi; subst hi; exact hS.2.2.2.ge
  | node j l r ihl ihr =>
    intro d hS i hi
    obtain ⟨-, -, -, hd, -, hl, hr⟩ := hS
    simp only [Shape.ids, List.mem_cons, List.mem_append] at hi
    rcases hi with rfl | hi | hi
    · exact hd.ge
    · have := ihl hl i hi; omega
    · have := ihr hr i hi; omega

theorem Struct.perfect {h : Heap K n p} {s : Shape} : ∀ {d e : Nat}, Struct X h s d → (∀ i ∈ s.leaves, (h.node i).depth = d + e) → Perfect e s := by
  induction s with
  | leaf j =>
    intro d e hS hl
    have := hl j (by simp [Shape.leaves])
    rw [hS.2.2.2] at this
    obtain rfl : e = 0 := by omega
    trivial
  | node j l r ihl ihr =>
    intro d e hS hl
    obtain ⟨-, -, -, hd, -, h1, h2⟩ := hS
    cases e with
    | zero =>
      obtain ⟨i, hi⟩ := leaves_pos l
      have a := hl i (by simp [Shape.leaves, hi])
      have b := h1.depth_ge i (l.leaves_subset hi)
      omega
    | succ e =>
      exact ⟨ihl h1 (fun i hi => by rw [hl i (by simp [Shape.leaves, hi])]; omega), ihr h2 (fun i hi => by rw [hl i (by simp [Shape.leaves, hi])]; omega)⟩

theorem Perfect.count : ∀ {e : Nat} {s : Shape}, Perfect e s → s.leaves.length = 2 ^ e := by
  intro e
  induction e with
  | zero => intro s h; cases s with
    | leaf i => rfl
    | node i l r => exact h.elim
  | succ e ih =>
    intro s h
    cases s with
    | leaf i => exact h.elim
    | node i l r =>
      simp only [Shape.leaves, List.length_append]
      rw [ih h.1, ih h.2, pow_succ]; omega

theorem Perfect.parent : ∀ {e : Nat} {s : Shape}, Perfect (e + 1) s → ∀ i ∈ s.leaves, ∃ j l r, (Shape.node j (.leaf l) (.leaf r)).Sub s ∧ (i = l ∨ i = r) := by
  intro e
  induction e with
  | zero =>
    intro s h i hi
    cases s with
    | leaf j => exact h.elim
    | node j l r =>
      cases l with
      | node a b c => exact h.1.elim
      | leaf a =>
        cases r with
        | node a b c => exact h.2.elim
        | leaf b => exact ⟨j, a, b, .inl rfl, by simpa [Shape.leaves] using hi⟩
  | succ e ih =>
    intro s h i hi
    cases s with
    | leaf j => exact h.elim
    | node j l r =>
      simp only [Shape.leaves, List.mem_append] at hi
      rcases hi with hi | hi
      · obtain ⟨a, b, c, h1, h2⟩ := ih h.1 i hi
        exact ⟨a, b, c, .inr (.inl h1), h2⟩
      · obtain ⟨a, b, c, h1, h2⟩ := ih h.2 i hi
        exact ⟨a, b, c, .inr (.inr h1), h2⟩

/-! ### the invariant of the sampler -/

/-- A tree of the oblivious tree sampler. -/
structure OTree (X : Fin n → Fin p → Fl K) (y : Option (Fin n → K)) (t : Tree K n p) (s : Shape) (d : Nat) : Prop where
  inv : OInv X y t s
  level : ∀ i ∈ t.leafNodes, (t.heap.node i).depth = d
  ruled : ∀ i ∈ t.nodes, i ≠ s.root → (t.heap.node i).split.combined.mostRecentSplitCondition ≠ none

theorem OInv.leafNodes_perm {y : Option (Fin n → K)} {t : Tree K n p} {s : Shape} (hI : OInv X y t s) : t.leafNodes.Perm s.leaves := by
  have hn : t.leafNodes.Nodup := hI.nodes_nodup.filter _
  rw [List.perm_ext_iff_of_nodup hn (s.ids_perm.nodup_iff.1 hI.nodup).of_append_left]
  intro i; exact hI.mem_leafNodes

theorem OTree.perfect {y : Option (Fin n → K)} {t : Tree K n p} {s : Shape} {d : Nat} (hT : OTree X y t s d) : Perfect d s :=
  hT.inv.struct.perfect (fun i hi => by rw [hT.level i (hT.inv.mem_leafNodes.2 hi)]; omega)

/-- There are `2 ^ d` leaves. -/
theorem OTree.leaves {y : Option (Fin n → K)} {t : Tree K n p} {s : Shape} {d : Nat} (hT : OTree X y t s d) : t.leafNodes.length = 2 ^ d := by
  rw [hT.inv.leafNodes_perm.length_eq, hT.perfect.count]

theorem OTree.ext {y : Option (Fin n → K)} {t t' : Tree K n p} {s : Shape} {d : Nat} (hT : OTree X y t s d) (he : TreeExt t t') : OTree X y t' s d := by
  refine ⟨hT.inv.ext he, fun i hi => ?_, fun i hi hr => ?_⟩
  · rw [hT.inv.leafNodes_ext he] at hi
    rw [he.heap.node i (hT.inv.mem_lt (List.mem_filter.1 hi).1)]
    exact hT.level i hi
  · rw [he.nodes] at hi
    rw [he.heap.node i (hT.inv.mem_lt hi)]
    exact hT.ruled i hi hr

theorem OInv.sub_prunable {y : Option (Fin n → K)} {t : Tree K n p} {s : Shape} (hI : OInv X y t s) {i l r : NodeId} (hs : (Shape.node i (.leaf l) (.leaf r)).Sub s) :
    i ∈ t.prunableDecisionNodes ∧ l ∈ t.leafNodes ∧ r ∈ t.leafNodes ∧ (t.heap.node i).left = some l ∧ (t.heap.node i).right = some r := by
  obtain ⟨d, h1, h2, h3, h4, h5, h6, h7⟩ := hI.struct.sub hs
  have hm : ∀ k ∈ [i, l, r], k ∈ t.nodes := fun k hk => hI.perm.mem_iff.2 (hs.ids_subset _ (by simpa [Shape.ids] using hk))
  refine ⟨?_, ?_, ?_, h2, h3⟩
  · unfold Tree.prunableDecisionNodes Tree.decisionNodes
    simp only [List.mem_filter, decide_eq_true_eq]
    refine ⟨⟨hm i (by simp), h1⟩, ?_⟩
    have e1 : (t.heap.node l).kind = .leaf := h6.1
    have e2 : (t.heap.node r).kind = .leaf := h7.1
    simp only [Shape.root] at h2 h3
    simp [Heap.isPrunable, Heap.isLeafPtr, h2, h3, e1, e2]
  · unfold Tree.leafNodes
    simp only [List.mem_filter, decide_eq_true_eq]
    exact ⟨hm l (by simp), h6.1⟩
  · unfold Tree.leafNodes
    simp only [List.mem_filter, decide_eq_true_eq]
    exact ⟨hm r (by simp), h7.1⟩

/-! ### a step -/

/-- The two kinds of move. -/
inductive OMove (X : Fin n → Fin p → Fl K) (y : Fin n → K) (t : Tree K n p) (s : Shape) (h : Heap K n p) : Method → List TreeMutation → Prop where
  | grow (qs : List Quad) : qs.map Quad.i = t.leafNodes → (qs.flatMap Quad.news).Nodup → (∀ q ∈ qs, OBuilt X y t.heap.nextNode h q) →
      OMove X y t s h .grow (qs.map Quad.mu)
  | prune (qs : List PQuad) : qs.map PQuad.i = t.prunableDecisionNodes → (qs.map PQuad.U).Nodup →
      (∀ q ∈ qs, OPrune X y t.heap.nextNode h q ∧ (Shape.node q.i (.leaf q.l) (.leaf q.r)).Sub s) → OMove X y t s h .prune (qs.map PQuad.mu)

theorem OMove.ext {y : Fin n → K} {t : Tree K n p} {s : Shape} {h h' : Heap K n p} {me : Method} {mus : List TreeMutation} (hm : OMove X y t s h me mus) (he : HeapExt h h') :
    OMove X y t s h' me mus := by
  cases hm with
  | grow qs a b c => exact .grow qs a b (fun q hq => (c q hq).ext he)
  | prune qs a b c => exact .prune qs a b (fun q hq => ⟨(c q hq).1.ext he, (c q hq).2⟩)

/-- What `propose` returns. -/
theorem opropose_spec (hX : NoNan X) {y : Fin n → K} {t : Tree K n p} {s : Shape} (hI : OInv X (some y) t s) (us : List Nat) (ms : List Method) :
    match propose t us ms with
    | .ok (mus, t1, _, ms1) => TreeExt t t1 ∧ ∃ me, ms = me :: ms1 ∧ OMove X y t s t1.heap me mus
    | .error e => e = .outOfDraws := by
  cases ms with
  | nil => rfl
  | cons me ms =>
    cases me with
    | grow =>
      have h1 := ogrowMutations_spec hX (y := y) (h := t.heap) t.leafNodes (fun i hi => by
        have hin : i ∈ t.nodes := (List.mem_filter.1 hi).1
        exact ⟨hI.mem_lt hin, hI.nodeOk hin, (hI.leaf_sub hi).2⟩) us
      rcases e : growMutations t.leafNodes t.heap us with ⟨h', us1, res⟩
      rw [e] at h1
      unfold propose sampleMethod
      simp only [e]
      cases res with
      | ok mus =>
        obtain ⟨he, qs, rfl, a, b, c⟩ := h1
        exact ⟨TreeExt.withHeap he, .grow, rfl, .grow qs a b c⟩
      | error e =>
        rw [h1.2]
    | prune =>
      have hps : ∀ is : List NodeId, (∀ i ∈ is, i ∈ t.prunableDecisionNodes) → ∃ ps : List (NodeId × NodeId × NodeId), ps.map Prod.fst = is ∧
          ∀ q ∈ ps, (Shape.node q.1 (.leaf q.2.1) (.leaf q.2.2)).Sub s ∧ ∃ d, Struct X t.heap (.node q.1 (.leaf q.2.1) (.leaf q.2.2)) d := by
        intro is
        induction is with
        | nil => intro _; exact ⟨[], rfl, by simp⟩
        | cons i is ih =>
          intro h
          obtain ⟨ps, e, hh⟩ := ih (fun k hk => h k (by simp [hk]))
          obtain ⟨l, r, h1, h2⟩ := hI.prunable_sub (h i (by simp))
          refine ⟨(i, l, r) :: ps, by simp [e], ?_⟩
          intro q hq
          rcases List.mem_cons.1 hq with rfl | hq
          · exact ⟨h1, h2⟩
          · exact hh q hq
      obtain ⟨ps, e0, hps⟩ := hps t.prunableDecisionNodes (fun _ h => h)
      obtain ⟨h1, qs, e, he, a, b, c⟩ := opruneMutations_spec (y := y) (X := X) ps (h := t.heap) (fun q hq k hk => by
          have hk' := (hps q hq).1.ids_subset k (by simpa [Shape.ids] using hk)
          exact ⟨hI.lt k hk', hI.ok k hk'⟩) (fun q hq => (hps q hq).2)
      rw [e0] at e
      unfold propose sampleMethod
      simp only [e]
      refine ⟨TreeExt.withHeap he, .prune, rfl, .prune qs ?_ b (fun q hq => ⟨c q hq, ?_⟩)⟩
      · rw [← e0, ← a, List.map_map]; rfl
      · exact (hps (q.i, q.l, q.r) (by rw [← a]; exact List.mem_map.2 ⟨q, hq, rfl⟩)).1

section ratio
variable [MathFns K]

theorem OBuilt.rated {y : Fin n → K} {N : Nat} {h : Heap K n p} {q : Quad} (hb : OBuilt X y N h q) : Rated X y h q.mu q.i q.D q.L q.R := by
  obtain ⟨⟨d, h1, h2⟩, h3, h4⟩ := hb.ready
  refine ⟨.inl rfl, h2.2.1, h2.2.2.1, h1.1, hb.okOld, h3 q.L (by simp [Shape.ids]), h3 q.R (by simp [Shape.ids]), ?_⟩
  intro k hk
  rcases List.mem_cons.1 hk with rfl | hk
  · exact hb.old
  · exact hb.lt k hk

theorem OPrune.rated {y : Fin n → K} {N : Nat} {h : Heap K n p} {q : PQuad} (hb : OPrune X y N h q) : Rated X y h q.mu q.U q.i q.l q.r := by
  obtain ⟨⟨d, h1, h2⟩, h3, h4⟩ := hb.ready
  refine ⟨.inr rfl, h1.2.1, h1.2.2.1, h2.1, h3 q.U (by simp [Shape.ids]), hb.okOld q.l (by simp), hb.okOld q.r (by simp), ?_⟩
  intro k hk
  rcases List.mem_cons.1 hk with rfl | hk
  · exact hb.lt
  · exact hb.old k hk

/-- Applying a move whose ratio could be computed. -/
theorem OMove.apply {y : Fin n → K} {t t1 : Tree K n p} {s : Shape} {d : Nat} {me : Method} {mus : List TreeMutation} (hT : OTree X (some y) t s d) (he : TreeExt t t1)
    (hm : OMove X y t s t1.heap me mus)
    (hrule : ∀ mu ∈ mus, ∀ c e l r, Rated X y t1.heap mu c e l r → (t1.heap.node l).split.combined.mostRecentSplitCondition ≠ none) :
    ∃ t' s' news, mutateAll mus t1 = .ok t' ∧ OTree X (some y) t' s' (match me with | .grow => d + 1 | .prune => d - 1) ∧ MutFrame t1 t' news ∧
      (∀ k ∈ news, t.heap.nextNode ≤ k) := by
  have hT1 := hT.ext he
  have hlv : t1.leafNodes = t.leafNodes := hT.inv.leafNodes_ext he
  cases hm with
  | grow qs a b c =>
    have hnd : (qs.map Quad.i).Nodup := by rw [a]; exact hT.inv.nodes_nodup.filter _
    have hleaf : ∀ q ∈ qs, q.i ∈ t1.leafNodes := fun q hq => by rw [hlv, ← a]; exact List.mem_map_of_mem hq
    obtain ⟨t', s', g1, g2, g3, g4, g5, -⟩ := omutateAll_grow qs hT1.inv hnd b (fun q hq => ⟨hleaf q hq, (c q hq).ready, fun k hk hc => by
        rw [he.nodes] at hc
        have := (c q hq).new k hk
        have := hT.inv.mem_lt hc
        omega, (c q hq).lt⟩)
    refine ⟨t', s', _, g1, ⟨g2, ?_, ?_⟩, g3, ?_⟩
    · intro k hk
      obtain ⟨hk1, hk2⟩ := List.mem_filter.1 hk
      simp only [decide_eq_true_eq] at hk2
      obtain ⟨-, f2, f3, -⟩ := g3.fields k
      rw [f2] at hk2
      rw [f3]
      rcases (g4 k).1 hk1 with ⟨x1, x2⟩ | x
      · exfalso
        rw [a, ← hlv] at x2
        exact x2 (List.mem_filter.2 ⟨x1, by simpa using hk2⟩)
      · obtain ⟨q, hq, hkq⟩ := List.mem_flatMap.1 x
        obtain ⟨e, h1, h2⟩ := (c q hq).ready.struct
        have hd := hT1.level q.i (hleaf q hq)
        rw [h1.2.2.2] at hd
        subst hd
        obtain ⟨k1, -, -, -, -, kl, kr⟩ := h2
        simp only [Quad.news, List.mem_cons, List.not_mem_nil, or_false] at hkq
        rcases hkq with rfl | rfl | rfl
        · rw [k1] at hk2; cases hk2
        · exact kl.2.2.2
        · exact kr.2.2.2
    · intro k hk hkr
      obtain ⟨-, -, -, f4⟩ := g3.fields k
      rw [f4]
      rcases (g4 k).1 hk with ⟨x1, x2⟩ | x
      · by_cases hks : k = s.root
        · subst hks
          rcases g5 with ⟨g5, -⟩ | ⟨q, hq, g5, -⟩
          · exact absurd g5.symm hkr
          · exact absurd (g5 ▸ List.mem_map_of_mem hq) x2
        · exact hT1.ruled k x1 hks
      · obtain ⟨q, hq, hkq⟩ := List.mem_flatMap.1 x
        have hL := hrule q.mu (List.mem_map_of_mem hq) _ _ _ _ (c q hq).rated
        simp only [Quad.news, List.mem_cons, List.not_mem_nil, or_false] at hkq
        rcases hkq with rfl | rfl | rfl
        · have hsp : (t1.heap.node q.D).split = (t1.heap.node q.i).split := (c q hq).ready.split
          rw [hsp]
          by_cases hks : q.i = s.root
          · exfalso
            rcases g5 with ⟨-, g5⟩ | ⟨q', hq', e1, e2⟩
            · exact g5 (hks ▸ List.mem_map_of_mem hq)
            · have : q' = q := List.inj_on_of_nodup_map hnd hq' hq (e1.trans hks.symm)
              subst this
              exact hkr e2.symm
          · exact hT1.ruled q.i (List.mem_filter.1 (hleaf q hq)).1 hks
        · exact hL
        · rcases (c q hq).cause with hc | ⟨c1, c2, -⟩
          · exact hc.2
          · rw [c2, ← c1]; exact hL
    · intro k hk
      obtain ⟨q, hq, hkq⟩ := List.mem_flatMap.1 hk
      exact (c q hq).new k hkq
  | prune qs a b c =>
    have hnd : (qs.map PQuad.i).Nodup := by rw [a]; exact (hT.inv.nodes_nodup.filter _).filter _
    obtain ⟨t', s', g1, g2, g3, g4, g5, -⟩ := omutateAll_prune qs hT1.inv hnd b (fun q hq => ⟨(c q hq).2, (c q hq).1.ready, fun hc => by
        rw [he.nodes] at hc
        have := (c q hq).1.new
        have := hT.inv.mem_lt hc
        omega, (c q hq).1.lt⟩)
    have hin : ∀ q ∈ qs, q.i ∈ t1.nodes := fun q hq => hT1.inv.perm.mem_iff.2 ((c q hq).2.ids_subset _ (by simp [Shape.ids]))
    refine ⟨t', s', _, g1, ⟨g2, ?_, ?_⟩, g3, ?_⟩
    · intro k hk
      obtain ⟨hk1, hk2⟩ := List.mem_filter.1 hk
      simp only [decide_eq_true_eq] at hk2
      obtain ⟨-, f2, f3, -⟩ := g3.fields k
      rw [f2] at hk2
      rw [f3]
      rcases (g4 k).1 hk1 with ⟨x1, x2⟩ | x
      · have hkl : k ∈ t1.leafNodes := List.mem_filter.2 ⟨x1, by simpa using hk2⟩
        cases d with
        | zero => exact hT1.level k hkl
        | succ e =>
          exfalso
          obtain ⟨j, l, r, hs, hlr⟩ := hT.perfect.parent k (hT1.inv.mem_leafNodes.1 hkl)
          obtain ⟨s1, -, -, s2, s3⟩ := hT.inv.sub_prunable hs
          rw [← a] at s1
          obtain ⟨q, hq, rfl⟩ := List.mem_map.1 s1
          obtain ⟨-, -, -, s4, s5⟩ := hT.inv.sub_prunable (c q hq).2
          rw [s2] at s4; rw [s3] at s5
          injection s4 with s4; injection s5 with s5
          obtain ⟨y1, y2, y3⟩ := x2 q hq
          rcases hlr with rfl | rfl
          · exact y2 s4
          · exact y3 s5
      · obtain ⟨q, hq, rfl⟩ := List.mem_map.1 x
        obtain ⟨e, h1, h2⟩ := (c q hq).1.ready.struct
        have := hT1.level q.l (hT1.inv.sub_prunable (c q hq).2).2.1
        have hl : (t1.heap.node q.l).depth = e + 1 := h1.2.2.2.2.2.1.2.2.2
        rw [h2.2.2.2]
        simp only
        omega
    · intro k hk hkr
      obtain ⟨-, -, -, f4⟩ := g3.fields k
      rw [f4]
      rcases (g4 k).1 hk with ⟨x1, x2⟩ | x
      · by_cases hks : k = s.root
        · subst hks
          rcases g5 with ⟨g5, -⟩ | ⟨q, hq, g5, -⟩
          · exact absurd g5.symm hkr
          · exact absurd g5.symm (x2 q hq).1
        · exact hT1.ruled k x1 hks
      · obtain ⟨q, hq, rfl⟩ := List.mem_map.1 x
        have hsp : (t1.heap.node q.U).split = (t1.heap.node q.i).split := (c q hq).1.ready.split
        rw [hsp]
        by_cases hks : q.i = s.root
        · exfalso
          rcases g5 with ⟨-, g5⟩ | ⟨q', hq', e1, e2⟩
          · exact g5 (hks ▸ List.mem_map_of_mem hq)
          · have : q' = q := List.inj_on_of_nodup_map hnd hq' hq (e1.trans hks.symm)
            subst this
            exact hkr e2.symm
        · exact hT1.ruled q.i (hin q hq) hks
    · intro k hk
      obtain ⟨q, hq, rfl⟩ := List.mem_map.1 hk
      exact (c q hq).1.new

/-- A step of the oblivious tree sampler on a tree of the oblivious tree sampler. -/
theorem otreeStep_spec (hX : NoNan X) {y : Fin n → K} {t : Tree K n p} {s : Shape} {d : Nat} (hT : OTree X (some y) t s d) (m : Params K) (pGrow pPrune : K) (r : Rand K) :
    match treeStep m pGrow pPrune t r with
    | .ok (none, t', _) => TreeExt t t'
    | .ok (some _, t', _) => ∃ t1 s' news me, r.methods.head? = some me ∧ TreeExt t t1 ∧ OTree X (some y) t' s' (match me with | .grow => d + 1 | .prune => d - 1) ∧
        MutFrame t1 t' news ∧ ∀ k ∈ news, t.heap.nextNode ≤ k
    | .error e => e = .outOfDraws ∨ (e = .zeroDivision ∧ (pGrow = 0 ∨ pPrune = 0)) ∨
        (e = .attributeError ∧ r.methods.head? = some .grow ∧ ∃ i, t.nodes = [i] ∧ ∀ j, isNotConstant (column X (rowsOf (t.heap.dataOf i)) j) = false) := by
  have hp := opropose_spec hX hT.inv r.picks r.methods
  unfold treeStep treeSample
  cases e1 : propose t r.picks r.methods with
  | error e => rw [e1] at hp; exact .inl hp
  | ok q =>
    obtain ⟨mus, t1, us, ms⟩ := q
    rw [e1] at hp
    obtain ⟨he, me, hms, hmv⟩ := hp
    have hrated : ∀ mu ∈ mus, ∃ c d l r, Rated X y t1.heap mu c d l r := by
      intro mu hmu
      cases hmv with
      | grow qs a b c =>
        obtain ⟨q, hq, rfl⟩ := List.mem_map.1 hmu
        exact ⟨_, _, _, _, (c q hq).rated⟩
      | prune qs a b c =>
        obtain ⟨q, hq, rfl⟩ := List.mem_map.1 hmu
        exact ⟨_, _, _, _, (c q hq).1.rated⟩
    have hs := sumRatios_spec m pGrow pPrune mus hrated
    simp only
    cases e2 : sumRatios m pGrow pPrune mus t1.heap with
    | error e =>
      rw [e2] at hs
      rcases hs with ⟨rfl, mu, hmu, c, d', l, r', hr, hn⟩ | hs
      · right; right
        refine ⟨rfl, ?_⟩
        cases hmv with
        | grow qs a b c' =>
          obtain ⟨q, hq, rfl⟩ := List.mem_map.1 hmu
          have hx := (c' q hq).rated
          rcases hr.mu with e | e
          · simp only [Quad.mu, TreeMutation.mk.injEq] at e
            obtain ⟨-, e3, e4⟩ := e
            have := hx.left
            rw [e4, hr.left] at this
            injection this with this
            rw [this] at hn
            have hl : q.i ∈ t.leafNodes := by rw [← a]; exact List.mem_map_of_mem hq
            have hin : q.i ∈ t.nodes := (List.mem_filter.1 hl).1
            rcases (c' q hq).cause with hc | ⟨c1, c2, c3⟩
            · exact absurd hn hc.1
            · rw [c1, he.heap.node _ (hT.inv.mem_lt hin)] at hn
              have hroot : q.i = s.root := by
                by_contra hne
                exact hT.ruled q.i hin hne hn
              obtain ⟨ci, ok⟩ := hT.inv.nodeOk hin
              rw [he.heap.rowsOf (hT.inv.mem_lt hin) ok] at c3
              refine ⟨by rw [hms]; rfl, q.i, ?_, c3⟩
              have hk : (t.heap.node q.i).kind = .leaf := by simpa using (List.mem_filter.1 hl).2
              have hp := hT.inv.perm
              rw [hT.inv.struct.eq_leaf (by rw [← hroot]; exact hk), ← hroot] at hp
              exact List.perm_singleton.1 hp
          · simp [Quad.mu] at e
        | prune qs a b c' =>
          obtain ⟨q, hq, rfl⟩ := List.mem_map.1 hmu
          have hx := (c' q hq).1.rated
          rcases hr.mu with e | e
          · simp [PQuad.mu] at e
          · simp only [PQuad.mu, TreeMutation.mk.injEq] at e
            obtain ⟨-, e3, e4⟩ := e
            have := hx.left
            rw [e3, hr.left] at this
            injection this with this
            rw [this] at hn
            exfalso
            obtain ⟨p1, p2, -, -, -⟩ := hT.inv.sub_prunable (c' q hq).2
            obtain ⟨p3, p4⟩ := List.mem_filter.1 p2
            simp only [decide_eq_true_eq] at p4
            rw [he.heap.node _ (hT.inv.mem_lt p3)] at hn
            refine hT.ruled q.l p3 ?_ hn
            intro hroot
            have hsl := hT.inv.struct.eq_leaf (by rw [← hroot]; exact p4)
            have hsub := (c' q hq).2
            rw [hsl] at hsub
            cases hsub
      · exact .inr (.inl hs)
    | ok q2 =>
      obtain ⟨ratio, h2⟩ := q2
      rw [e2] at hs
      have hx2 : TreeExt t { t1 with heap := h2 } := he.trans (TreeExt.withHeap hs.1)
      have hmv2 := hmv.ext hs.1
      simp only
      cases e3 : r.uniforms with
      | nil => exact .inl rfl
      | cons u uniforms =>
        simp only
        by_cases hlt : Fl.lt (.fin u) ratio = true
        · rw [if_pos hlt]
          simp only
          have hrule : ∀ mu ∈ mus, ∀ c e l r, Rated X y h2 mu c e l r → (h2.node l).split.combined.mostRecentSplitCondition ≠ none := by
            intro mu hmu c e l r' hr
            obtain ⟨c', d', l', r'', hr'⟩ := hrated mu hmu
            have hx := hr'.ext hs.1
            have el : l' = l := by
              have ed : d' = e := by
                rcases hx.mu with e | e <;> rcases hr.mu with e' | e' <;> rw [e] at e' <;> injection e' <;> first | assumption | (exfalso; rename_i a b c; cases a)
              have := hx.left
              rw [ed, hr.left] at this
              injection this with this
              exact this.symm
            subst el
            rw [hs.1.node _ (hr'.lt _ (by simp))]
            exact hs.2 mu hmu _ _ _ _ hr'
          obtain ⟨t', s', news, h1, h2', h3, h4⟩ := OMove.apply (t1 := { t1 with heap := h2 }) hT hx2 hmv2 hrule
          rw [h1]
          exact ⟨_, s', news, me, by rw [hms]; rfl, hx2, h2', h3, h4⟩
        · rw [if_neg hlt]
          exact hx2

end ratio

end Bart.Oblivious
