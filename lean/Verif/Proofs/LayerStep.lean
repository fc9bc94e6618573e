import Verif.Proofs.LayerRatio

/-! A step of the oblivious tree sampler is a step of the reference implementation, for the same draws. -/

set_option linter.unusedSectionVars false

namespace Bart.Oblivious
open Bart Spec Reference
variable {K : Type} [Field K] [LinearOrder K] {n p : Nat} {X : Fin n → Fin p → Fl K}

theorem MutFrame.path {t t' : Tree K n p} {news : List NodeId} (hF : MutFrame t t' news) (k : NodeId) : pathOf t'.heap k = pathOf t.heap k := by
  unfold pathOf; rw [(hF.fields k).2.2.2]

theorem MutFrame.rule {t t' : Tree K n p} {news : List NodeId} (hF : MutFrame t t' news) (hlt : ∀ k ∈ news, k < t.heap.nextNode) {i : NodeId} {rule : Layers.Rule K p}
    (hr : NodeRule t.heap i rule) : NodeRule t'.heap i rule := by
  obtain ⟨l, r, e1, e2, l1, l2, l3, e3⟩ := hr
  obtain ⟨l', a1, a2, a3⟩ := hF.left i l e1
  obtain ⟨r', b1, b2, b3⟩ := hF.right i r e2
  refine ⟨l', r', a1, b1, by rw [hF.nextNode]; exact l1, ?_, ?_, ?_⟩
  · rw [hF.nextNode]; rcases a3 with rfl | a3
    · exact l2
    · exact hlt _ a3
  · rw [hF.nextNode]; rcases b3 with rfl | b3
    · exact l3
    · exact hlt _ b3
  · rw [hF.path, hF.path, hF.path]
    have p1 : pathOf t.heap l' = pathOf t.heap l := by unfold pathOf; rw [a2]
    have p2 : pathOf t.heap r' = pathOf t.heap r := by unfold pathOf; rw [b2]
    rw [p1, p2]; exact e3

theorem MutFrame.ids {t t' : Tree K n p} {news : List NodeId} (hF : MutFrame t t' news) (e : Nat) : idsAt t' e = t'.nodes.filter (fun i => decide ((t.heap.node i).depth = e)) := by
  unfold idsAt
  apply List.filter_congr
  intro i _
  rw [(hF.fields i).2.2.1]

/-- The depths of the new nodes and the comparisons on the way to them. -/
theorem OBuilt.nodes {y : Fin n → K} {N : Nat} {h : Heap K n p} {q : Quad} (hb : OBuilt X y N h q) {d : Nat} (hd : (h.node q.i).depth = d) :
    (h.node q.D).depth = d ∧ (h.node q.L).depth = d + 1 ∧ (h.node q.R).depth = d + 1 ∧ (h.node q.D).left = some q.L ∧ (h.node q.D).right = some q.R ∧ pathOf h q.D = pathOf h q.i := by
  obtain ⟨e, h1, h2⟩ := hb.ready.struct
  rw [h1.2.2.2] at hd
  subst hd
  obtain ⟨-, k1, k2, k3, -, kl, kr⟩ := h2
  refine ⟨k3, kl.2.2.2, kr.2.2.2, k1, k2, ?_⟩
  have : (h.node q.D).split = (h.node q.i).split := hb.ready.split
  unfold pathOf; rw [this]

theorem grow_paths {h : Heap K n p} : ∀ {qs : List Quad} {rules : List (Layers.Rule K p)}, List.Forall₂ (fun (q : Quad) rule => NodeRule h q.D rule) qs rules →
    (∀ q ∈ qs, (h.node q.D).left = some q.L ∧ (h.node q.D).right = some q.R ∧ pathOf h q.D = pathOf h q.i) →
    (qs.flatMap (fun q => [q.L, q.R])).map (pathOf h) = (List.zipWith Layers.expand (qs.map (fun q => pathOf h q.i)) rules).flatten := by
  intro qs rules hf
  induction hf with
  | nil => intro _; rfl
  | @cons q rule qs rules hd tl ih =>
    intro hq
    obtain ⟨e1, e2, e3⟩ := hq q (by simp)
    obtain ⟨l, r, f1, f2, -, -, -, f3⟩ := hd
    rw [e1] at f1; rw [e2] at f2
    injection f1 with f1; injection f2 with f2
    subst f1 f2
    simp only [List.flatMap_cons, List.map_append, List.map_cons, List.zipWith_cons_cons, List.flatten_cons]
    rw [ih (fun q hq' => hq q (by simp [hq'])), ← e3, ← f3]
    rfl

/-- The levels after a growth. -/
theorem grow_view {y : Fin n → K} {t t' : Tree K n p} {s : Shape} {d : Nat} {N : Nat} {layers : List (List (Layers.Rule K p))} {qs : List Quad} {rules : List (Layers.Rule K p)}
    (hT : OTree X (some y) t s d) (hv : View t layers) (a : qs.map Quad.i = t.leafNodes) (c : ∀ q ∈ qs, OBuilt X y N t.heap q)
    (hr : List.Forall₂ (fun (q : Quad) rule => NodeRule t.heap q.D rule) qs rules) (hF : MutFrame t t' (qs.flatMap Quad.news))
    (hN : t'.nodes = t.nodes.filter (fun k => decide (k ∉ qs.map Quad.i)) ++ qs.flatMap (fun q => [q.L, q.R, q.D])) : Lv t' (rules :: layers) := by
  have hd := hT.depth_of hv
  have hq : ∀ q ∈ qs, (t.heap.node q.D).depth = d ∧ (t.heap.node q.L).depth = d + 1 ∧ (t.heap.node q.R).depth = d + 1 ∧ (t.heap.node q.D).left = some q.L ∧
      (t.heap.node q.D).right = some q.R ∧ pathOf t.heap q.D = pathOf t.heap q.i := by
    intro q hq
    exact (c q hq).nodes (hT.level q.i (by rw [← a]; exact List.mem_map_of_mem hq))
  have hlt : ∀ k ∈ qs.flatMap Quad.news, k < t.heap.nextNode := by
    intro k hk
    obtain ⟨q, hq, hk⟩ := List.mem_flatMap.1 hk
    exact (c q hq).lt k hk
  have hids : ∀ e, idsAt t' e = (t.nodes.filter (fun k => decide (k ∉ qs.map Quad.i))).filter (fun i => decide ((t.heap.node i).depth = e)) ++
      qs.flatMap (fun q => [q.L, q.R, q.D].filter (fun i => decide ((t.heap.node i).depth = e))) := by
    intro e
    rw [hF.ids, hN, List.filter_append, List.filter_flatMap]
  have hleaf : ∀ k ∈ t.nodes, k ∈ qs.map Quad.i ↔ (t.heap.node k).depth = d := by
    intro k hk
    rw [a, ← (hT.depth_le hk).2]
    unfold Tree.leafNodes
    simp [hk]
  have i1 : ∀ e < d, idsAt t' e = idsAt t e := by
    intro e he
    rw [hids, List.filter_filter]
    have e2 : qs.flatMap (fun q => [q.L, q.R, q.D].filter (fun i => decide ((t.heap.node i).depth = e))) = [] := by
      rw [List.flatMap_eq_nil_iff]
      intro q hq'
      obtain ⟨b1, b2, b3, -⟩ := hq q hq'
      rw [List.filter_eq_nil_iff]
      intro k hk
      simp only [List.mem_cons, List.not_mem_nil, or_false] at hk
      rcases hk with rfl | rfl | rfl <;> simp only [decide_eq_true_eq] <;> omega
    rw [e2, List.append_nil]
    unfold idsAt
    apply List.filter_congr
    intro k hk
    rw [Bool.eq_iff_iff]
    simp only [Bool.and_eq_true, decide_eq_true_eq]
    rw [hleaf k hk]
    constructor
    · exact fun h => h.1
    · exact fun h => ⟨h, by omega⟩
  have i2 : idsAt t' d = qs.map Quad.D := by
    rw [hids, List.filter_filter]
    have e1 : t.nodes.filter (fun k => decide ((t.heap.node k).depth = d) && decide (k ∉ qs.map Quad.i)) = [] := by
      rw [List.filter_eq_nil_iff]
      intro k hk
      simp only [Bool.and_eq_true, decide_eq_true_eq]
      rw [hleaf k hk]
      tauto
    rw [e1, List.nil_append, List.map_eq_flatMap]
    apply List.flatMap_congr
    intro q hq'
    obtain ⟨b1, b2, b3, -⟩ := hq q hq'
    simp [b1, b2, b3]
  have i3 : idsAt t' (d + 1) = qs.flatMap (fun q => [q.L, q.R]) := by
    rw [hids, List.filter_filter]
    have e1 : t.nodes.filter (fun k => decide ((t.heap.node k).depth = d + 1) && decide (k ∉ qs.map Quad.i)) = [] := by
      rw [List.filter_eq_nil_iff]
      intro k hk
      have := (hT.depth_le hk).1
      simp only [Bool.and_eq_true, decide_eq_true_eq]
      omega
    rw [e1, List.nil_append]
    apply List.flatMap_congr
    intro q hq'
    obtain ⟨b1, b2, b3, -⟩ := hq q hq'
    simp [b1, b2, b3]
  have hp : qs.map (fun q => pathOf t.heap q.i) = Layers.paths layers := by
    rw [← hv.leaves hT, ← a, List.map_map]; rfl
  have hmap : ∀ l : List NodeId, l.map (pathOf t'.heap) = l.map (pathOf t.heap) := fun l => List.map_congr_left (fun k _ => hF.path k)
  refine ⟨hv.1.mono ?_ ?_ (fun i rule => hF.rule hlt), ?_, ?_⟩
  · intro e he
    rw [hmap]
    rcases Nat.lt_or_ge e d with h | h
    · rw [i1 e h]
    · obtain rfl : e = d := by omega
      rw [i2, ← hT.leaves_eq, ← a, List.map_map, List.map_map]
      apply List.map_congr_left
      intro q hq'
      exact (hq q hq').2.2.2.2.2
  · intro e he; exact i1 e (by omega)
  · rw [← hd, i2, List.forall₂_map_left_iff]
    exact hr.imp (fun q rule h => hF.rule hlt h)
  · rw [← hd, i3, hmap, grow_paths hr (fun q hq' => (hq q hq').2.2.2)]
    rw [hp]; rfl

/-- The levels after a growth is taken back. -/
theorem prune_view {y : Fin n → K} {t t' : Tree K n p} {s : Shape} {e : Nat} {N : Nat} {rest : List (List (Layers.Rule K p))} {rules : List (Layers.Rule K p)} {qs : List PQuad}
    (hT : OTree X (some y) t s (e + 1)) (hv : View t (rules :: rest)) (a : qs.map PQuad.i = t.prunableDecisionNodes)
    (c : ∀ q ∈ qs, OPrune X y N t.heap q ∧ (Shape.node q.i (.leaf q.l) (.leaf q.r)).Sub s) (hF : MutFrame t t' (qs.map PQuad.U))
    (hN : t'.nodes = t.nodes.filter (fun k => decide (∀ q ∈ qs, k ≠ q.i ∧ k ≠ q.l ∧ k ≠ q.r)) ++ qs.map PQuad.U) : Lv t' rest := by
  have hd : e = rest.length := by have := hT.depth_of hv; simpa using this
  have hids : qs.map PQuad.i = idsAt t e := by rw [a, hT.prunable_succ]
  have hq : ∀ q ∈ qs, (t.heap.node q.i).depth = e ∧ (t.heap.node q.l).depth = e + 1 ∧ (t.heap.node q.r).depth = e + 1 ∧ (t.heap.node q.U).depth = e ∧
      pathOf t.heap q.U = pathOf t.heap q.i := by
    intro q hq
    obtain ⟨e', h1, h2⟩ := (c q hq).1.ready.struct
    have hl := hT.level q.l (hT.inv.sub_prunable (c q hq).2).2.1
    obtain ⟨-, -, -, k3, -, kl, kr⟩ := h1
    rw [kl.2.2.2] at hl
    obtain rfl : e' = e := by omega
    refine ⟨k3, kl.2.2.2, kr.2.2.2, h2.2.2.2, ?_⟩
    have : (t.heap.node q.U).split = (t.heap.node q.i).split := (c q hq).1.ready.split
    unfold pathOf; rw [this]
  have hlt : ∀ k ∈ qs.map PQuad.U, k < t.heap.nextNode := by
    intro k hk
    obtain ⟨q, hq, rfl⟩ := List.mem_map.1 hk
    exact (c q hq).1.lt
  have hids' : ∀ k, idsAt t' k = (t.nodes.filter (fun k => decide (∀ q ∈ qs, k ≠ q.i ∧ k ≠ q.l ∧ k ≠ q.r))).filter (fun i => decide ((t.heap.node i).depth = k)) ++
      (qs.map PQuad.U).filter (fun i => decide ((t.heap.node i).depth = k)) := by
    intro k
    rw [hF.ids, hN, List.filter_append]
  have i1 : ∀ k < e, idsAt t' k = idsAt t k := by
    intro k hk
    rw [hids', List.filter_filter]
    have e2 : (qs.map PQuad.U).filter (fun i => decide ((t.heap.node i).depth = k)) = [] := by
      rw [List.filter_eq_nil_iff]
      intro i hi
      obtain ⟨q, hq', rfl⟩ := List.mem_map.1 hi
      have := (hq q hq').2.2.2.1
      simp only [decide_eq_true_eq]
      omega
    rw [e2, List.append_nil]
    unfold idsAt
    apply List.filter_congr
    intro i hi
    rw [Bool.eq_iff_iff]
    simp only [Bool.and_eq_true, decide_eq_true_eq]
    constructor
    · exact fun h => h.1
    · refine fun h => ⟨h, fun q hq' => ?_⟩
      obtain ⟨b1, b2, b3, -⟩ := hq q hq'
      refine ⟨?_, ?_, ?_⟩ <;> (rintro rfl; omega)
  have i2 : idsAt t' e = qs.map PQuad.U := by
    rw [hids', List.filter_filter]
    have e1 : t.nodes.filter (fun k => decide ((t.heap.node k).depth = e) && decide (∀ q ∈ qs, k ≠ q.i ∧ k ≠ q.l ∧ k ≠ q.r)) = [] := by
      rw [List.filter_eq_nil_iff]
      intro k hk
      simp only [Bool.and_eq_true, decide_eq_true_eq]
      rintro ⟨h1, h2⟩
      have hm : k ∈ idsAt t e := List.mem_filter.2 ⟨hk, by simpa using h1⟩
      rw [← hids] at hm
      obtain ⟨q, hq', rfl⟩ := List.mem_map.1 hm
      exact (h2 q hq').1 rfl
    rw [e1, List.nil_append, List.filter_eq_self]
    intro i hi
    obtain ⟨q, hq', rfl⟩ := List.mem_map.1 hi
    simpa using (hq q hq').2.2.2.1
  have hmap : ∀ l : List NodeId, l.map (pathOf t'.heap) = l.map (pathOf t.heap) := fun l => List.map_congr_left (fun k _ => hF.path k)
  refine hv.1.1.mono ?_ ?_ (fun i rule => hF.rule hlt)
  · intro k hk
    rw [hmap]
    rcases Nat.lt_or_ge k e with h | h
    · rw [i1 k h]
    · obtain rfl : k = e := by omega
      rw [i2, ← hids, List.map_map, List.map_map]
      apply List.map_congr_left
      intro q hq'
      exact (hq q hq').2.2.2.2
  · intro k hk; exact i1 k (by omega)

section
variable [MathFns K]

theorem grow_valued (hX : NoNan X) {y : Fin n → K} {h : Heap K n p} {N d : Nat} (m : Params K) {pGrow pPrune : K} (hp1 : pGrow ≠ 0) (hp2 : pPrune ≠ 0) :
    ∀ {qs : List Quad} {rules : List (Layers.Rule K p)}, List.Forall₂ (fun (q : Quad) rule => NodeRule h q.D rule) qs rules →
    (∀ q ∈ qs, OBuilt X y N h q ∧ (h.node q.i).depth = d ∧ GoodNode h q.i) →
    List.Forall₂ (Valued m pGrow pPrune h) (qs.map Quad.mu) (List.zipWith (Layers.growTerm m pGrow pPrune X y d) (qs.map (fun q => pathOf h q.i)) rules) := by
  intro qs rules hf
  induction hf with
  | nil => intro _; exact .nil
  | @cons q rule qs rules hd tl ih =>
    intro hq
    obtain ⟨hb, hdep, hg⟩ := hq q (by simp)
    obtain ⟨b1, b2, b3, b4, b5, b6⟩ := hb.nodes hdep
    obtain ⟨l, r, f1, f2, -, -, -, f3⟩ := hd
    rw [b4] at f1; rw [b5] at f2
    injection f1 with f1; injection f2 with f2
    subst f1 f2
    rw [b6] at f3
    have hgD : GoodNode h q.D := by
      have : (h.node q.D).split = (h.node q.i).split := hb.ready.split
      unfold GoodNode; rw [this]; exact hg
    obtain ⟨e, -, h2⟩ := hb.ready.struct
    obtain ⟨gL, gR⟩ := h2.2.2.2.2.1.good hgD
    exact .cons (hb.rated.valued hX m hp1 hp2 hdep b1 b2 b3 hg gL gR f3) (ih (fun q hq' => hq q (by simp [hq'])))

theorem prune_valued (hX : NoNan X) {y : Fin n → K} {h : Heap K n p} {N d : Nat} (m : Params K) {pGrow pPrune : K} (hp1 : pGrow ≠ 0) (hp2 : pPrune ≠ 0) :
    ∀ {qs : List PQuad} {rules : List (Layers.Rule K p)}, List.Forall₂ (fun (q : PQuad) rule => NodeRule h q.i rule) qs rules →
    (∀ q ∈ qs, OPrune X y N h q ∧ (h.node q.i).depth = d ∧ GoodNode h q.i) →
    List.Forall₂ (Valued m pGrow pPrune h) (qs.map PQuad.mu) (List.zipWith (Layers.pruneTerm m pGrow pPrune X y d) (qs.map (fun q => pathOf h q.i)) rules) := by
  intro qs rules hf
  induction hf with
  | nil => intro _; exact .nil
  | @cons q rule qs rules hd tl ih =>
    intro hq
    obtain ⟨hb, hdep, hg⟩ := hq q (by simp)
    obtain ⟨e, h1, h2⟩ := hb.ready.struct
    obtain ⟨-, k1, k2, k3, k4, kl, kr⟩ := h1
    obtain rfl : e = d := k3.symm.trans hdep
    obtain ⟨l, r, f1, f2, -, -, -, f3⟩ := hd
    rw [k1] at f1; rw [k2] at f2
    injection f1 with f1; injection f2 with f2
    subst f1 f2
    have hs : (h.node q.U).split = (h.node q.i).split := hb.ready.split
    have hpU : pathOf h q.U = pathOf h q.i := by unfold pathOf; rw [hs]
    have hgU : GoodNode h q.U := by unfold GoodNode; rw [hs]; exact hg
    obtain ⟨gL, gR⟩ := k4.good hg
    have hv := hb.rated.valued hX m hp1 hp2 (d := e) h2.2.2.2 k3 kl.2.2.2 kr.2.2.2 hgU gL gR (rule := rule) (by rw [hpU]; exact f3)
    rw [hpU] at hv
    exact .cons hv (ih (fun q hq' => hq q (by simp [hq'])))

theorem mutateAll_nil (t : Tree K n p) : mutateAll [] t = .ok t := rfl

/-- A proposal. -/
theorem propose_ref (hX : NoNan X) {y : Fin n → K} {t : Tree K n p} {s : Shape} {d : Nat} {layers : List (List (Layers.Rule K p))} (hT : OTree X (some y) t s d) (hv : View t layers)
    (m : Params K) {pGrow pPrune : K} (hp1 : pGrow ≠ 0) (hp2 : pPrune ≠ 0) (us : List Nat) (me : Method) (ms : List Method) :
    match propose t us (me :: ms) with
    | .error e => Layers.propose m pGrow pPrune X y layers me us = .error e
    | .ok (mus, t1, us1, ms1) => ms1 = ms ∧ TreeExt t t1 ∧ ∃ proposed terms, List.Forall₂ (Valued m pGrow pPrune t1.heap) mus terms ∧
        Layers.propose m pGrow pPrune X y layers me us = (match Layers.sumTerms terms with | .error e => .error e | .ok ratio => .ok (proposed, ratio, us1)) ∧
        proposed.length = (match me with | .grow => d + 1 | .prune => d - 1) ∧
        ∀ h2, HeapExt t1.heap h2 → ∃ t', mutateAll mus { t1 with heap := h2 } = .ok t' ∧ Lv t' proposed := by
  have hd := hT.depth_of hv
  have hlt : ∀ i ∈ t.nodes, i < t.heap.nextNode := fun i hi => hT.inv.mem_lt hi
  have hp := opropose_spec hX hT.inv us (me :: ms)
  cases me with
  | grow =>
    have hg := growMutations_ref hX (y := y) (h := t.heap) t.leafNodes (fun i hi => by
      have hin : i ∈ t.nodes := (List.mem_filter.1 hi).1
      exact ⟨hT.inv.mem_lt hin, hT.inv.nodeOk hin, (hT.inv.leaf_sub hi).2, hT.inv.good hin⟩) us
    rw [hv.leaves hT] at hg
    unfold propose sampleMethod at hp ⊢
    unfold Layers.propose
    rcases e : growMutations t.leafNodes t.heap us with ⟨h', us1, res⟩
    rw [e] at hg
    simp only [e] at hp ⊢
    cases res with
    | error er =>
      simp only at hg hp ⊢
      have hge := ogrowMutations_spec hX (y := y) (h := t.heap) t.leafNodes (fun i hi => by
        have hin : i ∈ t.nodes := (List.mem_filter.1 hi).1
        exact ⟨hT.inv.mem_lt hin, hT.inv.nodeOk hin, (hT.inv.leaf_sub hi).2⟩) us
      rw [e] at hge
      obtain ⟨-, rfl⟩ := hge
      simp only
      rw [hg]
    | ok mus =>
      simp only at hg hp ⊢
      obtain ⟨rules, e1, hf⟩ := hg
      obtain ⟨he, me', hme, hmv⟩ := hp
      rw [e1]
      injection hme with hme
      subst hme
      generalize hmus : mus = mus' at hmv
      cases hmv with
      | grow qs a b c =>
        subst hmus
        have hf' : List.Forall₂ (fun (q : Quad) rule => NodeRule h' q.D rule) qs rules := by
          rw [List.forall₂_map_left_iff] at hf; exact hf
        have hleaf : ∀ q ∈ qs, q.i ∈ t.leafNodes := fun q hq => by rw [← a]; exact List.mem_map_of_mem hq
        have hlf : ∀ q ∈ qs, q.i < t.heap.nextNode := fun q hq => hlt _ (List.mem_filter.1 (hleaf q hq)).1
        have hpath : qs.map (fun q => pathOf h' q.i) = Layers.paths layers := by
          rw [← hv.leaves hT, ← a, List.map_map]
          exact List.map_congr_left (fun q hq => pathOf_ext he.heap (hlf q hq))
        refine ⟨trivial, he, rules :: layers, List.zipWith (Layers.growTerm m pGrow pPrune X y layers.length) (Layers.paths layers) rules, ?_, rfl, by simp [hd], ?_⟩
        · rw [← hpath]
          refine grow_valued hX m hp1 hp2 hf' (N := t.heap.nextNode) (fun q hq => ⟨c q hq, ?_, ?_⟩)
          · rw [← hd, he.heap.node _ (hlf q hq)]
            exact hT.level q.i (hleaf q hq)
          · exact (hT.inv.good (List.mem_filter.1 (hleaf q hq)).1).ext he.heap (hlf q hq)
        · intro h2 hx
          have hx2 : TreeExt t { t with heap := h2 } := TreeExt.withHeap (he.heap.trans hx)
          have hT2 := hT.ext hx2
          have hlv : Tree.leafNodes { t with heap := h2 } = t.leafNodes := hT.inv.leafNodes_ext hx2
          have hnd : (qs.map Quad.i).Nodup := by rw [a]; exact hT.inv.nodes_nodup.filter _
          have c2 : ∀ q ∈ qs, OBuilt X y t.heap.nextNode h2 q := fun q hq => (c q hq).ext hx
          obtain ⟨t'', s', g1, g2, g3, g4, g5, g6⟩ := omutateAll_grow qs hT2.inv hnd b (fun q hq => ⟨by rw [hlv]; exact hleaf q hq, (c2 q hq).ready, fun k hk hc => by
            have := (c q hq).new k hk
            have := hT.inv.mem_lt hc
            omega, (c2 q hq).lt⟩)
          refine ⟨t'', g1, ?_⟩
          exact grow_view hT2 (hv.ext hlt hx2) (by rw [hlv]; exact a) c2 (hf'.imp (fun q rule h => h.ext hx)) g3 g6
  | prune =>
    unfold propose sampleMethod at hp ⊢
    unfold Layers.propose
    rcases e : pruneMutations t.prunableDecisionNodes t.heap with ⟨h', res⟩
    simp only [e] at hp ⊢
    cases res with
    | error er =>
      exfalso
      have hps : ∀ is : List NodeId, (∀ i ∈ is, i ∈ t.prunableDecisionNodes) → ∃ ps : List (NodeId × NodeId × NodeId), ps.map Prod.fst = is ∧
          ∀ q ∈ ps, (Shape.node q.1 (.leaf q.2.1) (.leaf q.2.2)).Sub s ∧ ∃ d, Struct X t.heap (.node q.1 (.leaf q.2.1) (.leaf q.2.2)) d := by
        intro is
        induction is with
        | nil => intro _; exact ⟨[], rfl, by simp⟩
        | cons i is ih =>
          intro h
          obtain ⟨ps, e, hh⟩ := ih (fun k hk => h k (by simp [hk]))
          obtain ⟨l, r, h1, h2⟩ := hT.inv.prunable_sub (h i (by simp))
          refine ⟨(i, l, r) :: ps, by simp [e], ?_⟩
          intro q hq
          rcases List.mem_cons.1 hq with rfl | hq
          · exact ⟨h1, h2⟩
          · exact hh q hq
      obtain ⟨ps, e0, hps⟩ := hps t.prunableDecisionNodes (fun _ h => h)
      obtain ⟨h1, qs, e', -⟩ := opruneMutations_spec (y := y) (X := X) ps (h := t.heap) (fun q hq k hk => by
          have hk' := (hps q hq).1.ids_subset k (by simpa [Shape.ids] using hk)
          exact ⟨hT.inv.lt k hk', hT.inv.ok k hk'⟩) (fun q hq => (hps q hq).2)
      rw [e0, e] at e'
      cases e'
    | ok mus =>
      simp only at hp ⊢
      obtain ⟨he, me', hme, hmv⟩ := hp
      injection hme with hme
      subst hme
      generalize hmus : mus = mus' at hmv
      cases hmv with
      | prune qs a b c =>
        subst hmus
        cases layers with
        | nil =>
          simp only [List.length_nil] at hd
          subst hd
          rw [hT.prunable_zero, List.map_eq_nil_iff] at a
          subst a
          refine ⟨trivial, he, [], [], .nil, rfl, rfl, ?_⟩
          intro h2 hx
          exact ⟨_, mutateAll_nil _, (hv.ext hlt (TreeExt.withHeap (he.heap.trans hx))).1⟩
        | cons rules rest =>
          simp only [List.length_cons] at hd
          subst hd
          have hids : qs.map PQuad.i = idsAt t rest.length := by rw [a, hT.prunable_succ]
          have hin : ∀ q ∈ qs, q.i ∈ t.nodes := fun q hq => hT.inv.perm.mem_iff.2 ((c q hq).2.ids_subset _ (by simp [Shape.ids]))
          have hrule := hv.1.2.1
          rw [← hids, List.forall₂_map_left_iff] at hrule
          have hpath : qs.map (fun q => pathOf h' q.i) = Layers.paths rest := by
            rw [← hv.1.1.paths, ← hids, List.map_map]
            exact List.map_congr_left (fun q hq => pathOf_ext he.heap (hlt _ (hin q hq)))
          refine ⟨trivial, he, rest, List.zipWith (Layers.pruneTerm m pGrow pPrune X y rest.length) (Layers.paths rest) rules, ?_, rfl, by simp, ?_⟩
          · rw [← hpath]
            refine prune_valued hX m hp1 hp2 (hrule.imp (fun q rule h => h.ext he.heap)) (N := t.heap.nextNode) (fun q hq => ⟨(c q hq).1, ?_, ?_⟩)
            · rw [he.heap.node _ (hlt _ (hin q hq))]
              have : q.i ∈ idsAt t rest.length := by rw [← hids]; exact List.mem_map_of_mem hq
              simpa using (List.mem_filter.1 this).2
            · exact (hT.inv.good (hin q hq)).ext he.heap (hlt _ (hin q hq))
          · intro h2 hx
            have hx2 : TreeExt t { t with heap := h2 } := TreeExt.withHeap (he.heap.trans hx)
            have hT2 := hT.ext hx2
            have hnd : (qs.map PQuad.i).Nodup := by rw [a]; exact (hT.inv.nodes_nodup.filter _).filter _
            have c2 : ∀ q ∈ qs, OPrune X y t.heap.nextNode h2 q ∧ (Shape.node q.i (.leaf q.l) (.leaf q.r)).Sub s := fun q hq => ⟨(c q hq).1.ext hx, (c q hq).2⟩
            obtain ⟨t'', s', g1, g2, g3, g4, g5, g6⟩ := omutateAll_prune qs hT2.inv hnd b (fun q hq => ⟨(c q hq).2, (c2 q hq).1.ready, fun hc => by
              have := (c q hq).1.new
              have := hT.inv.mem_lt hc
              omega, (c2 q hq).1.lt⟩)
            refine ⟨t'', g1, ?_⟩
            refine prune_view hT2 (hv.ext hlt hx2) ?_ c2 g3 g6
            rw [hT2.prunable_succ, hids]
            unfold idsAt
            apply List.filter_congr
            intro k hk
            rw [hx2.heap.node k (hlt k hk)]

/-- A step. -/
theorem treeStep_ref (hX : NoNan X) {y : Fin n → K} {t : Tree K n p} {s : Shape} {d : Nat} {layers : List (List (Layers.Rule K p))} (hT : OTree X (some y) t s d) (hv : View t layers)
    (m : Params K) {pGrow pPrune : K} (hp1 : pGrow ≠ 0) (hp2 : pPrune ≠ 0) (r : Rand K) :
    match treeStep m pGrow pPrune t r with
    | .error e => Layers.treeStep m pGrow pPrune X y layers r = .error e
    | .ok (mu, t', r') => ∃ layers', Layers.treeStep m pGrow pPrune X y layers r = .ok (mu.isSome, layers', r') ∧ View t' layers' := by
  have hspec := otreeStep_spec hX hT m pGrow pPrune r
  have hlt : ∀ i ∈ t.nodes, i < t.heap.nextNode := fun i hi => hT.inv.mem_lt hi
  unfold treeStep treeSample at hspec ⊢
  unfold Layers.treeStep
  cases hms : r.methods with
  | nil => rw [hms] at hspec; simp only [propose]
  | cons me ms =>
    rw [hms] at hspec
    have hp := propose_ref hX hT hv m hp1 hp2 r.picks me ms
    simp only
    cases e1 : propose t r.picks (me :: ms) with
    | error e => rw [e1] at hp; simp only at hp ⊢; rw [hp]
    | ok q =>
      obtain ⟨mus, t1, us, ms1⟩ := q
      rw [e1] at hp hspec
      obtain ⟨rfl, he, proposed, terms, hf, hpr, hlen, hview⟩ := hp
      have hs := sumRatios_ref hf
      rw [hpr]
      simp only at hspec ⊢
      cases e2 : sumRatios m pGrow pPrune mus t1.heap with
      | error e => rw [e2] at hs; simp only at hs ⊢; rw [hs]
      | ok q2 =>
        obtain ⟨ratio, h2⟩ := q2
        rw [e2] at hs hspec
        obtain ⟨hs, hx⟩ := hs
        rw [hs]
        simp only at hspec ⊢
        cases e3 : r.uniforms with
        | nil => rfl
        | cons u uniforms =>
          rw [e3] at hspec
          simp only at hspec ⊢
          by_cases hl : Fl.lt (.fin u) ratio = true
          · rw [if_pos hl] at hspec ⊢
            simp only at hspec ⊢
            obtain ⟨t2, e4, hlv⟩ := hview h2 hx
            rw [e4] at hspec ⊢
            simp only [hl, if_true]
            refine ⟨proposed, rfl, hlv, ?_⟩
            obtain ⟨-, s', news, me', hme, -, hT', -⟩ := hspec
            simp only [List.head?_cons, Option.some.injEq] at hme
            subst hme
            intro i hi
            rw [hT'.level i hi, hlen]
            cases me <;> rfl
          · rw [if_neg hl]
            simp only [hl]
            exact ⟨layers, rfl, hv.ext hlt (he.trans (TreeExt.withHeap hx))⟩

end

end Bart.Oblivious
