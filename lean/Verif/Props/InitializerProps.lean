import Verif.Spec.Initializer
import Verif.Proofs.ModelInv
import Verif.Proofs.ModelTrees
import Verif.Props.TreeProps

/-! Property theorems C62 and C63: initialisation of trees by an sklearn tree. -/

set_option linter.unusedSectionVars false

namespace Bart
open Spec
variable {K : Type} [Field K] [LinearOrder K] {n p : Nat} {X : Fin n → Fin p → Fl K}

/-! ### setting a value commutes with applying a mutation -/

theorem setValue_left (h : Heap K n p) (i : NodeId) (v : K) (k : NodeId) :
    ((h.setValue i v).node k).left = (h.node k).left ∧ ((h.setValue i v).node k).right = (h.node k).right ∧ ((h.setValue i v).node k).kind = (h.node k).kind ∧
      ((h.setValue i v).node k).split = (h.node k).split ∧ (k ≠ i → ((h.setValue i v).node k).value = (h.node k).value) := by
  by_cases hk : k = i
  · subst hk; simp [Heap.setValue, Heap.setNode]
  · simp [Heap.setValue, Heap.setNode, hk]

theorem relink_setValue (m : TreeMutation) (i : NodeId) (v : K) : ∀ (ns : List NodeId) (h : Heap K n p),
    ns.foldl (fun h i => Tree.relinkNode h m i) (h.setValue i v) = (ns.foldl (fun h i => Tree.relinkNode h m i) h).setValue i v := by
  intro ns
  induction ns with
  | nil => intro h; rfl
  | cons a ns ih =>
    intro h
    rw [List.foldl_cons, List.foldl_cons, ← ih]
    congr 1
    rw [relinkNode_eq, relinkNode_eq]
    unfold Heap.setValue Heap.setNode
    simp only [Heap.mk.injEq, and_true]
    funext k
    by_cases h1 : a = i
    · subst h1
      by_cases h2 : k = a
      · subst h2; simp [relinkRec]
      · simp [h2]
    · by_cases h2 : k = a
      · subst h2; simp [h1]
      · by_cases h3 : k = i
        · subst h3; simp [h2]
        · simp [h2, h3]

theorem mutate_setValue (t : Tree K n p) (m : TreeMutation) (i : NodeId) (v : K) :
    ({ t with heap := t.heap.setValue i v } : Tree K n p).mutate m = (t.mutate m).map (fun t' => { t' with heap := t'.heap.setValue i v }) := by
  have h1 : Tree.mutateNodes (t.heap.setValue i v) t.nodes m = Tree.mutateNodes t.heap t.nodes m := by
    unfold Tree.mutateNodes
    simp only [(setValue_left t.heap i v _).1, (setValue_left t.heap i v _).2.1]
  unfold Tree.mutate
  simp only
  rw [h1]
  cases Tree.mutateNodes t.heap t.nodes m with
  | error e => rfl
  | ok ns => simp only [Except.map, relink_setValue]

/-! ### one split of the mapping -/

/-- What growing a leaf gives. -/
theorem grow_facts (hX : NoNan X) {y : Fin n → K} {t : Tree K n p} {s : Shape} (hI : TreeInv X (some y) t s) {i : NodeId} (hi : i ∈ t.leafNodes) {j : Fin p} {v : Fl K} (hv : v ≠ .nan) :
    ∃ h t1, t.heap.splitNode i (leCond j v) (gtCond j v) = .ok (t.heap.nextNode + 2, h) ∧
      Tree.growMutation h i (t.heap.nextNode + 2) = .ok { kind := .grow, existing := i, updated := t.heap.nextNode + 2 } ∧
      (h.node (t.heap.nextNode + 2)).left = some t.heap.nextNode ∧ (h.node (t.heap.nextNode + 2)).right = some (t.heap.nextNode + 1) ∧
      ({ t with heap := h } : Tree K n p).mutate { kind := .grow, existing := i, updated := t.heap.nextNode + 2 } = .ok t1 ∧ t.step (.grow i j v) = .ok t1 ∧
      (∃ s1, TreeInv X (some y) t1 s1) ∧ t.heap.nextNode ∈ t1.leafNodes ∧ t.heap.nextNode + 1 ∈ t1.leafNodes ∧
      conds t1.heap t.heap.nextNode = conds t.heap i ++ [leCond j v] ∧
      (∃ cr, SplitPair (leCond j v) cr ∧ conds t1.heap (t.heap.nextNode + 1) = conds t.heap i ++ [cr]) ∧
      (t1.heap.node (t.heap.nextNode + 2)).left = some t.heap.nextNode ∧ (t1.heap.node (t.heap.nextNode + 2)).right = some (t.heap.nextNode + 1) ∧
      ∀ k ∈ t.leafNodes, k ≠ i → k ∈ t1.leafNodes ∧ (t1.heap.node k).split = (t.heap.node k).split ∧ (t1.heap.node k).value = (t.heap.node k).value := by
  obtain ⟨m, t2, e⟩ := proposeGrow_ok hX hI (j := j) hv hi
  have hin : i ∈ t.nodes := (List.mem_filter.1 hi).1
  obtain ⟨-, -, rfl, g1, g2, g3, he, hn, ⟨q, d, hR0, hR⟩, v1, v2, hrule, hsp, path, hk, cr, hpp, okl, okr⟩ := proposeGrow_spec hX hI hv hin e
  have hilt : i < t.heap.nextNode := hI.mem_lt hin
  obtain ⟨r1, r2, r3, -, -, cl', cr', -, hl, hr⟩ := hR
  simp only [Shape.root] at r2 r3
  have hst : ∃ t1, t.step (.grow i j v) = .ok t1 := by
    have hI1 : TreeInv X (some y) t2 s := ⟨he.repr hI.lt hI.repr, by rw [g1]; exact hI.perm, hI.nodup, fun i hi => (hI.lt i hi).trans_le he.nextNode⟩
    have hil1 : i ∈ t2.leafNodes := hI1.mem_leafNodes.2 (hI.mem_leafNodes.1 hi)
    obtain ⟨-, -, -, -, -, -, -, -, hrd, -⟩ := proposeGrow_spec hX hI hv hin e
    obtain ⟨t3, f1, -⟩ := mutate_grow hI1 hil1 hrd (by simp) (by
      intro k hk hc
      rw [g1] at hc
      have := hI.mem_lt hc
      simp at hk
      omega) (by intro k hk; rw [hn]; simp at hk; omega)
    refine ⟨t3, ?_⟩
    unfold Tree.step
    simp only [e]
    exact f1
  obtain ⟨t1, hst⟩ := hst
  obtain ⟨-, -, t2', e', emut, -, hI1, n1, -, -, -, -, same, rel⟩ := grow_step hX hI hv hin hst
  rw [e] at e'; injection e' with e'; injection e' with _ e'; subst e'
  unfold Tree.proposeGrow at e
  split at e
  · cases e
  · next d' h e1 =>
    split at e
    · cases e
    · next m' e2 =>
      injection e with e; injection e with ea eb
      have hd : d' = t.heap.nextNode + 2 := by
        unfold Tree.growMutation at e2
        split at e2
        · cases e2
        · injection e2 with e2; rw [ea] at e2; injection e2
      subst hd
      have ht2 : t2 = { t with heap := h } := eb.symm
      subst ht2
      subst ea
      have hN : t.heap.nextNode ∈ t1.leafNodes := by
        unfold Tree.leafNodes
        rw [List.mem_filter]
        refine ⟨by rw [n1]; simp, ?_⟩
        rw [(same _).2.1, hl.1]; simp
      have hN1 : t.heap.nextNode + 1 ∈ t1.leafNodes := by
        unfold Tree.leafNodes
        rw [List.mem_filter]
        refine ⟨by rw [n1]; simp, ?_⟩
        rw [(same _).2.1, hr.1]; simp
      have hrel := rel (t.heap.nextNode + 2) (by rw [n1]; simp)
      have cE : ∀ k, conds t1.heap k = conds h k := by intro k; unfold conds; rw [(same k).2.2.2]
      refine ⟨h, t1, e1, e2, r2, r3, emut, hst, ⟨_, hI1⟩, hN, hN1, ?_, ⟨cr, hpp, ?_⟩, ?_, ?_, ?_⟩
      · rw [cE, okl.conds_eq, hk.conds_eq]
      · rw [cE, okr.conds_eq, hk.conds_eq]
      · rw [hrel]
        show (if (h.node _).left = some i then some _ else (h.node _).left) = _
        rw [show (h.node (t.heap.nextNode + 2)).left = _ from r2, if_neg (by intro hc; injection hc; omega)]
      · rw [hrel]
        show (if (h.node _).right = some i then some _ else (h.node _).right) = _
        rw [show (h.node (t.heap.nextNode + 2)).right = _ from r3, if_neg (by intro hc; injection hc; omega)]
      · intro k hk hki
        have hkn : k ∈ t.nodes := (List.mem_filter.1 hk).1
        have hnd := he.node k (hI.mem_lt hkn)
        refine ⟨?_, by rw [(same k).2.2.2, hnd], by rw [(same k).1, hnd]⟩
        unfold Tree.leafNodes
        rw [List.mem_filter, (same k).2.1, hnd]
        refine ⟨?_, (List.mem_filter.1 hk).2⟩
        rw [n1]
        simp only [List.mem_append]
        exact Or.inl (Or.inl (Or.inl ((List.mem_erase_of_ne hki).2 hkn)))

/-- One decision node of the mapping: it is a grow followed by setting the values of the two new leaves. -/
theorem mapSklearnNode_spec (hX : NoNan X) {y : Fin n → K} {t : Tree K n p} {s : Shape} (hI : TreeInv X (some y) t s) {i : NodeId} (hi : i ∈ t.leafNodes)
    {a : List (SkNode K p)} {nd ndl ndr : SkNode K p} {j : Fin p} (hj : nd.feature = some j) (hv : nd.threshold ≠ .nan)
    (hl : pyGet a nd.left = .ok ndl) (hr : pyGet a nd.right = .ok ndr) :
    ∃ t1, mapSklearnNode a nd i t = .ok (t.heap.nextNode + 2, t1) ∧
      Run t [.grow i j nd.threshold, .setValue t.heap.nextNode ndl.value, .setValue (t.heap.nextNode + 1) ndr.value] t1 ∧
      (∃ s1, TreeInv X (some y) t1 s1) ∧ t.heap.nextNode ∈ t1.leafNodes ∧ t.heap.nextNode + 1 ∈ t1.leafNodes ∧
      conds t1.heap t.heap.nextNode = conds t.heap i ++ [leCond j nd.threshold] ∧
      (∃ cr, SplitPair (leCond j nd.threshold) cr ∧ conds t1.heap (t.heap.nextNode + 1) = conds t.heap i ++ [cr]) ∧
      (t1.heap.node t.heap.nextNode).value = ndl.value ∧ (t1.heap.node (t.heap.nextNode + 1)).value = ndr.value ∧
      (t1.heap.node (t.heap.nextNode + 2)).left = some t.heap.nextNode ∧ (t1.heap.node (t.heap.nextNode + 2)).right = some (t.heap.nextNode + 1) ∧
      ∀ k ∈ t.leafNodes, k ≠ i → k ∈ t1.leafNodes ∧ conds t1.heap k = conds t.heap k ∧ (t1.heap.node k).value = (t.heap.node k).value := by
  obtain ⟨h, t1, e1, e2, e3, e4, e5, e6, ⟨s1, hI1⟩, m1, m2, c1, ⟨cr, hp, c2⟩, p1, p2, fr⟩ := grow_facts hX hI hi (j := j) hv
  have hin : i ∈ t.nodes := (List.mem_filter.1 hi).1
  set N := t.heap.nextNode with hN
  have hleaf : ∀ {t' : Tree K n p} {k x v}, k ∈ t'.leafNodes → k ∈ ({ t' with heap := t'.heap.setValue x v } : Tree K n p).leafNodes := by
    intro t' k x v hk
    unfold Tree.leafNodes at hk ⊢
    rw [List.mem_filter] at hk ⊢
    simp only [(setValue_left t'.heap x v k).2.2.1]
    exact hk
  have hkind : ∀ {t' : Tree K n p} {k}, k ∈ t'.leafNodes → k ∈ t'.nodes ∧ (t'.heap.node k).kind = .leaf := by
    intro t' k hk
    have := List.mem_filter.1 hk
    exact ⟨this.1, by simpa using this.2⟩
  let t2 : Tree K n p := { t1 with heap := t1.heap.setValue N ndl.value }
  let t3 : Tree K n p := { t2 with heap := t2.heap.setValue (N + 1) ndr.value }
  have hst2 : t1.step (.setValue N ndl.value) = .ok t2 := by unfold Tree.step; simp only; rw [if_pos (hkind m1).2]
  have m2' : N + 1 ∈ t2.leafNodes := hleaf m2
  have hst3 : t2.step (.setValue (N + 1) ndr.value) = .ok t3 := by unfold Tree.step; simp only; rw [if_pos (hkind m2').2]
  have hconds : ∀ k, conds t3.heap k = conds t1.heap k := by
    intro k
    unfold conds
    rw [(setValue_left t2.heap (N + 1) ndr.value k).2.2.2.1, (setValue_left t1.heap N ndl.value k).2.2.2.1]
  have hdata : ∀ k, k ∈ t.nodes → k ≠ N ∧ k ≠ N + 1 := by
    intro k hk
    have := hI.mem_lt hk
    omega
  refine ⟨t3, ?_, ?_, ⟨s1, setValue_inv (setValue_inv hI1 N ndl.value) (N + 1) ndr.value⟩, hleaf (hleaf m1), hleaf m2', by rw [hconds]; exact c1, ⟨cr, hp, by rw [hconds]; exact c2⟩,
    ?_, ?_, ?_, ?_, ?_⟩
  · unfold mapSklearnNode mapSklearnSplit
    simp only [hj]
    have e1' := e1
    simp only [leCond, gtCond] at e1'
    rw [e1']
    simp only [e3, e4, Tree.childOf, hl, hr]
    have hg : Tree.growMutation ((h.setValue N ndl.value).setValue (N + 1) ndr.value) i (N + 2) = .ok { kind := .grow, existing := i, updated := N + 2 } := by
      unfold Tree.growMutation at e2 ⊢
      rw [(setValue_left _ _ _ _).2.2.1, (setValue_left _ _ _ _).2.2.1]
      exact e2
    rw [hg]
    simp only
    have hm := mutate_setValue ({ t with heap := h.setValue N ndl.value } : Tree K n p) { kind := .grow, existing := i, updated := N + 2 } (N + 1) ndr.value
    have hm' := mutate_setValue ({ t with heap := h } : Tree K n p) { kind := .grow, existing := i, updated := N + 2 } N ndl.value
    simp only at hm hm'
    rw [hm, hm', e5]
    rfl
  · have h1 := Run.snoc (Run.nil t) (op := .grow i j nd.threshold) ⟨hin, hv⟩ e6
    have h2 := Run.snoc h1 (op := .setValue N ndl.value) (hkind m1).1 hst2
    exact Run.snoc h2 (op := .setValue (N + 1) ndr.value) (hkind m2').1 hst3
  · show ((t2.heap.setValue (N + 1) ndr.value).node N).value = _
    rw [(setValue_left t2.heap (N + 1) ndr.value N).2.2.2.2 (by omega)]
    simp [t2, Heap.setValue, Heap.setNode]
  · simp [t3, Heap.setValue, Heap.setNode]
  · show ((t2.heap.setValue (N + 1) ndr.value).node (N + 2)).left = _
    rw [(setValue_left t2.heap (N + 1) ndr.value _).1, (setValue_left t1.heap N ndl.value _).1]
    exact p1
  · show ((t2.heap.setValue (N + 1) ndr.value).node (N + 2)).right = _
    rw [(setValue_left t2.heap (N + 1) ndr.value _).2.1, (setValue_left t1.heap N ndl.value _).2.1]
    exact p2
  · intro k hk hki
    obtain ⟨f1, f2, f3⟩ := fr k hk hki
    obtain ⟨n1, n2⟩ := hdata k (hkind hk).1
    refine ⟨hleaf (hleaf f1), by rw [hconds]; unfold conds; rw [f2], ?_⟩
    show ((t2.heap.setValue (N + 1) ndr.value).node k).value = _
    rw [(setValue_left t2.heap (N + 1) ndr.value k).2.2.2.2 n2, (setValue_left t1.heap N ndl.value k).2.2.2.2 n1, f3]

theorem Run.append {t t1 t2 : Tree K n p} {ops ops' : List (TreeOp K n p)} (h1 : Run t ops t1) (h2 : Run t1 ops' t2) : Run t (ops ++ ops') t2 := by
  induction h2 with
  | nil => simpa using h1
  | snoc _ a b ih => rw [← List.append_assoc]; exact .snoc ih a b

/-! ### the whole mapping -/

theorem pyGet_nat {α : Type} {l : List α} {k : Nat} {x : α} (h : l[k]? = some x) : pyGet l (k : Int) = .ok x := by
  have hk : k < l.length := (List.getElem?_eq_some_iff.1 h).1
  unfold pyGet pyIndex
  rw [if_pos ⟨by omega, by exact_mod_cast hk⟩]
  simp [h]

theorem pySet_nat {α : Type} {l : List α} {k : Nat} {x : α} (hk : k < l.length) : pySet l (k : Int) x = .ok (l.set k x) := by
  unfold pySet pyIndex
  rw [if_pos ⟨by omega, by exact_mod_cast hk⟩]
  simp

/-- The value array of a tree at its root. -/
theorem Encodes.root {a : List (SkNode K p)} {k : Nat} {T : DTree K p} {ks : List Nat} (h : Encodes a k T ks) : k ∈ ks ∧ ∃ nd, a[k]? = some nd := by
  cases h with
  | leaf h1 _ => exact ⟨by simp, _, h1⟩
  | node h1 => exact ⟨by simp, _, h1⟩

theorem Encodes.lt {a : List (SkNode K p)} {k : Nat} {T : DTree K p} {ks : List Nat} (h : Encodes a k T ks) : ∀ i ∈ ks, i < a.length := by
  induction h with
  | leaf h1 _ => intro i hi; simp at hi; subst hi; exact (List.getElem?_eq_some_iff.1 h1).1
  | node h1 _ _ _ _ _ _ ih1 ih2 =>
    intro i hi
    rcases List.mem_cons.1 hi with rfl | hi
    · exact (List.getElem?_eq_some_iff.1 h1).1
    · rcases List.mem_append.1 hi with hi | hi
      · exact ih1 i hi
      · exact ih2 i hi

/-- Only grows and settings of values. -/
def IsGrowSet : TreeOp K n p → Prop
  | .grow .. => True
  | .setValue .. => True
  | _ => False

/-- The leaf values that the arrays give to a subtree that is only a leaf. -/
def LeafValue (t : Tree K n p) (i : NodeId) : DTree K p → Prop
  | .leaf v => (t.heap.node i).value = v
  | .node .. => True

theorem search_spec (hX : NoNan X) {y : Fin n → K} {a : List (SkNode K p)} {k : Nat} {T : DTree K p} {ks : List Nat} (hE : Encodes a k T ks) :
    ks.Nodup → ∀ {fuel : Nat}, ks.length ≤ fuel → ∀ {t : Tree K n p} {s : Shape} {i : NodeId} {nodes : List (Option NodeId)}, TreeInv X (some y) t s → i ∈ t.leafNodes →
    nodes.length = a.length → nodes[k]? = some (some i) → LeafValue t i T →
    ∃ t' nodes' ops s', mapSklearnSearch a fuel k t nodes = .ok (t', nodes') ∧ Run t ops t' ∧ (∀ op ∈ ops, IsGrowSet op) ∧
      (∀ j c L R, T = .node j c L R → ∃ v v' l r ops', ops = .grow i j c :: .setValue l v :: .setValue r v' :: ops') ∧ TreeInv X (some y) t' s' ∧
      nodes'.length = a.length ∧ (∀ k' : Nat, k' ∉ ks → nodes'[k']? = nodes[k']?) ∧
      (∀ k' ∈ t.leafNodes, k' ≠ i → k' ∈ t'.leafNodes ∧ conds t'.heap k' = conds t.heap k' ∧ (t'.heap.node k').value = (t.heap.node k').value) ∧
      ∀ x : Fin p → Fl K, (∀ v, x v ≠ .nan) → (conds t.heap i).all (fun c => sat c x) = true →
        ∃ k' ∈ t'.leafNodes, k' ∉ t.leafNodes.filter (fun q => decide (q ≠ i)) ∧ (conds t'.heap k').all (fun c => sat c x) = true ∧ (t'.heap.node k').value = T.predict x := by
  induction hE with
  | leaf h1 h2 =>
    intro _ fuel hf t s i nodes hI hi hlen hk hv
    obtain ⟨fuel, rfl⟩ : ∃ f, fuel = f + 1 := ⟨fuel - 1, by simp at hf; omega⟩
    refine ⟨t, nodes, [], s, ?_, .nil t, by simp, (by intro j c L R h; cases h), hI, hlen, fun _ _ => rfl, fun k' h _ => ⟨h, rfl, rfl⟩, ?_⟩
    · unfold mapSklearnSearch
      rw [pyGet_nat h1]
      simp only [h2, if_true]
    · intro x _ hx
      exact ⟨i, hi, by simp, hx, hv⟩
  | @node k nd j L R il ir kl kr h1 h2 h3 h4 h5 hL hR ihL ihR =>
    intro hnd fuel hf t s i nodes hI hi hlen hk _
    obtain ⟨fuel, rfl⟩ : ∃ f, fuel = f + 1 := ⟨fuel - 1, by simp at hf; omega⟩
    rw [List.nodup_cons, List.nodup_append] at hnd
    obtain ⟨hkn, hn1, hn2, hdis⟩ := hnd
    rw [List.length_cons, List.length_append] at hf
    obtain ⟨hkl, ndl, el⟩ := Encodes.root hL
    obtain ⟨hkr, ndr, er⟩ := Encodes.root hR
    have hlk : k < nodes.length := (List.getElem?_eq_some_iff.1 hk).1
    have hll : kl < nodes.length := by rw [hlen]; exact (List.getElem?_eq_some_iff.1 el).1
    have hlr : kr < nodes.length := by rw [hlen]; exact (List.getElem?_eq_some_iff.1 er).1
    obtain ⟨t1, n1, hrun1, ⟨s1, hI1⟩, m1, m2, c1, ⟨cr, hp, c2⟩, v1, v2, p1, p2, fr⟩ := mapSklearnNode_spec hX hI hi (a := a) h4 h5 (by rw [h2]; exact pyGet_nat el) (by rw [h3]; exact pyGet_nat er)
    set N := t.heap.nextNode with hN
    have hlt : ∀ q ∈ t.leafNodes, q < N := fun q hq => hI.mem_lt (List.mem_filter.1 hq).1
    let nodes3 := ((nodes.set k (some (N + 2))).set kl (some N)).set kr (some (N + 1))
    have hne : kl ≠ kr := fun h => hdis kl hkl kr hkr h
    obtain ⟨t2, nodes4, ops2, s2, e2, hrun2, hops2, -, hI2, hlen2, hfn2, hfr2, hx2⟩ := ihL hn1 (fuel := fuel) (by omega) (t := t1) (i := N) (nodes := nodes3) hI1 m1 (by simp [nodes3, hlen])
      (by simp only [nodes3]; rw [List.getElem?_set_ne (Ne.symm hne), List.getElem?_set_self (by simpa using hll)])
      (by cases hL with
        | leaf a1 _ => rw [a1] at el; injection el with el; subst el; exact v1
        | node => trivial)
    have hN1 : N + 1 ≠ N := by omega
    obtain ⟨r1, r2, r3⟩ := hfr2 (N + 1) m2 hN1
    obtain ⟨t3, nodes5, ops3, s3, e3, hrun3, hops3, -, hI3, hlen3, hfn3, hfr3, hx3⟩ := ihR hn2 (fuel := fuel) (by omega) (t := t2) (i := N + 1) (nodes := nodes4) hI2 r1 hlen2
      (by rw [hfn2 kr (fun h => hdis kr h kr hkr rfl)]; simp only [nodes3]; rw [List.getElem?_set_self (by simpa using hlr)])
      (by cases hR with
        | leaf a1 _ => rw [a1] at er; injection er with er; subst er; exact r3.trans v2
        | node => trivial)
    refine ⟨t3, nodes5, _ ++ ops2 ++ ops3, s3, ?_, (Run.append (Run.append hrun1 hrun2) hrun3), ?_, ?_, hI3, hlen3, ?_, ?_, ?_⟩
    · unfold mapSklearnSearch
      rw [pyGet_nat h1]
      have hm1 : ¬ nd.left = -1 := by rw [h2]; omega
      simp only [hm1, if_false, pyGet_nat hk, n1, pySet_nat hlk, h2, h3, p1, p2]
      rw [pySet_nat (by simpa using hll)]
      simp only
      rw [pySet_nat (by simpa using hlr)]
      simp only
      rw [show mapSklearnSearch a fuel kl t1 (((nodes.set k (some (N + 2))).set kl (some N)).set kr (some (N + 1))) = _ from e2]
      exact e3
    · intro op hop
      simp only [List.mem_append, List.mem_cons, List.not_mem_nil, or_false] at hop
      rcases hop with (((rfl | rfl | rfl) | h) | h)
      · trivial
      · trivial
      · trivial
      · exact hops2 op h
      · exact hops3 op h
    · intro j' c L' R' hT
      injection hT with q1 q2 _ _
      subst q1 q2
      exact ⟨ndl.value, ndr.value, N, N + 1, ops2 ++ ops3, by simp⟩
    · intro k' hk'
      simp only [List.mem_cons, List.mem_append, not_or] at hk'
      rw [hfn3 k' hk'.2.2, hfn2 k' hk'.2.1]
      simp only [nodes3]
      rw [List.getElem?_set_ne (by rintro rfl; exact hk'.2.2 hkr), List.getElem?_set_ne (by rintro rfl; exact hk'.2.1 hkl), List.getElem?_set_ne (Ne.symm hk'.1)]
    · intro k' hk' hki
      obtain ⟨a1, a2, a3⟩ := fr k' hk' hki
      have hk'N := hlt k' hk'
      obtain ⟨b1, b2, b3⟩ := hfr2 k' a1 (by omega)
      obtain ⟨d1, d2, d3⟩ := hfr3 k' b1 (by omega)
      exact ⟨d1, d2.trans (b2.trans a2), d3.trans (b3.trans a3)⟩
    · intro x hx hsat
      have hold : ∀ {k' : NodeId}, k' ∈ t.leafNodes.filter (fun q => decide (q ≠ i)) → k' ∈ t1.leafNodes ∧ k' < N := by
        intro k' hk'
        rw [List.mem_filter] at hk'
        exact ⟨(fr k' hk'.1 (by simpa using hk'.2)).1, hlt k' hk'.1⟩
      cases hb : Fl.le (x j) nd.threshold with
      | true =>
        obtain ⟨q, q1, q2, q3, q4⟩ := hx2 x hx (by
          rw [c1, List.all_append, hsat]
          simp only [List.all_cons, List.all_nil, Bool.and_true, Bool.true_and]
          rw [sat_le (cl := leCond j nd.threshold) rfl]
          exact hb)
        have hqN : q ≠ N + 1 := by
          rintro rfl
          exact q2 (by rw [List.mem_filter]; exact ⟨m2, by simp⟩)
        obtain ⟨w1, w2, w3⟩ := hfr3 q q1 hqN
        refine ⟨q, w1, fun hc => ?_, by rw [w2]; exact q3, by rw [w3, q4]; simp [DTree.predict, hb]⟩
        obtain ⟨z1, z2⟩ := hold hc
        exact q2 (by rw [List.mem_filter]; exact ⟨z1, by simp; omega⟩)
      | false =>
        obtain ⟨q, q1, q2, q3, q4⟩ := hx3 x hx (by
          rw [r2, c2, List.all_append, hsat]
          simp only [List.all_cons, List.all_nil, Bool.and_true, Bool.true_and]
          rw [hp.sat_compl (hx _), sat_le (cl := leCond j nd.threshold) rfl]
          simp [leCond, hb])
        refine ⟨q, q1, fun hc => ?_, q3, by rw [q4]; simp [DTree.predict, hb]⟩
        obtain ⟨z1, z2⟩ := hold hc
        refine q2 ?_
        rw [List.mem_filter]
        exact ⟨(hfr2 q z1 (by omega)).1, by simp; omega⟩

/-- Only grows and settings of values: the buffer stays, and after a grow the cache is not valid. -/
theorem growSet_cache {t t' : Tree K n p} {ops : List (TreeOp K n p)} (h : Run t ops t') : (∀ op ∈ ops, IsGrowSet op) →
    t'.prediction = t.prediction ∧ (t.cacheUpToDate = false ∨ (∃ i j v, TreeOp.grow i j v ∈ ops) → t'.cacheUpToDate = false) := by
  induction h with
  | nil => intro _; exact ⟨rfl, fun h => by rcases h with h | ⟨_, _, _, h⟩; exacts [h, by simp at h]⟩
  | @snoc t1 t2 ops op _ _ hst ih =>
    intro hops
    obtain ⟨h1, h2⟩ := ih (fun o ho => hops o (by simp [ho]))
    have hop := hops op (by simp)
    cases op with
    | grow i j v =>
      unfold Tree.step at hst
      simp only at hst
      split at hst
      · cases hst
      · next m t3 e =>
        have hp : t3.prediction = t1.prediction := by
          unfold Tree.proposeGrow at e
          split at e
          · cases e
          · split at e
            · cases e
            · injection e with e; injection e with _ e; rw [← e]
        unfold Tree.mutate at hst
        split at hst
        · cases hst
        · injection hst with hst
          rw [← hst]
          exact ⟨hp.trans h1, fun _ => rfl⟩
    | setValue i v =>
      unfold Tree.step at hst
      simp only at hst
      split at hst
      · injection hst with hst
        rw [← hst]
        refine ⟨h1, fun h => h2 ?_⟩
        rcases h with h | ⟨a, b, c, h⟩
        · exact .inl h
        · simp at h; exact .inr ⟨a, b, c, h⟩
      · cases hst
    | _ => exact hop.elim

/-- The mapping is a history of grows and settings of values. -/
theorem mapSklearn_run (hX : NoNan X) {t : Tree K n p} (ht : ReachableTree X t) {y : Fin n → K} (hy : HasTarget t y) {i : NodeId} (hn : t.nodes = [i])
    {a : List (SkNode K p)} {T : DTree K p} (hT : IsSkTree a T) :
    ∃ t' ops, mapSklearnTree t a = .ok t' ∧ Run t ops t' ∧ (∀ op ∈ ops, IsGrowSet op) ∧ match T with
      | .leaf _ => t' = t
      | .node j c _ _ => (∃ s', TreeInv X (some y) t' s') ∧ (∃ ops', ops = .grow i j c :: ops') ∧ ∀ x : Fin p → Fl K, (∀ v, x v ≠ .nan) →
        ∃ k' ∈ t'.leafNodes, (conds t'.heap k').all (fun c => sat c x) = true ∧ (t'.heap.node k').value = T.predict x := by
  obtain ⟨ks, hE, hks⟩ := hT
  obtain ⟨y', s, hI⟩ := reachable_tree_inv hX ht
  have := hI.target hy
  subst this
  obtain ⟨hk, nd, h0⟩ := Encodes.root hE
  have hlen : 0 < a.length := (List.getElem?_eq_some_iff.1 h0).1
  have hset : pySet (a.map (fun _ => (none : Option NodeId))) 0 (some i) = .ok ((a.map (fun _ => (none : Option NodeId))).set 0 (some i)) := pySet_nat (k := 0) (by simpa using hlen)
  have hfuel : ks.length ≤ a.length := by
    have h1 : ks ⊆ List.range a.length := fun k hk => List.mem_range.2 (Encodes.lt hE k hk)
    simpa using (hks.subperm h1).length_le
  have hleaf : i ∈ t.leafNodes := by
    obtain ⟨k, hk⟩ := List.exists_mem_of_ne_nil _ hI.leafNodes_ne_nil
    have := (List.mem_filter.1 hk).1
    rw [hn] at this
    simp at this
    subst this
    exact hk
  have hcs : conds t.heap i = [] := by
    have hi := hI.perm.mem_iff.1 (by rw [hn]; simp : i ∈ t.nodes)
    have hr : s.root = i := by
      have := hI.perm.mem_iff.2 s.root_mem
      rw [hn] at this
      simpa using this
    rw [← hr, hI.repr.root_ok.1.conds_eq]
  cases T with
  | leaf v =>
    cases hE with
    | @leaf _ nd' a1 a2 =>
      refine ⟨t, [], ?_, .nil t, by simp, rfl⟩
      unfold mapSklearnTree
      rw [hn]
      simp only
      rw [hset]
      simp only
      obtain ⟨f, hf⟩ : ∃ f, a.length = f + 1 := ⟨a.length - 1, by omega⟩
      rw [hf]
      unfold mapSklearnSearch
      rw [show ((0 : Int)) = ((0 : Nat) : Int) from rfl, pyGet_nat a1]
      simp only [a2, if_true]
  | node j c L R =>
    obtain ⟨t', nodes', ops, s', e, hrun, hops, hg, hI', -, -, -, hx⟩ := search_spec hX hE hks hfuel hI hleaf (nodes := (a.map (fun _ => (none : Option NodeId))).set 0 (some i)) (by simp)
      (by rw [List.getElem?_set_self (by simpa using hlen)]) trivial
    obtain ⟨v, v', l, r, ops', rfl⟩ := hg j c L R rfl
    refine ⟨t', _, ?_, hrun, hops, ⟨s', hI'⟩, ⟨_, rfl⟩, ?_⟩
    · unfold mapSklearnTree
      rw [hn]
      simp only
      rw [hset]
      simp only
      rw [show ((0 : Int)) = ((0 : Nat) : Int) from rfl, e]
    · intro x hx'
      obtain ⟨q, q1, -, q3⟩ := hx x hx' (by rw [hcs]; rfl)
      exact ⟨q, q1, q3⟩

/-- C62 (for trees with at least one split): mapping the arrays of an sklearn tree `T` into a tree with a single leaf and a target works, and afterwards `predict(X)` is the prediction of
`T` for every row without NaN and -inf, and `predict()` is its prediction for the training rows (if there was a prediction before, as in `Model.__init__`). For a tree `T`
without split nothing is changed. -/
theorem C62_map_partial (hX : NoNan X) {t : Tree K n p} (ht : ReachableTree X t) {y : Fin n → K} (hy : HasTarget t y) {i : NodeId} (hn : t.nodes = [i])
    {a : List (SkNode K p)} {T : DTree K p} (hT : IsSkTree a T) :
    ∃ t', mapSklearnTree t a = .ok t' ∧ ReachableTree X t' ∧ match T with
      | .leaf _ => t' = t
      | .node .. => (∀ {m : Nat} (Xn : Fin m → Fin p → Fl K) (r : Fin m), GoodRow (Xn r) → t'.predictX Xn r = T.predict (Xn r)) ∧
          ∀ b, t.prediction = .sized b → ∃ f t2, t'.predict = .ok (.sized f, t2) ∧ ∀ r, f r = T.predict (X r) := by
  obtain ⟨t', ops, e, hrun, hops, h⟩ := mapSklearn_run hX ht hy hn hT
  refine ⟨t', e, Run.reachable hrun ht, ?_⟩
  cases T with
  | leaf v => exact h
  | node j c L R =>
    obtain ⟨⟨s', hI'⟩, hg, hx⟩ := h
    refine ⟨?_, ?_⟩
    · intro m Xn r hr
      obtain ⟨q, q1, q3, q4⟩ := hx (Xn r) (fun v => (hr v).1)
      rw [← q4]
      unfold Tree.predictX
      obtain ⟨k, k1, -, k3, k4⟩ := hI'.leaf_of_newRow hr
      have hq := k4 q q1 ((hI'.outOfSample_iff hr (List.mem_filter.1 q1).1).2 q3)
      refine predictX_fold t'.heap Xn r _ _ _ (fun j hj hjr => ?_) (Or.inl ⟨k, k1, k3⟩)
      rw [k4 j hj hjr, hq]
    · intro b hb
      obtain ⟨d1, d2⟩ := growSet_cache hrun hops
      obtain ⟨g, g1, g2⟩ := hI'.predict_sized hX (d2 (.inr ⟨i, j, c, by obtain ⟨ops', rfl⟩ := hg; simp⟩)) (d1.trans hb)
      refine ⟨g, _, g1, fun r => ?_⟩
      obtain ⟨q, q1, q3, q4⟩ := hx (X r) (fun v => hX r v)
      rw [← q4]
      refine g2 r q q1 ?_
      obtain ⟨path, hk⟩ := hI'.repr.nodeOk q (hI'.perm.mem_iff.1 (List.mem_filter.1 q1).1)
      rw [hk.rows' r]
      exact q3

/-- C62 is false for a tree that is only a root: its value is not copied, the tree still predicts 0. -/
theorem C62_refuted {y : Fin n → K} {t : Tree K n p} (ht : Fresh X y t) (v thr : K) :
    IsSkTree [(⟨-1, -1, none, .fin thr, v⟩ : SkNode K p)] (.leaf v) ∧ mapSklearnTree t [⟨-1, -1, none, .fin thr, v⟩] = .ok t ∧
      ∀ {m : Nat} (Xn : Fin m → Fin p → Fl K) (r : Fin m), t.predictX Xn r = 0 := by
  obtain ⟨nz, d0, -, rfl⟩ := ht
  refine ⟨⟨[0], .leaf (nd := ⟨-1, -1, none, .fin thr, v⟩) rfl rfl, by simp⟩, rfl, ?_⟩
  intro m Xn r
  unfold Tree.predictX Tree.leafNodes
  simp only [Tree.ofData, List.filter_cons, decide_true, if_true, List.filter_nil, List.foldl_cons, List.foldl_nil]
  exact ite_self 0

/-- C63 is false: the initializer always raises AttributeError. It is the default of `Model`. -/
theorem C63_refuted (hX : NoNan X) {y0 : Fin n → K} {normalize : Bool} {d : Data K n p} (hd : Data.init X y0 none normalize none none none none = .ok d)
    (sigma : Sigma K) {nTrees : Nat} (hT : 0 < nTrees) (alpha beta k : K) (fit : Data K n p → Except PyErr (List (SkNode K p))) :
    BModel.constructWith (some (sklearnInitializeTree fit)) d sigma nTrees alpha beta k = .error .attributeError := by
  obtain ⟨m, y, t, e, hy, hM, hd, -, -, -, -, -, hpr, htr, -⟩ := construct_inv (N := False) (fun h => h.elim) hd sigma nTrees alpha beta k
  unfold BModel.constructWith
  rw [e]
  simp only
  unfold BModel.initializeTrees BModel.startPrediction
  rw [hM.target, hpr]
  obtain ⟨m1, e1, hM1, -, -, hm1⟩ := hM.predict hX
  simp only [e1]
  have hl : m1.trees.length = nTrees := by
    have := hM1.len
    rw [hm1] at this
    simp only at this
    rw [this, ← hM.len, htr]
    simp
  obtain ⟨t1, ts, hts⟩ := List.exists_cons_of_length_pos (hl ▸ hT)
  rw [hts]
  unfold BModel.refreshLoop
  obtain ⟨t2, e2, ⟨fl, hG, -⟩, -⟩ := BModel.refreshBegin_spec hX y (sumValue m.trees) (hM1.fitted t1 (by rw [hts]; simp))
  rw [e2]
  simp only
  obtain ⟨s2, hI2⟩ := hG.inv
  have : sklearnInitializeTree fit t2 = .error .attributeError := by
    unfold sklearnInitializeTree
    cases hn : t2.nodes with
    | nil =>
      have := hI2.leafNodes_ne_nil
      unfold Tree.leafNodes at this
      rw [hn] at this
      exact absurd rfl this
    | cons i is => rfl
  rw [this]
  rfl

/-! ### C73 -/

/-- Calls other than `predict()`. -/
def NotPredict : TreeOp K n p → Prop
  | .predict => False
  | _ => True

/-- A tree that was handed out and worked on by calls other than `predict()` is in order. -/
theorem handed_run {t t' : Tree K n p} {ops : List (TreeOp K n p)} (hX : NoNan X) (h : Run t ops t') : (∀ op ∈ ops, NotPredict op) → ∀ {y : Fin n → K}, Handed False X y t →
    ∃ y' fl, Good False X y' t' fl ∧ fl.predicted = true ∧ fl.fresh = false := by
  induction h with
  | nil =>
    intro _ y hH
    obtain ⟨fl, h1, h2, h3, -⟩ := hH
    exact ⟨_, fl, h1, h2, h3⟩
  | @snoc t1 t2 ops op _ hok hst ih =>
    intro hops y hH
    obtain ⟨y', fl, ⟨⟨s, hI⟩, hP, -⟩, h2, h3⟩ := ih (fun o ho => hops o (by simp [ho])) hH
    have hop := hops op (by simp)
    obtain ⟨s', hI'⟩ := step_inv hX hI hok hst
    refine ⟨_, fl.step op, ⟨⟨s', hI'⟩, hP.step hX hI hok hst, fun h => h.elim, fun h => h.elim⟩, ?_, ?_⟩
    · cases op <;> first | exact h2 | exact hop.elim
    · cases op <;> first | exact h3 | rfl | exact hop.elim

/-- What an initializer may do with a tree that has only a root and a target: legal calls other than `predict()`. -/
def InitializesBy (X : Fin n → Fin p → Fl K) (init : Tree K n p → Except PyErr (Tree K n p)) : Prop :=
  ∀ t, ReachableTree X t → (∃ y, HasTarget t y) → t.nodes = [0] → ∃ t' ops, init t = .ok t' ∧ Run t ops t' ∧ ∀ op ∈ ops, NotPredict op

/-- The tree is what the initializer makes of some tree with a single node, after a `predict()`. -/
def FromInit (X : Fin n → Fin p → Fl K) (init : Tree K n p → Except PyErr (Tree K n p)) (t : Tree K n p) : Prop :=
  ∃ t1 t2, ReachableTree X t1 ∧ (∃ y, HasTarget t1 y) ∧ t1.nodes = [0] ∧ init t1 = .ok t2 ∧ t.heap = t2.heap ∧ t.nodes = t2.nodes

theorem initLoop_spec (hX : NoNan X) (y : Fin n → K) {init : Tree K n p → Except PyErr (Tree K n p)} (hinit : InitializesBy X init) : ∀ (ts : List (Tree K n p)) (pred : Fin n → K),
    (∀ t ∈ ts, Fitted False X t ∧ ReachableTree X t ∧ t.nodes = [0]) →
    ∃ us pred' ts', BModel.refreshLoop y (fun t (_ : Unit) => (init t).map (fun t' => ((), t', ()))) ts pred () = .ok (us, pred', ts', ()) ∧ ts'.length = ts.length ∧
      (∀ t ∈ ts', Fitted False X t ∧ ReachableTree X t ∧ FromInit X init t) ∧ ∀ r, pred' r = pred r - sumValue ts r + sumValue ts' r := by
  intro ts
  induction ts with
  | nil => intro pred _; exact ⟨[], pred, [], rfl, rfl, by simp, fun r => by simp [sumValue]⟩
  | cons t ts ih =>
    intro pred hts
    obtain ⟨hF, hRe, hn⟩ := hts t (by simp)
    obtain ⟨t1, e1, hH, hS⟩ := BModel.refreshBegin_spec hX y pred hF
    obtain ⟨hRe1, hz⟩ := refreshBegin_reach hX hRe e1
    obtain ⟨t2, ops, e2, hrun, hops⟩ := hinit t1 hRe1 hz (hS.nodes.trans hn)
    obtain ⟨y', fl, hG, h2, h3⟩ := handed_run hX hrun hops hH
    have hF2 : Fitted False X t2 := ⟨y', fl, hG, .inl h2, .inr h3⟩
    obtain ⟨t3, e3, hF3, hS3⟩ := BModel.refreshEnd_spec hX (fun r => pred r - rowValue t r) hF2
    obtain ⟨us, pred', ts', e4, l4, h4, p4⟩ := ih (fun r => pred r - rowValue t r + rowValue t2 r) (fun u hu => hts u (by simp [hu]))
    refine ⟨() :: us, pred', t3 :: ts', ?_, by simp [l4], ?_, ?_⟩
    · unfold BModel.refreshLoop
      simp only [e1, e2, Except.map, e3]
      have e4' := e4
      simp only [Except.map] at e4'
      rw [e4']
    · intro u hu
      rcases List.mem_cons.1 hu with rfl | hu
      · refine ⟨hF3, refreshEnd_reach (Run.reachable hrun hRe1) e3, t1, t2, hRe1, hz, hS.nodes.trans hn, e2, ?_⟩
        unfold BModel.refreshEnd at e3
        split at e3
        · cases e3
        · cases e3
        · cases e3
        · next f t0 e0 =>
          injection e3 with e3; injection e3 with _ e3; subst e3
          obtain ⟨w1, w2, -⟩ := predict_cases e0
          exact ⟨w1, w2⟩
      · exact h4 u hu
    · intro r
      rw [p4 r, BModel.sumValue_cons, BModel.sumValue_cons, hS3.rowValue r]
      ring

theorem construct_trees_reach {y0 : Fin n → K} {normalize : Bool} {d : Data K n p} (hd : Data.init X y0 none normalize none none none none = .ok d)
    {sigma : Sigma K} {nTrees : Nat} {alpha beta k : K} {m : BModel K n p} (hc : BModel.construct d sigma nTrees alpha beta k = .ok m) : ∀ t ∈ m.trees, ReachableTree X t := by
  unfold BModel.construct at hc
  split at hc
  · cases hc
  · next t e =>
    injection hc with hc; subst hc
    intro t' ht'
    obtain ⟨-, rfl⟩ := List.mem_replicate.1 ht'
    unfold BModel.initTree at e
    split at e
    · cases e
    · split at e
      · cases e
      · next t1 e1 => exact updateY_reach (updateY_reach (.fresh ⟨normalize, d, hd, rfl⟩) e1) e

/-- The model that such an initializer leaves. -/
theorem initialised_inv (hX : NoNan X) {y0 : Fin n → K} {normalize : Bool} {d : Data K n p} (hd : Data.init X y0 none normalize none none none none = .ok d)
    (sigma : Sigma K) (nTrees : Nat) (alpha beta k : K) {init : Tree K n p → Except PyErr (Tree K n p)} (hinit : InitializesBy X init) :
    ∃ m y, BModel.constructWith (some init) d sigma nTrees alpha beta k = .ok m ∧ d.y.y = some y ∧ ModelInv False X y m ∧ (∀ t ∈ m.trees, ReachableTree X t ∧ FromInit X init t) ∧
      m.prediction = some (sumValue m.trees) ∧ m.data = d ∧ m.sigma = sigma ∧ m.nTrees = nTrees ∧ m.alpha = alpha ∧ m.beta = beta ∧ m.k = k := by
  obtain ⟨m, y, t, e, hy, hM, q1, q2, q3, q4, q5, q6, hpr, htr, -, hn0, -⟩ := construct_inv (N := False) (fun h => h.elim) hd sigma nTrees alpha beta k
  obtain ⟨m1, e1, hM1, hsum, hS, hm1⟩ := hM.predict hX
  have hRe : ∀ t ∈ m1.trees, ReachableTree X t := predictModel_reach (construct_trees_reach hd e) e1
  have hnodes : ∀ t ∈ m1.trees, t.nodes = [0] := by
    intro u hu
    obtain ⟨i, hi, rfl⟩ := List.mem_iff_getElem.1 hu
    have hi' : i < m.trees.length := by rw [hS.length_eq]; exact hi
    have h1 := hS.get hi' hi
    simp only [List.get_eq_getElem] at h1
    rw [h1.nodes]
    have : m.trees[i] ∈ m.trees := List.getElem_mem hi'
    generalize m.trees[i] = w at this
    rw [htr] at this
    rw [(List.mem_replicate.1 this).2]
    exact hn0
  obtain ⟨us, pred', ts', e2, l2, h2, p2⟩ := initLoop_spec hX y hinit m1.trees (sumValue m.trees) (fun t ht => ⟨hM1.fitted t ht, hRe t ht, hnodes t ht⟩)
  have hp : pred' = sumValue ts' := by
    funext r
    rw [p2 r, hsum r]
    ring
  refine ⟨{ m1 with trees := ts', prediction := some pred' }, y, ?_, hy, ⟨hM1.target, hM1.obs, fun t ht => (h2 t ht).1, l2.trans hM1.len, ?_⟩, fun t ht => (h2 t ht).2, by rw [hp], ?_⟩
  · unfold BModel.constructWith
    rw [e]
    simp only
    unfold BModel.initializeTrees BModel.startPrediction
    rw [hM.target, hpr]
    simp only [e1]
    rw [e2]
  · intro f hf r
    rw [hp] at hf
    injection hf with hf
    rw [← hf]
  · rw [hm1]
    exact ⟨q1, q2, q3, q4, q5, q6⟩

/-- C73: an initializer of the user's own that raises nothing and works on each tree by legal calls (without `predict()`) gives a model with the right number of trees, whose
`predict()` works and gives for each row the sum over the trees of the value of the row's leaf, and whose running prediction is this sum. -/
theorem C73_initialised (hX : NoNan X) {y0 : Fin n → K} {normalize : Bool} {d : Data K n p} (hd : Data.init X y0 none normalize none none none none = .ok d)
    (sigma : Sigma K) (nTrees : Nat) (alpha beta k : K) {init : Tree K n p → Except PyErr (Tree K n p)} (hinit : InitializesBy X init) :
    ∃ m f m', BModel.constructWith (some init) d sigma nTrees alpha beta k = .ok m ∧ m.trees.length = nTrees ∧ (∀ t ∈ m.trees, ReachableTree X t) ∧
      m.predict = .ok (f, m') ∧ m.prediction = some f ∧ ∀ r, f r = sumValue m.trees r := by
  obtain ⟨m, y, h1, -, h2, h3, h4, -, -, h5, -⟩ := initialised_inv hX hd sigma nTrees alpha beta k hinit
  obtain ⟨m', e, -⟩ := h2.predict hX
  exact ⟨m, _, m', h1, h2.len.trans h5, fun t ht => (h3 t ht).1, e, h4, fun r => rfl⟩

/-- Doing nothing, the base class. -/
theorem baseInitializes : InitializesBy X (baseInitializeTree (K := K)) := fun t _ _ _ => ⟨t, [], rfl, .nil t, by simp⟩

/-- C63, what is true: with no initializer, or with the one of the base class, the model is constructed. -/
theorem C63_other_partial (hX : NoNan X) {y0 : Fin n → K} {normalize : Bool} {d : Data K n p} (hd : Data.init X y0 none normalize none none none none = .ok d)
    (sigma : Sigma K) (nTrees : Nat) (alpha beta k : K) : (∃ m, BModel.constructWith none d sigma nTrees alpha beta k = .ok m ∧ m.trees.length = nTrees) ∧
      ∃ m, BModel.constructWith (some baseInitializeTree) d sigma nTrees alpha beta k = .ok m ∧ m.trees.length = nTrees := by
  obtain ⟨m, f, m', h1, h2, -⟩ := C73_initialised hX hd sigma nTrees alpha beta k baseInitializes
  obtain ⟨m2, y, t, e, -, -, -, -, -, -, -, -, -, htr, -⟩ := construct_inv (N := False) (fun h => h.elim) hd sigma nTrees alpha beta k
  refine ⟨⟨m2, ?_, by rw [htr]; simp⟩, m, h1, h2⟩
  unfold BModel.constructWith
  rw [e]

/-- Mapping a fixed sklearn tree into each tree is such an initializer. -/
theorem mapInitializes (hX : NoNan X) {a : List (SkNode K p)} {T : DTree K p} (hT : IsSkTree a T) : InitializesBy X (fun t : Tree K n p => mapSklearnTree t a) := by
  intro t ht ⟨y, hy⟩ hn
  obtain ⟨t', ops, h1, h2, h3, -⟩ := mapSklearn_run hX ht hy hn hT
  refine ⟨t', ops, h1, h2, fun op hop => ?_⟩
  have := h3 op hop
  cases op <;> first | trivial | exact this.elim

section Examples

/-- sklearn's arrays for `x <= 3/2 ? (x <= 1/2 ? 10 : 20) : 30`. -/
def exSkArrays : List (SkNode ℚ 1) :=
  [⟨1, 4, some 0, .fin (3/2), 15⟩, ⟨2, 3, some 0, .fin (1/2), 12⟩, ⟨-1, -1, none, .fin (-2), 10⟩, ⟨-1, -1, none, .fin (-2), 20⟩, ⟨-1, -1, none, .fin (-2), 30⟩]

theorem exSkArrays_tree : IsSkTree exSkArrays (.node 0 (.fin (3/2)) (.node 0 (.fin (1/2)) (.leaf 10) (.leaf 20)) (.leaf 30)) :=
  ⟨[0, 1, 2, 3, 4], .node (kl := 1) (kr := 4) (il := [1, 2, 3]) (nd := ⟨1, 4, some 0, .fin (3/2), 15⟩) rfl rfl rfl rfl (by simp)
    (.node (kl := 2) (kr := 3) (il := [2]) (nd := ⟨2, 3, some 0, .fin (1/2), 12⟩) rfl rfl rfl rfl (by simp)
      (.leaf (nd := ⟨-1, -1, none, .fin (-2), 10⟩) rfl rfl) (.leaf (nd := ⟨-1, -1, none, .fin (-2), 20⟩) rfl rfl))
    (.leaf (nd := ⟨-1, -1, none, .fin (-2), 30⟩) rfl rfl), by decide⟩

/-- A case for C62: the hypotheses hold of a new tree with three rows and the arrays above. -/
example : NoNan exX ∧ ReachableTree exX exRoot ∧ HasTarget exRoot exY ∧ exRoot.nodes = [0] ∧ ∃ T, IsSkTree exSkArrays T :=
  ⟨exX_noNan, .fresh exRoot_fresh, by intro i hi; obtain rfl := List.mem_singleton.1 hi; rfl, rfl, _, exSkArrays_tree⟩

/-- What comes out: the predictions for the rows 1, 2, 3 of the training data and for new rows 0, 1, 9. -/
example : (match mapSklearnTree exRoot exSkArrays with
    | .ok t => decide ((List.finRange 3).map (t.predictX exX) = [20, 30, 30] ∧ (List.finRange 3).map (t.predictX (exX3 (.fin 0) (.fin 1) (.fin 9))) = [10, 20, 30])
    | .error _ => false) = true := by decide +kernel

/-- A case for C63 and C73: a model of 2 trees, with a constant initializer that maps the arrays above into each tree. -/
example : (∃ d, Data.init exX exY none false none none none none = .ok d) ∧ InitializesBy exX (fun t => mapSklearnTree t exSkArrays) :=
  ⟨⟨_, exData_init _ _⟩, mapInitializes exX_noNan exSkArrays_tree⟩

example (sigma : Sigma ℚ) : ∃ m f m', BModel.constructWith (some (fun t => mapSklearnTree t exSkArrays)) (exData exX exY) sigma 2 (95/100) 2 2 = .ok m ∧ m.trees.length = 2 ∧
    m.predict = .ok (f, m') ∧ ∀ r, f r = sumValue m.trees r := by
  obtain ⟨m, f, m', h1, h2, -, h4, -, h5⟩ := C73_initialised exX_noNan (exData_init exX exY) sigma 2 (95/100) 2 2 (mapInitializes exX_noNan exSkArrays_tree)
  exact ⟨m, f, m', h1, h2, h4, h5⟩

end Examples

end Bart
