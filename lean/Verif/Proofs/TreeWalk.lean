import Verif.Proofs.TreeRun

/-! Structure, routing and predictions of represented trees. -/

set_option linter.unusedSectionVars false

namespace Bart
open Spec
variable {K : Type} [Field K] [LinearOrder K] {n p : Nat}

/-- The conditions of a node. -/
def conds (h : Heap K n p) (i : NodeId) : List (SplitCondition K p) := (h.node i).split.combined.conditions

theorem NodeOk.conds_eq {X : Fin n → Fin p → Fl K} {y : Option (Fin n → K)} {h : Heap K n p} {i : NodeId}
    {path : List (SplitCondition K p)} (hk : NodeOk X y h i path) : conds h i = path := by
  unfold conds; rw [hk.combined]; rfl

theorem NodeOk.rows' {X : Fin n → Fin p → Fl K} {y : Option (Fin n → K)} {h : Heap K n p} {i : NodeId}
    {path : List (SplitCondition K p)} (hk : NodeOk X y h i path) (r : Fin n) :
    rowsOf (h.dataOf i) r = (conds h i).all (fun c => sat c (X r)) := by rw [hk.conds_eq]; exact hk.rows r

section structural
variable {X : Fin n → Fin p → Fl K} {y : Option (Fin n → K)} {h : Heap K n p} {s : Shape}

theorem Repr.root_ok {path : List (SplitCondition K p)} {d : Nat} (hR : Repr X y h s path d) :
    NodeOk X y h s.root path ∧ (h.node s.root).depth = d := by
  cases s with
  | leaf i => exact ⟨hR.2.2.2.2, hR.2.2.2.1⟩
  | node i l r => exact ⟨hR.2.2.2.2.1, hR.2.2.2.1⟩

theorem Repr.conds_prefix : ∀ {path : List (SplitCondition K p)} {d : Nat}, Repr X y h s path d →
    ∀ i ∈ s.ids, path <+: conds h i := by
  induction s with
  | leaf j =>
    intro path d hR i hi
    simp [Shape.ids] at hi; subst hi
    rw [hR.2.2.2.2.conds_eq]
  | node j l r ihl ihr =>
    intro path d hR i hi
    obtain ⟨r1, r2, r3, r4, r5, cl, cr, hp, hl, hr⟩ := hR
    simp only [Shape.ids, List.mem_cons, List.mem_append] at hi
    rcases hi with rfl | hi | hi
    · rw [r5.conds_eq]
    · exact (List.prefix_append path [cl]).trans (ihl hl i hi)
    · exact (List.prefix_append path [cr]).trans (ihr hr i hi)

theorem Repr.conds_notNan : ∀ {path : List (SplitCondition K p)} {d : Nat}, Repr X y h s path d →
    (∀ c ∈ path, c.splittingValue ≠ .nan) → ∀ i ∈ s.ids, ∀ c ∈ conds h i, c.splittingValue ≠ .nan := by
  induction s with
  | leaf j =>
    intro path d hR hp i hi
    simp [Shape.ids] at hi; subst hi
    rw [hR.2.2.2.2.conds_eq]; exact hp
  | node j l r ihl ihr =>
    intro path d hR hq i hi
    obtain ⟨r1, r2, r3, r4, r5, cl, cr, hp, hl, hr⟩ := hR
    simp only [Shape.ids, List.mem_cons, List.mem_append] at hi
    rcases hi with rfl | hi | hi
    · rw [r5.conds_eq]; exact hq
    · refine ihl hl (fun c hc => ?_) i hi
      rcases List.mem_append.1 hc with hc | hc
      · exact hq c hc
      · simp at hc; subst hc; exact hp.notNan
    · refine ihr hr (fun c hc => ?_) i hi
      rcases List.mem_append.1 hc with hc | hc
      · exact hq c hc
      · simp at hc; subst hc; rw [hp.val]; exact hp.notNan

theorem Repr.ops_ok : ∀ {path : List (SplitCondition K p)} {d : Nat}, Repr X y h s path d →
    (∀ c ∈ path, c.operator ≠ .other) → ∀ i ∈ s.ids, ∀ c ∈ conds h i, c.operator ≠ .other := by
  induction s with
  | leaf j =>
    intro path d hR hp i hi
    simp [Shape.ids] at hi; subst hi
    rw [hR.2.2.2.2.conds_eq]; exact hp
  | node j l r ihl ihr =>
    intro path d hR hq i hi
    obtain ⟨r1, r2, r3, r4, r5, cl, cr, hp, hl, hr⟩ := hR
    simp only [Shape.ids, List.mem_cons, List.mem_append] at hi
    rcases hi with rfl | hi | hi
    · rw [r5.conds_eq]; exact hq
    · refine ihl hl (fun c hc => ?_) i hi
      rcases List.mem_append.1 hc with hc | hc
      · exact hq c hc
      · simp at hc; subst hc; rw [hp.opl]; simp
    · refine ihr hr (fun c hc => ?_) i hi
      rcases List.mem_append.1 hc with hc | hc
      · exact hq c hc
      · simp at hc; subst hc; rw [hp.opr]; simp

/-- Each row is routed to exactly one leaf. -/
theorem Repr.route {x : Fin p → Fl K} (hx : ∀ v, x v ≠ .nan) :
    ∀ {path : List (SplitCondition K p)} {d : Nat}, Repr X y h s path d → path.all (fun c => sat c x) = true →
    ∃ i ∈ s.leaves, Walk h x s.root i ∧ (conds h i).all (fun c => sat c x) = true ∧
      ∀ j ∈ s.leaves, (conds h j).all (fun c => sat c x) = true → j = i := by
  induction s with
  | leaf j =>
    intro path d hR hp
    refine ⟨j, by simp [Shape.leaves], Walk.leaf hR.1, by rw [hR.2.2.2.2.conds_eq]; exact hp, by simp [Shape.leaves]⟩
  | node j l r ihl ihr =>
    intro path d hR hq
    obtain ⟨r1, r2, r3, r4, r5, cl, cr, hp, hl, hr⟩ := hR
    have hrule : rule h j = some (cl.splittingVariable, cl.splittingValue) := by
      unfold rule
      rw [r2]
      have := hl.root_ok.1.conds_eq
      unfold conds at this
      simp [this]
    have hcompl := hp.sat_compl (x := x) (hx _)
    have hsl : sat cl x = Fl.le (x cl.splittingVariable) cl.splittingValue := sat_le hp.opl
    have pre : ∀ (u : Shape) (c : SplitCondition K p), Repr X y h u (path ++ [c]) (d + 1) → ∀ k ∈ u.leaves,
        (conds h k).all (fun c => sat c x) = true → sat c x = true := by
      intro u c hu k hk hall
      obtain ⟨suf, e⟩ := hu.conds_prefix k (u.leaves_subset hk)
      rw [← e] at hall
      simp only [List.all_append, List.all_cons, Bool.and_eq_true] at hall
      exact hall.1.2.1
    cases hc : sat cl x with
    | true =>
      obtain ⟨i, i1, i2, i3, i4⟩ := ihl hl (by simp [List.all_append, hc] at hq ⊢; exact hq)
      refine ⟨i, by simp [Shape.leaves, i1], Walk.left r1 r2 hrule (by rw [← hsl]; exact hc) i2, i3, ?_⟩
      intro k hk hall
      simp only [Shape.leaves, List.mem_append] at hk
      rcases hk with hk | hk
      · exact i4 k hk hall
      · have := pre r cr hr k hk hall
        rw [hcompl, hc] at this; simp at this
    | false =>
      obtain ⟨i, i1, i2, i3, i4⟩ := ihr hr (by simp [List.all_append, hcompl, hc] at hq ⊢; exact hq)
      refine ⟨i, by simp [Shape.leaves, i1], Walk.right r1 r3 hrule (by rw [← hsl]; exact hc) i2, i3, ?_⟩
      intro k hk hall
      simp only [Shape.leaves, List.mem_append] at hk
      rcases hk with hk | hk
      · have := pre l cl hl k hk hall
        rw [hc] at this; simp at this
      · exact i4 k hk hall

/-- Children stay in the shape, one level deeper. -/
theorem Repr.child : ∀ {path : List (SplitCondition K p)} {d : Nat}, Repr X y h s path d → ∀ i ∈ s.ids, ∀ j, IsChild h i j →
    j ∈ s.ids ∧ (h.node j).depth = (h.node i).depth + 1 := by
  induction s with
  | leaf k =>
    intro path d hR i hi j hc
    simp [Shape.ids] at hi; subst hi
    rcases hc with hc | hc
    · rw [hR.2.1] at hc; cases hc
    · rw [hR.2.2.1] at hc; cases hc
  | node k l r ihl ihr =>
    intro path d hR i hi j hc
    obtain ⟨r1, r2, r3, r4, r5, cl, cr, hp, hl, hr⟩ := hR
    simp only [Shape.ids, List.mem_cons, List.mem_append] at hi
    rcases hi with rfl | hi | hi
    · rcases hc with hc | hc
      · rw [r2] at hc; injection hc with hc; subst hc
        exact ⟨by simp [Shape.ids, l.root_mem], by rw [hl.root_ok.2, r4]⟩
      · rw [r3] at hc; injection hc with hc; subst hc
        exact ⟨by simp [Shape.ids, r.root_mem], by rw [hr.root_ok.2, r4]⟩
    · obtain ⟨a, b⟩ := ihl hl i hi j hc
      exact ⟨by simp [Shape.ids, a], b⟩
    · obtain ⟨a, b⟩ := ihr hr i hi j hc
      exact ⟨by simp [Shape.ids, a], b⟩

theorem Chain.cons {a b c : NodeId} {k : Nat} (hab : IsChild h a b) (hbc : Chain h b k c) : Chain h a (k + 1) c := by
  induction hbc with
  | nil => exact Chain.snoc (Chain.nil a) hab
  | snoc _ hc ih => exact Chain.snoc ih hc

theorem Repr.chain : ∀ {path : List (SplitCondition K p)} {d : Nat}, Repr X y h s path d → ∀ i ∈ s.ids,
    ∃ k, Chain h s.root k i := by
  induction s with
  | leaf k =>
    intro path d hR i hi
    simp [Shape.ids] at hi; subst hi
    exact ⟨0, Chain.nil _⟩
  | node k l r ihl ihr =>
    intro path d hR i hi
    obtain ⟨r1, r2, r3, r4, r5, cl, cr, hp, hl, hr⟩ := hR
    simp only [Shape.ids, List.mem_cons, List.mem_append] at hi
    rcases hi with rfl | hi | hi
    · exact ⟨0, Chain.nil _⟩
    · obtain ⟨k', c⟩ := ihl hl i hi
      exact ⟨_, Chain.cons (Or.inl r2) c⟩
    · obtain ⟨k', c⟩ := ihr hr i hi
      exact ⟨_, Chain.cons (Or.inr r3) c⟩

theorem Repr.chain_depth {path : List (SplitCondition K p)} {d : Nat} (hR : Repr X y h s path d) {k : Nat} {i : NodeId}
    (hc : Chain h s.root k i) : i ∈ s.ids ∧ (h.node i).depth = d + k := by
  generalize hb : s.root = b at hc
  induction hc with
  | nil => subst hb; exact ⟨s.root_mem, hR.root_ok.2⟩
  | snoc _ hch ih =>
    obtain ⟨a, e⟩ := ih
    obtain ⟨a', e'⟩ := hR.child _ a _ hch
    exact ⟨a', by rw [e', e]; omega⟩

theorem Repr.depth_ge {path : List (SplitCondition K p)} {d : Nat} (hR : Repr X y h s path d) {i : NodeId}
    (hi : i ∈ s.ids) : d ≤ (h.node i).depth := by
  obtain ⟨k, hc⟩ := hR.chain i hi
  have := (hR.chain_depth hc).2
  omega

theorem Repr.has_parent : ∀ {path : List (SplitCondition K p)} {d : Nat}, Repr X y h s path d → ∀ i ∈ s.ids, i ≠ s.root →
    ∃ j ∈ s.ids, IsChild h j i := by
  intro path d hR i hi hne
  obtain ⟨k, hc⟩ := hR.chain i hi
  cases hc with
  | nil => exact absurd rfl hne
  | snoc hc hch => exact ⟨_, (hR.chain_depth hc).1, hch⟩

theorem Repr.parent_unique : ∀ {path : List (SplitCondition K p)} {d : Nat}, Repr X y h s path d → s.ids.Nodup →
    ∀ i ∈ s.ids, ∀ j ∈ s.ids, ∀ k, IsChild h i k → IsChild h j k → i = j := by
  induction s with
  | leaf k => intro path d hR _ i hi j hj; simp [Shape.ids] at hi hj; simp [hi, hj]
  | node a l r ihl ihr =>
    intro path d hR hn i hi j hj k hik hjk
    have hR0 := hR
    obtain ⟨r1, r2, r3, r4, r5, cl, cr, hp, hl, hr⟩ := hR
    simp only [Shape.ids, List.nodup_cons, List.mem_append, not_or, List.nodup_append] at hn
    obtain ⟨⟨hal, har⟩, hln, hrn, hdis⟩ := hn
    have hrootk : ∀ {k}, IsChild h a k → k = l.root ∨ k = r.root := by
      intro k hc
      rcases hc with hc | hc
      · rw [r2] at hc; injection hc with hc; exact Or.inl hc.symm
      · rw [r3] at hc; injection hc with hc; exact Or.inr hc.symm
    have inl : ∀ {i k}, i ∈ l.ids → IsChild h i k → IsChild h a k → False := by
      intro i k hi hik hak
      obtain ⟨m1, m2⟩ := hl.child i hi k hik
      have := hl.depth_ge hi
      rcases hrootk hak with e | e
      · rw [e, hl.root_ok.2] at m2; omega
      · exact hdis _ m1 _ (e ▸ r.root_mem) rfl
    have inr : ∀ {i k}, i ∈ r.ids → IsChild h i k → IsChild h a k → False := by
      intro i k hi hik hak
      obtain ⟨m1, m2⟩ := hr.child i hi k hik
      have := hr.depth_ge hi
      rcases hrootk hak with e | e
      · exact hdis _ (e ▸ l.root_mem) _ m1 rfl
      · rw [e, hr.root_ok.2] at m2; omega
    simp only [Shape.ids, List.mem_cons, List.mem_append] at hi hj
    rcases hi with rfl | hi | hi <;> rcases hj with rfl | hj | hj
    · rfl
    · exact (inl hj hjk hik).elim
    · exact (inr hj hjk hik).elim
    · exact (inl hi hik hjk).elim
    · exact ihl hl hln i hi j hj k hik hjk
    · exact (hdis _ (hl.child i hi k hik).1 _ (hr.child j hj k hjk).1 rfl).elim
    · exact (inr hi hik hjk).elim
    · exact (hdis _ (hl.child j hj k hjk).1 _ (hr.child i hi k hik).1 rfl).elim
    · exact ihr hr hrn i hi j hj k hik hjk

/-- A shape with a decision node has a decision node with two leaves. -/
theorem Shape.exists_prunable : ∀ (s : Shape), s.decisions ≠ [] → ∃ i l r, (Shape.node i (.leaf l) (.leaf r)).Sub s := by
  intro s
  induction s with
  | leaf i => intro h; simp [Shape.decisions] at h
  | node i l r ihl ihr =>
    intro _
    cases l with
    | node j l1 r1 =>
      obtain ⟨a, b, c, hs⟩ := ihl (by simp [Shape.decisions])
      exact ⟨a, b, c, Or.inr (Or.inl hs)⟩
    | leaf j =>
      cases r with
      | node k l1 r1 =>
        obtain ⟨a, b, c, hs⟩ := ihr (by simp [Shape.decisions])
        exact ⟨a, b, c, Or.inr (Or.inr hs)⟩
      | leaf k => exact ⟨i, j, k, Or.inl rfl⟩

end structural

theorem Walk.unique {h : Heap K n p} {x : Fin p → Fl K} {i j k : NodeId} (h1 : Walk h x i j) (h2 : Walk h x i k) : j = k := by
  induction h1 with
  | leaf hk =>
    cases h2 with
    | leaf _ => rfl
    | left hd _ _ _ _ => rw [hk] at hd; cases hd
    | right hd _ _ _ _ => rw [hk] at hd; cases hd
  | left hd hl hr hle _ ih =>
    cases h2 with
    | leaf hk => rw [hk] at hd; cases hd
    | left _ hl' hr' hle' w => rw [hl] at hl'; injection hl' with e; subst e; exact ih w
    | right _ _ hr' hle' w =>
      rw [hr] at hr'; injection hr' with e; injection e with e1 e2; subst e1; subst e2
      rw [hle] at hle'; cases hle'
  | right hd hl hr hle _ ih =>
    cases h2 with
    | leaf hk => rw [hk] at hd; cases hd
    | right _ hl' hr' hle' w => rw [hl] at hl'; injection hl' with e; subst e; exact ih w
    | left _ _ hr' hle' w =>
      rw [hr] at hr'; injection hr' with e; injection e with e1 e2; subst e1; subst e2
      rw [hle] at hle'; cases hle'

/-! ### predictions -/

theorem inSample_eq (h : Heap K n p) (i : NodeId) (r : Fin n) :
    h.inSample (h.node i).split r = rowsOf (h.dataOf i) r := rfl

theorem predictLoop_sized (t : Tree K n p) : ∀ (ls : List NodeId) (f : Fin n → K),
    ∃ g, t.predictLoop ls (.sized f) = .ok (.sized g) ∧
      (∀ r, (∀ i ∈ ls, rowsOf (t.heap.dataOf i) r = false) → g r = f r) ∧
      (∀ r v, (∀ i ∈ ls, rowsOf (t.heap.dataOf i) r = true → (t.heap.node i).value = v) →
        ((∃ i ∈ ls, rowsOf (t.heap.dataOf i) r = true) ∨ f r = v) → g r = v) := by
  intro ls
  induction ls with
  | nil => intro f; exact ⟨f, rfl, by simp, by simp⟩
  | cons a ls ih =>
    intro f
    obtain ⟨g, g1, g2, g3⟩ := ih (fun r => if rowsOf (t.heap.dataOf a) r then (t.heap.node a).value else f r)
    refine ⟨g, ?_, ?_, ?_⟩
    · unfold Tree.predictLoop
      simp only [Tree.assignMask]
      rw [show (fun r => if t.heap.inSample (t.heap.node a).split r = true then (t.heap.node a).value else f r) =
        (fun r => if rowsOf (t.heap.dataOf a) r = true then (t.heap.node a).value else f r) from rfl]
      exact g1
    · intro r hr
      rw [g2 r (fun i hi => hr i (by simp [hi])), hr a (by simp)]; simp
    · intro r v hv hex
      refine g3 r v (fun i hi => hv i (by simp [hi])) ?_
      cases hc : rowsOf (t.heap.dataOf a) r with
      | true => right; simp [hv a (by simp) hc]
      | false =>
        simp only [Bool.false_eq_true, if_false]
        rcases hex with ⟨i, hi, hir⟩ | hex
        · rcases List.mem_cons.1 hi with rfl | hi
          · rw [hc] at hir; cases hir
          · exact Or.inl ⟨i, hi, hir⟩
        · exact Or.inr hex

theorem predictX_fold {m : Nat} (h : Heap K n p) (Xn : Fin m → Fin p → Fl K) (r : Fin m) (v : K) : ∀ (ls : List NodeId) (f : Fin m → K),
    (∀ i ∈ ls, Heap.outOfSample (h.node i).split (Xn r) = true → (h.node i).value = v) →
    ((∃ i ∈ ls, Heap.outOfSample (h.node i).split (Xn r) = true) ∨ f r = v) →
    (ls.foldl (fun pred i r => if Heap.outOfSample (h.node i).split (Xn r) then (h.node i).value else pred r) f) r = v := by
  intro ls
  induction ls with
  | nil => intro f _ h; simpa using h
  | cons a ls ih =>
    intro f hv hex
    rw [List.foldl_cons]
    refine ih _ (fun i hi => hv i (by simp [hi])) ?_
    cases hc : Heap.outOfSample (h.node a).split (Xn r) with
    | true => right; simp [hv a (by simp) hc]
    | false =>
      simp only [Bool.false_eq_true, if_false]
      rcases hex with ⟨i, hi, hir⟩ | hex
      · rcases List.mem_cons.1 hi with rfl | hi
        · rw [hc] at hir; cases hir
        · exact Or.inl ⟨i, hi, hir⟩
      · exact Or.inr hex

namespace TreeInv
variable {X : Fin n → Fin p → Fl K} {y : Option (Fin n → K)} {t : Tree K n p} {s : Shape}

/-- Each training row is in exactly one leaf, the one the rules lead to. -/
theorem leaf_of_row (hI : TreeInv X y t s) {r : Fin n} (hx : ∀ v, X r v ≠ .nan) :
    ∃ i ∈ t.leafNodes, Walk t.heap (X r) s.root i ∧ rowsOf (t.heap.dataOf i) r = true ∧
      ∀ j ∈ t.leafNodes, rowsOf (t.heap.dataOf j) r = true → j = i := by
  obtain ⟨i, i1, i2, i3, i4⟩ := hI.repr.route hx (by simp)
  have hrow : ∀ j ∈ s.leaves, rowsOf (t.heap.dataOf j) r = (conds t.heap j).all (fun c => sat c (X r)) := by
    intro j hj
    obtain ⟨q, hk⟩ := hI.repr.nodeOk j (s.leaves_subset hj)
    exact hk.rows' r
  refine ⟨i, hI.mem_leafNodes.2 i1, i2, by rw [hrow i i1]; exact i3, ?_⟩
  intro j hj hjr
  have hj' := hI.mem_leafNodes.1 hj
  exact i4 j hj' (by rw [← hrow j hj']; exact hjr)

theorem outOfSample_iff (hI : TreeInv X y t s) {x : Fin p → Fl K} (hx : GoodRow x) {i : NodeId} (hi : i ∈ t.nodes) :
    Heap.outOfSample (t.heap.node i).split x = true ↔ (conds t.heap i).all (fun c => sat c x) = true := by
  have hi' := hI.perm.mem_iff.1 hi
  obtain ⟨q, hk⟩ := hI.repr.nodeOk i hi'
  unfold Heap.outOfSample
  rw [hk.combined, init_condition (by
    have := hI.repr.conds_notNan (by simp) i hi'
    rw [hk.conds_eq] at this; exact this) hx, hk.conds_eq]
  simp

/-- Each new row is in exactly one leaf, the one the rules lead to. -/
theorem leaf_of_newRow (hI : TreeInv X y t s) {x : Fin p → Fl K} (hx : GoodRow x) :
    ∃ i ∈ t.leafNodes, Walk t.heap x s.root i ∧ Heap.outOfSample (t.heap.node i).split x = true ∧
      ∀ j ∈ t.leafNodes, Heap.outOfSample (t.heap.node j).split x = true → j = i := by
  obtain ⟨i, i1, i2, i3, i4⟩ := hI.repr.route (fun v => (hx v).1) (by simp)
  have hmem : ∀ j ∈ t.leafNodes, j ∈ t.nodes := fun j hj => (List.mem_filter.1 hj).1
  refine ⟨i, hI.mem_leafNodes.2 i1, i2, (hI.outOfSample_iff hx (hmem _ (hI.mem_leafNodes.2 i1))).2 i3, ?_⟩
  intro j hj hjr
  exact i4 j (hI.mem_leafNodes.1 hj) ((hI.outOfSample_iff hx (hmem _ hj)).1 hjr)

theorem predictX_eq (hI : TreeInv X y t s) {m : Nat} (Xn : Fin m → Fin p → Fl K) (r : Fin m) (hx : GoodRow (Xn r)) :
    ∃ i ∈ t.leafNodes, Walk t.heap (Xn r) s.root i ∧ t.predictX Xn r = (t.heap.node i).value := by
  obtain ⟨i, i1, i2, i3, i4⟩ := hI.leaf_of_newRow hx
  refine ⟨i, i1, i2, ?_⟩
  unfold Tree.predictX
  refine predictX_fold t.heap Xn r _ _ _ (fun j hj hjr => ?_) (Or.inl ⟨i, i1, i3⟩)
  rw [i4 j hj hjr]

/-- In-sample prediction from a buffer of the right length. -/
theorem predict_sized (hI : TreeInv X y t s) (hX : ∀ r v, X r v ≠ .nan) (hc : t.cacheUpToDate = false) {f : Fin n → K}
    (hp : t.prediction = .sized f) :
    ∃ g, t.predict = .ok (.sized g, { t with cacheUpToDate := true, prediction := .sized g }) ∧
      ∀ r, ∀ i ∈ t.leafNodes, rowsOf (t.heap.dataOf i) r = true → g r = (t.heap.node i).value := by
  obtain ⟨g, g1, -, g3⟩ := predictLoop_sized t t.leafNodes f
  refine ⟨g, by unfold Tree.predict; simp [hc, hp, g1], ?_⟩
  intro r i hi hir
  obtain ⟨k, k1, -, k3, k4⟩ := hI.leaf_of_row (r := r) (hX r)
  refine g3 r _ (fun j hj hjr => ?_) (Or.inl ⟨i, hi, hir⟩)
  rw [k4 j hj hjr, k4 i hi hir]

theorem leafNodes_ne_nil (hI : TreeInv X y t s) : t.leafNodes ≠ [] := by
  have : s.leaves ≠ [] := by
    intro e; have := s.leaves_length; rw [e] at this; simp at this
  obtain ⟨i, hi⟩ := List.exists_mem_of_ne_nil _ this
  exact List.ne_nil_of_mem (hI.mem_leafNodes.2 hi)

/-- The first in-sample prediction: right if the first listed node holds all rows, IndexError otherwise. -/
theorem predict_none (hI : TreeInv X y t s) (hc : t.cacheUpToDate = false) (hp : t.prediction = .none)
    {i0 : NodeId} {rest : List NodeId} (hnodes : t.nodes = i0 :: rest) :
    t.predict = if count (rowsOf (t.heap.dataOf i0)) = n
      then ({ t with prediction := .sized (fun _ => 0) } : Tree K n p).predict else .error .indexError := by
  obtain ⟨a, ls, e⟩ := List.exists_cons_of_ne_nil hI.leafNodes_ne_nil
  have hz : t.zerosBuf = if count (rowsOf (t.heap.dataOf i0)) = n then .ok (.sized (fun _ => 0))
      else .ok (.wrong (count (rowsOf (t.heap.dataOf i0)))) := by
    obtain ⟨q, hk⟩ := hI.repr.nodeOk i0 (hI.perm.mem_iff.1 (by rw [hnodes]; simp))
    unfold Tree.zerosBuf
    rw [hnodes]
    simp only [List.head?_cons]
    rw [hk.inv.X.nObsv, hk.inv.maskX]
    have er : inRows (t.heap.dataOf i0).mask = rowsOf (t.heap.dataOf i0) := rfl
    rw [er]
    by_cases hcn : count (rowsOf (t.heap.dataOf i0)) = n
    · simp [hcn]
    · have : ¬ ((count (rowsOf (t.heap.dataOf i0)) : Int) < 0) := by omega
      have h2 : ¬ ((count (rowsOf (t.heap.dataOf i0)) : Int) = n) := by omega
      simp [hcn, this, h2]
  have hloop : ∀ (c : Bool) (w : PredBuf K n) l b, (⟨t.heap, t.nodes, c, w⟩ : Tree K n p).predictLoop l b = t.predictLoop l b := by
    intro c w l
    induction l with
    | nil => intro b; rfl
    | cons i is ih =>
      intro b
      unfold Tree.predictLoop
      have : (⟨t.heap, t.nodes, c, w⟩ : Tree K n p).zerosBuf = t.zerosBuf := rfl
      rw [this]
      simp only [ih]
  have hls : ∀ (c : Bool) (w : PredBuf K n), (⟨t.heap, t.nodes, c, w⟩ : Tree K n p).leafNodes = a :: ls := fun _ _ => e
  unfold Tree.predict
  simp only [hc, hp, hls, hloop, e, Bool.false_eq_true, if_false]
  rw [Tree.predictLoop, hz]
  by_cases hcn : count (rowsOf (t.heap.dataOf i0)) = n
  · simp only [hcn, if_true, Tree.predictLoop]
  · simp only [hcn, if_false, Tree.assignMask]

end TreeInv

end Bart
