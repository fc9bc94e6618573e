import Verif.Proofs.ObliviousTree

/-! Predictions of the trees of the oblivious tree sampler. Leaves can overlap; the one that comes last in the list of nodes decides, for old and for new rows. -/

set_option linter.unusedSectionVars false

namespace Bart.Oblivious
open Bart Spec
variable {K : Type} [Field K] [LinearOrder K] {n p : Nat} {X : Fin n → Fin p → Fl K}

/-- The conditions of all nodes have numbers for values. -/
theorem Struct.conditions {h : Heap K n p} {s : Shape} : ∀ {d : Nat} {path : List (SplitCondition K p)}, Struct X h s d →
    (h.node s.root).split.combined = CombinedCondition.init path → (∀ c ∈ path, c.splittingValue ≠ .nan) →
    ∀ i ∈ s.ids, ∃ q, (h.node i).split.combined = CombinedCondition.init q ∧ ∀ c ∈ q, c.splittingValue ≠ .nan := by
  induction s with
  | leaf j =>
    intro d path _ hr hp i hi
    simp [Shape.ids] at hi; subst hi
    exact ⟨path, hr, hp⟩
  | node j l r ihl ihr =>
    intro d path hS hr hp i hi
    obtain ⟨-, -, -, -, r5, hl, hr'⟩ := hS
    simp only [Shape.root] at hr
    simp only [Shape.ids, List.mem_cons, List.mem_append] at hi
    rcases r5 with ⟨e1, e2, -⟩ | ⟨path', cl, cr, hsp, ea, eb, ec, -⟩
    · rcases hi with rfl | hi | hi
      · exact ⟨path, hr, hp⟩
      · exact ihl hl (by rw [e1]; exact hr) hp i hi
      · exact ihr hr' (by rw [e2]; exact hr) hp i hi
    · have : path' = path := init_injective (ea.symm.trans hr)
      subst this
      rcases hi with rfl | hi | hi
      · exact ⟨path', hr, hp⟩
      · refine ihl hl eb (fun c hc => ?_) i hi
        rcases List.mem_append.1 hc with hc | hc
        · exact hp c hc
        · simp at hc; subst hc; exact hsp.notNan
      · refine ihr hr' ec (fun c hc => ?_) i hi
        rcases List.mem_append.1 hc with hc | hc
        · exact hp c hc
        · simp at hc; subst hc; rw [hsp.val]; exact hsp.notNan

/-- A row that satisfies the conditions of a node satisfies those of a leaf below it. -/
theorem Struct.cover {h : Heap K n p} {x : Fin p → Fl K} (hx : ∀ v, x v ≠ .nan) {s : Shape} : ∀ {d : Nat} {path : List (SplitCondition K p)}, Struct X h s d →
    (h.node s.root).split.combined = CombinedCondition.init path → (∀ c ∈ path, sat c x = true) →
    ∃ i ∈ s.leaves, ∃ q, (h.node i).split.combined = CombinedCondition.init q ∧ ∀ c ∈ q, sat c x = true := by
  induction s with
  | leaf j => intro d path _ hr hp; exact ⟨j, by simp [Shape.leaves], path, hr, hp⟩
  | node j l r ihl ihr =>
    intro d path hS hr hp
    obtain ⟨-, -, -, -, r5, hl, hr'⟩ := hS
    simp only [Shape.root] at hr
    rcases r5 with ⟨e1, e2, -⟩ | ⟨path', cl, cr, hsp, ea, eb, ec, -⟩
    · obtain ⟨i, i1, i2⟩ := ihl hl (by rw [e1]; exact hr) hp
      exact ⟨i, by simp [Shape.leaves, i1], i2⟩
    · have : path' = path := init_injective (ea.symm.trans hr)
      subst this
      have hc := hsp.sat_compl (x := x) (hx _)
      cases hcl : sat cl x with
      | true =>
        obtain ⟨i, i1, i2⟩ := ihl hl eb (fun c hc => by
          rcases List.mem_append.1 hc with hc | hc
          · exact hp c hc
          · simp at hc; subst hc; exact hcl)
        exact ⟨i, by simp [Shape.leaves, i1], i2⟩
      | false =>
        obtain ⟨i, i1, i2⟩ := ihr hr' ec (fun c hc' => by
          rcases List.mem_append.1 hc' with hc' | hc'
          · exact hp c hc'
          · simp at hc'; subst hc'; rw [hc, hcl]; rfl)
        exact ⟨i, by simp [Shape.leaves, i1], i2⟩

/-- The conditions of a node are among those of the nodes below it. -/
theorem Struct.prefix {h : Heap K n p} {s : Shape} : ∀ {d : Nat} {path : List (SplitCondition K p)}, Struct X h s d →
    (h.node s.root).split.combined = CombinedCondition.init path →
    ∀ i ∈ s.ids, ∃ q, (h.node i).split.combined = CombinedCondition.init (path ++ q) := by
  induction s with
  | leaf j =>
    intro d path _ hr i hi
    simp [Shape.ids] at hi; subst hi
    exact ⟨[], by simpa [Shape.root] using hr⟩
  | node j l r ihl ihr =>
    intro d path hS hr i hi
    obtain ⟨-, -, -, -, r5, hl, hr'⟩ := hS
    simp only [Shape.root] at hr
    simp only [Shape.ids, List.mem_cons, List.mem_append] at hi
    rcases r5 with ⟨e1, e2, -⟩ | ⟨path', cl, cr, hsp, ea, eb, ec, -⟩
    · rcases hi with rfl | hi | hi
      · exact ⟨[], by simpa using hr⟩
      · exact ihl hl (by rw [e1]; exact hr) i hi
      · exact ihr hr' (by rw [e2]; exact hr) i hi
    · have : path' = path := init_injective (ea.symm.trans hr)
      subst this
      rcases hi with rfl | hi | hi
      · exact ⟨[], by simpa using hr⟩
      · obtain ⟨q, hq⟩ := ihl hl eb i hi
        exact ⟨[cl] ++ q, by rw [hq]; simp⟩
      · obtain ⟨q, hq⟩ := ihr hr' ec i hi
        exact ⟨[cr] ++ q, by rw [hq]; simp⟩

/-- Below a node that cannot be split all nodes have the same conditions. -/
theorem Struct.flat {h : Heap K n p} {s : Shape} : ∀ {d : Nat} {path : List (SplitCondition K p)}, Struct X h s d →
    (h.node s.root).split.combined = CombinedCondition.init path → Flat X path → ∀ i ∈ s.ids, (h.node i).split.combined = CombinedCondition.init path := by
  induction s with
  | leaf j =>
    intro d path _ hr _ i hi
    simp [Shape.ids] at hi; subst hi
    exact hr
  | node j l r ihl ihr =>
    intro d path hS hr hf i hi
    obtain ⟨-, -, -, -, r5, hl, hr'⟩ := hS
    simp only [Shape.root] at hr
    simp only [Shape.ids, List.mem_cons, List.mem_append] at hi
    rcases r5 with ⟨e1, e2, -⟩ | ⟨path', cl, cr, hsp, ea, eb, ec, hnf, -⟩
    · rcases hi with rfl | hi | hi
      · exact hr
      · exact ihl hl (by rw [e1]; exact hr) hf i hi
      · exact ihr hr' (by rw [e2]; exact hr) hf i hi
    · have : path' = path := init_injective (ea.symm.trans hr)
      subst this
      exact absurd hf hnf

/-- Two leaves with a row in common have the same conditions, and unless they are the same leaf, they cannot be split. -/
theorem Struct.overlap {h : Heap K n p} {x : Fin p → Fl K} (hx : ∀ v, x v ≠ .nan) {s : Shape} : ∀ {d : Nat} {path : List (SplitCondition K p)}, Struct X h s d →
    (h.node s.root).split.combined = CombinedCondition.init path → ∀ {i k : NodeId} {q q' : List (SplitCondition K p)}, i ∈ s.leaves → k ∈ s.leaves →
    (h.node i).split.combined = CombinedCondition.init q → (h.node k).split.combined = CombinedCondition.init q' → (∀ c ∈ q, sat c x = true) → (∀ c ∈ q', sat c x = true) →
    q = q' ∧ (i = k ∨ Flat X q) := by
  induction s with
  | leaf j =>
    intro d path _ hr i k q q' hi hk hq hq' _ _
    simp [Shape.leaves] at hi hk; subst hi; subst hk
    exact ⟨init_injective (hq.symm.trans hq'), .inl rfl⟩
  | node j l r ihl ihr =>
    intro d path hS hr i k q q' hi hk hq hq' hs hs'
    have hS0 := hS
    obtain ⟨-, -, -, -, r5, hl, hr'⟩ := hS
    simp only [Shape.root] at hr
    rcases r5 with ⟨e1, e2, path', ea, hf⟩ | ⟨path', cl, cr, hsp, ea, eb, ec, -⟩
    · have : path' = path := init_injective (ea.symm.trans hr)
      subst this
      have h1 := hS0.flat (path := path') (by simpa [Shape.root] using hr) hf
      have hqi : q = path' := init_injective (hq.symm.trans (h1 i (Shape.leaves_subset _ hi)))
      have hqk : q' = path' := init_injective (hq'.symm.trans (h1 k (Shape.leaves_subset _ hk)))
      subst hqi
      exact ⟨hqk.symm, .inr hf⟩
    · simp only [Shape.leaves, List.mem_append] at hi hk
      have hc := hsp.sat_compl (x := x) (hx _)
      have inl : ∀ {i q}, i ∈ l.leaves → (h.node i).split.combined = CombinedCondition.init q → (∀ c ∈ q, sat c x = true) → sat cl x = true := by
        intro i q hi hq hs
        obtain ⟨q2, h2⟩ := hl.prefix eb i (l.leaves_subset hi)
        have : q = path' ++ [cl] ++ q2 := init_injective (hq.symm.trans h2)
        subst this
        exact hs cl (by simp)
      have inr : ∀ {i q}, i ∈ r.leaves → (h.node i).split.combined = CombinedCondition.init q → (∀ c ∈ q, sat c x = true) → sat cl x = false := by
        intro i q hi hq hs
        obtain ⟨q2, h2⟩ := hr'.prefix ec i (r.leaves_subset hi)
        have : q = path' ++ [cr] ++ q2 := init_injective (hq.symm.trans h2)
        subst this
        have := hs cr (by simp)
        rw [hc] at this
        simpa using this
      rcases hi with hi | hi <;> rcases hk with hk | hk
      · exact ihl hl eb hi hk hq hq' hs hs'
      · have a1 := inl hi hq hs; rw [inr hk hq' hs'] at a1; cases a1
      · have a1 := inl hk hq' hs'; rw [inr hi hq hs] at a1; cases a1
      · exact ihr hr' ec hi hk hq hq' hs hs'

/-- Every node has a training row if the root has one. -/
theorem Struct.nonempty {h : Heap K n p} {s : Shape} : ∀ {d : Nat} {path : List (SplitCondition K p)}, Struct X h s d →
    (h.node s.root).split.combined = CombinedCondition.init path → (∃ r, pathRows X path r = true) →
    ∀ i ∈ s.ids, ∃ q, (h.node i).split.combined = CombinedCondition.init q ∧ ∃ r, pathRows X q r = true := by
  induction s with
  | leaf j =>
    intro d path _ hr hp i hi
    simp [Shape.ids] at hi; subst hi
    exact ⟨path, hr, hp⟩
  | node j l r ihl ihr =>
    intro d path hS hr hp i hi
    obtain ⟨-, -, -, -, r5, hl, hr'⟩ := hS
    simp only [Shape.root] at hr
    simp only [Shape.ids, List.mem_cons, List.mem_append] at hi
    rcases r5 with ⟨e1, e2, -⟩ | ⟨path', cl, cr, hsp, ea, eb, ec, -, n1, n2⟩
    · rcases hi with rfl | hi | hi
      · exact ⟨path, hr, hp⟩
      · exact ihl hl (by rw [e1]; exact hr) hp i hi
      · exact ihr hr' (by rw [e2]; exact hr) hp i hi
    · rcases hi with rfl | hi | hi
      · exact ⟨path, hr, hp⟩
      · exact ihl hl eb n1 i hi
      · exact ihr hr' ec n2 i hi

section
variable {y : Option (Fin n → K)} {t : Tree K n p} {s : Shape}

theorem OInv.outOfSample_iff (hI : OInv X y t s) {x : Fin p → Fl K} (hx : GoodRow x) {i : NodeId} (hi : i ∈ t.nodes) {q : List (SplitCondition K p)}
    (hq : (t.heap.node i).split.combined = CombinedCondition.init q) : Heap.outOfSample (t.heap.node i).split x = true ↔ ∀ c ∈ q, sat c x = true := by
  obtain ⟨q', e, hn⟩ := hI.struct.conditions hI.top (by simp) i (hI.perm.mem_iff.1 hi)
  have : q' = q := init_injective (e.symm.trans hq)
  subst this
  unfold Heap.outOfSample
  rw [hq, init_condition hn hx]

theorem OInv.rows_outOfSample (hI : OInv X y t s) {r : Fin n} (hx : GoodRow (X r)) {i : NodeId} (hi : i ∈ t.nodes) :
    Heap.outOfSample (t.heap.node i).split (X r) = rowsOf (t.heap.dataOf i) r := by
  obtain ⟨q, hk⟩ := hI.ok i (hI.perm.mem_iff.1 hi)
  rw [Bool.eq_iff_iff, hI.outOfSample_iff hx hi hk.combined, hk.rows]
  simp

/-- Every row is in a leaf. -/
theorem OInv.cover (hI : OInv X y t s) {x : Fin p → Fl K} (hx : GoodRow x) : ∃ i ∈ t.leafNodes, Heap.outOfSample (t.heap.node i).split x = true := by
  obtain ⟨i, i1, q, i2, i3⟩ := hI.struct.cover (fun v => (hx v).1) hI.top (by simp)
  have hi := hI.mem_leafNodes.2 i1
  exact ⟨i, hi, (hI.outOfSample_iff hx (List.mem_filter.1 hi).1 i2).2 i3⟩

/-- Every training row is in a leaf. -/
theorem OInv.cover_rows (hI : OInv X y t s) {r : Fin n} (hx : ∀ v, X r v ≠ .nan) : ∃ i ∈ t.leafNodes, rowsOf (t.heap.dataOf i) r = true := by
  obtain ⟨i, i1, q, i2, i3⟩ := hI.struct.cover hx hI.top (by simp)
  obtain ⟨q', hk⟩ := hI.ok i (s.leaves_subset i1)
  have : q' = q := init_injective (hk.combined.symm.trans i2)
  subst this
  exact ⟨i, hI.mem_leafNodes.2 i1, by rw [hk.rows]; simpa using i3⟩

/-- Two leaves with a row in common: the conditions, and what follows if there are two of them. -/
theorem OInv.overlap (hI : OInv X y t s) {x : Fin p → Fl K} (hx : GoodRow x) {i k : NodeId} (hi : i ∈ t.leafNodes) (hk : k ∈ t.leafNodes)
    (h1 : Heap.outOfSample (t.heap.node i).split x = true) (h2 : Heap.outOfSample (t.heap.node k).split x = true) :
    (t.heap.node i).split.combined = (t.heap.node k).split.combined ∧
      (i ≠ k → ∃ q, (t.heap.node i).split.combined = CombinedCondition.init q ∧ Flat X q) := by
  obtain ⟨q, hq⟩ := hI.ok i (hI.perm.mem_iff.1 (List.mem_filter.1 hi).1)
  obtain ⟨q', hq'⟩ := hI.ok k (hI.perm.mem_iff.1 (List.mem_filter.1 hk).1)
  obtain ⟨e, h⟩ := hI.struct.overlap (fun v => (hx v).1) hI.top (hI.mem_leafNodes.1 hi) (hI.mem_leafNodes.1 hk) hq.combined hq'.combined
    ((hI.outOfSample_iff hx (List.mem_filter.1 hi).1 hq.combined).1 h1) ((hI.outOfSample_iff hx (List.mem_filter.1 hk).1 hq'.combined).1 h2)
  subst e
  exact ⟨hq.combined.trans hq'.combined.symm, fun hne => ⟨q, hq.combined, h.resolve_left hne⟩⟩

/-- Every node has a training row. -/
theorem OInv.nonempty (hI : OInv X y t s) (hn : 0 < n) {i : NodeId} (hi : i ∈ t.nodes) : ∃ r, rowsOf (t.heap.dataOf i) r = true := by
  obtain ⟨q, e, r, hr⟩ := hI.struct.nonempty hI.top ⟨⟨0, hn⟩, by simp [pathRows]⟩ i (hI.perm.mem_iff.1 hi)
  obtain ⟨q', hk⟩ := hI.ok i (hI.perm.mem_iff.1 hi)
  have : q' = q := init_injective (hk.combined.symm.trans e)
  subst this
  exact ⟨r, by rw [hk.rows]; exact hr⟩

end

/-! ### The fold -/

/-- The values of the leaves `ls`, the last one that `P` selects deciding. -/
def lastValue (h : Heap K n p) (P : NodeId → Bool) (ls : List NodeId) (b : K) : K := ls.foldl (fun v i => if P i then (h.node i).value else v) b

theorem lastValue_base (h : Heap K n p) (P : NodeId → Bool) : ∀ (ls : List NodeId) (a b : K), (∃ i ∈ ls, P i = true) → lastValue h P ls a = lastValue h P ls b := by
  intro ls
  induction ls with
  | nil => intro a b h; simp at h
  | cons i ls ih =>
    intro a b hex
    simp only [lastValue, List.foldl_cons]
    by_cases hi : P i = true
    · simp [hi]
    · simp only [hi, Bool.false_eq_true, if_false]
      refine ih a b ?_
      obtain ⟨k, hk, hkp⟩ := hex
      rcases List.mem_cons.1 hk with rfl | hk
      · exact absurd hkp hi
      · exact ⟨k, hk, hkp⟩

theorem lastValue_congr (h : Heap K n p) {P Q : NodeId → Bool} : ∀ (ls : List NodeId) (b : K), (∀ i ∈ ls, P i = Q i) → lastValue h P ls b = lastValue h Q ls b := by
  intro ls
  induction ls with
  | nil => intro b _; rfl
  | cons i ls ih =>
    intro b hPQ
    simp only [lastValue, List.foldl_cons, hPQ i (by simp)]
    exact ih _ (fun k hk => hPQ k (by simp [hk]))

theorem predictX_last {q : Nat} (t : Tree K n p) (Z : Fin q → Fin p → Fl K) (r : Fin q) :
    t.predictX Z r = lastValue t.heap (fun i => Heap.outOfSample (t.heap.node i).split (Z r)) t.leafNodes 0 := by
  unfold Tree.predictX lastValue
  have : ∀ (ls : List NodeId) (f : Fin q → K), (ls.foldl (fun pred i r => if Heap.outOfSample (t.heap.node i).split (Z r) then (t.heap.node i).value else pred r) f) r =
      ls.foldl (fun v i => if Heap.outOfSample (t.heap.node i).split (Z r) then (t.heap.node i).value else v) (f r) := by
    intro ls
    induction ls with
    | nil => intro f; rfl
    | cons a ls ih => intro f; rw [List.foldl_cons, List.foldl_cons, ih]
  exact this _ _

theorem predictLoop_last (t : Tree K n p) : ∀ (ls : List NodeId) (f : Fin n → K),
    t.predictLoop ls (.sized f) = .ok (.sized (fun r => lastValue t.heap (fun i => rowsOf (t.heap.dataOf i) r) ls (f r))) := by
  intro ls
  induction ls with
  | nil => intro f; rfl
  | cons a ls ih =>
    intro f
    unfold Tree.predictLoop
    simp only [Tree.assignMask]
    rw [ih]
    rfl

section
variable {y : Option (Fin n → K)} {t : Tree K n p} {s : Shape}

theorem OInv.last_eq (hI : OInv X y t s) (hX : ∀ r, GoodRow (X r)) (f : Fin n → K) :
    (fun r => lastValue t.heap (fun i => rowsOf (t.heap.dataOf i) r) t.leafNodes (f r)) = t.predictX X := by
  funext r
  rw [predictX_last]
  have h1 : ∀ i ∈ t.leafNodes, rowsOf (t.heap.dataOf i) r = Heap.outOfSample (t.heap.node i).split (X r) :=
    fun i hi => (hI.rows_outOfSample (hX r) (List.mem_filter.1 hi).1).symm
  rw [lastValue_congr t.heap t.leafNodes (f r) h1]
  exact lastValue_base _ _ _ _ _ (hI.cover (hX r))

/-- In-sample prediction from a buffer of the right length. -/
theorem OInv.predict_sized (hI : OInv X y t s) (hX : ∀ r, GoodRow (X r)) (hc : t.cacheUpToDate = false) {f : Fin n → K} (hp : t.prediction = .sized f) :
    t.predict = .ok (.sized (t.predictX X), { t with cacheUpToDate := true, prediction := .sized (t.predictX X) }) := by
  unfold Tree.predict
  rw [hc, hp, predictLoop_last, hI.last_eq hX]
  rfl

end
end Bart.Oblivious
