import Verif.Model.Arrays
import Verif.Proofs.RefSound
import Mathlib.Tactic.Ring

/-! The arrays of a model: who owns which, and what they contain. -/

set_option linter.unusedSectionVars false

namespace Bart.Arrays
open Reference Spec
variable {K : Type} [Field K] [LinearOrder K] {n p : Nat} {X : Fin n → Fin p → Fl K}

theorem get_write (m : Mem K n) (l : Nat) (a : Fin n → K) : (m.write l a).get l = a := by simp [Mem.write]
theorem get_write_ne (m : Mem K n) {l l' : Nat} (a : Fin n → K) (h : l' ≠ l) : (m.write l a).get l' = m.get l' := by simp [Mem.write, h]
theorem get_new (m : Mem K n) (a : Fin n → K) : (m.new a).2.get m.next = a := by simp [Mem.new]
theorem get_new_lt (m : Mem K n) (a : Fin n → K) {l : Nat} (h : l < m.next) : (m.new a).2.get l = m.get l := by simp [Mem.new, Nat.ne_of_lt h]

/-- The memory `m'` comes from `m` by changes of the array `l` and by new arrays only. -/
structure Only (l : Nat) (m m' : Mem K n) : Prop where
  next : m.next ≤ m'.next
  keep : ∀ l' < m.next, l' ≠ l → m'.get l' = m.get l'

/-- Writing leaves into an existing array. -/
theorem foldl_some (l : Nat) (nodes : List (RNode K p)) : ∀ m : Mem K n, ∃ m' : Mem K n, nodes.foldl (writeLeaf X) (some l, m) = (some l, m') ∧ m'.next = m.next ∧ (∀ l' ≠ l, m'.get l' = m.get l') ∧
    (∀ i, (∃ nd ∈ nodes, nd.isLeaf = true ∧ nd.reaches (X i) = true ∧ nd.content = .leaf (m'.get l i)) ∨
      ((∀ nd ∈ nodes, nd.isLeaf = true → nd.reaches (X i) = false) ∧ m'.get l i = m.get l i)) := by
  induction nodes with
  | nil => exact fun m => ⟨m, rfl, rfl, fun _ _ => rfl, fun i => Or.inr ⟨by simp, rfl⟩⟩
  | cons nd nodes ih =>
    intro m
    rcases nd with ⟨q, v | ⟨j, v⟩⟩
    · obtain ⟨m', h1, h2, h3, h4⟩ := ih (m.write l (fun i => if RNode.reaches ⟨q, .leaf v⟩ (X i) then v else m.get l i))
      refine ⟨m', h1, h2, fun l' hl' => ?_, fun i => ?_⟩
      · rw [h3 l' hl', get_write_ne _ _ hl']
      · rcases h4 i with ⟨nd, a1, a2, a3, a4⟩ | ⟨a1, a2⟩
        · exact Or.inl ⟨nd, List.mem_cons_of_mem _ a1, a2, a3, a4⟩
        · rw [get_write] at a2
          by_cases hr : RNode.reaches ⟨q, .leaf v⟩ (X i) = true
          · rw [if_pos hr] at a2
            exact Or.inl ⟨_, List.mem_cons_self, rfl, hr, by rw [a2]⟩
          · rw [if_neg hr] at a2
            refine Or.inr ⟨fun nd hnd => ?_, a2⟩
            rcases List.mem_cons.1 hnd with rfl | hnd
            · exact fun _ => by simpa using hr
            · exact a1 nd hnd
    · obtain ⟨m', h1, h2, h3, h4⟩ := ih m
      refine ⟨m', h1, h2, h3, fun i => ?_⟩
      rcases h4 i with ⟨nd, a1, a2, a3, a4⟩ | ⟨a1, a2⟩
      · exact Or.inl ⟨nd, List.mem_cons_of_mem _ a1, a2, a3, a4⟩
      · refine Or.inr ⟨fun nd hnd => ?_, a2⟩
        rcases List.mem_cons.1 hnd with rfl | hnd
        · intro h; simp [RNode.isLeaf] at h
        · exact a1 nd hnd

/-- Writing leaves without an array: one is made at the first leaf. -/
theorem foldl_none (nodes : List (RNode K p)) (h : ∃ nd ∈ nodes, nd.isLeaf = true) : ∀ m : Mem K n,
    nodes.foldl (writeLeaf X) (none, m) = nodes.foldl (writeLeaf X) (some m.next, (m.new (fun _ => 0)).2) := by
  induction nodes with
  | nil => obtain ⟨nd, h1, -⟩ := h; simp at h1
  | cons nd nodes ih =>
    intro m
    rcases nd with ⟨q, v | ⟨j, v⟩⟩
    · rfl
    · obtain ⟨nd, h1, h2⟩ := h
      have h3 : ∃ nd ∈ nodes, nd.isLeaf = true := by
        rcases List.mem_cons.1 h1 with rfl | h1
        · simp [RNode.isLeaf] at h2
        · exact ⟨nd, h1, h2⟩
      exact ih h3 m

theorem value_of_leaf {t : RTree K p} (h : Sound t) {nd : RNode K p} (hin : nd ∈ t) {v : K} (hc : nd.content = .leaf v) {x : Fin p → Fl K} (hr : nd.reaches x = true) : t.value x = v := by
  have hl : nd.isLeaf = true := by unfold RNode.isLeaf; rw [hc]
  unfold RTree.value
  cases e : List.find? (fun nd : RNode K p => nd.isLeaf && nd.reaches x) t with
  | none =>
    rw [List.find?_eq_none] at e
    have := e nd hin
    simp [hl, hr] at this
  | some nd' =>
    have h1 := List.find?_some e
    simp only [Bool.and_eq_true] at h1
    have h2 := h.unique x nd hin nd' (List.mem_of_find?_eq_some e) hl h1.1 hr h1.2
    subst h2
    rcases nd with ⟨q, c⟩
    simp only at hc
    subst hc
    rfl

/-- The cache of a tree is its values if it is marked as such. -/
structure TreeGood (X : Fin n → Fin p → Fl K) (m : Mem K n) (t : MTree K p) : Prop where
  sound : Sound t.nodes
  cached : t.upToDate = true → ∃ l, t.prediction = some l ∧ m.get l = fun i => t.nodes.value (X i)

/-- `Tree.predict()`: the array contains the values of the tree; no other array is changed. -/
theorem treePredict_spec {m : Mem K n} {t : MTree K p} (h : TreeGood X m t) : ∃ l t' m', t.predict X m = (some l, t', m') ∧ t'.nodes = t.nodes ∧ t'.upToDate = true ∧ t'.prediction = some l ∧
    (m'.get l = fun i => t.nodes.value (X i)) ∧ Only l m m' ∧ (t.prediction = some l ∨ (t.prediction = none ∧ l = m.next ∧ l < m'.next)) := by
  unfold MTree.predict
  by_cases hu : t.upToDate = true
  · obtain ⟨l, h1, h2⟩ := h.cached hu
    rw [if_pos hu]
    exact ⟨l, t, m, by rw [h1], rfl, hu, h1, h2, ⟨le_refl _, fun _ _ _ => rfl⟩, Or.inl h1⟩
  · rw [if_neg hu]
    have key : ∀ (l : Nat) (m1 : Mem K n), ∃ m', t.nodes.foldl (writeLeaf X) (some l, m1) = (some l, m') ∧ m'.next = m1.next ∧ (∀ l' ≠ l, m'.get l' = m1.get l') ∧
        m'.get l = fun i => t.nodes.value (X i) := by
      intro l m1
      obtain ⟨m', h1, h2, h3, h4⟩ := foldl_some (X := X) l t.nodes m1
      refine ⟨m', h1, h2, h3, funext fun i => ?_⟩
      rcases h4 i with ⟨nd, a1, a2, a3, a4⟩ | ⟨a1, -⟩
      · exact (value_of_leaf h.sound a1 a4 a3).symm
      · obtain ⟨nd, b1, b2, b3⟩ := h.sound.some (X i)
        rw [a1 nd b1 b2] at b3
        cases b3
    cases hp : t.prediction with
    | some l =>
      obtain ⟨m', h1, h2, h3, h4⟩ := key l m
      simp only [h1]
      exact ⟨l, _, m', rfl, rfl, rfl, rfl, h4, ⟨le_of_eq h2.symm, fun l' _ hl => h3 l' hl⟩, Or.inl rfl⟩
    | none =>
      obtain ⟨nd, b1, b2, -⟩ := h.sound.some (fun _ => .nan)
      rw [foldl_none t.nodes ⟨nd, b1, b2⟩ m]
      obtain ⟨m', h1, h2, h3, h4⟩ := key m.next (m.new (fun _ => 0)).2
      simp only [h1]
      have h5 : m'.next = m.next + 1 := h2
      exact ⟨m.next, _, m', rfl, rfl, rfl, rfl, h4, ⟨by omega, fun l' hl1 hl2 => by rw [h3 l' hl2, get_new_lt _ _ hl1]⟩, Or.inr ⟨trivial, rfl, by omega⟩⟩

/-- The caches of the trees are different arrays that exist, and none of them is an array from `F`. -/
structure Caches (X : Fin n → Fin p → Fl K) (F : Set Nat) (m : Mem K n) (ts : List (MTree K p)) : Prop where
  good : ∀ t ∈ ts, TreeGood X m t
  own : ∀ t ∈ ts, ∀ l, t.prediction = some l → l < m.next ∧ l ∉ F
  apart : ts.Pairwise (fun a b => ∀ l, a.prediction = some l → b.prediction ≠ some l)

/-- The arrays from `F` exist and are not changed. -/
structure Keeps (F : Set Nat) (m m' : Mem K n) : Prop where
  next : m.next ≤ m'.next
  keep : ∀ l ∈ F, m'.get l = m.get l

theorem Keeps.trans {F : Set Nat} {m m' m'' : Mem K n} (h : Keeps F m m') (h' : Keeps F m' m'') : Keeps F m m'' :=
  ⟨h.next.trans h'.next, fun l hl => (h'.keep l hl).trans (h.keep l hl)⟩

theorem Keeps.rfl {F : Set Nat} {m : Mem K n} : Keeps F m m := ⟨le_refl _, fun _ _ => Eq.refl _⟩

/-- A tree is good as long as its cache is not changed. -/
theorem TreeGood.only {m m' : Mem K n} {l : Nat} {t : MTree K p} (h : TreeGood X m t) (ho : Only l m m') (h1 : ∀ l', t.prediction = some l' → l' < m.next ∧ l' ≠ l) : TreeGood X m' t := by
  refine ⟨h.sound, fun hu => ?_⟩
  obtain ⟨l', a1, a2⟩ := h.cached hu
  exact ⟨l', a1, by rw [ho.keep l' (h1 l' a1).1 (h1 l' a1).2, a2]⟩

/-- The prediction of one tree among others. -/
theorem Caches.predict {F : Set Nat} {m : Mem K n} {done ts : List (MTree K p)} {t : MTree K p} (hF : ∀ l ∈ F, l < m.next) (h : Caches X F m (done ++ t :: ts)) :
    ∃ l t' m', t.predict X m = (some l, t', m') ∧ t'.nodes = t.nodes ∧ t'.upToDate = true ∧ t'.prediction = some l ∧ (m'.get l = fun i => t.nodes.value (X i)) ∧ Keeps F m m' ∧
      Caches X F m' (done ++ t' :: ts) := by
  obtain ⟨l, t', m', h1, h2, h3, h4, h5, h6, h7⟩ := treePredict_spec (h.good t (by simp))
  have hlt : l < m'.next := by
    rcases h7 with h7 | ⟨-, -, h7⟩
    · exact lt_of_lt_of_le (h.own t (by simp) l h7).1 h6.next
    · exact h7
  have hlF : l ∉ F := by
    rcases h7 with h7 | ⟨-, h7, -⟩
    · exact (h.own t (by simp) l h7).2
    · intro hl; have := hF l hl; omega
  have hne : ∀ a ∈ done ++ ts, ∀ l', a.prediction = some l' → l' ≠ l := by
    intro a ha l' hl' e
    subst e
    rcases h7 with h7 | ⟨-, h7, -⟩
    · have hap := h.apart
      rw [List.pairwise_append, List.pairwise_cons] at hap
      rcases List.mem_append.1 ha with ha | ha
      · exact hap.2.2 a ha t (by simp) l' hl' h7
      · exact hap.2.1.1 a ha l' h7 hl'
    · have := (h.own a (by rcases List.mem_append.1 ha with ha | ha <;> simp [ha]) l' hl').1
      omega
  have hmem : ∀ a, a ∈ done ++ t' :: ts → a = t' ∨ a ∈ done ++ ts := by
    intro a ha
    simp only [List.mem_append, List.mem_cons] at ha ⊢
    tauto
  have hold : ∀ a ∈ done ++ ts, a ∈ done ++ t :: ts := by
    intro a ha
    simp only [List.mem_append, List.mem_cons] at ha ⊢
    tauto
  refine ⟨l, t', m', h1, h2, h3, h4, h5, ⟨h6.next, fun l' hl' => h6.keep l' (hF l' hl') (fun e => hlF (e ▸ hl'))⟩, ?_, ?_, ?_⟩
  · intro a ha
    rcases hmem a ha with rfl | ha
    · exact ⟨by rw [h2]; exact (h.good t (by simp)).sound, fun _ => ⟨l, h4, by rw [h2]; exact h5⟩⟩
    · exact (h.good a (hold a ha)).only h6 fun l' hl' => ⟨(h.own a (hold a ha) l' hl').1, hne a ha l' hl'⟩
  · intro a ha l' hl'
    rcases hmem a ha with rfl | ha
    · rw [h4] at hl'; injection hl' with e; subst e; exact ⟨hlt, hlF⟩
    · exact ⟨lt_of_lt_of_le (h.own a (hold a ha) l' hl').1 h6.next, (h.own a (hold a ha) l' hl').2⟩
  · have hap := h.apart
    rw [List.pairwise_append, List.pairwise_cons] at hap ⊢
    refine ⟨hap.1, ⟨fun a ha l' hl' hl2 => ?_, hap.2.1.2⟩, fun a ha b hb l' hl' hl2 => ?_⟩
    · rw [h4] at hl'; injection hl' with e; subst e
      exact hne a (by simp [ha]) _ hl2 rfl
    · rcases List.mem_cons.1 hb with rfl | hb
      · rw [h4] at hl2; injection hl2 with e; subst e
        exact hne a (by simp [ha]) _ hl' rfl
      · exact hap.2.2 a ha b (by simp [hb]) l' hl' hl2

/-- A change of an array from `F` leaves the caches as they are. -/
theorem Caches.write {F : Set Nat} {m : Mem K n} {ts : List (MTree K p)} (h : Caches X F m ts) {l : Nat} (hl : l ∈ F) (a : Fin n → K) : Caches X F (m.write l a) ts :=
  ⟨fun t ht => (h.good t ht).only ⟨le_refl _, fun l' _ hne => get_write_ne _ _ hne⟩ fun l' hl' => ⟨(h.own t ht l' hl').1, fun e => (h.own t ht l' hl').2 (e ▸ hl)⟩,
    h.own, h.apart⟩

/-- A new array leaves the caches as they are; it can be added to `F`. -/
theorem Caches.new {F : Set Nat} {m : Mem K n} {ts : List (MTree K p)} (h : Caches X F m ts) (a : Fin n → K) : Caches X (insert m.next F) (m.new a).2 ts := by
  refine ⟨fun t ht => (h.good t ht).only (l := m.next) ⟨Nat.le_succ _, fun l' hl _ => get_new_lt _ _ hl⟩ fun l' hl' => ⟨(h.own t ht l' hl').1, ?_⟩, fun t ht l hl => ?_, h.apart⟩
  · have := (h.own t ht l' hl').1; omega
  · have := h.own t ht l hl
    refine ⟨Nat.lt_succ_of_lt this.1, ?_⟩
    rintro (e | e)
    · omega
    · exact this.2 e

theorem Caches.mono {F F' : Set Nat} {m : Mem K n} {ts : List (MTree K p)} (h : Caches X F m ts) (hF : F' ⊆ F) : Caches X F' m ts :=
  ⟨h.good, fun t ht l hl => ⟨(h.own t ht l hl).1, fun e => (h.own t ht l hl).2 (hF e)⟩, h.apart⟩

/-- Another tree with the same cache, which is marked as out of date. -/
theorem Caches.outdate {F : Set Nat} {m : Mem K n} {done ts : List (MTree K p)} {t t' : MTree K p} (h : Caches X F m (done ++ t :: ts)) (h1 : t'.prediction = t.prediction) (h2 : t'.upToDate = false)
    (h3 : Sound t'.nodes) : Caches X F m (done ++ t' :: ts) := by
  have hmem : ∀ a, a ∈ done ++ t' :: ts → a = t' ∨ a ∈ done ++ t :: ts := by
    intro a ha
    simp only [List.mem_append, List.mem_cons] at ha ⊢
    tauto
  refine ⟨fun a ha => ?_, fun a ha l hl => ?_, ?_⟩
  · rcases hmem a ha with rfl | ha
    · exact ⟨h3, fun hu => by rw [h2] at hu; cases hu⟩
    · exact h.good a ha
  · rcases hmem a ha with rfl | ha
    · exact h.own t (by simp) l (by rw [← h1]; exact hl)
    · exact h.own a ha l hl
  · have hap := h.apart
    rw [List.pairwise_append, List.pairwise_cons] at hap ⊢
    refine ⟨hap.1, ⟨fun a ha l' hl' => hap.2.1.1 a ha l' (by rw [← h1]; exact hl'), hap.2.1.2⟩, fun a ha b hb l' hl' hl2 => ?_⟩
    rcases List.mem_cons.1 hb with rfl | hb
    · exact hap.2.2 a ha t (by simp) l' hl' (by rw [← h1]; exact hl2)
    · exact hap.2.2 a ha b (by simp [hb]) l' hl' hl2

/-- The predictions of all trees. -/
theorem predictTrees_spec {F : Set Nat} (ts : List (MTree K p)) : ∀ (done : List (MTree K p)) (m : Mem K n), (∀ l ∈ F, l < m.next) → Caches X F m (done ++ ts) →
    ∃ ls ts' m', predictTrees X ts m = .ok (ls, ts', m') ∧ ts'.map MTree.nodes = ts.map MTree.nodes ∧ Keeps F m m' ∧ Caches X F m' (done ++ ts') ∧
      List.Forall₂ (fun l t => m'.get l = fun i => RTree.value t.nodes (X i)) ls ts' ∧ List.Forall₂ (fun l t => t.prediction = some l) ls ts' ∧ (∀ t ∈ ts', t.upToDate = true) ∧
      (∀ t ∈ done, ∀ l, t.prediction = some l → m'.get l = m.get l) := by
  induction ts with
  | nil => exact fun done m _ h => ⟨[], [], m, rfl, rfl, Keeps.rfl, h, List.Forall₂.nil, List.Forall₂.nil, by simp, fun _ _ _ _ => rfl⟩
  | cons t ts ih =>
    intro done m hF h
    obtain ⟨l, t', m1, h1, h2, h3, h4, h5, h6, h7⟩ := h.predict hF
    have h7' : Caches X F m1 ((done ++ [t']) ++ ts) := by simpa using h7
    obtain ⟨ls, ts', m2, a1, a2, a3, a4, a5, a6, a7, a8⟩ := ih (done ++ [t']) m1 (fun l hl => lt_of_lt_of_le (hF l hl) h6.next) h7'
    have hl2 : m2.get l = fun i => RTree.value t'.nodes (X i) := by rw [a8 t' (by simp) l h4, h5, h2]
    refine ⟨l :: ls, t' :: ts', m2, ?_, ?_, h6.trans a3, by simpa using a4, List.Forall₂.cons hl2 a5, List.Forall₂.cons h4 a6, ?_, fun a ha l' hl' => ?_⟩
    · simp only [predictTrees, h1, a1]
    · simp only [List.map_cons, h2, a2]
    · intro a ha
      rcases List.mem_cons.1 ha with rfl | ha
      · exact h3
      · exact a7 a ha
    · rw [a8 a (by simp [ha]) l' hl']
      have hg := treePredict_spec (h.good t (by simp))
      obtain ⟨l0, t0, m0, b1, b2, b3, b4, b5, b6, b7⟩ := hg
      rw [h1] at b1
      injection b1 with e1 e2; injection e1 with e1; injection e2 with e2 e3; subst e1 e2 e3
      refine b6.keep l' (h.own a (by simp [ha]) l' hl').1 ?_
      rintro rfl
      have hap := h7.apart
      rw [List.pairwise_append] at hap
      exact hap.2.2 a ha t' (by simp) l' hl' h4

theorem sum_values {ls : List Nat} {ts : List (MTree K p)} {m : Mem K n} (h : List.Forall₂ (fun l t => m.get l = fun i => RTree.value t.nodes (X i)) ls ts) (i : Fin n) :
    (ls.map (fun a => m.get a i)).sum = forest (ts.map MTree.nodes) (X i) := by
  unfold forest
  induction h with
  | nil => rfl
  | cons h1 _ ih => simp only [List.map_cons, List.sum_cons, ih, h1]

end Bart.Arrays
