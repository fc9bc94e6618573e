import Verif.Proofs.ArraysLemmas

/-! Sweeps and chains with arrays agree with those of the reference sampler, and change no array that others hold. -/

set_option linter.unusedSectionVars false

namespace Bart.Arrays
open Reference Spec
variable {K : Type} [Field K] [LinearOrder K] {n p : Nat} {X : Fin n → Fin p → Fl K}

/-- The state of a model; `F` are the arrays that others hold. -/
structure Inv (X : Fin n → Fin p → Fl K) (F : Set Nat) (s : MModel K n p) : Prop where
  held : ∀ l ∈ F, l < s.mem.next
  pred : ∀ l, s.prediction = some l → l < s.mem.next ∧ l ∉ F ∧ s.mem.get l = fun i => forest (s.trees.map MTree.nodes) (X i)
  caches : Caches X (F ∪ {l | s.prediction = some l}) s.mem s.trees

theorem Inv.mono {F F' : Set Nat} {s : MModel K n p} (h : Inv X F s) (hF : F' ⊆ F) : Inv X F' s :=
  ⟨fun l hl => h.held l (hF hl), fun l hl => ⟨(h.pred l hl).1, fun e => (h.pred l hl).2.1 (hF e), (h.pred l hl).2.2⟩, h.caches.mono (Set.union_subset_union_left _ hF)⟩

/-- `Model.predict()`: a new array with the sum of the trees; nothing that others hold is changed, and nobody but the caller holds the new array. -/
theorem predict_spec {F : Set Nat} {s : MModel K n p} (h : Inv X F s) : ∃ l s', s.predict X = .ok (l, s') ∧ s'.trees.map MTree.nodes = s.trees.map MTree.nodes ∧ s'.prediction = s.prediction ∧
    s'.sigma = s.sigma ∧ (s'.mem.get l = fun i => forest (s.trees.map MTree.nodes) (X i)) ∧ l ∉ F ∧ Keeps F s.mem s'.mem ∧ Inv X (insert l F) s' := by
  have hF : ∀ l ∈ F ∪ {l | s.prediction = some l}, l < s.mem.next := by
    rintro l (hl | hl)
    · exact h.held l hl
    · exact (h.pred l hl).1
  obtain ⟨ls, ts, m, a1, a2, a3, a4, a5, -, -, -⟩ := predictTrees_spec s.trees [] s.mem hF h.caches
  have hl0 : ∀ l ∈ F ∪ {l | s.prediction = some l}, l < m.next := fun l hl => lt_of_lt_of_le (hF l hl) a3.next
  refine ⟨m.next, { s with trees := ts, mem := (m.new (fun i => (ls.map (fun a => m.get a i)).sum)).2 }, ?_, a2, rfl, rfl, ?_, ?_, ?_, ?_, ?_, ?_⟩
  · unfold MModel.predict
    rw [a1]
    rfl
  · funext i
    simp only [get_new]
    rw [sum_values a5, a2]
  · intro hl
    exact absurd (hl0 _ (Or.inl hl)) (lt_irrefl _)
  · exact ⟨a3.next.trans (Nat.le_succ _), fun l hl => by rw [get_new_lt _ _ (hl0 l (Or.inl hl)), a3.keep l (Or.inl hl)]⟩
  · rintro l (rfl | hl)
    · exact Nat.lt_succ_self _
    · exact Nat.lt_succ_of_lt (hl0 l (Or.inl hl))
  · intro l hl
    obtain ⟨b1, b2, b3⟩ := h.pred l hl
    have b4 : l < m.next := lt_of_lt_of_le b1 a3.next
    refine ⟨Nat.lt_succ_of_lt b4, ?_, ?_⟩
    · rintro (e | e)
      · omega
      · exact b2 e
    · simp only
      rw [get_new_lt _ _ b4, a3.keep l (Or.inr hl), b3, a2]
  · have := Caches.new a4 (fun i => (ls.map (fun a => m.get a i)).sum)
    rw [List.nil_append] at this
    rw [Set.insert_union]
    exact this

variable [MathFns K]

theorem forest_append (a b : List (RTree K p)) (x : Fin p → Fl K) : forest (a ++ b) x = forest a x + forest b x := by simp [forest]
theorem forest_cons (t : RTree K p) (ts : List (RTree K p)) (x : Fin p → Fl K) : forest (t :: ts) x = t.value x + forest ts x := by simp [forest]

theorem loop_spec (P : Params K) (pGrow pPrune : K) (y : Fin n → K) {F : Set Nat} {pred : Nat} (hp : pred ∉ F) (ts : List (MTree K p)) : ∀ (done : List (MTree K p)) (m : Mem K n) (r : Rand K),
    (∀ l ∈ F, l < m.next) → pred < m.next → Caches X (insert pred F) m (done ++ ts) → (m.get pred = fun i => forest ((done ++ ts).map MTree.nodes) (X i)) →
    match sweepTrees P pGrow pPrune X y (done.map MTree.nodes) (ts.map MTree.nodes) r with
    | .error e => loop P pGrow pPrune X y pred done ts m r = .error e
    | .ok (bs, all, r') => ∃ ts' m', loop P pGrow pPrune X y pred done ts m r = .ok (bs, ts', m', r') ∧ ts'.map MTree.nodes = all ∧ Keeps F m m' ∧ pred < m'.next ∧
        Caches X (insert pred F) m' ts' ∧ m'.get pred = fun i => forest all (X i) := by
  induction ts with
  | nil =>
    intro done m r hF hlt hc hg
    simp only [List.map_nil, sweepTrees]
    rw [List.append_nil] at hc hg
    exact ⟨done, m, rfl, rfl, Keeps.rfl, hlt, hc, hg⟩
  | cons t ts ih =>
    intro done m r hF hlt hc hg
    have hF1 : ∀ l ∈ insert pred F, l < m.next := by
      rintro l (rfl | hl)
      · exact hlt
      · exact hF l hl
    obtain ⟨l, t1, m1, a1, a2, a3, a4, a5, a6, a7⟩ := hc.predict hF1
    simp only [List.map_cons, sweepTrees, loop, a1]
    have htarget : (fun i => y i - (m1.write pred (fun i => m1.get pred i - m1.get l i)).get pred i) = fun i => y i - forest (done.map MTree.nodes ++ ts.map MTree.nodes) (X i) := by
      funext i
      rw [get_write, a6.keep pred (Set.mem_insert _ _), a5, hg]
      simp only [List.map_append, List.map_cons, forest_append, forest_cons]
      ring
    rw [htarget, a2]
    rcases e : treeBody P pGrow pPrune X (fun i => y i - forest (done.map MTree.nodes ++ ts.map MTree.nodes) (X i)) t.nodes r with er | ⟨b, nodes, r1⟩
    · rfl
    · simp only
      have hs : Sound nodes := sound_treeBody ((hc.good t (by simp)).sound) e
      have hc2 := (a7.write (Set.mem_insert pred F) (fun i => m1.get pred i - m1.get l i)).outdate (t' := { t1 with nodes := nodes, upToDate := false }) rfl rfl hs
      have hF2 : ∀ l ∈ insert pred F, l < (m1.write pred (fun i => m1.get pred i - m1.get l i)).next := fun l hl => lt_of_lt_of_le (hF1 l hl) a6.next
      obtain ⟨l', t3, m3, b1, b2, b3, b4, b5, b6, b7⟩ := Caches.predict (m := m1.write pred (fun i => m1.get pred i - m1.get l i)) hF2 hc2
      rw [b1]
      simp only
      have hkeep : Keeps F m (m3.write pred (fun i => m3.get pred i + m3.get l' i)) := by
        refine ⟨a6.next.trans b6.next, fun q hq => ?_⟩
        have hqp : q ≠ pred := by rintro rfl; exact hp hq
        rw [get_write_ne _ _ hqp, b6.keep q (Set.mem_insert_of_mem _ hq), get_write_ne _ _ hqp, a6.keep q (Set.mem_insert_of_mem _ hq)]
      have hc3 : Caches X (insert pred F) (m3.write pred (fun i => m3.get pred i + m3.get l' i)) ((done ++ [t3]) ++ ts) := by
        have := b7.write (Set.mem_insert pred F) (fun i => m3.get pred i + m3.get l' i)
        simpa using this
      have hg3 : (m3.write pred (fun i => m3.get pred i + m3.get l' i)).get pred = fun i => forest (((done ++ [t3]) ++ ts).map MTree.nodes) (X i) := by
        rw [get_write]
        funext i
        rw [b6.keep pred (Set.mem_insert _ _), get_write, a6.keep pred (Set.mem_insert _ _), a5, b5, hg]
        simp only [List.map_append, List.map_cons, List.map_nil, forest_append, forest_cons, b2]
        simp only [forest, List.map_nil, List.sum_nil]
        ring
      have := ih (done ++ [t3]) _ r1 (fun q hq => lt_of_lt_of_le (hF q hq) hkeep.next) (lt_of_lt_of_le hlt hkeep.next) hc3 hg3
      rw [List.map_append, List.map_cons, List.map_nil, b2] at this
      simp only at this
      rcases e2 : sweepTrees P pGrow pPrune X y (done.map MTree.nodes ++ [nodes]) (ts.map MTree.nodes) r1 with er | ⟨bs, all, r2⟩
      · rw [e2] at this
        simp only at this
        simp only [this]
      · rw [e2] at this
        obtain ⟨ts', m', c1, c2, c3, c4, c5, c6⟩ := this
        simp only [c1]
        exact ⟨ts', m', rfl, c2, hkeep.trans c3, c4, c5, c6⟩

/-- The trees and sigma, without the arrays. -/
def MModel.state (s : MModel K n p) : State K p := ⟨s.trees.map MTree.nodes, s.sigma⟩

/-- A sweep does to trees and sigma what a sweep of the reference sampler does, and changes no array that others hold. -/
theorem sweep_spec (c : Settings K) (y : Fin n → K) {F : Set Nat} {s : MModel K n p} (h : Inv X F s) (r : Rand K) :
    match Reference.sweep c X y s.state r with
    | .error e => s.sweep c X y r = .error e
    | .ok (bs, st, r') => ∃ s', s.sweep c X y r = .ok (bs, s', r') ∧ s'.state = st ∧ Keeps F s.mem s'.mem ∧ Inv X F s' := by
  have hfirst : ∃ l s1, s.running X = .ok (l, s1) ∧ s1.trees.map MTree.nodes = s.trees.map MTree.nodes ∧ s1.sigma = s.sigma ∧
      Keeps F s.mem s1.mem ∧ (∀ l ∈ F, l < s1.mem.next) ∧ l ∉ F ∧ l < s1.mem.next ∧ Caches X (insert l F) s1.mem s1.trees ∧ s1.mem.get l = fun i => forest (s1.trees.map MTree.nodes) (X i) := by
    unfold MModel.running
    cases hp : s.prediction with
    | some l =>
      obtain ⟨b1, b2, b3⟩ := h.pred l hp
      refine ⟨l, s, rfl, rfl, rfl, Keeps.rfl, h.held, b2, b1, h.caches.mono ?_, b3⟩
      rintro q (rfl | hq)
      · exact Or.inr hp
      · exact Or.inl hq
    | none =>
      obtain ⟨l, s1, a1, a2, a3, a4, a5, a6, a7, a8⟩ := predict_spec h
      refine ⟨l, s1, a1, a2, a4, a7, fun q hq => a8.held q (Set.mem_insert_of_mem _ hq), a6, a8.held l (Set.mem_insert _ _), a8.caches.mono Set.subset_union_left, by rw [a2]; exact a5⟩
  obtain ⟨pred, s1, a1, a2, a3, a4, a5, a6, a7, a8, a9⟩ := hfirst
  unfold MModel.sweep Reference.sweep
  simp only [a1]
  have hl := loop_spec (c.params s1.sigma) c.pGrow c.pPrune y a6 s1.trees [] s1.mem r a5 a7 a8 a9
  rw [List.map_nil, a2, a3] at hl
  rw [a3]
  rw [show s.state.sigma = s.sigma from rfl, show s.state.trees = s.trees.map MTree.nodes from rfl]
  rcases e : sweepTrees (c.params s.sigma) c.pGrow c.pPrune X y [] (s.trees.map MTree.nodes) r with er | ⟨bs, all, r1⟩
  · rw [e] at hl
    simp only at hl ⊢
    rw [hl]
  · rw [e] at hl
    obtain ⟨ts, m, b1, b2, b3, b4, b5, b6⟩ := hl
    simp only [b1]
    have hinv : Inv X F (⟨ts, some pred, s.sigma, m⟩ : MModel K n p) := by
      refine ⟨fun q hq => lt_of_lt_of_le (a5 q hq) b3.next, fun q hq => ?_, b5.mono ?_⟩
      · injection hq with e; subst e
        exact ⟨b4, a6, by rw [b6, b2]⟩
      · rintro q (hq | hq)
        · exact Set.mem_insert_of_mem _ hq
        · injection hq with e; subst e; exact Set.mem_insert _ _
    obtain ⟨l, s2, c1, c2, c3, c4, c5, c6, c7, c8⟩ := predict_spec hinv
    rw [c1]
    simp only
    have hsig : sigmaDraw c (fun i => y i - s2.mem.get l i) r1.gammas = sigmaStep c X y all r1.gammas := by
      unfold sigmaDraw sigmaStep
      rw [c5]
      simp only [b2]
      rfl
    rw [hsig]
    rcases sigmaStep c X y all r1.gammas with er | ⟨v, gs⟩
    · rfl
    · simp only
      refine ⟨{ s2 with sigma := v }, rfl, ?_, a4.trans (b3.trans c7), ?_⟩
      · rw [show MModel.state { s2 with sigma := v } = ⟨s2.trees.map MTree.nodes, v⟩ from rfl, c2, b2]
      · have := c8.mono (Set.subset_insert l F)
        exact ⟨this.held, this.pred, this.caches⟩

theorem start_inv (c : Settings K) : Inv X ∅ (start c : MModel K n p) := by
  refine ⟨by simp, fun l hl => by simp [start] at hl, fun t ht => ?_, fun t ht l hl => ?_, ?_⟩
  · rw [start, List.mem_replicate] at ht
    rw [ht.2]
    exact ⟨sound_root, fun h => by cases h⟩
  · rw [start, List.mem_replicate] at ht
    rw [ht.2] at hl
    cases hl
  · simp only [start]
    rw [List.pairwise_replicate]
    exact Or.inr fun l hl => by cases hl

theorem start_state (c : Settings K) : (start c : MModel K n p).state = Reference.start c := by simp [start, MModel.state, Reference.start]

/-- Sweeps of the reference sampler one after the other. -/
theorem sweeps_add (c : Settings K) (y : Fin n → K) (a b : Nat) : ∀ (s : State K p) (r : Rand K), sweeps c X y (a + b) s r = match sweeps c X y a s r with
    | .error e => .error e
    | .ok (l, s1, r1) => match sweeps c X y b s1 r1 with
      | .error e => .error e
      | .ok (l', s2, r2) => .ok (l ++ l', s2, r2) := by
  induction a with
  | zero =>
    intro s r
    simp only [Nat.zero_add, sweeps]
    rcases sweeps c X y b s r with e | ⟨l, s1, r1⟩ <;> rfl
  | succ a ih =>
    intro s r
    rw [Nat.succ_add]
    simp only [sweeps]
    rcases Reference.sweep c X y s r with e | ⟨bs, s1, r1⟩
    · rfl
    · simp only [ih]
      rcases sweeps c X y a s1 r1 with e | ⟨l, s2, r2⟩
      · rfl
      · simp only
        rcases sweeps c X y b s2 r2 with e | ⟨l', s3, r3⟩ <;> rfl

theorem burn_spec (c : Settings K) (y : Fin n → K) (k : Nat) : ∀ {F : Set Nat} {s : MModel K n p} (_ : Inv X F s) (r : Rand K),
    match sweeps c X y k s.state r with
    | .error e => burn c X y k s r = .error e
    | .ok (_, st, r') => ∃ s', burn c X y k s r = .ok (s', r') ∧ s'.state = st ∧ Keeps F s.mem s'.mem ∧ Inv X F s' := by
  induction k with
  | zero => exact fun h r => ⟨_, rfl, rfl, Keeps.rfl, h⟩
  | succ k ih =>
    intro F s h r
    have h1 := sweep_spec c y h r
    simp only [sweeps, burn]
    rcases e : Reference.sweep c X y s.state r with er | ⟨bs, st, r1⟩
    · rw [e] at h1
      simp only at h1 ⊢
      rw [h1]
    · rw [e] at h1
      obtain ⟨s1, a1, a2, a3, a4⟩ := h1
      simp only [a1]
      have h2 := ih a4 r1
      rw [a2] at h2
      rcases e2 : sweeps c X y k st r1 with er | ⟨l, st2, r2⟩
      · rw [e2] at h2; exact h2
      · rw [e2] at h2
        obtain ⟨s2, b1, b2, b3, b4⟩ := h2
        exact ⟨s2, b1, b2, a3.trans b3, b4⟩

/-- The kept arrays, read at the end, contain the predictions at the time when they were kept. -/
theorem sampling_spec (c : Settings K) (y : Fin n → K) (kept : Nat → Bool) (k : Nat) : ∀ (ss : Nat) {F : Set Nat} {s : MModel K n p} (_ : Inv X F s) (r : Rand K),
    match sweeps c X y k s.state r with
    | .error e => sampling c X y kept ss k s r = .error e
    | .ok (l, _, r') => ∃ ls s', sampling c X y kept ss k s r = .ok (ls, s', r') ∧ Keeps F s.mem s'.mem ∧ Inv X F s' ∧
        ls.map s'.mem.get = ((l.zipIdx ss).filter (fun a => kept a.2)).map (fun a i => forest a.1.2.trees (X i)) := by
  induction k with
  | zero => exact fun ss F s h r => ⟨[], _, rfl, Keeps.rfl, h, rfl⟩
  | succ k ih =>
    intro ss F s h r
    have h1 := sweep_spec c y h r
    simp only [sweeps, sampling]
    rcases e : Reference.sweep c X y s.state r with er | ⟨bs, st, r1⟩
    · rw [e] at h1
      simp only at h1 ⊢
      rw [h1]
    · rw [e] at h1
      obtain ⟨s1, a1, a2, a3, a4⟩ := h1
      simp only [a1]
      by_cases hk : kept ss = true
      · rw [if_pos hk]
        obtain ⟨l, s2, b1, b2, b3, b4, b5, b6, b7, b8⟩ := predict_spec a4
        simp only [b1]
        have h2 := ih (ss + 1) b8 r1
        have hst : s2.state = st := by rw [← a2]; simp only [MModel.state, b2, b4]
        rw [hst] at h2
        rcases e2 : sweeps c X y k st r1 with er | ⟨l', st2, r2⟩
        · rw [e2] at h2
          simp only at h2 ⊢
          rw [h2]
        · rw [e2] at h2
          obtain ⟨ls, s3, c1, c2, c3, c4⟩ := h2
          simp only [c1]
          refine ⟨l :: ls, s3, rfl, a3.trans (b7.trans ⟨c2.next, fun q hq => c2.keep q (Set.mem_insert_of_mem _ hq)⟩), c3.mono (Set.subset_insert _ _), ?_⟩
          rw [List.zipIdx_cons, List.filter_cons, if_pos (by simpa using hk), List.map_cons, List.map_cons, c4, c2.keep l (Set.mem_insert _ _), b5, ← a2]
          rfl
      · rw [if_neg hk]
        have h2 := ih (ss + 1) a4 r1
        rw [a2] at h2
        rcases e2 : sweeps c X y k st r1 with er | ⟨l', st2, r2⟩
        · rw [e2] at h2; exact h2
        · rw [e2] at h2
          obtain ⟨ls, s3, c1, c2, c3, c4⟩ := h2
          refine ⟨ls, s3, c1, a3.trans c2, c3, ?_⟩
          rw [List.zipIdx_cons, List.filter_cons, if_neg (by simpa using hk), c4]

end Bart.Arrays
