import Verif.Proofs.ArraysRun
import Verif.Props.ReferenceProps

/-! C114: predictions that were returned or stored do not change afterwards, and a user can write into them; the arrays that `predict()` of a single tree returns do change. -/

set_option linter.unusedSectionVars false

namespace Bart
open Reference Spec Arrays
variable {K : Type} [Field K] [LinearOrder K] {n p : Nat} {X : Fin n → Fin p → Fl K} [MathFns K]

namespace Arrays

/-- What an operation does to trees and sigma. -/
def Op.apply (c : Settings K) (X : Fin n → Fin p → Fl K) (y : Fin n → K) (s : State K p) : Op K → Except PyErr (State K p)
  | .sweep r =>
    match Reference.sweep c X y s r with
    | .error e => .error e
    | .ok (_, s1, _) => .ok s1
  | .predict => .ok s
  | .treePredict i => if i < s.trees.length then .ok s else .error .indexError

/-- What operations do to trees and sigma. -/
def applyAll (c : Settings K) (X : Fin n → Fin p → Fl K) (y : Fin n → K) : List (Op K) → State K p → Except PyErr (State K p)
  | [], s => .ok s
  | o :: os, s =>
    match o.apply c X y s with
    | .error e => .error e
    | .ok s1 => applyAll c X y os s1

theorem run_spec (c : Settings K) (y : Fin n → K) {F : Set Nat} {s : MModel K n p} (h : Inv X F s) (o : Op K) :
    match o.apply c X y s.state with
    | .error e => s.run c X y o = .error e
    | .ok st => ∃ a s', s.run c X y o = .ok (a, s') ∧ s'.state = st ∧ Keeps F s.mem s'.mem ∧ Inv X F s' := by
  cases o with
  | sweep r =>
    have h1 := sweep_spec c y h r
    simp only [Op.apply, MModel.run]
    rcases e : Reference.sweep c X y s.state r with er | ⟨bs, st, r'⟩
    · rw [e] at h1
      simp only at h1 ⊢
      rw [h1]
    · rw [e] at h1
      obtain ⟨s', a1, a2, a3, a4⟩ := h1
      simp only [a1]
      exact ⟨none, s', rfl, a2, a3, a4⟩
  | predict =>
    obtain ⟨l, s', a1, a2, a3, a4, a5, a6, a7, a8⟩ := predict_spec h
    simp only [Op.apply, MModel.run, a1]
    exact ⟨some l, s', rfl, by simp only [MModel.state, a2, a4], a7, a8.mono (Set.subset_insert _ _)⟩
  | treePredict i =>
    simp only [Op.apply, MModel.run]
    by_cases hi : i < s.trees.length
    · have hi' : i < s.state.trees.length := by simpa [MModel.state] using hi
      rw [if_pos hi', List.getElem?_eq_getElem hi]
      simp only
      have hsplit : s.trees = s.trees.take i ++ s.trees[i] :: s.trees.drop (i + 1) := by simp
      have hF : ∀ l ∈ F ∪ {l | s.prediction = some l}, l < s.mem.next := by
        rintro l (hl | hl)
        · exact h.held l hl
        · exact (h.pred l hl).1
      have hc := h.caches
      rw [hsplit] at hc
      obtain ⟨l, t', m', a1, a2, a3, a4, a5, a6, a7⟩ := hc.predict hF
      rw [a1]
      simp only
      have hset : s.trees.set i t' = s.trees.take i ++ t' :: s.trees.drop (i + 1) := List.set_eq_take_append_cons_drop .. |>.trans (if_pos hi)
      have hnodes : (s.trees.set i t').map MTree.nodes = s.trees.map MTree.nodes := by
        rw [hset]
        conv_rhs => rw [hsplit]
        simp only [List.map_append, List.map_cons, a2]
      refine ⟨some l, _, rfl, by simp only [MModel.state, hnodes], ⟨a6.next, fun q hq => a6.keep q (Or.inl hq)⟩, ⟨fun q hq => lt_of_lt_of_le (h.held q hq) a6.next, fun q hq => ?_, ?_⟩⟩
      · obtain ⟨b1, b2, b3⟩ := h.pred q hq
        refine ⟨lt_of_lt_of_le b1 a6.next, b2, ?_⟩
        simp only [hnodes]
        rw [a6.keep q (Or.inr hq), b3]
      · simp only [hset]
        exact a7
    · have hi' : ¬ i < s.state.trees.length := by simpa [MModel.state] using hi
      rw [if_neg hi', List.getElem?_eq_none (by omega)]

theorem runAll_spec (c : Settings K) (y : Fin n → K) (os : List (Op K)) : ∀ {F : Set Nat} {s : MModel K n p}, Inv X F s →
    match applyAll c X y os s.state with
    | .error e => s.runAll c X y os = .error e
    | .ok st => ∃ s', s.runAll c X y os = .ok s' ∧ s'.state = st ∧ Keeps F s.mem s'.mem ∧ Inv X F s' := by
  induction os with
  | nil => exact fun h => ⟨_, rfl, rfl, Keeps.rfl, h⟩
  | cons o os ih =>
    intro F s h
    have h1 := run_spec c y h o
    simp only [applyAll, MModel.runAll]
    rcases e : o.apply c X y s.state with er | st
    · rw [e] at h1
      simp only at h1 ⊢
      rw [h1]
    · rw [e] at h1
      obtain ⟨a, s1, a1, a2, a3, a4⟩ := h1
      simp only [a1]
      have h2 := ih a4
      rw [a2] at h2
      rcases e2 : applyAll c X y os st with er | st2
      · rw [e2] at h2; exact h2
      · rw [e2] at h2
        obtain ⟨s2, b1, b2, b3, b4⟩ := h2
        exact ⟨s2, b1, b2, a3.trans b3, b4⟩

/-- A model of this estimator: operations on the initial model lead to it. -/
def Reached (c : Settings K) (X : Fin n → Fin p → Fl K) (y : Fin n → K) (s : MModel K n p) : Prop := ∃ os, (start c : MModel K n p).runAll c X y os = .ok s

theorem Reached.inv {c : Settings K} {y : Fin n → K} {s : MModel K n p} (h : Reached c X y s) : Inv X ∅ s := by
  obtain ⟨os, h1⟩ := h
  have h2 := runAll_spec c y os (start_inv (X := X) c)
  rcases e : applyAll c X y os (start c : MModel K n p).state with er | st
  · rw [e, h1] at h2; cases h2
  · rw [e] at h2
    obtain ⟨s', a1, -, -, a4⟩ := h2
    rw [h1] at a1
    cases a1
    exact a4

end Arrays

/-- C114, the model's `predict()`: from a model on the way it returns an array with the sums of the trees, and whatever is done afterwards, sweeps, `predict()` of the model and of its trees, the array
keeps what it contains. -/
theorem C114_predict_partial {c : Settings K} {y : Fin n → K} {s : MModel K n p} (h : Reached c X y s) :
    ∃ l s1, s.run c X y .predict = .ok (some l, s1) ∧ (s1.mem.get l = fun i => forest (s.trees.map MTree.nodes) (X i)) ∧
      ∀ os s2, s1.runAll c X y os = .ok s2 → s2.mem.get l = s1.mem.get l := by
  obtain ⟨l, s1, a1, a2, a3, a4, a5, a6, a7, a8⟩ := predict_spec h.inv
  refine ⟨l, s1, by simp only [MModel.run, a1], a5, fun os s2 h2 => ?_⟩
  have h3 := runAll_spec c y os a8
  rcases e : applyAll c X y os s1.state with er | st
  · rw [e, h2] at h3; cases h3
  · rw [e] at h3
    obtain ⟨s', b1, -, b3, -⟩ := h3
    rw [h2] at b1
    cases b1
    exact b3.keep l (Set.mem_insert _ _)

/-- C114, and the other way round: whatever is written into the array that `predict()` of the model returned, all that is done afterwards goes on as if nothing was written: the same errors, the same
trees, the same sigma. -/
theorem C114_written_partial {c : Settings K} {y : Fin n → K} {s s1 : MModel K n p} {l : Nat} (h : Reached c X y s) (h1 : s.run c X y .predict = .ok (some l, s1)) (a : Fin n → K) (os : List (Arrays.Op K)) :
    match s1.runAll c X y os with
    | .error e => MModel.runAll c X y os { s1 with mem := s1.mem.write l a } = .error e
    | .ok s2 => ∃ s3, MModel.runAll c X y os { s1 with mem := s1.mem.write l a } = .ok s3 ∧ s3.trees.map MTree.nodes = s2.trees.map MTree.nodes ∧ s3.sigma = s2.sigma ∧ s3.mem.get l = a := by
  obtain ⟨l', s1', a1, a2, a3, a4, a5, a6, a7, a8⟩ := predict_spec h.inv
  simp only [MModel.run, a1, Except.ok.injEq, Prod.mk.injEq, Option.some.injEq] at h1
  obtain ⟨rfl, rfl⟩ := h1
  have hw : Inv X (insert l' ∅) { s1' with mem := s1'.mem.write l' a } := by
    refine ⟨a8.held, fun q hq => ?_, a8.caches.write (Or.inl (Set.mem_insert _ _)) a⟩
    obtain ⟨b1, b2, b3⟩ := a8.pred q hq
    refine ⟨b1, b2, ?_⟩
    simp only
    rw [get_write_ne _ _ (by rintro rfl; exact b2 (Set.mem_insert _ _)), b3]
  have h2 := runAll_spec c y os a8
  have h3 := runAll_spec c y os hw
  rw [show MModel.state { s1' with mem := s1'.mem.write l' a } = s1'.state from rfl] at h3
  rcases e : applyAll c X y os s1'.state with er | st
  · rw [e] at h2 h3
    simp only at h2 h3
    rw [h2]
    exact h3
  · rw [e] at h2 h3
    obtain ⟨s2, b1, b2, b3, -⟩ := h2
    obtain ⟨s3, c1, c2, c3, -⟩ := h3
    rw [b1]
    simp only [MModel.state] at b2 c2
    rw [← b2, State.mk.injEq] at c2
    refine ⟨s3, c1, c2.1, c2.2, ?_⟩
    rw [c3.keep l' (Set.mem_insert _ _), get_write]

theorem filterMap_zipIdx {α : Type} (q : Nat → Bool) (l : List α) : ∀ (k : Nat), ((l.zipIdx k).filter (fun a => q a.2)).map Prod.fst = ((List.range' k l.length).filter q).filterMap (fun t => l[t - k]?) := by
  induction l with
  | nil => intro k; rfl
  | cons a l ih =>
    intro k
    rw [List.zipIdx_cons, List.length_cons, List.range'_succ, List.filter_cons, List.filter_cons]
    have hrest : ((List.range' (k + 1) l.length).filter q).filterMap (fun t => (a :: l)[t - k]?) = ((List.range' (k + 1) l.length).filter q).filterMap (fun t => l[t - (k + 1)]?) := by
      apply List.filterMap_congr
      intro t ht
      have := (List.mem_range'_1.1 (List.mem_filter.1 ht).1).1
      rw [show t - k = (t - (k + 1)) + 1 by omega, List.getElem?_cons_succ]
    by_cases hq : q k = true
    · simp only [hq, if_true, List.map_cons, ih (k + 1)]
      rw [List.filterMap_cons]
      simp only [Nat.sub_self, List.getElem?_cons_zero]
      rw [hrest]
    · simp only [hq]
      rw [if_neg (by simp), if_neg (by simp), ih (k + 1), hrest]

theorem sweeps_size {c : Settings K} {y : Fin n → K} {k : Nat} : ∀ {s s' : State K p} {r r' : Rand K} {l : List (List Bool × State K p)}, sweeps c X y k s r = .ok (l, s', r') → l.length = k := by
  induction k with
  | zero => intro s s' r r' l h; simp only [sweeps, Except.ok.injEq, Prod.mk.injEq] at h; rw [← h.1]; rfl
  | succ k ih =>
    intro s s' r r' l h
    simp only [sweeps] at h
    rcases e1 : Reference.sweep c X y s r with e | ⟨bs, s1, r1⟩
    · rw [e1] at h; cases h
    · rw [e1] at h
      simp only at h
      rcases e2 : sweeps c X y k s1 r1 with e | ⟨l', s2, r2⟩
      · rw [e2] at h; cases h
      · rw [e2] at h
        simp only [Except.ok.injEq, Prod.mk.injEq] at h
        rw [← h.1, List.length_cons, ih e2]

/-- C114, a chain: the stored arrays, read when the chain is finished, contain the sums of the trees as they were when the arrays were stored. -/
theorem C114_chain_partial (c : Config K) (y : Fin n → K) {kept : Nat → Bool} (hk : ∀ t : Nat, kept t = true ↔ ∃ z : ℤ, (t : K) = (z : K) * (1 / c.thin)) (r : Rand K) :
    match Reference.chain c X y r with
    | .error e => Arrays.chain c X y kept r = .error e
    | .ok l => Arrays.chain c X y kept r = .ok (l.map (fun s i => forest s.2.trees (X i))) := by
  unfold Reference.chain Arrays.chain
  rw [sweeps_add]
  have h1 := burn_spec c.toSettings y c.nBurn (start_inv (X := X) c.toSettings) r
  rw [start_state] at h1
  rcases e1 : sweeps c.toSettings X y c.nBurn (Reference.start c.toSettings) r with er | ⟨l1, st1, r1⟩
  · rw [e1] at h1
    simp only at h1 ⊢
    rw [h1]
  · rw [e1] at h1
    obtain ⟨s1, a1, a2, a3, a4⟩ := h1
    simp only [a1]
    have h2 := sampling_spec c.toSettings y kept c.nSamples 0 a4 r1
    rw [a2] at h2
    rcases e2 : sweeps c.toSettings X y c.nSamples st1 r1 with er | ⟨l2, st2, r2⟩
    · rw [e2] at h2
      simp only at h2 ⊢
      rw [h2]
    · rw [e2] at h2
      obtain ⟨ls, s2, b1, b2, b3, b4⟩ := h2
      simp only [b1, b4]
      have h3 := filterMap_zipIdx kept l2 0
      rw [sweeps_size e2, ← List.range_eq_range'] at h3
      have h4 : (storedTimes c.nSamples c.thin).filterMap (fun t => (l1 ++ l2)[c.nBurn + t]?) = ((List.range c.nSamples).filter kept).filterMap (fun t => l2[t - 0]?) := by
        have h5 : storedTimes c.nSamples c.thin = (List.range c.nSamples).filter kept := by
          unfold storedTimes
          apply List.filter_congr
          intro t _
          rw [Bool.eq_iff_iff, hk]
          exact @decide_eq_true_iff _ (Classical.propDecidable _)
        rw [h5]
        apply List.filterMap_congr
        intro t _
        rw [← sweeps_size e1, List.getElem?_append_right (by omega)]
        congr 1
        omega
      rw [h4, ← h3, List.map_map]
      rfl

section
variable [IsStrictOrderedRing K] [FloorRing K]

/-- C114, `fit`: the predictions that a fitted estimator holds are what the arrays contain, at the end, that its chains stored on the way. -/
theorem C114_fit_partial (hX : NoNan X) {s : SkModel K p} (hp : 0 < p) (hp1 : s.pGrow ≠ 0) (hp2 : s.pPrune ≠ 0) (hth : s.thin ≠ 0) (hch : 0 < s.nChains) {y : Fin n → K} {lo hi : K}
    (hlo : IsLeast (Set.range y) lo) (hhi : IsGreatest (Set.range y) hi) (hlt : lo < hi) (rs : Nat → Rand K) (hst : s.storePredictions = true)
    {kept : Nat → Bool} (hk : ∀ t : Nat, kept t = true ↔ ∃ z : ℤ, (t : K) = (z : K) * (1 / s.thin)) {f : SkModel K p} (hf : s.fit X y rs = .ok f) :
    ∃ c arrays, f.samples = some c ∧ (∀ i < s.nChains, Arrays.chain s.config X (scaled lo hi y) kept (rs i) = .ok (arrays i)) ∧
      c.predictions = ((List.range s.nChains).flatMap arrays).map List.ofFn := by
  have h1 := C103_fit hX hp hp1 hp2 hth hch hlo hhi hlt rs
  rw [hf] at h1
  obtain ⟨samples, c, a1, a2, -, -, -, a3, -, -⟩ := h1
  have key : ∀ (is : List Nat) (l : List (List Bool × State K p)), chains s.config X (scaled lo hi y) (is.map rs) = .ok l → ∃ arrays : Nat → List (Fin n → K),
      (∀ i ∈ is, Arrays.chain s.config X (scaled lo hi y) kept (rs i) = .ok (arrays i)) ∧ l.map (fun st => List.ofFn (fun r => forest st.2.trees (X r))) = (is.flatMap arrays).map List.ofFn := by
    intro is
    refine fun l hl => ⟨fun i => match Arrays.chain s.config X (scaled lo hi y) kept (rs i) with | .ok a => a | .error _ => [], ?_⟩
    induction is generalizing l with
    | nil => simp only [List.map_nil, chains, Except.ok.injEq] at hl; subst hl; simp
    | cons i is ih =>
      simp only [List.map_cons, chains] at hl
      have h2 := C114_chain_partial (X := X) s.config (scaled lo hi y) hk (rs i)
      rcases e1 : Reference.chain s.config X (scaled lo hi y) (rs i) with er | l1
      · rw [e1] at hl; cases hl
      · rw [e1] at hl h2
        simp only at hl h2
        rcases e2 : chains s.config X (scaled lo hi y) (is.map rs) with er | l2
        · rw [e2] at hl; cases hl
        · rw [e2] at hl
          simp only [Except.ok.injEq] at hl
          subst hl
          obtain ⟨b1, b2⟩ := ih l2 e2
          refine ⟨?_, ?_⟩
          · intro j hj
            rcases List.mem_cons.1 hj with rfl | hj
            · simp only [h2]
            · exact b1 j hj
          · rw [List.map_append, b2, List.flatMap_cons, List.map_append, h2]
            simp only [List.map_map]
            rfl
  obtain ⟨arrays, b1, b2⟩ := key (List.range s.nChains) samples a1
  exact ⟨c, arrays, a2, fun i hi => b1 i (List.mem_range.2 hi), by rw [a3 hst, b2]⟩

end

/-! ### the hypotheses can be met -/

section examples
attribute [local instance] exFns

/-- A model on the way: a sweep that grows both trees, then `predict()` of the first tree and of the model (array 4), then another sweep, whose last prediction (array 5) is another one. -/
example : (match (start (exSk true).config.toSettings : MModel ℚ 3 1).runAll (exSk true).config.toSettings exX (scaled 0 2 exY) [.sweep exRands1, .treePredict 0, .predict, .sweep exRands2] with
    | .ok s => decide (s.trees.map (fun t => t.nodes.length) = [3, 3] ∧ s.mem.next = 6 ∧ s.mem.get 4 = s.mem.get 3 ∧ s.mem.get 4 ≠ s.mem.get 5)
    | .error _ => false) = true := by decide +kernel

/-- A chain that keeps every second sample: two arrays, not the same. -/
example : (match Arrays.chain (exSk true).config exX (scaled 0 2 exY) (fun t => decide (t % 2 = 0)) exRands1 with
    | .ok l => decide (l.length = 2 ∧ l.Nodup)
    | .error _ => false) = true := by decide +kernel

/-- C114 is not true of the arrays that `predict()` of a tree returns: that array is where the tree keeps its prediction, and the next sweep writes into it. -/
theorem C114_refuted : ∃ (c : Settings ℚ) (r : Rand ℚ) (s s1 s2 : MModel ℚ 3 1) (l : Nat), (start c : MModel ℚ 3 1).run c exX (scaled 0 2 exY) (.sweep r) = .ok (none, s) ∧
    s.run c exX (scaled 0 2 exY) (.treePredict 0) = .ok (some l, s1) ∧ s1.run c exX (scaled 0 2 exY) (.sweep exRands2) = .ok (none, s2) ∧ s2.mem.get l ≠ s1.mem.get l := by
  have key : (match (start (exSk true).config.toSettings : MModel ℚ 3 1).run (exSk true).config.toSettings exX (scaled 0 2 exY) (.sweep exRands1) with
    | .ok (none, s) => match s.run (exSk true).config.toSettings exX (scaled 0 2 exY) (.treePredict 0) with
      | .ok (some l, s1) => match s1.run (exSk true).config.toSettings exX (scaled 0 2 exY) (.sweep exRands2) with
        | .ok (none, s2) => decide (s2.mem.get l ≠ s1.mem.get l)
        | _ => false
      | _ => false
    | _ => false) = true := by decide +kernel
  split at key
  · split at key
    · split at key
      · exact ⟨_, _, _, _, _, _, by assumption, by assumption, by assumption, of_decide_eq_true key⟩
      · cases key
    · cases key
  · cases key

/-- Nor is it harmless to write into such an array: with zeros written into it the next sweep leads to other trees. -/
theorem C114_written_refuted : ∃ (c : Settings ℚ) (r : Rand ℚ) (s s1 s2 s3 : MModel ℚ 3 1) (l : Nat), (start c : MModel ℚ 3 1).run c exX (scaled 0 2 exY) (.sweep r) = .ok (none, s) ∧
    s.run c exX (scaled 0 2 exY) (.treePredict 0) = .ok (some l, s1) ∧ s1.run c exX (scaled 0 2 exY) (.sweep exRands2) = .ok (none, s2) ∧
    MModel.run c exX (scaled 0 2 exY) { s1 with mem := s1.mem.write l (fun _ => 0) } (.sweep exRands2) = .ok (none, s3) ∧ s3.trees.map MTree.nodes ≠ s2.trees.map MTree.nodes := by
  have key : (match (start (exSk true).config.toSettings : MModel ℚ 3 1).run (exSk true).config.toSettings exX (scaled 0 2 exY) (.sweep exRands1) with
    | .ok (none, s) => match s.run (exSk true).config.toSettings exX (scaled 0 2 exY) (.treePredict 0) with
      | .ok (some l, s1) => match s1.run (exSk true).config.toSettings exX (scaled 0 2 exY) (.sweep exRands2) with
        | .ok (none, s2) => match MModel.run (exSk true).config.toSettings exX (scaled 0 2 exY) { s1 with mem := s1.mem.write l (fun _ => 0) } (.sweep exRands2) with
          | .ok (none, s3) => decide (s3.trees.map (fun t => t.nodes.value (exX 0)) ≠ s2.trees.map (fun t => t.nodes.value (exX 0)))
          | _ => false
        | _ => false
      | _ => false
    | _ => false) = true := by decide +kernel
  split at key
  · split at key
    · split at key
      · split at key
        · refine ⟨_, _, _, _, _, _, _, by assumption, by assumption, by assumption, by assumption, fun h => of_decide_eq_true key ?_⟩
          have := congrArg (List.map (fun t : RTree ℚ 1 => t.value (exX 0))) h
          rwa [List.map_map, List.map_map] at this
        · cases key
      · cases key
    · cases key
  · cases key

/-- With `thin` 1/2 every second sample is kept. -/
example : (exSk true).config.thin = 1/2 ∧ ∀ t : Nat, decide (t % 2 = 0) = true ↔ ∃ z : ℤ, (t : ℚ) = (z : ℚ) * (1 / (exSk true).config.thin) := by
  have h : (exSk true).config.thin = 1/2 := by decide +kernel
  refine ⟨h, fun t => ?_⟩
  rw [h, decide_eq_true_iff]
  constructor
  · intro h1
    refine ⟨(t / 2 : Nat), ?_⟩
    have h2 : t = t / 2 * 2 := by omega
    have h3 : (t : ℚ) = ((t / 2 : Nat) : ℚ) * 2 := by exact_mod_cast h2
    rw [h3, Int.cast_natCast]
    norm_num
  · rintro ⟨z, hz⟩
    have h2 : (t : ℚ) = ((z * 2 : ℤ) : ℚ) := by rw [hz]; push_cast; norm_num
    have h3 : (t : ℤ) = z * 2 := by exact_mod_cast h2
    omega

end examples
end Bart
