import Verif.Proofs.LayerSweep
import Verif.Proofs.LayerNodes
import Verif.Props.ObliviousFitProps
import Verif.Props.ReferenceProps

/-! The samples of a chain with the oblivious tree sampler are the samples of the reference implementation. -/

set_option linter.unusedSectionVars false

namespace Bart.Oblivious
open Bart Spec Reference
variable {K : Type} [Field K] [LinearOrder K] {n p : Nat} {X : Fin n → Fin p → Fl K}

/-- The leaves of a tree in the order of the list of nodes: the comparisons on the way to the leaf, and its value. -/
def leavesOf (t : Tree K n p) : List (List (Cond K p) × K) := t.leafNodes.map (fun i => ((t.heap.node i).split.combined.conditions.map shownCond, (t.heap.node i).value))

/-- The leaves of a tree of the reference implementation. -/
def layerLeaves (T : Layers.LTree K p) : List (List (Cond K p) × K) := (Layers.paths T.layers).zip T.values

theorem leavesOf_view {t t' : Tree K n p} (h : t'.nodes.map (nodeView t'.heap) = t.nodes.map (nodeView t.heap)) : leavesOf t' = leavesOf t := by
  have key : ∀ u : Tree K n p, leavesOf u = (u.leafNodes.map (nodeView u.heap)).map (fun v => (v.condition.conditions.map shownCond, v.value.getD 0)) := by
    intro u
    unfold leavesOf
    rw [List.map_map]
    apply List.map_congr_left
    intro i hi
    have hk : (u.heap.node i).kind = .leaf := by simpa using (List.mem_filter.1 hi).2
    simp [nodeView, hk]
  rw [key, key, leaves_view h]

theorem Shows.leavesOf {y : Option (Fin n → K)} {t : Tree K n p} {s : Shape} {d : Nat} (hT : OTree X y t s d) {T : Layers.LTree K p} (hS : Shows t T) : leavesOf t = layerLeaves T := by
  unfold layerLeaves Oblivious.leavesOf
  rw [← hS.1.leaves hT, ← hS.2, List.zip_map']
  rfl

/-- A stored sample shows a sample of the reference implementation. -/
structure OSample (x : Sample K p) (st : List Bool × Layers.State K p) : Prop where
  predict : ∀ {q : Nat} (Z : Fin q → Fin p → Fl K) (r : Fin q), GoodRow (Z r) → x.predictX Z r = Layers.forest st.2.trees (Z r)
  sigma : (x.live.storedSigma x.stored).current = st.2.sigma
  trees : x.trees.map leavesOf = st.2.trees.map layerLeaves
  nodes : List.Forall₂ (fun t T => (nodesOf t).Perm ((Layers.nodes T.layers).map (fun q => (q.1, q.2, q.2.getLast?.map Cond.column))) ∧ Full T.layers) x.trees st.2.trees

theorem LModel.stored {y : Fin n → K} {c : Reference.Settings K} {m m' : BModel K n p} {st : Layers.State K p} (h : LModel X y c m st) (hk : List.Forall₂ Untouched m.deepCopy.2.trees m'.trees)
    (bs : List Bool) : OSample ⟨n, m', m.deepCopy.1⟩ (bs, st) := by
  obtain ⟨s1, s2⟩ := ostored_core (fun t ht i hi => (h.model.trees t ht).mem_lt hi) hk
  refine ⟨fun Z r hr => ?_, h.sigma, ?_, ?_⟩
  · show m'.storedPredictX m.deepCopy.1 Z r = _
    rw [s2 Z]
    exact h.predictX Z r hr
  · show (m'.storedTrees m.deepCopy.1).map leavesOf = _
    have h1 : (m'.storedTrees m.deepCopy.1).map leavesOf = m.trees.map leavesOf :=
      (forall₂_map_eq (fun a b hab => (leavesOf_view hab).symm) (taken_trees s1)).symm
    have h2 : st.trees.map layerLeaves = m.trees.map leavesOf := by
      have ht := h.trees
      have hL := h.model.trees
      revert ht hL
      generalize m.trees = l
      generalize st.trees = l'
      intro ht
      induction ht with
      | nil => intro _; rfl
      | @cons t T _ _ hd _ ih =>
        intro hL
        obtain ⟨y', s, d, hT⟩ := (hL t (by simp)).tree
        rw [List.map_cons, List.map_cons, ih (fun t ht => hL t (by simp [ht])), hd.leavesOf hT]
    rw [h1, h2]
  · show List.Forall₂ _ (m'.storedTrees m.deepCopy.1) _
    have h1 := taken_trees s1
    have h2 := h.trees
    have hL := h.model.trees
    revert h1 h2 hL
    generalize m'.storedTrees m.deepCopy.1 = l0
    generalize m.trees = l
    generalize st.trees = l'
    intro h1
    induction h1 generalizing l' with
    | nil => intro h2 _; cases h2; exact .nil
    | @cons t0 t _ _ hd _ ih =>
      intro h2 hL
      cases h2 with
      | @cons _ T _ _ e h2 =>
        obtain ⟨y', s, d, hT⟩ := (hL t (by simp)).tree
        refine .cons ?_ (ih _ h2 (fun t ht => hL t (by simp [ht])))
        rw [nodesOf_view hd]
        exact e.nodes hT

theorem oacceptance_ref (mus : List (Option (List TreeMutation))) (s : Layers.State K p) : (acceptance mus : Option K) = Layers.acceptedShare (mus.map Option.isSome, s) := by
  unfold acceptance Layers.acceptedShare
  simp only [List.map_eq_nil_iff, List.length_map]
  have : List.count true (mus.map Option.isSome) = mus.countP Option.isSome := by
    rw [List.count, List.countP_map]
    congr 1
    funext a; cases a <;> rfl
  rw [this]

section
variable [MathFns K]

theorem layer_sweeps_length (c : Reference.Settings K) (X : Fin n → Fin p → Fl K) (y : Fin n → K) : ∀ (k : Nat) {s : Layers.State K p} {r : Rand K} {l s' r'},
    Layers.sweeps c X y k s r = .ok (l, s', r') → l.length = k := by
  intro k
  induction k with
  | zero => intro s r l s' r' e; cases e; rfl
  | succ k ih =>
    intro s r l s' r' e
    unfold Layers.sweeps at e
    split at e
    · cases e
    · split at e
      · cases e
      · next e2 => cases e; simp [ih e2]

theorem layer_sweeps_add (c : Reference.Settings K) (X : Fin n → Fin p → Fl K) (y : Fin n → K) (b : Nat) : ∀ (a : Nat) (s : Layers.State K p) (r : Rand K),
    Layers.sweeps c X y (a + b) s r = match Layers.sweeps c X y a s r with
      | .error e => .error e
      | .ok (l, s1, r1) => match Layers.sweeps c X y b s1 r1 with
        | .error e => .error e
        | .ok (l', s2, r2) => .ok (l ++ l', s2, r2) := by
  intro a
  induction a with
  | zero =>
    intro s r
    rw [Nat.zero_add]
    show _ = match Layers.sweeps c X y b s r with
        | .error e => Except.error e
        | .ok (l', s2, r2) => Except.ok ([] ++ l', s2, r2)
    cases Layers.sweeps c X y b s r with
    | error e => rfl
    | ok q => rfl
  | succ a ih =>
    intro s r
    rw [show a + 1 + b = (a + b) + 1 by omega]
    simp only [Layers.sweeps]
    cases Layers.sweep c X y s r with
    | error e => rfl
    | ok q =>
      obtain ⟨bs, s1, r1⟩ := q
      simp only
      rw [ih s1 r1]
      cases Layers.sweeps c X y a s1 r1 with
      | error e => rfl
      | ok q2 =>
        obtain ⟨l, s2, r2⟩ := q2
        simp only
        cases Layers.sweeps c X y b s2 r2 with
        | error e => rfl
        | ok q3 => rfl

end

section
variable [IsStrictOrderedRing K] [MathFns K] [FloorRing K]

theorem burn_ref (hX : ∀ r, GoodRow (X r)) {y : Fin n → K} {c : Reference.Settings K} (hp1 : c.pGrow ≠ 0) (hp2 : c.pPrune ≠ 0) {sp : SampleParams K} (hg : sp.pGrow = c.pGrow)
    (hpr : sp.pPrune = c.pPrune) : ∀ (k : Nat) {m : BModel K n p} {st : Layers.State K p}, LModel X y c m st → ∀ r : Rand K,
    match burn sp k m r with
    | .error e => Layers.sweeps c X y k st r = .error e
    | .ok (m', r') => ∃ l st', Layers.sweeps c X y k st r = .ok (l, st', r') ∧ LModel X y c m' st' := by
  intro k
  induction k with
  | zero => intro m st hM r; exact ⟨[], st, rfl, hM⟩
  | succ k ih =>
    intro m st hM r
    have h1 := sweep_ref hX hp1 hp2 hM r
    unfold Oblivious.burn Layers.sweeps
    rw [hg, hpr]
    cases e : Oblivious.sweep m c.pGrow c.pPrune r with
    | error er => rw [e] at h1; simp only at h1 ⊢; rw [h1]
    | ok q =>
      obtain ⟨mus, m1, r1⟩ := q
      rw [e] at h1
      obtain ⟨st1, a1, a2, -⟩ := h1
      have h2 := ih a2 r1
      simp only
      rw [a1]
      simp only
      cases e2 : Oblivious.burn sp k m1 r1 with
      | error er => rw [e2] at h2; simp only at h2 ⊢; rw [h2]
      | ok q2 =>
        obtain ⟨m2, r2⟩ := q2
        rw [e2] at h2
        obtain ⟨l, st2, b1, b2⟩ := h2
        simp only
        rw [b1]
        exact ⟨_, _, rfl, b2⟩

/-- The entries of a list whose number, counted from `ss`, is a multiple of `ti`. -/
def picked {α : Type} (ti : K) : Nat → List α → List α
  | _, [] => []
  | ss, a :: l => if pyMod (ss : K) ti = 0 then a :: picked ti (ss + 1) l else picked ti (ss + 1) l

theorem picked_times {α : Type} {ti : K} (hti : ti ≠ 0) : ∀ (l : List α) (ss : Nat), picked ti ss l = (BModel.times ti l.length ss).filterMap (fun t => l[t - ss]?) := by
  intro l
  induction l with
  | nil => intro ss; simp [picked]
  | cons a l ih =>
    intro ss
    have hshift : (BModel.times ti l.length (ss + 1)).filterMap (fun t => (a :: l)[t - ss]?) = (BModel.times ti l.length (ss + 1)).filterMap (fun t => l[t - (ss + 1)]?) := by
      apply List.filterMap_congr
      intro t ht
      have : ss + 1 ≤ t := by
        unfold BModel.times at ht
        have := (List.mem_filter.1 ht).1
        rw [List.mem_range'_1] at this
        exact this.1
      rw [show t - ss = (t - (ss + 1)) + 1 by omega, List.getElem?_cons_succ]
    unfold picked
    by_cases hmod : pyMod (ss : K) ti = 0
    · have htm : BModel.times ti (l.length + 1) ss = ss :: BModel.times ti l.length (ss + 1) := by
        have hmod' := hmod
        rw [pyMod_eq_zero hti] at hmod'
        simp only [BModel.times, List.range'_succ, List.filter_cons, hmod', decide_true, if_true]
      rw [if_pos hmod, List.length_cons, htm, List.filterMap_cons]
      simp only [Nat.sub_self, List.getElem?_cons_zero]
      rw [ih, hshift]
    · have htm : BModel.times ti (l.length + 1) ss = BModel.times ti l.length (ss + 1) := by
        have hmod' := hmod
        rw [pyMod_eq_zero hti] at hmod'
        simp only [BModel.times, List.range'_succ, List.filter_cons, hmod', decide_false, Bool.false_eq_true, if_false]
      rw [if_neg hmod, List.length_cons, htm, ih, hshift]

theorem sampleLoop_ref (hX : ∀ r, GoodRow (X r)) {y : Fin n → K} {c : Reference.Settings K} (hp1 : c.pGrow ≠ 0) (hp2 : c.pPrune ≠ 0) {sp : SampleParams K} (hg : sp.pGrow = c.pGrow)
    (hpr : sp.pPrune = c.pPrune) (ti : K) : ∀ (k ss : Nat) {m : BModel K n p} {st : Layers.State K p}, LModel X y c m st → ∀ r : Rand K,
    match sampleLoop sp ti k ss m r with
    | .error e => Layers.sweeps c X y k st r = .error e
    | .ok (ch, m', r') => ∃ l st', Layers.sweeps c X y k st r = .ok (l, st', r') ∧ Kept m m' ∧
        List.Forall₂ (fun x s => OSample ⟨n, m', x⟩ s) ch.model (picked ti ss l) ∧ (sp.storeAcceptance = true → ch.acceptance = (picked ti ss l).map Layers.acceptedShare) ∧
        (sp.storePredictions = true → ch.predictions = (picked ti ss l).map (fun s i => Layers.forest s.2.trees (X i))) := by
  intro k
  induction k with
  | zero => intro ss m st hM r; exact ⟨[], st, rfl, .refl _, .nil, fun _ => rfl, fun _ => rfl⟩
  | succ k ih =>
    intro ss m st hM r
    have h1 := sweep_ref hX hp1 hp2 hM r
    unfold Oblivious.sampleLoop Layers.sweeps
    rw [hg, hpr]
    cases e : Oblivious.sweep m c.pGrow c.pPrune r with
    | error er => rw [e] at h1; simp only at h1 ⊢; rw [h1]
    | ok q =>
      obtain ⟨mus, m1, r1⟩ := q
      rw [e] at h1
      obtain ⟨st1, a1, hM1, hk1⟩ := h1
      simp only
      rw [a1]
      simp only
      by_cases hmod : pyMod (ss : K) ti = 0
      · rw [if_pos hmod]
        have hrec : ∃ fs m2, BModel.recordPrediction sp m1 = .ok (fs, m2) ∧ LModel X y c m2 st1 ∧ Kept m1 m2 ∧
            (sp.storePredictions = true → fs = [fun i => Layers.forest st1.trees (X i)]) := by
          unfold BModel.recordPrediction
          split
          · obtain ⟨m2, e2, g1, g2, -⟩ := hM1.predict hX
            rw [e2]
            exact ⟨_, _, rfl, g1, g2, fun _ => rfl⟩
          · next hc => exact ⟨_, _, rfl, hM1, .refl _, fun h => absurd h hc⟩
        obtain ⟨fs, m2, e2, hM2, hk2, hfs⟩ := hrec
        have hkc := hM2.model.copy.2
        have h3 := ih (ss + 1) hM2.copy r1
        simp only [e2]
        cases e3 : Oblivious.sampleLoop sp ti k (ss + 1) m2.deepCopy.2 r1 with
        | error er => rw [e3] at h3; simp only at h3 ⊢; rw [h3]
        | ok q3 =>
          obtain ⟨ch, m3, r3⟩ := q3
          rw [e3] at h3
          obtain ⟨l, st3, i1, i2, i3, i4, i5⟩ := h3
          simp only
          rw [i1]
          refine ⟨_, _, rfl, hk1.trans (hk2.trans (hkc.trans i2)), ?_, fun hc => ?_, fun hc => ?_⟩
          · unfold picked
            rw [if_pos hmod]
            exact .cons (hM2.stored i2.trees _) i3
          · unfold picked
            rw [if_pos hmod, List.map_cons, i4 hc, if_pos hc, oacceptance_ref mus st1]
            rfl
          · unfold picked
            rw [if_pos hmod, List.map_cons, i5 hc, hfs hc]
            rfl
      · rw [if_neg hmod]
        have h3 := ih (ss + 1) hM1 r1
        cases e3 : Oblivious.sampleLoop sp ti k (ss + 1) m1 r1 with
        | error er => rw [e3] at h3; simp only at h3 ⊢; rw [h3]
        | ok q3 =>
          obtain ⟨ch, m3, r3⟩ := q3
          rw [e3] at h3
          obtain ⟨l, st3, i1, i2, i3, i4, i5⟩ := h3
          simp only
          rw [i1]
          have hpk : picked ti ss ((mus.map Option.isSome, st1) :: l) = picked ti (ss + 1) l := by
            conv_lhs => unfold picked
            rw [if_neg hmod]
          exact ⟨_, _, rfl, hk1.trans i2, by rw [hpk]; exact i3, by rw [hpk]; exact i4, by rw [hpk]; exact i5⟩

/-- The samples of the model. -/
theorem samples_ref (hX : ∀ r, GoodRow (X r)) {y : Fin n → K} {c : Reference.Settings K} (hp1 : c.pGrow ≠ 0) (hp2 : c.pPrune ≠ 0) {sp : SampleParams K} (hg : sp.pGrow = c.pGrow)
    (hpr : sp.pPrune = c.pPrune) (hth : sp.thin ≠ 0) (nSamples nBurn : Nat) {m : BModel K n p} {st : Layers.State K p} (hM : LModel X y c m st) (r : Rand K) :
    match samples sp nSamples nBurn m r with
    | .error e => Layers.sweeps c X y (nBurn + nSamples) st r = .error e
    | .ok (ch, m', r') => ∃ l st', Layers.sweeps c X y (nBurn + nSamples) st r = .ok (l, st', r') ∧
        List.Forall₂ (fun x s => OSample ⟨n, m', x⟩ s) ch.model ((storedTimes nSamples sp.thin).filterMap (fun t => l[nBurn + t]?)) ∧
        (sp.storeAcceptance = true → ch.acceptance = ((storedTimes nSamples sp.thin).filterMap (fun t => l[nBurn + t]?)).map Layers.acceptedShare) ∧
        (sp.storePredictions = true → ch.predictions = ((storedTimes nSamples sp.thin).filterMap (fun t => l[nBurn + t]?)).map (fun s i => Layers.forest s.2.trees (X i))) := by
  have h1 := burn_ref hX hp1 hp2 hg hpr nBurn hM r
  rw [layer_sweeps_add]
  unfold Oblivious.samples
  cases e : Oblivious.burn sp nBurn m r with
  | error er => rw [e] at h1; simp only at h1 ⊢; rw [h1]
  | ok q =>
    obtain ⟨m1, r1⟩ := q
    rw [e] at h1
    obtain ⟨l1, st1, a1, hM1⟩ := h1
    have hl1 := layer_sweeps_length c X y nBurn a1
    simp only
    rw [a1, if_neg hth]
    simp only
    have h2 := sampleLoop_ref hX hp1 hp2 hg hpr (1 / sp.thin) nSamples 0 hM1 r1
    cases e2 : Oblivious.sampleLoop sp (1 / sp.thin) nSamples 0 m1 r1 with
    | error er => rw [e2] at h2; simp only at h2 ⊢; rw [h2]
    | ok q2 =>
      obtain ⟨ch, m2, r2⟩ := q2
      rw [e2] at h2
      obtain ⟨l2, st2, b1, -, b3, b4, b5⟩ := h2
      have hl2 := layer_sweeps_length c X y nSamples b1
      simp only
      rw [b1]
      have hpk : picked (1 / sp.thin) 0 l2 = (storedTimes nSamples sp.thin).filterMap (fun t => (l1 ++ l2)[nBurn + t]?) := by
        rw [picked_times (one_div_ne_zero hth), hl2, BModel.times_eq]
        apply List.filterMap_congr
        intro t _
        rw [List.getElem?_append_right (by omega)]
        congr 1
        omega
      rw [hpk] at b3 b4 b5
      exact ⟨_, _, rfl, b3, b4, b5⟩

end

/-- The model at the beginning. -/
theorem LModel.start [IsStrictOrderedRing K] (hX : ∀ r, GoodRow (X r)) {y0 y : Fin n → K} {c : Reference.Settings K} {m : BModel K n p} (hf : FreshModel X y0 m) (hI : ModelInv False X y m)
    (hpred : m.prediction = none) (hlm : lookModel m = Reference.start c) (hset : settingsOf m c.pGrow c.pPrune = c) : LModel X y c m (Layers.start c) := by
  have hO := OModel.fresh hX hf
  refine ⟨hO, hI.target, hI.obs, fun f hf => ?_, ?_, congrArg Reference.State.sigma hlm, hset⟩
  · rw [hpred] at hf; cases hf
  · have h1 : m.trees.map look = List.replicate c.nTrees RTree.root := congrArg Reference.State.trees hlm
    have hlen : m.trees.length = c.nTrees := by simpa using congrArg List.length h1
    have h2 : ∀ t ∈ m.trees, Shows t Layers.LTree.root := by
      intro t ht
      obtain ⟨y', s, d, hT⟩ := (hO.trees t ht).tree
      have hlk : look t = RTree.root := by
        have : look t ∈ m.trees.map look := List.mem_map_of_mem ht
        rw [h1] at this
        exact (List.mem_replicate.1 this).2
      unfold look RTree.root at hlk
      obtain ⟨i, hi, hnd⟩ : ∃ i, t.nodes = [i] ∧ lookNode t.heap i = ⟨[], .leaf 0⟩ := by
        cases hn : t.nodes with
        | nil => rw [hn] at hlk; simp at hlk
        | cons i l =>
          rw [hn] at hlk
          cases l with
          | nil => exact ⟨i, rfl, by simpa using hlk⟩
          | cons j l => simp at hlk
      have hp : pathOf t.heap i = [] := congrArg RNode.path hnd
      have hs : s = .leaf i := by
        have hp := hT.inv.perm
        rw [hi] at hp
        have := List.singleton_perm.1 hp
        cases s with
        | leaf i => simp [Shape.ids] at this; rw [this]
        | node i l r =>
          have h1 := l.root_mem
          simp only [Shape.ids] at this
          injection this with _ this
          have : l.ids = [] := by
            have := this.symm
            simp at this; exact this.1
          rw [this] at h1; cases h1
      subst hs
      obtain ⟨k1, -, -, k4⟩ := hT.inv.struct
      have hlf : t.leafNodes = [i] := by unfold Tree.leafNodes; rw [hi]; simp [k1]
      refine ⟨⟨?_, ?_⟩, ?_⟩
      · show (idsAt t 0).map (pathOf t.heap) = [[]]
        unfold idsAt
        rw [hi]
        simp [k4, hp]
      · intro j hj
        rw [hlf] at hj
        simp at hj; subst hj
        exact k4
      · rw [hlf]
        have hc : contentOf t.heap i = .leaf 0 := congrArg RNode.content hnd
        unfold contentOf at hc
        rw [k1] at hc
        simp at hc
        simp [hc, Layers.LTree.root]
    unfold Layers.start
    rw [← hlen]
    revert h2
    generalize m.trees = l
    intro h2
    clear h1 hlen
    induction l with
    | nil => exact .nil
    | cons t l ih => exact .cons (h2 t (by simp)) (ih (fun t ht => h2 t (by simp [ht])))

end Bart.Oblivious
