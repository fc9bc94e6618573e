import Verif.Spec.Schedule
import Verif.Proofs.Frozen

/-! The generator of the schedule, run step by step, does what `BModel.sweep` does. -/

set_option linter.unusedSectionVars false

namespace Bart
open Spec Sampler
variable {K : Type} [Field K] [LinearOrder K] {n p : Nat} [MathFns K]

namespace Gen

/-- The loop is deterministic. -/
theorem Runs.unique {pGrow pPrune : K} {g : Gen K n p} {r : Rand K} {a b : Except PyErr (List (StepKind × Event) × BModel K n p × Rand K)}
    (ha : Runs pGrow pPrune g r a) (hb : Runs pGrow pPrune g r b) : a = b := by
  induction ha generalizing b with
  | nextError h => cases hb <;> simp_all
  | stop h => cases hb <;> simp_all
  | callError h h1 => cases hb <;> simp_all
  | laterError h h1 _ ih =>
    cases hb with
    | nextError h' => rw [h] at h'; cases h'
    | stop h' => rw [h] at h'; cases h'
    | callError h' h1' =>
      rw [h] at h'; injection h' with h'; injection h' with h2 h3; injection h2 with h2; injection h2 with h2 h4; subst h3; subst h4
      rw [h1] at h1'; cases h1'
    | laterError h' h1' h2' =>
      rw [h] at h'; injection h' with h'; injection h' with h2 h3; injection h2 with h2; injection h2 with h2 h4; subst h3; subst h4
      rw [h1] at h1'; injection h1' with h1'; injection h1' with h5 h6; injection h6 with h6 h7; subst h6; subst h7
      exact ih h2'
    | step h' h1' h2' =>
      rw [h] at h'; injection h' with h'; injection h' with h2 h3; injection h2 with h2; injection h2 with h2 h4; subst h3; subst h4
      rw [h1] at h1'; injection h1' with h1'; injection h1' with h5 h6; injection h6 with h6 h7; subst h6; subst h7
      have := ih h2'; cases this
  | step h h1 _ ih =>
    cases hb with
    | nextError h' => rw [h] at h'; cases h'
    | stop h' => rw [h] at h'; cases h'
    | callError h' h1' =>
      rw [h] at h'; injection h' with h'; injection h' with h2 h3; injection h2 with h2; injection h2 with h2 h4; subst h3; subst h4
      rw [h1] at h1'; cases h1'
    | laterError h' h1' h2' =>
      rw [h] at h'; injection h' with h'; injection h' with h2 h3; injection h2 with h2; injection h2 with h2 h4; subst h3; subst h4
      rw [h1] at h1'; injection h1' with h1'; injection h1' with h5 h6; injection h6 with h6 h7; subst h6; subst h7
      have := ih h2'; cases this
    | step h' h1' h2' =>
      rw [h] at h'; injection h' with h'; injection h' with h2 h3; injection h2 with h2; injection h2 with h2 h4; subst h2; subst h3; subst h4
      rw [h1] at h1'; injection h1' with h1'; injection h1' with h5 h6; injection h6 with h6 h7; subst h5; subst h6; subst h7
      have := ih h2'; injection this with this; injection this with e1 e2; injection e2 with e2 e3
      subst e1; subst e2; subst e3; rfl

/-- Run of the loop from a generator whose `next` gives `x`. -/
def After (pGrow pPrune : K) (x : Except PyErr (Option (StepKind × Closure) × Gen K n p)) (r : Rand K)
    (res : Except PyErr (List (StepKind × Event) × BModel K n p × Rand K)) : Prop :=
  ∀ g : Gen K n p, g.next = x → Runs pGrow pPrune g r res

/-- Results with a longer beginning. -/
def prepend (es : List (StepKind × Event)) (res : Except PyErr (List (StepKind × Event) × BModel K n p × Rand K)) :
    Except PyErr (List (StepKind × Event) × BModel K n p × Rand K) :=
  match res with
  | .error e => .error e
  | .ok (es', m, r) => .ok (es ++ es', m, r)

theorem After.error (pGrow pPrune : K) (e : PyErr) (r : Rand K) : After (n := n) (p := p) pGrow pPrune (.error e) r (.error e) := fun _ h => .nextError h

theorem After.callError {pGrow pPrune : K} {k : StepKind} {c : Closure} {g : Gen K n p} {r : Rand K} {e : PyErr}
    (h : g.call pGrow pPrune c r = .error e) : After pGrow pPrune (.ok (some (k, c), g)) r (.error e) := fun _ hg => .callError hg h

theorem After.step {pGrow pPrune : K} {k : StepKind} {c : Closure} {g g2 : Gen K n p} {r r1 : Rand K} {ev : Event}
    {res : Except PyErr (List (StepKind × Event) × BModel K n p × Rand K)}
    (h : g.call pGrow pPrune c r = .ok (ev, g2, r1)) (h2 : After pGrow pPrune g2.next r1 res) :
    After pGrow pPrune (.ok (some (k, c), g)) r (prepend [(k, ev)] res) := by
  intro g0 hg
  have := h2 g2 rfl
  match res with
  | .error e => exact .laterError hg h this
  | .ok (es, m, r') => exact .step hg h this

theorem prepend_append (es es' : List (StepKind × Event)) (res : Except PyErr (List (StepKind × Event) × BModel K n p × Rand K)) :
    prepend es (prepend es' res) = prepend (es ++ es') res := by
  match res with
  | .error e => rfl
  | .ok (es, m, r') => simp [prepend]

/-- The leaf steps of a tree. -/
theorem leaf_loop (pGrow pPrune : K) (M : BModel K n p) (i : Nat) (hi : i < M.trees.length) : ∀ (is : List NodeId) (t : Tree K n p) (g : Gen K n p) (r : Rand K),
    g.model = { M with trees := M.trees.set i t } →
    (∀ e, leafSteps M.params is t r = .error e → After pGrow pPrune (g.enterLeaf i is) r (.error e)) ∧
    (∀ t2 r2 res, leafSteps M.params is t r = .ok (t2, r2) →
      (∀ g' : Gen K n p, g'.model = { M with trees := M.trees.set i t2 } → After pGrow pPrune (g'.enterLeaf i []) r2 res) →
      After pGrow pPrune (g.enterLeaf i is) r (prepend (is.map (fun l => (.node, .leaf i l))) res)) := by
  intro is
  induction is with
  | nil =>
    intro t g r hg
    refine ⟨fun e h => (by cases h), fun t2 r2 res h hr => ?_⟩
    injection h with h; injection h with h1 h2; subst h1; subst h2
    have := hr g hg
    match res with
    | .error e => exact this
    | .ok (es, m, r') => exact this
  | cons l is ih =>
    intro t g r hg
    have hcall : ∀ res, leafStep M.params t l r = res → ({ g with phase := .leaf i is, leafVar := some (i, l) } : Gen K n p).call pGrow pPrune .leaf r =
        match res with
        | .error e => .error e
        | .ok (t1, r1) => .ok (.leaf i l, { model := { M with trees := M.trees.set i t1 }, phase := .leaf i is, treeVar := g.treeVar, leafVar := some (i, l) }, r1) := by
      intro res hres
      unfold call
      have h1 : ({ g with phase := .leaf i is, leafVar := some (i, l) } : Gen K n p).model.trees[i]? = some t := by
        simp only [hg]; simp [hi]
      have h2 : ({ g with phase := .leaf i is, leafVar := some (i, l) } : Gen K n p).model.params = M.params := by simp only [hg]; rfl
      simp only [h1, h2, hres]
      match res with
      | .error e => rfl
      | .ok (t1, r1) => simp [hg]
    unfold leafSteps
    cases h1 : leafStep M.params t l r with
    | error e1 =>
      refine ⟨fun e h => ?_, fun t2 r2 res h => (by cases h)⟩
      injection h with h; subst h
      exact After.callError (hcall _ h1)
    | ok q =>
      obtain ⟨t1, r1⟩ := q
      have hc := hcall _ h1
      obtain ⟨ih1, ih2⟩ := ih t1 { model := { M with trees := M.trees.set i t1 }, phase := .leaf i is, treeVar := g.treeVar, leafVar := some (i, l) } r1 rfl
      refine ⟨fun e h => ?_, fun t2 r2 res h hr => ?_⟩
      · exact After.step hc (ih1 e h)
      · have := After.step (k := .node) hc (ih2 t2 r2 res h hr)
        rw [prepend_append] at this
        exact this

theorem leafStep_leafNodes {m : Params K} {t t' : Tree K n p} {i : NodeId} {r r' : Rand K} (h : leafStep m t i r = .ok (t', r')) :
    t'.leafNodes = t.leafNodes := by
  unfold leafStep at h
  simp only at h
  split at h
  · cases h
  · next s h1 e1 =>
    split at h
    · cases h
    · split at h
      · cases h
      · next v e2 =>
        injection h with h; injection h with h3 h4; subst h3
        unfold Heap.sumYOf at e1
        split at e1
        · cases e1
        · injection e1 with e1; injection e1 with e3 e4; subst e4
          unfold Tree.leafNodes
          apply List.filter_congr
          intro k hk
          by_cases hki : k = i
          · subst hki; simp [Heap.setValue, Heap.setNode, Heap.setData]
          · simp [Heap.setValue, Heap.setNode, Heap.setData, hki]

theorem leafSteps_leafNodes {m : Params K} : ∀ {is : List NodeId} {t t' : Tree K n p} {r r' : Rand K}, leafSteps m is t r = .ok (t', r') →
    t'.leafNodes = t.leafNodes := by
  intro is
  induction is with
  | nil => intro t t' r r' h; injection h with h; injection h with h1 h2; subst h1; rfl
  | cons i is ih =>
    intro t t' r r' h
    unfold leafSteps at h
    split at h
    · cases h
    · next t1 r1 e => rw [ih h, leafStep_leafNodes e]

theorem refreshEnd_leafNodes {pred pred' : Fin n → K} {t t' : Tree K n p} (h : BModel.refreshEnd pred t = .ok (pred', t')) : t'.leafNodes = t.leafNodes := by
  unfold BModel.refreshEnd at h
  split at h
  · cases h
  · cases h
  · cases h
  · next e =>
    injection h with h; injection h with h1 h2; subst h2
    exact (predict_shape e).leafNodes

/-- The labels of what is done. -/
def labelled (es : List Event) : List (StepKind × Event) :=
  es.map (fun e => match e with
    | .tree i mu => (.tree, .tree i mu)
    | .leaf i l => (.node, .leaf i l)
    | .sigma => (.node, .sigma))

/-- The trees of a sweep from tree number `done.length` on. -/
theorem tree_loop (pGrow pPrune : K) (y : Fin n → K) (M : BModel K n p) (hy : M.data.y.y = some y) : ∀ (ts done : List (Tree K n p)) (pred : Fin n → K) (g : Gen K n p) (r : Rand K),
    g.model = { M with trees := done ++ ts, prediction := some pred } →
    (∀ e, BModel.refreshLoop y (BModel.treeBody M.params pGrow pPrune) ts pred r = .error e → After pGrow pPrune (g.enterTree done.length) r (.error e)) ∧
    (∀ mus pred' ts' r', BModel.refreshLoop y (BModel.treeBody M.params pGrow pPrune) ts pred r = .ok (mus, pred', ts', r') →
      (∀ e, BModel.sigmaStep { M with trees := done ++ ts', prediction := some pred' } r' = .error e → After pGrow pPrune (g.enterTree done.length) r (.error e)) ∧
      (∀ m2 r2, BModel.sigmaStep { M with trees := done ++ ts', prediction := some pred' } r' = .ok (m2, r2) →
        After pGrow pPrune (g.enterTree done.length) r (.ok (labelled (sweepOrder done.length ts' mus), m2, r2)))) := by
  intro ts
  induction ts with
  | nil =>
    intro done pred g r hg
    refine ⟨fun e h => (by cases h), fun mus pred' ts' r' h => ?_⟩
    injection h with h; injection h with h1 h2; injection h2 with h2 h3; injection h3 with h3 h4
    subst h1; subst h2; subst h3; subst h4
    have hent : g.enterTree done.length = .ok (some (.node, .sigma), { g with phase := .last }) := by
      unfold enterTree
      have : g.model.trees[done.length]? = none := by rw [hg]; simp
      simp only [this]
    rw [hent]
    refine ⟨fun e h => After.callError ?_, fun m2 r2 h => ?_⟩
    · unfold call
      simp only [hg, h]
    · have hcall : ({ g with phase := .last } : Gen K n p).call pGrow pPrune .sigma r =
          .ok (.sigma, { g with phase := .last, model := m2 }, r2) := by
        unfold call
        simp only [hg, h]
      exact After.step (res := .ok ([], m2, r2)) hcall (fun g0 h0 => by
        simp only [next] at h0
        exact .stop h0)
  | cons t ts ih =>
    intro done pred g r hg
    have hget : g.model.trees[done.length]? = some t := by rw [hg]; simp
    have hyg : g.model.data.y.y = some y := by rw [hg]; exact hy
    have hpg : g.model.prediction = some pred := by rw [hg]
    unfold BModel.refreshLoop
    cases h1 : BModel.refreshBegin y pred t with
    | error e1 =>
      refine ⟨fun e h => ?_, fun _ _ _ _ h => (by cases h)⟩
      injection h with h; subst h
      have : g.enterTree done.length = .error e1 := by
        unfold enterTree
        simp only [hget, hyg, hpg, h1]
      rw [this]; exact After.error _ _ _ _
    | ok q1 =>
      obtain ⟨pred1, t1⟩ := q1
      have hent : g.enterTree done.length = .ok (some (.tree, .tree),
          ⟨{ M with trees := done ++ t1 :: ts, prediction := some pred1 }, .tree done.length, some done.length, g.leafVar⟩) := by
        unfold enterTree
        simp only [hget, hyg, hpg, h1, put]
        simp [hg]
      rw [hent]
      simp only
      have hcall : ∀ x, treeStep M.params pGrow pPrune t1 r = x →
          (⟨{ M with trees := done ++ t1 :: ts, prediction := some pred1 }, .tree done.length, some done.length, g.leafVar⟩ : Gen K n p).call pGrow pPrune .tree r = match x with
          | .error e => .error e
          | .ok (mu, t2, r1) => .ok (.tree done.length mu, ⟨{ M with trees := done ++ t2 :: ts, prediction := some pred1 }, .tree done.length, some done.length, g.leafVar⟩, r1) := by
        intro x hx
        unfold call
        have e1 : ({ M with trees := done ++ t1 :: ts, prediction := some pred1 } : BModel K n p).trees[done.length]? = some t1 := by simp
        have e2 : ({ M with trees := done ++ t1 :: ts, prediction := some pred1 } : BModel K n p).params = M.params := rfl
        simp only [e1, e2, hx]
        match x with
        | .error e => rfl
        | .ok (mu, t2, r1) => simp
      have hbody : BModel.treeBody M.params pGrow pPrune t1 r =
          match treeStep M.params pGrow pPrune t1 r with
          | .error e => .error e
          | .ok (mu, t1, r1) =>
            match leafSteps M.params t1.leafNodes t1 r1 with
            | .error e => .error e
            | .ok (t2, r2) => .ok (mu, t2, r2) := rfl
      rw [hbody]
      cases h2 : treeStep M.params pGrow pPrune t1 r with
      | error e2 =>
        refine ⟨fun e h => ?_, fun _ _ _ _ h => (by cases h)⟩
        injection h with h; subst h
        exact After.callError (hcall _ h2)
      | ok q2 =>
        obtain ⟨mu, t2, r1⟩ := q2
        have hc := hcall _ h2
        simp only at hc ⊢
        have hnx : (⟨{ M with trees := done ++ t2 :: ts, prediction := some pred1 }, .tree done.length, some done.length, g.leafVar⟩ : Gen K n p).next =
            (⟨{ M with trees := done ++ t2 :: ts, prediction := some pred1 }, .tree done.length, some done.length, g.leafVar⟩ : Gen K n p).enterLeaf done.length t2.leafNodes := by
          simp [next]
        obtain ⟨l1, l2⟩ := leaf_loop pGrow pPrune { M with trees := done ++ t2 :: ts, prediction := some pred1 } done.length (by simp) t2.leafNodes t2
          ⟨{ M with trees := done ++ t2 :: ts, prediction := some pred1 }, .tree done.length, some done.length, g.leafVar⟩ r1
          (by simp)
        have hpar : ({ M with trees := done ++ t2 :: ts, prediction := some pred1 } : BModel K n p).params = M.params := rfl
        rw [hpar] at l1 l2
        cases h3 : leafSteps M.params t2.leafNodes t2 r1 with
        | error e3 =>
          refine ⟨fun e h => ?_, fun _ _ _ _ h => (by cases h)⟩
          injection h with h; subst h
          exact After.step hc (by rw [hnx]; exact l1 _ h3)
        | ok q3 =>
          obtain ⟨t3, r2⟩ := q3
          simp only
          have hl : t3.leafNodes = t2.leafNodes := leafSteps_leafNodes h3
          have fin : ∀ res, (∀ g' : Gen K n p, g'.model = { M with trees := done ++ t3 :: ts, prediction := some pred1 } →
                After pGrow pPrune (g'.enterLeaf done.length []) r2 res) →
              After pGrow pPrune (.ok (some (.tree, .tree), ⟨{ M with trees := done ++ t1 :: ts, prediction := some pred1 }, .tree done.length, some done.length, g.leafVar⟩)) r (prepend ((.tree, .tree done.length mu) :: t2.leafNodes.map (fun l => (.node, .leaf done.length l))) res) := by
            intro res hr
            have := After.step (k := .tree) hc (by rw [hnx]; exact l2 t3 r2 res h3 (fun g' hg' => hr g' (by rw [hg']; simp)))
            rw [prepend_append] at this
            exact this
          cases h4 : BModel.refreshEnd pred1 t3 with
          | error e4 =>
            refine ⟨fun e h => ?_, fun _ _ _ _ h => (by cases h)⟩
            injection h with h; subst h
            refine fin (.error e4) (fun g' hg' => ?_)
            have : g'.enterLeaf done.length [] = .error e4 := by
              unfold enterLeaf
              have e1 : g'.model.trees[done.length]? = some t3 := by rw [hg']; simp
              have e2 : g'.model.prediction = some pred1 := by rw [hg']
              simp only [e1, e2, h4]
            rw [this]; exact After.error _ _ _ _
          | ok q4 =>
            obtain ⟨pred2, t4⟩ := q4
            simp only
            have hl4 : t4.leafNodes = t2.leafNodes := (refreshEnd_leafNodes h4).trans hl
            have hen : ∀ g' : Gen K n p, g'.model = { M with trees := done ++ t3 :: ts, prediction := some pred1 } →
                ∃ g'' : Gen K n p, g''.model = { M with trees := (done ++ [t4]) ++ ts, prediction := some pred2 } ∧
                  g'.enterLeaf done.length [] = g''.enterTree (done ++ [t4]).length := by
              intro g' hg'
              refine ⟨g'.put done.length pred2 t4, by simp [put, hg'], ?_⟩
              unfold enterLeaf
              have e1 : g'.model.trees[done.length]? = some t3 := by rw [hg']; simp
              have e2 : g'.model.prediction = some pred1 := by rw [hg']
              simp only [e1, e2, h4, List.length_append, List.length_singleton]
            cases h5 : BModel.refreshLoop y (BModel.treeBody M.params pGrow pPrune) ts pred2 r2 with
            | error e5 =>
              refine ⟨fun e h => ?_, fun _ _ _ _ h => (by cases h)⟩
              injection h with h; subst h
              refine fin (.error e5) (fun g' hg' => ?_)
              obtain ⟨g'', hg'', hen'⟩ := hen g' hg'
              rw [hen']
              exact (ih (done ++ [t4]) pred2 g'' r2 hg'').1 e5 h5
            | ok q5 =>
              obtain ⟨mus, pred3, ts1, r3⟩ := q5
              refine ⟨fun e h => (by cases h), fun mus' pred' ts' r' h => ?_⟩
              injection h with h; injection h with i1 i2; injection i2 with i2 i3; injection i3 with i3 i4
              subst i1; subst i2; subst i3; subst i4
              have happ : done ++ t4 :: ts1 = (done ++ [t4]) ++ ts1 := by simp
              rw [happ]
              refine ⟨fun e h => ?_, fun m2 r2' h => ?_⟩
              · refine fin (.error e) (fun g' hg' => ?_)
                obtain ⟨g'', hg'', hen'⟩ := hen g' hg'
                rw [hen']
                exact ((ih (done ++ [t4]) pred2 g'' r2 hg'').2 _ _ _ _ h5).1 e h
              · have := fin (.ok (labelled (sweepOrder (done.length + 1) ts1 mus), m2, r2')) (fun g' hg' => by
                  obtain ⟨g'', hg'', hen'⟩ := hen g' hg'
                  rw [hen']
                  have := ((ih (done ++ [t4]) pred2 g'' r2 hg'').2 _ _ _ _ h5).2 m2 r2' h
                  rw [List.length_append, List.length_singleton] at this ⊢
                  exact this)
                have he : prepend ((StepKind.tree, Event.tree done.length mu) :: t2.leafNodes.map (fun l => (StepKind.node, Event.leaf done.length l)))
                    (.ok (labelled (sweepOrder (done.length + 1) ts1 mus), m2, r2')) =
                    .ok (labelled (sweepOrder done.length (t4 :: ts1) (mu :: mus)), m2, r2') := by
                  simp [prepend, sweepOrder, labelled, hl4, Function.comp_def]
                rwa [he] at this

theorem sweepOrder_congr {ts ts' : List (Tree K n p)} (h : List.Forall₂ SameShape ts ts') : ∀ (i : Nat) (mus : List (Option TreeMutation)),
    sweepOrder i ts' mus = sweepOrder i ts mus := by
  induction h with
  | nil => intro i mus; simp [sweepOrder]
  | cons h _ ih =>
    intro i mus
    cases mus with
    | nil => simp [sweepOrder]
    | cons mu mus => simp only [sweepOrder, h.leafNodes, ih]

end Gen

theorem sigmaStep_shape {m m' : BModel K n p} {r r' : Rand K} (h : m.sigmaStep r = .ok (m', r')) : List.Forall₂ SameShape m.trees m'.trees := by
  unfold BModel.sigmaStep at h
  split at h
  · cases h
  · next res m1 e =>
    split at h
    · cases h
    · split at h
      · cases h
      · split at h
        · cases h
        · injection h with h; injection h with h1 h2; subst h1
          simpa using residualsModel_shape e

end Bart
