import Verif.Proofs.ScheduleLemmas
import Verif.Props.ModelProps

/-! Property theorems C40, C41: the schedule of a Gibbs sweep. -/

set_option linter.unusedSectionVars false

namespace Bart
open Spec Sampler Gen
variable {K : Type} [Field K] [LinearOrder K] {n p : Nat} [MathFns K]

/-! ### C40 -/

/-- The loop over the schedule always ends (or raises), with the result of `BModel.sweep`; its record is the documented order. -/
theorem runs_sweep (pGrow pPrune : K) {m : BModel K n p} {y : Fin n → K} (hy : m.data.y.y = some y) (r : Rand K) :
    Runs pGrow pPrune (steps m) r (match m.sweep pGrow pPrune r with
      | .error e => .error e
      | .ok (mus, m', r') => .ok (labelled (sweepOrder 0 m'.trees mus), m', r')) := by
  unfold BModel.sweep BModel.sweepTrees
  simp only [hy]
  cases h1 : m.startPrediction with
  | error e =>
    exact .nextError (by simp only [next, steps, h1])
  | ok q =>
    obtain ⟨f, m1⟩ := q
    have hm1 : m1.data = m.data ∧ m1.params = m.params := by
      unfold BModel.startPrediction at h1
      split at h1
      · injection h1 with h1; injection h1 with h1 h2; subst h2; exact ⟨rfl, rfl⟩
      · unfold BModel.predict at h1
        split at h1
        · cases h1
        · injection h1 with h1; injection h1 with h1 h2; subst h2; exact ⟨rfl, rfl⟩
    have hnext : (steps m).next = (⟨{ m1 with prediction := some f }, .start, none, none⟩ : Gen K n p).enterTree 0 := by
      simp only [next, steps, h1]
    obtain ⟨l1, l2⟩ := tree_loop pGrow pPrune y m1 (by rw [hm1.1]; exact hy) m1.trees [] f ⟨{ m1 with prediction := some f }, .start, none, none⟩ r rfl
    rw [hm1.2] at l1 l2
    simp only
    cases h2 : BModel.refreshLoop y (BModel.treeBody m.params pGrow pPrune) m1.trees f r with
    | error e => exact l1 e h2 _ hnext
    | ok q2 =>
      obtain ⟨mus, f1, ts, r1⟩ := q2
      obtain ⟨l3, l4⟩ := l2 _ _ _ _ h2
      simp only
      have happ : ([] : List (Tree K n p)) ++ ts = ts := rfl
      rw [happ] at l3 l4
      cases h3 : BModel.sigmaStep { m1 with trees := ts, prediction := some f1 } r1 with
      | error e => exact l3 e h3 _ hnext
      | ok q3 =>
        obtain ⟨m2, r2⟩ := q3
        have := l4 m2 r2 h3 _ hnext
        simp only
        rw [sweepOrder_congr (sigmaStep_shape h3)]
        exact this

/-- C40. One step of the model sampler (the loop over the generator of the schedule): if it ends with the record `es`, the model `m'` and the
draws `r'`, then it did a Gibbs sweep, and `es` is exactly: for each tree in order one tree step on this tree, then one leaf step for each leaf of the tree as it
is after the sweep (so: after its mutation) in its order, then the next tree; at the end one sigma step. The labels are `"Tree"` for tree steps and `"Node"` for the others. -/
theorem C40_sweep_order (pGrow pPrune : K) {m m' : BModel K n p} {y : Fin n → K} (hy : m.data.y.y = some y) {r r' : Rand K} {es : List (StepKind × Event)}
    (h : Runs pGrow pPrune (steps m) r (.ok (es, m', r'))) :
    ∃ mus, m.sweep pGrow pPrune r = .ok (mus, m', r') ∧ es.map Prod.snd = sweepOrder 0 m'.trees mus ∧
      ∀ e ∈ es, e.1 = .tree ↔ ∃ i mu, e.2 = .tree i mu := by
  have := (runs_sweep pGrow pPrune hy r).unique h
  cases h1 : m.sweep pGrow pPrune r with
  | error e => rw [h1] at this; cases this
  | ok q =>
    obtain ⟨mus, m1, r1⟩ := q
    rw [h1] at this
    injection this with this; injection this with e1 e2; injection e2 with e2 e3
    subst e1; subst e2; subst e3
    refine ⟨mus, rfl, ?_, ?_⟩
    · unfold labelled
      rw [List.map_map]
      conv_rhs => rw [← List.map_id (sweepOrder 0 m1.trees mus)]
      apply List.map_congr_left
      intro e _
      cases e <;> rfl
    · intro e he
      obtain ⟨ev, -, rfl⟩ := List.mem_map.1 he
      cases ev <;> simp

/-- C40, the errors: the step raises exactly when the sweep does, with the same exception; and it always ends. -/
theorem C40_sweep_total (pGrow pPrune : K) {m : BModel K n p} {y : Fin n → K} (hy : m.data.y.y = some y) (r : Rand K) :
    (∃ res, Runs pGrow pPrune (steps m) r res) ∧
    (∀ e, Runs pGrow pPrune (steps m) r (.error e) ↔ m.sweep pGrow pPrune r = .error e) ∧
    (∀ mus m' r', m.sweep pGrow pPrune r = .ok (mus, m', r') → ∃ es, Runs pGrow pPrune (steps m) r (.ok (es, m', r'))) := by
  have h0 := runs_sweep pGrow pPrune hy r
  refine ⟨⟨_, h0⟩, fun e => ⟨fun h => ?_, fun h => ?_⟩, fun mus m' r' h => ?_⟩
  · have := h0.unique h
    cases h1 : m.sweep pGrow pPrune r with
    | error e => rw [h1] at this; injection this with this; rw [this]
    | ok q => rw [h1] at this; cases this
  · rw [h] at h0; exact h0
  · rw [h] at h0; exact ⟨_, h0⟩

theorem mem_sweepOrder_ge : ∀ {ts : List (Tree K n p)} {i : Nat} {mus : List (Option TreeMutation)} {e : Event}, e ∈ sweepOrder i ts mus →
    e = .sigma ∨ (∃ j mu, e = .tree j mu ∧ i ≤ j) ∨ ∃ j l, e = .leaf j l ∧ i ≤ j := by
  intro ts
  induction ts with
  | nil => intro i mus e h; simp [sweepOrder] at h; exact Or.inl h
  | cons t ts ih =>
    intro i mus e h
    cases mus with
    | nil => simp [sweepOrder] at h; exact Or.inl h
    | cons mu mus =>
      simp only [sweepOrder, List.mem_cons, List.mem_append, List.mem_map] at h
      rcases h with h | ⟨l, -, h⟩ | h
      · exact Or.inr (Or.inl ⟨i, mu, h, le_refl _⟩)
      · exact Or.inr (Or.inr ⟨i, l, h.symm, le_refl _⟩)
      · rcases ih h with h | ⟨j, mu, h, hj⟩ | ⟨j, l, h, hj⟩
        · exact Or.inl h
        · exact Or.inr (Or.inl ⟨j, mu, h, by omega⟩)
        · exact Or.inr (Or.inr ⟨j, l, h, by omega⟩)

theorem sweepOrder_nodup : ∀ {ts : List (Tree K n p)} {i : Nat} {mus : List (Option TreeMutation)}, (∀ t ∈ ts, t.nodes.Nodup) → (sweepOrder i ts mus).Nodup := by
  intro ts
  induction ts with
  | nil => intro i mus _; simp [sweepOrder]
  | cons t ts ih =>
    intro i mus h
    cases mus with
    | nil => simp [sweepOrder]
    | cons mu mus =>
      have hr := ih (i := i + 1) (mus := mus) (fun t ht => h t (by simp [ht]))
      simp only [sweepOrder]
      rw [List.nodup_cons, List.nodup_append]
      refine ⟨?_, ?_, hr, ?_⟩
      · intro hm
        simp only [List.mem_append, List.mem_map] at hm
        rcases hm with ⟨l, -, hm⟩ | hm
        · cases hm
        · rcases mem_sweepOrder_ge hm with h | ⟨j, mu, h, hj⟩ | ⟨j, l, h, hj⟩
          · cases h
          · injection h with h; omega
          · cases h
      · refine List.Nodup.map ?_ ((h t (by simp)).filter _)
        intro a b hab
        injection hab
      · intro a ha b hb hab
        subst hab
        obtain ⟨l, -, rfl⟩ := List.mem_map.1 ha
        rcases mem_sweepOrder_ge hb with h | ⟨j, mu, h, hj⟩ | ⟨j, l, h, hj⟩
        · cases h
        · cases h
        · injection h with h; omega

/-- C40, "exactly once": nothing occurs twice in the record of a step on a model that occurs when the sampler runs, every tree has its tree step and every leaf of
every tree its leaf step. -/
theorem C40_exactly_once {X : Fin n → Fin p → Fl K} (hX : NoNan X) (hn : 0 < n) {m m' : BModel K n p} (hm : ReachableModel X m)
    {pGrow pPrune : K} (hp1 : pGrow ≠ 0) (hp2 : pPrune ≠ 0) {r r' : Rand K} {es : List (StepKind × Event)}
    (h : Runs pGrow pPrune (steps m) r (.ok (es, m', r'))) :
    (es.map Prod.snd).Nodup ∧ (∀ i t, m'.trees[i]? = some t → (∃ mu, .tree i mu ∈ es.map Prod.snd) ∧ ∀ l ∈ t.leafNodes, .leaf i l ∈ es.map Prod.snd) ∧
      (es.map Prod.snd).getLast? = some .sigma := by
  obtain ⟨y, hI⟩ := hm.inv hX hn
  obtain ⟨mus, hs, hes, -⟩ := C40_sweep_order pGrow pPrune hI.target h
  have := hI.sweep hX hp1 hp2 r
  rw [hs] at this
  obtain ⟨hI', hlen, hv⟩ := this
  have hlen' : mus.length = m'.trees.length := by
    have h1 := hI'.len
    obtain ⟨v, hv⟩ := hv
    rw [h1]; simp_all
  rw [hes]
  refine ⟨sweepOrder_nodup (fun t ht => ?_), ?_, ?_⟩
  · obtain ⟨y1, fl, hG, -⟩ := hI'.fitted t ht
    obtain ⟨s, hT⟩ := hG.inv
    exact hT.perm.symm.nodup hT.nodup
  · have key : ∀ (ts : List (Tree K n p)) (mus : List (Option TreeMutation)) (k i : Nat) t, mus.length = ts.length → ts[i]? = some t →
        (∃ mu, .tree (k + i) mu ∈ sweepOrder k ts mus) ∧ ∀ l ∈ t.leafNodes, .leaf (k + i) l ∈ sweepOrder k ts mus := by
      intro ts
      induction ts with
      | nil => intro mus k i t _ h; simp at h
      | cons t0 ts ih =>
        intro mus k i t hl hi
        cases mus with
        | nil => simp at hl
        | cons mu mus =>
          cases i with
          | zero =>
            simp at hi; subst hi
            exact ⟨⟨mu, by simp [sweepOrder]⟩, fun l hl => by simp [sweepOrder, hl]⟩
          | succ i =>
            simp at hi hl
            obtain ⟨⟨mu', a⟩, b⟩ := ih mus (k + 1) i t hl hi
            have hk : k + 1 + i = k + (i + 1) := by omega
            rw [hk] at a b
            exact ⟨⟨mu', by simp [sweepOrder, a]⟩, fun l hl => by simp [sweepOrder, b l hl]⟩
    intro i t hi
    have := key m'.trees mus 0 i t hlen' hi
    simpa using this
  · have key : ∀ (ts : List (Tree K n p)) (mus : List (Option TreeMutation)) (k : Nat), (sweepOrder k ts mus).getLast? = some .sigma := by
      intro ts
      induction ts with
      | nil => intro mus k; simp [sweepOrder]
      | cons t0 ts ih =>
        intro mus k
        cases mus with
        | nil => simp [sweepOrder]
        | cons mu mus => simp [sweepOrder, List.getLast?_cons, List.getLast?_append, ih]
    exact key _ _ _

/-- The dictionary returned by the step: the acceptance used in C45. -/
theorem C40_step_result (ts : List (Tree K n p)) (mus : List (Option TreeMutation)) (h : mus.length = ts.length) :
    (stepResult (labelled (sweepOrder 0 ts mus)) : Option K) = BModel.acceptance mus := by
  have key : ∀ (ts : List (Tree K n p)) (mus : List (Option TreeMutation)) (k : Nat), mus.length = ts.length →
      (labelled (sweepOrder k ts mus)).filterMap logMessage = mus.map Option.isSome := by
    intro ts
    induction ts with
    | nil => intro mus k h; simp at h; subst h; rfl
    | cons t ts ih =>
      intro mus k h
      cases mus with
      | nil => simp at h
      | cons mu mus =>
        simp at h
        have := ih mus (k + 1) h
        unfold labelled at this ⊢
        simp only [sweepOrder, List.map_cons, List.map_append, List.filterMap_cons, List.filterMap_append, this]
        simp [List.filterMap_map, logMessage]
  unfold stepResult BModel.acceptance
  simp only [key ts mus 0 h]
  simp [List.countP_map]

/-- C39 for the generator: after a complete step of the model sampler (the loop over the generator of the schedule) the stored prediction is the sum over the trees of
the values of the leaves of the rows, for the model as it is after the step, and so is the result of `predict()`. -/
theorem C39_after_step [IsStrictOrderedRing K] {X : Fin n → Fin p → Fl K} (hX : NoNan X) (hn : 0 < n) {m m' : BModel K n p} (hm : ReachableModel X m)
    {pGrow pPrune : K} (hp1 : pGrow ≠ 0) (hp2 : pPrune ≠ 0) {r r' : Rand K} {es : List (StepKind × Event)}
    (h : Runs pGrow pPrune (steps m) r (.ok (es, m', r'))) :
    m'.prediction = some (sumValue m'.trees) ∧ ∃ m'', m'.predict = .ok (sumValue m'.trees, m'') := by
  obtain ⟨y, hI⟩ := hm.inv hX hn
  obtain ⟨mus, hs, -, -⟩ := C40_sweep_order pGrow pPrune hI.target h
  refine ⟨C39_prediction_exists hX hn hm hp1 hp2 hs, ?_⟩
  have := hI.sweep hX hp1 hp2 r
  rw [hs] at this
  obtain ⟨m'', e, -⟩ := this.1.predict hX
  exact ⟨m'', e⟩

/-- The number of tree steps in the record of a step whose mutation was accepted. -/
def acceptedSteps (es : List (StepKind × Event)) : Nat := es.countP (fun e => match e.2 with | .tree _ (some _) => true | _ => false)

theorem acceptedSteps_sweepOrder : ∀ (ts : List (Tree K n p)) (mus : List (Option TreeMutation)) (k : Nat), mus.length = ts.length →
    acceptedSteps (labelled (sweepOrder k ts mus)) = (mus.filter (·.isSome)).length := by
  intro ts
  induction ts with
  | nil => intro mus k h; simp at h; subst h; rfl
  | cons t ts ih =>
    intro mus k h
    cases mus with
    | nil => simp at h
    | cons mu mus =>
      simp at h
      have := ih mus (k + 1) h
      unfold acceptedSteps labelled at this ⊢
      have h0 : ∀ l : List NodeId, List.countP (fun e : StepKind × Event => match e.2 with | .tree _ (some _) => true | _ => false)
          ((l.map (fun j => Event.leaf k j)).map (fun e => ((match e with | .tree _ _ => StepKind.tree | _ => StepKind.node), e))) = 0 := by
        intro l
        rw [List.countP_eq_zero]
        intro e he
        simp only [List.mem_map] at he
        obtain ⟨_, ⟨j, -, rfl⟩, rfl⟩ := he
        simp
      simp only [sweepOrder, List.map_cons, List.map_append, List.countP_cons, List.countP_append, this]
      cases mu <;> simp [h0]

/-- C45, as recorded: the dictionary that a step of the model sampler returns holds, for a model with at least one tree, the number of tree steps with an accepted
mutation divided by the number of trees; the value lies in [0, 1]. -/
theorem C45_recorded [IsStrictOrderedRing K] {X : Fin n → Fin p → Fl K} (hX : NoNan X) (hn : 0 < n) {m m' : BModel K n p} (hm : ReachableModel X m) (ht : 0 < m.nTrees)
    {pGrow pPrune : K} (hp1 : pGrow ≠ 0) (hp2 : pPrune ≠ 0) {r r' : Rand K} {es : List (StepKind × Event)}
    (h : Runs pGrow pPrune (steps m) r (.ok (es, m', r'))) :
    ∃ a : K, stepResult es = some a ∧ a = acceptedSteps es / (m.nTrees : K) ∧ 0 ≤ a ∧ a ≤ 1 := by
  obtain ⟨y, hI⟩ := hm.inv hX hn
  have h0 := (runs_sweep pGrow pPrune hI.target r).unique h
  obtain ⟨mus, hs, -, -⟩ := C40_sweep_order pGrow pPrune hI.target h
  have hes : es = labelled (sweepOrder 0 m'.trees mus) := by
    rw [hs] at h0
    injection h0 with h0; injection h0 with h0; exact h0.symm
  have := hI.sweep hX hp1 hp2 r
  rw [hs] at this
  obtain ⟨hI', hlen, hv⟩ := this
  have hlen' : mus.length = m'.trees.length := by
    have h1 := hI'.len
    obtain ⟨v, hv⟩ := hv
    rw [h1]; simp_all
  obtain ⟨a, a1, a2, a3⟩ := C45_acceptance hX hn hm ht hp1 hp2 hs
  refine ⟨a, ?_, ?_, a3⟩
  · rw [hes, C40_step_result _ _ hlen', a1]
  · rw [hes, acceptedSteps_sweepOrder _ _ _ hlen', a2]

section
attribute [local instance] exFns

/-- The example: two trees, each grown into two leaves, so seven steps. -/
example : ∃ (m m' : BModel ℚ 3 1) (es : List (StepKind × Event)) (r' : Rand ℚ), ReachableModel exX m ∧ Runs (1/2) (1/2) (steps m) exRand (.ok (es, m', r')) ∧
    es.length = 7 := by
  have h : (match exSweep with | .ok (mus, m, _) => decide ((sweepOrder 0 m.trees mus).length = 7) | .error _ => false) = true := by decide +kernel
  unfold exSweep at h
  split at h
  · next mus m r e =>
    split at e
    · next m0 e0 =>
      have hf : FreshModel exX exY m0 := ⟨false, _, _, _, _, _, _, exData_init _ _, e0⟩
      have hm : ReachableModel exX m0 := ⟨exY, 1/2, 1/2, m0, 0, by norm_num, by norm_num, hf, ModelRun.nil m0⟩
      have hX := exX_noNan
      obtain ⟨y, hI⟩ := hm.inv hX (by norm_num)
      have := runs_sweep (1/2) (1/2) hI.target exRand
      rw [e] at this
      refine ⟨m0, m, _, r, hm, this, ?_⟩
      unfold labelled
      rw [List.length_map]
      simpa using h
    · cases e
  · cases h

end

/-! ### C41 -/

/-- The numbers of the trees on which tree steps were done. -/
def treeSteps (es : List Event) : List Nat := es.filterMap (fun e => match e with | .tree i _ => some i | _ => none)

theorem treeSteps_sweepOrder : ∀ (ts : List (Tree K n p)) (mus : List (Option TreeMutation)) (k : Nat), mus.length = ts.length →
    treeSteps (sweepOrder k ts mus) = List.range' k ts.length := by
  intro ts
  induction ts with
  | nil => intro mus k h; rfl
  | cons t ts ih =>
    intro mus k h
    cases mus with
    | nil => simp at h
    | cons mu mus =>
      simp at h
      have := ih mus (k + 1) h
      unfold treeSteps at this ⊢
      simp only [sweepOrder, List.filterMap_cons, List.filterMap_append, this, List.length_cons, List.range'_succ]
      simp

namespace Gen

/-- What stays: the number of trees and their lists of nodes. -/
def Kept (g g' : Gen K n p) : Prop := g'.model.trees.map Tree.nodes = g.model.trees.map Tree.nodes

theorem Kept.length {g g' : Gen K n p} (h : Kept g g') : g'.model.trees.length = g.model.trees.length := by
  simpa using congrArg List.length h

theorem map_set_nodes {l : List (Tree K n p)} {i : Nat} {t t' : Tree K n p} (hi : l[i]? = some t) (h : t'.nodes = t.nodes) :
    (l.set i t').map Tree.nodes = l.map Tree.nodes := by
  rw [List.map_set, h]
  apply List.ext_getElem?
  intro j
  rw [List.getElem?_set]
  split
  · next hij =>
    subst hij
    split
    · simp [hi]
    · next hlt => simp at hlt; simp [hlt]
  · rfl

theorem updateY_nodes {t t' : Tree K n p} {y : Option (Fin n → K)} (h : t.updateY y = .ok t') : t'.nodes = t.nodes := by
  unfold Tree.updateY at h
  split at h
  · cases h
  · injection h with h; subst h; rfl

theorem refreshBegin_nodes {y pred pred' : Fin n → K} {t t' : Tree K n p} (h : BModel.refreshBegin y pred t = .ok (pred', t')) : t'.nodes = t.nodes := by
  unfold BModel.refreshBegin at h
  split at h
  · cases h
  · cases h
  · cases h
  · next e =>
    simp only at h
    split at h
    · cases h
    · next e2 =>
      injection h with h; injection h with h1 h2; subst h2
      rw [updateY_nodes e2, (predict_shape e).nodes]

theorem refreshEnd_nodes {pred pred' : Fin n → K} {t t' : Tree K n p} (h : BModel.refreshEnd pred t = .ok (pred', t')) : t'.nodes = t.nodes := by
  unfold BModel.refreshEnd at h
  split at h
  · cases h
  · cases h
  · cases h
  · next e =>
    injection h with h; injection h with h1 h2; subst h2
    exact (predict_shape e).nodes

theorem enterTree_cases {g g1 : Gen K n p} {i : Nat} {k : StepKind} {o : Option (StepKind × Closure)} (h : g.enterTree i = .ok (o, g1)) :
    Kept g g1 ∧ ((g.model.trees.length ≤ i ∧ o = some (.node, .sigma) ∧ g1.phase = .last ∧ g1.treeVar = g.treeVar) ∨
      (i < g.model.trees.length ∧ o = some (.tree, .tree) ∧ g1.phase = .tree i ∧ g1.treeVar = some i)) := by
  unfold enterTree at h
  split at h
  · next hi =>
    injection h with h; injection h with h1 h2; subst h1; subst h2
    exact ⟨rfl, Or.inl ⟨by simpa using hi, rfl, rfl, rfl⟩⟩
  · next t hi =>
    split at h
    · split at h
      · cases h
      · next pred1 t1 e =>
        injection h with h; injection h with h1 h2; subst h1; subst h2
        obtain ⟨hlt, -⟩ := List.getElem?_eq_some_iff.1 hi
        exact ⟨map_set_nodes hi (refreshBegin_nodes e), Or.inr ⟨hlt, rfl, rfl, rfl⟩⟩
    · cases h

theorem enterLeaf_cases {g g1 : Gen K n p} {i : Nat} {is : List NodeId} {o : Option (StepKind × Closure)} (h : g.enterLeaf i is = .ok (o, g1)) :
    Kept g g1 ∧ ((∃ rest, o = some (.node, .leaf) ∧ g1.phase = .leaf i rest ∧ g1.treeVar = g.treeVar) ∨
      (g.model.trees.length ≤ i + 1 ∧ o = some (.node, .sigma) ∧ g1.phase = .last ∧ g1.treeVar = g.treeVar) ∨
      (i + 1 < g.model.trees.length ∧ o = some (.tree, .tree) ∧ g1.phase = .tree (i + 1) ∧ g1.treeVar = some (i + 1))) := by
  cases is with
  | cons l rest =>
    injection h with h; injection h with h1 h2; subst h1; subst h2
    exact ⟨rfl, Or.inl ⟨rest, rfl, rfl, rfl⟩⟩
  | nil =>
    unfold enterLeaf at h
    simp only at h
    split at h
    · next t pred hi hp =>
      split at h
      · cases h
      · next pred1 t1 e =>
        obtain ⟨hk, hc⟩ := enterTree_cases (k := .tree) h
        have hk0 : Kept g (g.put i pred1 t1) := map_set_nodes hi (refreshEnd_nodes e)
        have hlen := hk0.length
        rw [hlen] at hc
        exact ⟨hk.trans hk0, Or.inr hc⟩
    · cases h

/-- The collected callables: one tree callable per tree; afterwards the variable `tree` is the last tree. -/
theorem collects_spec {g g' : Gen K n p} {cs : List Closure} (h : Collects g cs g') :
    Kept g g' ∧
    (g.phase = .start → cs.count .tree = g.model.trees.length ∧ (0 < g.model.trees.length → g'.treeVar = some (g.model.trees.length - 1))) ∧
    (∀ i, (g.phase = .tree i ∨ ∃ rest, g.phase = .leaf i rest) → g.treeVar = some i → i < g.model.trees.length →
      cs.count .tree = g.model.trees.length - 1 - i ∧ g'.treeVar = some (g.model.trees.length - 1)) ∧
    (g.phase = .last → cs.count .tree = 0 ∧ g'.treeVar = g.treeVar) := by
  induction h with
  | @stop g g' h =>
    unfold next at h
    split at h
    · next hp =>
      split at h
      · cases h
      · obtain ⟨-, ⟨-, h, -⟩ | ⟨-, h, -⟩⟩ := enterTree_cases (k := .tree) h <;> cases h
    · split at h
      · cases h
      · obtain ⟨-, ⟨_, h, -⟩ | ⟨-, h, -⟩ | ⟨-, h, -⟩⟩ := enterLeaf_cases h <;> cases h
    · obtain ⟨-, ⟨_, h, -⟩ | ⟨-, h, -⟩ | ⟨-, h, -⟩⟩ := enterLeaf_cases h <;> cases h
    · next hp =>
      injection h with h; injection h with h1 h2; subst h2
      exact ⟨rfl, by simp [hp], by simp [hp], by simp⟩
    · next hp =>
      injection h with h; injection h with h1 h2; subst h2
      exact ⟨rfl, by simp [hp], by simp [hp], by simp⟩
  | @step g g1 g' k c cs h _ ih =>
    obtain ⟨ik, is, il, ila⟩ := ih
    unfold next at h
    split at h
    · next hp =>
      split at h
      · cases h
      · next f m1 e =>
        have hk0 : m1.trees.map Tree.nodes = g.model.trees.map Tree.nodes := by
          unfold BModel.startPrediction at e
          split at e
          · injection e with e; injection e with e1 e2; subst e2; rfl
          · have hs := predictModel_shape e
            clear h ik is il ila
            generalize g.model.trees = l at hs
            generalize m1.trees = l' at hs
            induction hs with
            | nil => rfl
            | cons h _ ih => simp [h.nodes, ih]
        have hl0 : m1.trees.length = g.model.trees.length := by simpa using congrArg List.length hk0
        obtain ⟨hk, hc⟩ := enterTree_cases (k := .tree) h
        have hl1 : g1.model.trees.length = g.model.trees.length := hk.length.trans hl0
        refine ⟨ik.trans (hk.trans hk0), fun _ => ?_, by simp [hp], by simp [hp]⟩
        rcases hc with ⟨c1, c2, c3, c4⟩ | ⟨c1, c2, c3, c4⟩
        · injection c2 with c2; injection c2 with _ c2; subst c2
          have hz : g.model.trees.length = 0 := by rw [← hl0]; simpa using c1
          obtain ⟨a, b⟩ := ila c3
          simp [a, hz]
        · injection c2 with c2; injection c2 with _ c2; subst c2
          have hz : 0 < g.model.trees.length := by rw [← hl0]; simpa using c1
          obtain ⟨a, b⟩ := il 0 (Or.inl c3) c4 (by omega)
          rw [hl1] at a b
          refine ⟨by simp [a]; omega, fun _ => b⟩
    · next i hp =>
      split at h
      · cases h
      · obtain ⟨hk, hc⟩ := enterLeaf_cases h
        have hl1 := hk.length
        refine ⟨ik.trans hk, by simp [hp], fun j hj hv hjl => ?_, by simp [hp]⟩
        have : j = i := by rcases hj with hj | ⟨_, hj⟩ <;> rw [hp] at hj <;> cases hj; rfl
        subst this
        rcases hc with ⟨rest, c2, c3, c4⟩ | ⟨c1, c2, c3, c4⟩ | ⟨c1, c2, c3, c4⟩
        · injection c2 with c2; injection c2 with _ c2; subst c2
          obtain ⟨a, b⟩ := il j (Or.inr ⟨rest, c3⟩) (c4.trans hv) (by omega)
          rw [hl1] at a b
          exact ⟨by simp [a], b⟩
        · injection c2 with c2; injection c2 with _ c2; subst c2
          obtain ⟨a, b⟩ := ila c3
          refine ⟨by simp [a]; omega, ?_⟩
          rw [b, c4, hv]; congr 1; omega
        · injection c2 with c2; injection c2 with _ c2; subst c2
          obtain ⟨a, b⟩ := il (j + 1) (Or.inl c3) c4 (by omega)
          rw [hl1] at a b
          exact ⟨by simp [a]; omega, b⟩
    · next i rest0 hp =>
      obtain ⟨hk, hc⟩ := enterLeaf_cases h
      have hl1 := hk.length
      refine ⟨ik.trans hk, by simp [hp], fun j hj hv hjl => ?_, by simp [hp]⟩
      have : j = i := by rcases hj with hj | ⟨_, hj⟩ <;> rw [hp] at hj <;> cases hj; rfl
      subst this
      rcases hc with ⟨rest, c2, c3, c4⟩ | ⟨c1, c2, c3, c4⟩ | ⟨c1, c2, c3, c4⟩
      · injection c2 with c2; injection c2 with _ c2; subst c2
        obtain ⟨a, b⟩ := il j (Or.inr ⟨rest, c3⟩) (c4.trans hv) (by omega)
        rw [hl1] at a b
        exact ⟨by simp [a], b⟩
      · injection c2 with c2; injection c2 with _ c2; subst c2
        obtain ⟨a, b⟩ := ila c3
        refine ⟨by simp [a]; omega, ?_⟩
        rw [b, c4, hv]; congr 1; omega
      · injection c2 with c2; injection c2 with _ c2; subst c2
        obtain ⟨a, b⟩ := il (j + 1) (Or.inl c3) c4 (by omega)
        rw [hl1] at a b
        exact ⟨by simp [a]; omega, b⟩
    · cases h
    · cases h

theorem call_cases {pGrow pPrune : K} {g g1 : Gen K n p} {c : Closure} {r r1 : Rand K} {ev : Event} (h : g.call pGrow pPrune c r = .ok (ev, g1, r1)) :
    g1.treeVar = g.treeVar ∧ g1.model.trees.length = g.model.trees.length ∧
    (∀ j, g.treeVar ≠ some j → (g1.model.trees[j]?).map Tree.nodes = (g.model.trees[j]?).map Tree.nodes) ∧
    (c = .tree → ∃ i mu, g.treeVar = some i ∧ ev = .tree i mu) ∧ (c ≠ .tree → treeSteps [ev] = []) := by
  have kept : ∀ g1 : Gen K n p, Kept g g1 → g1.model.trees.length = g.model.trees.length ∧
      ∀ j, g.treeVar ≠ some j → (g1.model.trees[j]?).map Tree.nodes = (g.model.trees[j]?).map Tree.nodes := by
    intro g1 hk
    refine ⟨hk.length, fun j _ => ?_⟩
    rw [← List.getElem?_map, hk, List.getElem?_map]
  unfold call at h
  cases c with
  | tree =>
    simp only at h
    split at h
    · cases h
    · next i hv =>
      split at h
      · cases h
      · split at h
        · cases h
        · next mu t1 r1' e =>
          injection h with h; injection h with h1 h2; injection h2 with h2 h3; subst h1; subst h2
          refine ⟨rfl, by simp, fun j hj => ?_, fun _ => ⟨i, mu, hv, rfl⟩, by simp⟩
          have : i ≠ j := by rintro rfl; exact hj hv
          simp only [List.getElem?_set, if_neg this]
  | leaf =>
    simp only at h
    split at h
    · cases h
    · next i l hv =>
      split at h
      · cases h
      · next t ht =>
        split at h
        · cases h
        · next t1 r1' e =>
          injection h with h; injection h with h1 h2; injection h2 with h2 h3; subst h1; subst h2
          have hn : t1.nodes = t.nodes := by
            unfold leafStep at e
            simp only at e
            split at e
            · cases e
            · split at e
              · cases e
              · split at e
                · cases e
                · injection e with e; injection e with e1 e2; subst e1; rfl
          have := kept { g with model := { g.model with trees := g.model.trees.set i t1 } } (map_set_nodes ht hn)
          exact ⟨rfl, this.1, this.2, by simp, by simp [treeSteps]⟩
  | sigma =>
    simp only at h
    split at h
    · cases h
    · next m1 r1' e =>
      injection h with h; injection h with h1 h2; injection h2 with h2 h3; subst h1; subst h2
      have hk : m1.trees.map Tree.nodes = g.model.trees.map Tree.nodes := by
        have hs := sigmaStep_shape e
        generalize g.model.trees = l at hs
        generalize m1.trees = l' at hs
        induction hs with
        | nil => rfl
        | cons h _ ih => simp [h.nodes, ih]
      have := kept { g with model := m1 } hk
      exact ⟨rfl, this.1, this.2, by simp, by simp [treeSteps]⟩

theorem callAll_spec {pGrow pPrune : K} {i : Nat} : ∀ {cs : List Closure} {g g' : Gen K n p} {r r' : Rand K} {es : List Event}, g.treeVar = some i →
    callAll pGrow pPrune cs g r = .ok (es, g', r') →
    treeSteps es = List.replicate (cs.count .tree) i ∧
      ∀ j, j ≠ i → (g'.model.trees[j]?).map Tree.nodes = (g.model.trees[j]?).map Tree.nodes := by
  intro cs
  induction cs with
  | nil =>
    intro g g' r r' es _ h
    injection h with h; injection h with h1 h2; injection h2 with h2 h3; subst h1; subst h2
    exact ⟨rfl, fun _ _ => rfl⟩
  | cons c cs ih =>
    intro g g' r r' es hv h
    unfold callAll at h
    split at h
    · cases h
    · next ev g1 r1 e =>
      split at h
      · cases h
      · next es1 g2 r2 e2 =>
        injection h with h; injection h with h1 h2; injection h2 with h2 h3; subst h1; subst h2
        obtain ⟨c1, -, c3, c4, c5⟩ := call_cases e
        obtain ⟨i1, i2⟩ := ih (c1.trans hv) e2
        refine ⟨?_, fun j hj => ?_⟩
        · have happ : treeSteps (ev :: es1) = treeSteps [ev] ++ treeSteps es1 := by
            unfold treeSteps; rw [← List.filterMap_append]; rfl
          rw [happ, i1]
          by_cases hc : c = .tree
          · obtain ⟨i', mu, hi', rfl⟩ := c4 hc
            rw [hv] at hi'; injection hi' with hi'; subst hi'
            subst hc
            simp [treeSteps, List.replicate_succ]
          · rw [c5 hc, List.count_cons_of_ne hc]; rfl
        · rw [i2 j hj, c3 j (by rw [hv]; intro h; injection h with h; exact hj h.symm)]

/-- `list(generator)` with bounded length (for the examples). -/
def collect : Nat → Gen K n p → Except PyErr (List Closure × Gen K n p)
  | 0, _ => .error .recursionError
  | k + 1, g =>
    match g.next with
    | .error e => .error e
    | .ok (none, g1) => .ok ([], g1)
    | .ok (some (_, c), g1) =>
      match collect k g1 with
      | .error e => .error e
      | .ok (cs, g2) => .ok (c :: cs, g2)

theorem collect_sound : ∀ {k : Nat} {g g' : Gen K n p} {cs : List Closure}, collect k g = .ok (cs, g') → Collects g cs g' := by
  intro k
  induction k with
  | zero => intro g g' cs h; cases h
  | succ k ih =>
    intro g g' cs h
    unfold collect at h
    split at h
    · cases h
    · next e => injection h with h; injection h with h1 h2; subst h1; subst h2; exact .stop e
    · next kk c g1 e =>
      split at h
      · cases h
      · next e2 => injection h with h; injection h with h1 h2; subst h1; subst h2; exact .step e (ih e2)

end Gen

/-- C41, what holds. The callables are collected in a list and then run: exactly `n_trees` tree steps are done, but all of them on the last tree; the other trees keep
their nodes. With one tree (or none) these are the tree steps of the normal run, on the same trees.
Missing: the tree steps of all but the last tree, for more than one tree (`C41_refuted`). -/
theorem C41_collected_partial {pGrow pPrune : K} {m : BModel K n p} {g1 g2 : Gen K n p} {cs : List Closure} {r r2 : Rand K} {es : List Event}
    (hc : Collects (steps m) cs g1) (hr : callAll pGrow pPrune cs g1 r = .ok (es, g2, r2)) :
    treeSteps es = List.replicate m.trees.length (m.trees.length - 1) ∧
    (∀ j, j + 1 < m.trees.length → (g2.model.trees[j]?).map Tree.nodes = (m.trees[j]?).map Tree.nodes) ∧
    (m.trees.length ≤ 1 → treeSteps es = List.range m.trees.length) := by
  obtain ⟨hk, hs, -, -⟩ := collects_spec hc
  obtain ⟨hcount, hv⟩ := hs rfl
  replace hcount : cs.count .tree = m.trees.length := hcount
  by_cases h0 : m.trees.length = 0
  · have : treeSteps es = [] := by
      rw [h0] at hcount
      clear hc hk hs hv
      induction cs generalizing g1 es r with
      | nil => injection hr with hr; injection hr with h1 h2; subst h1; rfl
      | cons c cs ih =>
        unfold callAll at hr
        split at hr
        · cases hr
        · next ev g' r1 e =>
          split at hr
          · cases hr
          · next e2 =>
            injection hr with hr; injection hr with h1 h2; injection h2 with h2 h3; subst h1; subst h2; subst h3
            have hc : c ≠ .tree := by rintro rfl; simp at hcount
            rw [List.count_cons_of_ne hc] at hcount
            obtain ⟨-, -, -, -, c5⟩ := call_cases e
            have := ih e2 hcount
            unfold treeSteps at this c5 ⊢
            rw [List.filterMap_cons]
            have c5 := c5 hc
            rw [List.filterMap_cons] at c5
            split at c5
            · simpa [*] using this
            · cases c5
    rw [this, h0]
    exact ⟨rfl, by simp, by simp⟩
  · obtain ⟨a, b⟩ := callAll_spec (hv (by show 0 < m.trees.length; omega)) hr
    have a : treeSteps es = List.replicate m.trees.length (m.trees.length - 1) := by rw [a, hcount]; rfl
    refine ⟨a, fun j hj => ?_, fun h1 => ?_⟩
    · rw [b j (by show j ≠ m.trees.length - 1; omega), ← List.getElem?_map, hk, List.getElem?_map]; rfl
    · have : m.trees.length = 1 := by omega
      rw [a, this]; rfl

/-- C41 is false of the code: for every model with more than one tree, whatever the draws are, the tree steps done by collected callables are not those done by callables that are
run when they are yielded. `C41_refuted_example` gives a model with two trees for which both ways return. -/
theorem C41_refuted {X : Fin n → Fin p → Fl K} (hX : NoNan X) (hn : 0 < n) {m m' : BModel K n p} (hm : ReachableModel X m) (h2 : 2 ≤ m.nTrees)
    {pGrow pPrune : K} (hp1 : pGrow ≠ 0) (hp2 : pPrune ≠ 0) {r r' r1 r2 : Rand K} {es : List (StepKind × Event)}
    (h : Runs pGrow pPrune (steps m) r (.ok (es, m', r'))) {g1 g2 : Gen K n p} {cs : List Closure} {es' : List Event}
    (hc : Collects (steps m) cs g1) (hr : callAll pGrow pPrune cs g1 r1 = .ok (es', g2, r2)) :
    treeSteps (es.map Prod.snd) = List.range m.nTrees ∧ treeSteps es' = List.replicate m.nTrees (m.nTrees - 1) ∧ treeSteps es' ≠ treeSteps (es.map Prod.snd) := by
  obtain ⟨y, hI⟩ := hm.inv hX hn
  obtain ⟨mus, hs, hes, -⟩ := C40_sweep_order pGrow pPrune hI.target h
  have := hI.sweep hX hp1 hp2 r
  rw [hs] at this
  obtain ⟨hI', hlen, v, hv⟩ := this
  have hT : m'.trees.length = m.nTrees := by rw [hI'.len]; simp_all
  have e1 : treeSteps (es.map Prod.snd) = List.range m.nTrees := by
    rw [hes, treeSteps_sweepOrder _ _ _ (by rw [hT]; exact hlen), hT, List.range_eq_range']
  have e2 := (C41_collected_partial hc hr).1
  rw [hI.len] at e2
  refine ⟨e1, e2, ?_⟩
  rw [e1, e2]
  intro h
  have h0 : (0 : Nat) ∈ List.replicate m.nTrees (m.nTrees - 1) := by rw [h]; exact List.mem_range.2 (by omega)
  have := List.eq_of_mem_replicate h0
  omega

section
attribute [local instance] exFns

/-- Both ways return for the example with two trees: `C41_refuted` is not vacuous. -/
theorem C41_refuted_example : ∃ (m m' : BModel ℚ 3 1) (es : List (StepKind × Event)) (r' r1 r2 : Rand ℚ) (g1 g2 : Gen ℚ 3 1) (cs : List Closure) (es' : List Event),
    ReachableModel exX m ∧ m.nTrees = 2 ∧ Runs (1/2) (1/2) (steps m) exRand (.ok (es, m', r')) ∧ Collects (steps m) cs g1 ∧
    callAll (1/2) (1/2) cs g1 r1 = .ok (es', g2, r2) := by
  have h : (match exModel0 with
    | .ok m => (match m.sweep (1/2) (1/2) exRand with
      | .ok _ => (match collect 10 (steps m) with
        | .ok (cs, g1) => (match callAll (1/2) (1/2) cs g1 ⟨[.grow, .prune], [0, 0, 0, 0, 0, 1], [0, 1/2], [1, 2, -1, 1], [2]⟩ with
          | .ok _ => decide (m.nTrees = 2)
          | .error _ => false)
        | .error _ => false)
      | .error _ => false)
    | .error _ => false) = true := by decide +kernel
  split at h
  · next m0 e0 =>
    split at h
    · next q e =>
      split at h
      · next cs g1 e1 =>
        split at h
        · next q2 e2 =>
          obtain ⟨mus, m', r'⟩ := q
          obtain ⟨es', g2, r2⟩ := q2
          have hf : FreshModel exX exY m0 := ⟨false, _, _, _, _, _, _, exData_init _ _, e0⟩
          have hm : ReachableModel exX m0 := ⟨exY, 1/2, 1/2, m0, 0, by norm_num, by norm_num, hf, ModelRun.nil m0⟩
          obtain ⟨y, hI⟩ := hm.inv exX_noNan (by norm_num)
          have := runs_sweep (1/2) (1/2) hI.target exRand
          rw [e] at this
          exact ⟨m0, m', _, r', _, r2, g1, g2, cs, es', hm, by simpa using h, this, collect_sound e1, e2⟩
        · cases h
      · cases h
    · cases h
  · cases h

end

end Bart
