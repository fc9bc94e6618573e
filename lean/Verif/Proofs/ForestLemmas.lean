import Verif.Model.BartModel
import Verif.Proofs.SamplerLemmas

/-! The trees of a model during a Gibbs sweep. -/

set_option linter.unusedSectionVars false

namespace Bart
open Spec
variable {K : Type} [Field K] [LinearOrder K] {n p : Nat} {N : Prop}

/-- A tree of a model between two steps: in order, and `predict()` gives the current values. -/
def Fitted (N : Prop) (X : Fin n → Fin p → Fl K) (t : Tree K n p) : Prop :=
  ∃ y fl, Good N X y t fl ∧ (fl.predicted = true ∨ fl.changed = false) ∧ (fl.stale = false ∨ fl.fresh = false)

/-- A tree as handed out by `refreshed_trees`: target `y`, cache invalid but allocated. -/
def Handed (N : Prop) (X : Fin n → Fin p → Fl K) (y : Fin n → K) (t : Tree K n p) : Prop :=
  ∃ fl, Good N X (some y) t fl ∧ fl.predicted = true ∧ fl.fresh = false ∧ fl.stale = false

theorem Handed.fitted {X : Fin n → Fin p → Fl K} {y : Fin n → K} {t : Tree K n p} (h : Handed N X y t) : Fitted N X t := by
  obtain ⟨fl, h1, h2, h3, -⟩ := h
  exact ⟨_, fl, h1, Or.inl h2, Or.inr h3⟩

theorem Fitted.predict {X : Fin n → Fin p → Fl K} (hX : NoNan X) {t : Tree K n p} (h : Fitted N X t) :
    ∃ t', t.predict = .ok (.sized (rowValue t), t') ∧ Fitted N X t' ∧ (∀ r, rowValue t' r = rowValue t r) ∧
      t'.heap = t.heap ∧ t'.nodes = t.nodes ∧ ∃ y fl, Good N X y t' fl ∧ fl.predicted = true := by
  obtain ⟨y, fl, h1, h2, h3⟩ := h
  obtain ⟨t', e, g1, g2, g3, g4⟩ := h1.predict hX h2 h3
  exact ⟨t', e, ⟨y, _, g1, Or.inl rfl, Or.inl rfl⟩, g2, g3, g4, y, _, g1, rfl⟩

/-- Same structure and leaf values. -/
structure SameTree (t t' : Tree K n p) : Prop where
  nodes : t'.nodes = t.nodes
  node : t'.heap.node = t.heap.node
  rows : ∀ i ∈ t.nodes, rowsOf (t'.heap.dataOf i) = rowsOf (t.heap.dataOf i)

theorem SameTree.rowValue {t t' : Tree K n p} (h : SameTree t t') (r : Fin n) : rowValue t' r = rowValue t r :=
  rowValue_congr (by unfold Tree.leafNodes; rw [h.nodes, h.node])
    (fun i hi => ⟨h.rows i (List.mem_filter.1 hi).1, by rw [h.node]⟩) r

namespace BModel

theorem refreshBegin_spec {X : Fin n → Fin p → Fl K} (hX : NoNan X) (y pred : Fin n → K) {t : Tree K n p} (h : Fitted N X t) :
    ∃ t', refreshBegin y pred t = .ok (fun r => pred r - rowValue t r, t') ∧ Handed N X (fun r => y r - (pred r - rowValue t r)) t' ∧ SameTree t t' := by
  obtain ⟨t1, e, hF, hv, hh, hn, y1, fl, hG, hp⟩ := h.predict hX
  obtain ⟨t2, e2, hG2, -, n2, d2, r2⟩ := hG.updateY (some (fun r => y r - (pred r - rowValue t r)))
  refine ⟨t2, ?_, ⟨_, hG2, hp, rfl, rfl⟩, n2.trans hn, d2.trans (by rw [hh]), fun i hi => ?_⟩
  · unfold refreshBegin
    simp only [e, e2]
  · rw [r2 i (by rw [hn]; exact hi), hh]

theorem refreshEnd_spec {X : Fin n → Fin p → Fl K} (hX : NoNan X) (pred : Fin n → K) {t : Tree K n p} (h : Fitted N X t) :
    ∃ t', refreshEnd pred t = .ok (fun r => pred r + rowValue t r, t') ∧ Fitted N X t' ∧ SameTree t t' := by
  obtain ⟨t1, e, hF, hv, hh, hn, -⟩ := h.predict hX
  refine ⟨t1, ?_, hF, hn, by rw [hh], fun i hi => by rw [hh]⟩
  unfold refreshEnd
  simp only [e]

/-- What the consumer of `refreshed_trees` may do with a tree: anything that leaves it in order. -/
def KeepsFitted {S α : Type} (N : Prop) (X : Fin n → Fin p → Fl K) (body : Tree K n p → S → Except PyErr (α × Tree K n p × S)) : Prop :=
  ∀ y t s a t' s', Handed N X y t → body t s = .ok (a, t', s') → Fitted N X t'

/-- `body` with a record of the trees it was given. -/
def recording {S α : Type} (body : Tree K n p → S → Except PyErr (α × Tree K n p × S)) :
    Tree K n p → S → Except PyErr ((α × Tree K n p) × Tree K n p × S) := fun t s =>
  match body t s with
  | .error e => .error e
  | .ok (a, t', s') => .ok ((a, t), t', s')

theorem KeepsFitted.recording {S α : Type} {X : Fin n → Fin p → Fl K} {body : Tree K n p → S → Except PyErr (α × Tree K n p × S)}
    (h : KeepsFitted N X body) : KeepsFitted N X (recording body) := by
  intro y t s a t' s' ht e
  unfold BModel.recording at e
  cases hb : body t s with
  | error er => rw [hb] at e; cases e
  | ok q =>
    obtain ⟨a1, t1, s1⟩ := q
    rw [hb] at e
    injection e with e
    injection e with e1 e2
    injection e2 with e2 e3
    subst e2
    exact h _ _ _ _ _ _ ht hb

theorem sumValue_cons (t : Tree K n p) (ts : List (Tree K n p)) (r : Fin n) : sumValue (t :: ts) r = rowValue t r + sumValue ts r := by
  simp [sumValue]

/-- The loop keeps the running prediction equal to the sum of the values of the trees: `c` is the sum over trees not in this part of the list. -/
theorem refreshLoop_spec {S α : Type} {X : Fin n → Fin p → Fl K} (hX : NoNan X) (y : Fin n → K)
    {body : Tree K n p → S → Except PyErr (α × Tree K n p × S)} (hb : KeepsFitted N X body) (ts : List (Tree K n p)) :
    ∀ (_ : ∀ t ∈ ts, Fitted N X t) (pred : Fin n → K) (s : S) {as : List α} {pred' : Fin n → K} {ts' : List (Tree K n p)} {s' : S},
    refreshLoop y body ts pred s = .ok (as, pred', ts', s') →
    (∀ t ∈ ts', Fitted N X t) ∧ ts'.length = ts.length ∧ as.length = ts.length ∧
    (∀ r, pred' r = pred r - sumValue ts r + sumValue ts' r) := by
  induction ts with
  | nil =>
    intro _ pred s as pred' ts' s' h
    unfold refreshLoop at h
    injection h with h
    simp only [Prod.mk.injEq] at h
    obtain ⟨rfl, rfl, rfl, rfl⟩ := h
    simp [sumValue]
  | cons t ts ih =>
    intro hF pred s as pred' ts' s' h
    obtain ⟨t1, e1, hH, hs1⟩ := refreshBegin_spec hX y pred (hF t (by simp))
    unfold refreshLoop at h
    rw [e1] at h
    simp only at h
    split at h
    · cases h
    · next a t2 s1 e2 =>
      have hF2 := hb _ _ _ _ _ _ hH e2
      obtain ⟨t3, e3, hF3, hs3⟩ := refreshEnd_spec hX (fun r => pred r - rowValue t r) hF2
      rw [e3] at h
      simp only at h
      split at h
      · cases h
      · next as1 pred3 ts1 s2 e4 =>
        injection h with h
        simp only [Prod.mk.injEq] at h
        obtain ⟨rfl, rfl, rfl, rfl⟩ := h
        obtain ⟨i1, i2, i3, i4⟩ := ih (fun t ht => hF t (by simp [ht])) _ _ e4
        refine ⟨?_, by simp [i2], by simp [i3], ?_⟩
        · intro t ht
          rcases List.mem_cons.1 ht with rfl | ht
          · exact hF3
          · exact i1 t ht
        · intro r
          rw [i4, sumValue_cons, sumValue_cons, hs3.rowValue]
          ring

/-- The loop over the first trees, then the rest. -/
theorem refreshLoop_append {S α : Type} (y : Fin n → K) (body : Tree K n p → S → Except PyErr (α × Tree K n p × S)) (ts1 : List (Tree K n p)) :
    ∀ (ts2 : List (Tree K n p)) (pred : Fin n → K) (s : S),
    refreshLoop y body (ts1 ++ ts2) pred s =
      match refreshLoop y body ts1 pred s with
      | .error e => .error e
      | .ok (as1, pred1, ts1', s1) =>
        match refreshLoop y body ts2 pred1 s1 with
        | .error e => .error e
        | .ok (as2, pred2, ts2', s2) => .ok (as1 ++ as2, pred2, ts1' ++ ts2', s2) := by
  induction ts1 with
  | nil =>
    intro ts2 pred s
    simp only [refreshLoop, List.nil_append]
    cases refreshLoop y body ts2 pred s with
    | error e => rfl
    | ok q => rfl
  | cons t ts1 ih =>
    intro ts2 pred s
    simp only [refreshLoop, List.cons_append]
    cases refreshBegin y pred t with
    | error e => rfl
    | ok q =>
      obtain ⟨p1, t1⟩ := q
      simp only
      cases body t1 s with
      | error e => rfl
      | ok q =>
        obtain ⟨a, t2, s1⟩ := q
        simp only
        cases refreshEnd p1 t2 with
        | error e => rfl
        | ok q =>
          obtain ⟨p2, t3⟩ := q
          simp only
          rw [ih]
          cases refreshLoop y body ts1 p2 s1 with
          | error e => rfl
          | ok q =>
            obtain ⟨as, p3, ts', s2⟩ := q
            simp only
            cases refreshLoop y body ts2 p3 s2 with
            | error e => rfl
            | ok q => rfl

theorem predictTrees_spec {X : Fin n → Fin p → Fl K} (hX : NoNan X) (ts : List (Tree K n p)) (h : ∀ t ∈ ts, Fitted N X t) :
    ∃ ts', predictTrees ts = .ok (sumValue ts, ts') ∧ (∀ t ∈ ts', Fitted N X t) ∧ ts'.length = ts.length ∧
      List.Forall₂ SameTree ts ts' ∧ (∀ r, sumValue ts' r = sumValue ts r) := by
  induction ts with
  | nil => exact ⟨[], rfl, by simp, rfl, .nil, fun _ => rfl⟩
  | cons t ts ih =>
    obtain ⟨t1, e1, f1, v1, hh, hn, -⟩ := (h t (by simp)).predict hX
    obtain ⟨ts', e2, f2, l2, s2, v2⟩ := ih (fun t ht => h t (by simp [ht]))
    refine ⟨t1 :: ts', ?_, ?_, by simp [l2], ?_, ?_⟩
    · unfold predictTrees
      simp only [e1, e2]
      congr 2
    · intro t ht
      rcases List.mem_cons.1 ht with rfl | ht
      · exact f1
      · exact f2 t ht
    · exact .cons ⟨hn, by rw [hh], fun i _ => by rw [hh]⟩ s2
    · intro r
      rw [sumValue_cons, sumValue_cons, v1, v2]

/-- The trees recorded by the loop and their targets. -/
theorem refreshLoop_targets {S α : Type} {X : Fin n → Fin p → Fl K} (hX : NoNan X) (y : Fin n → K)
    {body : Tree K n p → S → Except PyErr (α × Tree K n p × S)} (hb : KeepsFitted N X body) (ts : List (Tree K n p)) :
    ∀ (_ : ∀ t ∈ ts, Fitted N X t) (pred : Fin n → K) (s : S) {log : List (α × Tree K n p)} {pred' : Fin n → K} {ts' : List (Tree K n p)} {s' : S},
    refreshLoop y (recording body) ts pred s = .ok (log, pred', ts', s') →
    ∀ (k : Nat) (t : Tree K n p) (g : α × Tree K n p), ts[k]? = some t → log[k]? = some g →
      SameTree t g.2 ∧ Handed N X (fun r => y r - (pred r - sumValue (ts.take (k + 1)) r + sumValue (ts'.take k) r)) g.2 := by
  induction ts with
  | nil => intro _ pred s log pred' ts' s' _ k t g hk; simp at hk
  | cons t0 ts ih =>
    intro hF pred s log pred' ts' s' h k t g hk hg
    obtain ⟨t1, e1, hH, hs1⟩ := refreshBegin_spec hX y pred (hF t0 (by simp))
    unfold refreshLoop at h
    rw [e1] at h
    simp only at h
    split at h
    · cases h
    · next a t2 s1 e2 =>
      have hF2 := hb.recording _ _ _ _ _ _ hH e2
      have ha : a.2 = t1 := by
        unfold recording at e2
        split at e2
        · cases e2
        · injection e2 with e2; injection e2 with e2 _; rw [← e2]
      obtain ⟨t3, e3, hF3, hs3⟩ := refreshEnd_spec hX (fun r => pred r - rowValue t0 r) hF2
      rw [e3] at h
      simp only at h
      split at h
      · cases h
      · next as1 pred3 ts1 s2 e4 =>
        injection h with h
        simp only [Prod.mk.injEq] at h
        obtain ⟨rfl, rfl, rfl, rfl⟩ := h
        cases k with
        | zero =>
          simp only [List.getElem?_cons_zero, Option.some.injEq] at hk hg
          subst hk hg
          rw [ha]
          refine ⟨hs1, ?_⟩
          have : (fun r => y r - (pred r - sumValue (List.take (0 + 1) (t0 :: ts)) r + sumValue (List.take 0 (t3 :: ts1)) r)) =
              fun r => y r - (pred r - rowValue t0 r) := by
            funext r; simp [sumValue]
          rw [this]
          exact hH
        | succ k =>
          simp only [List.getElem?_cons_succ] at hk hg
          obtain ⟨j1, j2⟩ := ih (fun t ht => hF t (by simp [ht])) _ _ e4 k t g hk hg
          refine ⟨j1, ?_⟩
          have : (fun r => y r - (pred r - sumValue (List.take (k + 1 + 1) (t0 :: ts)) r + sumValue (List.take (k + 1) (t3 :: ts1)) r)) =
              fun r => y r - (pred r - rowValue t0 r + rowValue t2 r - sumValue (List.take (k + 1) ts) r + sumValue (List.take k ts1) r) := by
            funext r
            simp only [List.take_succ_cons, sumValue_cons, hs3.rowValue]
            ring
          rw [this]
          exact j2

theorem refreshLoop_recording {S α : Type} (y : Fin n → K) (body : Tree K n p → S → Except PyErr (α × Tree K n p × S)) (ts : List (Tree K n p)) :
    ∀ (pred : Fin n → K) (s : S), refreshLoop y body ts pred s =
      match refreshLoop y (recording body) ts pred s with
      | .error e => .error e
      | .ok (log, pred', ts', s') => .ok (log.map Prod.fst, pred', ts', s') := by
  induction ts with
  | nil => intro pred s; rfl
  | cons t ts ih =>
    intro pred s
    simp only [refreshLoop]
    cases refreshBegin y pred t with
    | error e => rfl
    | ok q =>
      obtain ⟨p1, t1⟩ := q
      simp only [recording]
      cases body t1 s with
      | error e => rfl
      | ok q =>
        obtain ⟨a, t2, s1⟩ := q
        simp only
        cases refreshEnd p1 t2 with
        | error e => rfl
        | ok q =>
          obtain ⟨p2, t3⟩ := q
          simp only
          rw [ih]
          cases refreshLoop y (recording body) ts p2 s1 with
          | error e => rfl
          | ok q => rfl

theorem sumValue_take_drop (ts : List (Tree K n p)) (k : Nat) (r : Fin n) : sumValue ts r = sumValue (ts.take k) r + sumValue (ts.drop k) r := by
  unfold sumValue
  rw [← List.sum_append, ← List.map_append, List.take_append_drop]

variable [MathFns K]

theorem treeBody_spec {X : Fin n → Fin p → Fl K} (hX : NoNan X) (m : Params K) {pGrow pPrune : K} (hp1 : pGrow ≠ 0) (hp2 : pPrune ≠ 0)
    {y : Fin n → K} {t : Tree K n p} (h : Handed N X y t) (r : Rand K) :
    match treeBody m pGrow pPrune t r with
    | .error e => e = .outOfDraws ∨ e = .nonFinite
    | .ok (_, t', _) => Handed N X y t' := by
  obtain ⟨fl, hG, hp, hf, hst⟩ := h
  have h1 := Sampler.treeStep_spec hX hG m hp1 hp2 r
  unfold treeBody
  cases e : Sampler.treeStep m pGrow pPrune t r with
  | error er => rw [e] at h1; exact Or.inl h1
  | ok q =>
    obtain ⟨mu, t1, r1⟩ := q
    rw [e] at h1
    obtain ⟨-, hG1⟩ := h1
    simp only
    generalize hfl : (if mu.isSome then { fl with changed := true, fresh := false, stale := false } else fl : CacheFlags) = fl1 at hG1
    have hf1 : fl1.fresh = false ∧ fl1.predicted = true ∧ fl1.stale = false := by
      rw [← hfl]; split <;> exact ⟨by first | rfl | exact hf, hp, by first | rfl | exact hst⟩
    have h2 := Sampler.leafSteps_spec hX m hf1.1 t1.leafNodes hG1 (fun _ h => h) r1
    generalize Sampler.leafSteps m t1.leafNodes t1 r1 = q at h2
    cases q with
    | error er => exact h2
    | ok q =>
      obtain ⟨t2, r2⟩ := q
      exact ⟨fl1, h2.1, hf1.2.1, hf1.1, hf1.2.2⟩

theorem treeBody_keeps {X : Fin n → Fin p → Fl K} (hX : NoNan X) (m : Params K) {pGrow pPrune : K} (hp1 : pGrow ≠ 0) (hp2 : pPrune ≠ 0) :
    KeepsFitted N X (treeBody (n := n) (p := p) m pGrow pPrune) := by
  intro y t s a t' s' ht e
  have := treeBody_spec hX m hp1 hp2 ht s
  rw [e] at this
  exact this.fitted

/-- Errors of the loop are errors of the body. -/
theorem refreshLoop_error {S α : Type} {X : Fin n → Fin p → Fl K} (hX : NoNan X) (y : Fin n → K)
    {body : Tree K n p → S → Except PyErr (α × Tree K n p × S)} {P : PyErr → Prop}
    (hb : ∀ y t s, Handed N X y t → match body t s with | .error e => P e | .ok (_, t', _) => Fitted N X t') (ts : List (Tree K n p)) :
    ∀ (_ : ∀ t ∈ ts, Fitted N X t) (pred : Fin n → K) (s : S) {e : PyErr}, refreshLoop y body ts pred s = .error e → P e := by
  induction ts with
  | nil => intro _ pred s e h; cases h
  | cons t ts ih =>
    intro hF pred s e h
    obtain ⟨t1, e1, hH, hs1⟩ := refreshBegin_spec hX y pred (hF t (by simp))
    unfold refreshLoop at h
    rw [e1] at h
    simp only at h
    have h2 := hb _ _ s hH
    cases e2 : body t1 s with
    | error er =>
      rw [e2] at h h2
      injection h with h
      subst h; exact h2
    | ok q =>
      obtain ⟨a, t2, s1⟩ := q
      rw [e2] at h h2
      obtain ⟨t3, e3, -, -⟩ := refreshEnd_spec hX (fun r => pred r - rowValue t r) h2
      simp only at h
      rw [e3] at h
      simp only at h
      cases e4 : refreshLoop y body ts (fun r => pred r - rowValue t r + rowValue t2 r) s1 with
      | error er =>
        rw [e4] at h
        injection h with h
        subst h
        exact ih (fun t ht => hF t (by simp [ht])) _ _ e4
      | ok q => rw [e4] at h; cases h

end BModel
end Bart
