import Verif.Proofs.LayerPropose

/-! The log ratio of a proposal of the oblivious tree sampler is that of the reference implementation. -/

set_option linter.unusedSectionVars false

namespace Bart.Oblivious
open Bart Spec Reference
variable {K : Type} [Field K] [LinearOrder K] [MathFns K] {n p : Nat} {X : Fin n → Fin p → Fl K}

theorem rowsOn_split (X : Fin n → Fin p → Fl K) (path : List (Cond K p)) (j : Fin p) (v : Fl K) :
    Layers.rowsOn X (path ++ [⟨j, v, true⟩]) = (fun r => Layers.rowsOn X path r && Fl.le (X r j) v) ∧
    Layers.rowsOn X (path ++ [⟨j, v, false⟩]) = (fun r => Layers.rowsOn X path r && !Fl.le (X r j) v) := by
  constructor <;> funext r <;> simp [Layers.rowsOn, Layers.meets, Cond.holds]

theorem logFreq_eq (X : Fin n → Fin p → Fl K) (rows : Fin n → Bool) (c : SplitCondition K p) : logFreq X rows c = Fl.log (frequency X rows c.splittingVariable c.splittingValue) := by
  unfold logFreq frequency freqOf
  split <;> rfl

theorem counted_eq {a b c : List (Cond K p)} {rule : Layers.Rule K p} (h : [a, b] = Layers.expand c rule) : Layers.counted c rule = a.getLast?.map (fun c => (c.column, c.value)) := by
  cases rule with
  | none =>
    simp only [Layers.expand, List.cons.injEq] at h
    rw [h.1]; rfl
  | some q =>
    obtain ⟨j, v⟩ := q
    simp only [Layers.expand, List.cons.injEq] at h
    rw [h.1]
    simp [Layers.counted]

theorem likelihood_eq (P : Params K) (X : Fin n → Fin p → Fl K) (y : Fin n → K) {a b c : List (Cond K p)} {rule : Layers.Rule K p} (h : [a, b] = Layers.expand c rule) :
    Layers.likelihoodOf P X y c rule = Lik.growRatioValue (.fin P.sigma) (Lik.sigmaM P) (Fl.ofInt (count (Layers.rowsOn X c) : Int)) (Fl.ofInt (count (Layers.rowsOn X a) : Int))
      (Fl.ofInt (count (Layers.rowsOn X b) : Int)) (.fin (total y (Layers.rowsOn X c))) (.fin (total y (Layers.rowsOn X a))) (.fin (total y (Layers.rowsOn X b))) := by
  cases rule with
  | none =>
    simp only [Layers.expand, List.cons.injEq, and_true] at h
    rw [h.1, h.2]; rfl
  | some q =>
    obtain ⟨j, v⟩ := q
    simp only [Layers.expand, List.cons.injEq, and_true] at h
    rw [h.1, h.2, (rowsOn_split X c j v).1, (rowsOn_split X c j v).2]
    rfl

/-- The contribution of a proposal. -/
def termOf (P : Params K) (pGrow pPrune : K) (X : Fin n → Fin p → Fl K) (y : Fin n → K) (d : Nat) (path : List (Cond K p)) (rule : Layers.Rule K p) (mu : TreeMutation) :
    Except PyErr (Fl K) :=
  match mu.kind with
  | .grow => Layers.growTerm P pGrow pPrune X y d path rule
  | _ => Layers.pruneTerm P pGrow pPrune X y d path rule

/-- The ratio of one proposal. -/
theorem Rated.value (hX : NoNan X) {y : Fin n → K} {h : Heap K n p} {mu : TreeMutation} {c e l r : NodeId} (m : Params K) {pGrow pPrune : K} (hp1 : pGrow ≠ 0) (hp2 : pPrune ≠ 0)
    (hr : Rated X y h mu c e l r) {d : Nat} (dc : (h.node c).depth = d) (de : (h.node e).depth = d) (dl : (h.node l).depth = d + 1) (dr : (h.node r).depth = d + 1)
    (gc : GoodNode h c) (gl : GoodNode h l) (gr : GoodNode h r) {rule : Layers.Rule K p} (hrule : [pathOf h l, pathOf h r] = Layers.expand (pathOf h c) rule) :
    match logProbabilityRatio m pGrow pPrune h mu with
    | .error er => termOf m pGrow pPrune X y d (pathOf h c) rule mu = .error er
    | .ok (z, h2) => termOf m pGrow pPrune X y d (pathOf h c) rule mu = .ok z ∧ HeapExt h h2 := by
  have hcount := counted_eq hrule
  rw [← recent_path] at hcount
  obtain ⟨qc, kc⟩ := hr.okc
  obtain ⟨ql, kl⟩ := hr.okl
  obtain ⟨qr, kr⟩ := hr.okr
  have ltc := hr.lt c (by simp)
  have ltl := hr.lt l (by simp)
  have ltr := hr.lt r (by simp)
  have lte := hr.lt e (by simp)
  cases hmr : (h.node l).split.combined.mostRecentSplitCondition with
  | none =>
    rw [hmr] at hcount
    have hx := hr.ratio m pGrow pPrune
    cases e1 : logProbabilityRatio m pGrow pPrune h mu with
    | error er =>
      rw [e1] at hx
      rcases hx with ⟨rfl, -⟩ | ⟨-, hz | hz⟩
      · unfold termOf Layers.growTerm Layers.pruneTerm
        simp only [hcount, Option.map_none]
        cases mu.kind <;> rfl
      · exact absurd hz hp1
      · exact absurd hz hp2
    | ok q =>
      obtain ⟨z, h2⟩ := q
      rw [e1] at hx
      exact absurd hmr hx.2
  | some cd =>
    rw [hmr] at hcount
    simp only [Option.map_some] at hcount
    have hgm : Tree.growMutation h c e = .ok { kind := .grow, existing := c, updated := e } := by
      unfold Tree.growMutation; simp [hr.leaf]
    obtain ⟨h1, e1, x1⟩ := hr.within_value (cd := cd) hmr
    have hr1 := hr.ext x1
    obtain ⟨h2, e2, x2⟩ := hr1.logGrow_value m.sigma (Lik.sigmaM m)
    have hr2 := hr1.ext x2
    have hl1 := x1.node l (hr.lt l (by simp))
    have hl2 := x2.node l (hr1.lt l (by simp))
    obtain ⟨h3, e3, x3⟩ := hr2.within_value (cd := cd) (by unfold HasRule; rw [hl2, hl1, hmr])
    rw [(x1.trans x2).rowsOf ltc kc] at e3
    rw [x1.rowsOf ltc kc, x1.rowsOf ltl kl, x1.rowsOf ltr kr] at e2
    rw [gc.rows hX kc, gl.rows hX kl, gr.rows hX kr, ← likelihood_eq m X y hrule] at e2
    rw [gc.rows hX kc, logFreq_eq] at e1 e3
    have hgm2 : Tree.growMutation h2 c e = .ok { kind := .grow, existing := c, updated := e } := by
      unfold Tree.growMutation; simp [hr2.leaf]
    have hch : Lik.children h1 e = .ok (l, r) := by unfold Lik.children; rw [hr1.left, hr1.right]
    have hch2 : Lik.children h2 e = .ok (l, r) := by unfold Lik.children; rw [hr2.left, hr2.right]
    have x12 := x1.trans x2
    have nc : (h2.node c).depth = d := by rw [x12.node c ltc]; exact dc
    have ne : (h2.node e).depth = d := by rw [x12.node e lte]; exact de
    have nl : (h2.node l).depth = d + 1 := by rw [x12.node l ltl]; exact dl
    have nr : (h2.node r).depth = d + 1 := by rw [x12.node r ltr]; exact dr
    unfold logProbabilityRatio termOf
    rcases hr.mu with rfl | rfl
    · simp only [logTransitionRatio, e1, Lik.pyDiv, hp1, if_false, logLikihoodRatio, hch, e2, logTreeRatio, hch2, e3, nc, ne, nl, nr]
      refine ⟨?_, x12.trans x3⟩
      unfold Layers.growTerm splitPrior
      simp only [hcount]
    · simp only [logTransitionRatio, e1, hgm, Lik.pyDiv, hp2, if_false, logLikihoodRatio, hch, e2, logTreeRatio, hr2.left, hgm2, e3, nc, ne, nl]
      refine ⟨?_, x12.trans x3⟩
      unfold Layers.pruneTerm splitPrior
      simp only [hcount]

/-- The contribution of a proposal, now and later. -/
def Valued (m : Params K) (pGrow pPrune : K) (h : Heap K n p) (mu : TreeMutation) (term : Except PyErr (Fl K)) : Prop :=
  ∀ h', HeapExt h h' → match logProbabilityRatio m pGrow pPrune h' mu with
    | .error er => term = .error er
    | .ok (z, h2) => term = .ok z ∧ HeapExt h' h2

theorem Rated.valued (hX : NoNan X) {y : Fin n → K} {h : Heap K n p} {mu : TreeMutation} {c e l r : NodeId} (m : Params K) {pGrow pPrune : K} (hp1 : pGrow ≠ 0) (hp2 : pPrune ≠ 0)
    (hr : Rated X y h mu c e l r) {d : Nat} (dc : (h.node c).depth = d) (de : (h.node e).depth = d) (dl : (h.node l).depth = d + 1) (dr : (h.node r).depth = d + 1)
    (gc : GoodNode h c) (gl : GoodNode h l) (gr : GoodNode h r) {rule : Layers.Rule K p} (hrule : [pathOf h l, pathOf h r] = Layers.expand (pathOf h c) rule) :
    Valued m pGrow pPrune h mu (termOf m pGrow pPrune X y d (pathOf h c) rule mu) := by
  intro h' he
  have ltc := hr.lt c (by simp)
  have ltl := hr.lt l (by simp)
  have ltr := hr.lt r (by simp)
  have lte := hr.lt e (by simp)
  have := (hr.ext he).value hX m hp1 hp2 (d := d) (by rw [he.node c ltc]; exact dc) (by rw [he.node e lte]; exact de) (by rw [he.node l ltl]; exact dl) (by rw [he.node r ltr]; exact dr)
    (gc.ext he ltc) (gl.ext he ltl) (gr.ext he ltr) (rule := rule) (by rw [pathOf_ext he ltl, pathOf_ext he ltr, pathOf_ext he ltc]; exact hrule)
  rw [pathOf_ext he ltc] at this
  exact this

theorem Valued.ext {m : Params K} {pGrow pPrune : K} {h h' : Heap K n p} {mu : TreeMutation} {term : Except PyErr (Fl K)} (hv : Valued m pGrow pPrune h mu term) (he : HeapExt h h') :
    Valued m pGrow pPrune h' mu term := fun h2 he2 => hv h2 (he.trans he2)

/-- The sum. -/
theorem sumRatios_ref {m : Params K} {pGrow pPrune : K} : ∀ {mus : List TreeMutation} {terms : List (Except PyErr (Fl K))} {h : Heap K n p},
    List.Forall₂ (Valued m pGrow pPrune h) mus terms →
    match sumRatios m pGrow pPrune mus h with
    | .error e => Layers.sumTerms terms = .error e
    | .ok (z, h') => Layers.sumTerms terms = .ok z ∧ HeapExt h h' := by
  intro mus
  induction mus with
  | nil =>
    intro terms h hf
    cases hf
    exact ⟨rfl, HeapExt.refl _⟩
  | cons mu mus ih =>
    intro terms h hf
    cases hf with
    | @cons _ term _ terms hd tl =>
      have h1 := hd h (HeapExt.refl _)
      unfold sumRatios
      cases e1 : logProbabilityRatio m pGrow pPrune h mu with
      | error e => rw [e1] at h1; simp only at h1 ⊢; rw [h1]; rfl
      | ok q =>
        obtain ⟨a, h'⟩ := q
        rw [e1] at h1
        obtain ⟨h1, he⟩ := h1
        have h2 := ih (tl.imp (fun _ _ hv => hv.ext he))
        simp only
        rw [h1]
        simp only [Layers.sumTerms]
        cases e2 : sumRatios m pGrow pPrune mus h' with
        | error e => rw [e2] at h2; simp only at h2 ⊢; rw [h2]
        | ok q2 =>
          obtain ⟨b, h''⟩ := q2
          rw [e2] at h2
          simp only
          rw [h2.1]
          exact ⟨rfl, he.trans h2.2⟩

end Bart.Oblivious
