import Verif.Proofs.SimSampler
import Verif.Proofs.ModelInv
import Verif.Spec.Stored

/-! The relation of `Verif/Proofs/Sim.lean` is kept by whole sweeps of the model, and by copies on the second side only. -/

set_option linter.unusedSectionVars false

namespace Bart
open Spec

/-- The first run ended in a RecursionError (which is then excluded by other means), or the results are related. -/
def ERelF {α β : Type} (R : α → β → Prop) (x : Except PyErr α) (y : Except PyErr β) : Prop := x = .error .recursionError ∨ ERel R x y

theorem ERel.toF {α β : Type} {R : α → β → Prop} {x : Except PyErr α} {y : Except PyErr β} (h : ERel R x y) : ERelF R x y := .inr h

theorem ERelF.out {α β : Type} {R : α → β → Prop} {x : Except PyErr α} {y : Except PyErr β} (h : ERelF R x y) (hx : x ≠ .error .recursionError) : ERel R x y := by
  rcases h with h | h
  · exact absurd h hx
  · exact h

@[elab_as_elim]
theorem ERelF.elim {α β : Type} {R : α → β → Prop} {motive : Except PyErr α → Except PyErr β → Prop} {x : Except PyErr α} {y : Except PyErr β} (h : ERelF R x y)
    (hf : ∀ y, motive (.error .recursionError) y) (he : ∀ e, motive (.error e) (.error e)) (hok : ∀ a b, R a b → motive (.ok a) (.ok b)) : motive x y := by
  rcases h with h | h
  · subst h; exact hf y
  · cases h with
    | error e => exact he e
    | ok h => exact hok _ _ h

namespace Sim
variable {K : Type} [Field K] [LinearOrder K] {n p p' : Nat} {γ : Cols p p'}

variable (γ) in
/-- Related by some pairing of the nodes. -/
def TRelE (t : Bart.Tree K n p) (t' : Bart.Tree K n p') : Prop := ∃ R, TRel γ R t t'

theorem TRelX.toE {R : Nat → Nat → Prop} {t : Bart.Tree K n p} {t' : Bart.Tree K n p'} (h : TRelX γ R t t') : TRelE γ t t' := by
  obtain ⟨R', -, h⟩ := h
  exact ⟨R', h⟩

variable (γ) in
structure MRel (m : BModel K n p) (m' : BModel K n p') : Prop where
  data : DataRel γ m.data m'.data
  alpha : m'.alpha = m.alpha
  beta : m'.beta = m.beta
  k : m'.k = m.k
  nTrees : m'.nTrees = m.nTrees
  sigma : m'.sigma = m.sigma
  trees : List.Forall₂ (TRelE γ) m.trees m'.trees
  pred : m'.prediction = m.prediction

variable {m : BModel K n p} {m' : BModel K n p'}

theorem predictTrees {ts : List (Bart.Tree K n p)} {ts' : List (Bart.Tree K n p')} (h : List.Forall₂ (TRelE γ) ts ts') :
    ERel (fun a b => b.1 = a.1 ∧ List.Forall₂ (TRelE γ) a.2 b.2) (BModel.predictTrees ts) (BModel.predictTrees ts') := by
  induction h with
  | nil => exact .ok ⟨rfl, .nil⟩
  | cons h1 h2 ih =>
    obtain ⟨R, H⟩ := h1
    unfold BModel.predictTrees
    refine ERel.elim H.predict (fun e => .error e) ?_
    rintro ⟨b, t1⟩ ⟨b', t1'⟩ ⟨e1, H1⟩
    simp only at e1 H1
    subst e1
    cases b' with
    | none => exact .error _
    | wrong k => exact .error _
    | sized f =>
      simp only []
      refine ERel.elim ih (fun e => .error e) ?_
      rintro ⟨g, ts1⟩ ⟨g', ts1'⟩ ⟨e2, H2⟩
      simp only at e2 H2
      subst e2
      exact .ok ⟨rfl, .cons ⟨R, H1⟩ H2⟩

namespace MRel

theorem predict (H : MRel γ m m') : ERel (fun a b => b.1 = a.1 ∧ MRel γ a.2 b.2) m.predict m'.predict := by
  unfold BModel.predict
  refine ERel.elim (predictTrees H.trees) (fun e => .error e) ?_
  rintro ⟨g, ts1⟩ ⟨g', ts1'⟩ ⟨e2, H2⟩
  simp only at e2 H2
  subst e2
  exact .ok ⟨rfl, { H with trees := H2 }⟩

theorem residuals (H : MRel γ m m') : ERel (fun a b => b.1 = a.1 ∧ MRel γ a.2 b.2) m.residuals m'.residuals := by
  unfold BModel.residuals
  refine ERel.elim H.predict (fun e => .error e) ?_
  rintro ⟨g, m1⟩ ⟨g', m1'⟩ ⟨e2, H2⟩
  simp only at e2 H2
  subst e2
  simp only [H.data.y]
  cases m.data.y.y with
  | none => exact .error _
  | some y => exact .ok ⟨rfl, H2⟩

theorem startPrediction (H : MRel γ m m') : ERel (fun a b => b.1 = a.1 ∧ MRel γ a.2 b.2) m.startPrediction m'.startPrediction := by
  unfold BModel.startPrediction
  rw [H.pred]
  cases m.prediction with
  | some f => exact .ok ⟨rfl, H⟩
  | none => exact H.predict

theorem predictX (H : MRel γ m m') {q : Nat} {X : Fin q → Fin p → Fl K} {X' : Fin q → Fin p' → Fl K} (hX : ∀ r, RowRel γ (X r) (X' r)) : m'.predictX X' = m.predictX X := by
  funext r
  unfold BModel.predictX
  congr 1
  have := H.trees
  generalize m.trees = l at this
  generalize m'.trees = l' at this
  induction this with
  | nil => rfl
  | cons h1 h2 ih =>
    obtain ⟨R, h1⟩ := h1
    simp only [List.map_cons, ih, h1.predictX hX]

end MRel

theorem refreshBegin (y pred : Fin n → K) {t : Bart.Tree K n p} {t' : Bart.Tree K n p'} (H : TRelE γ t t') :
    ERelF (fun a b => b.1 = a.1 ∧ TRelE γ a.2 b.2) (BModel.refreshBegin y pred t) (BModel.refreshBegin y pred t') := by
  obtain ⟨R, H⟩ := H
  unfold BModel.refreshBegin
  refine ERel.elim H.predict (fun e => .inr (.error e)) ?_
  rintro ⟨b, t1⟩ ⟨b', t1'⟩ ⟨e1, H1⟩
  simp only at e1 H1
  subst e1
  cases b' with
  | none => exact .inr (.error _)
  | wrong k => exact .inr (.error _)
  | sized f =>
    simp only []
    refine ERelF.elim (R := TRel γ R) (H1.updateY _) (fun _ => .inl rfl) (fun e => .inr (.error e)) (fun t2 t2' H2 => ?_)
    exact .inr (.ok ⟨rfl, R, H2⟩)

theorem refreshEnd (pred : Fin n → K) {t : Bart.Tree K n p} {t' : Bart.Tree K n p'} (H : TRelE γ t t') :
    ERel (fun a b => b.1 = a.1 ∧ TRelE γ a.2 b.2) (BModel.refreshEnd pred t) (BModel.refreshEnd pred t') := by
  obtain ⟨R, H⟩ := H
  unfold BModel.refreshEnd
  refine ERel.elim H.predict (fun e => .error e) ?_
  rintro ⟨b, t1⟩ ⟨b', t1'⟩ ⟨e1, H1⟩
  simp only at e1 H1
  subst e1
  cases b' with
  | none => exact .error _
  | wrong k => exact .error _
  | sized f => exact .ok ⟨rfl, R, H1⟩

section
variable [MathFns K]

theorem refreshLoop (y : Fin n → K) (P : Params K) (pg pp : K) {ts : List (Bart.Tree K n p)} {ts' : List (Bart.Tree K n p')} (h : List.Forall₂ (TRelE γ) ts ts') :
    ∀ (pred : Fin n → K) (r : Rand K),
    ERelF (fun a b => List.Forall₂ SameAcc a.1 b.1 ∧ b.2.1 = a.2.1 ∧ List.Forall₂ (TRelE γ) a.2.2.1 b.2.2.1 ∧ b.2.2.2 = a.2.2.2)
      (BModel.refreshLoop y (BModel.treeBody P pg pp) ts pred r) (BModel.refreshLoop y (BModel.treeBody P pg pp) ts' pred r) := by
  induction h with
  | nil => intro pred r; exact .inr (.ok ⟨.nil, rfl, .nil, rfl⟩)
  | cons h1 h2 ih =>
    intro pred r
    unfold BModel.refreshLoop
    refine ERelF.elim (refreshBegin y pred h1) (fun _ => .inl rfl) (fun e => .inr (.error e)) ?_
    rintro ⟨p1, t1⟩ ⟨p1', t1'⟩ ⟨e1, R, H1⟩
    simp only at e1 H1
    subst e1
    simp only []
    refine ERel.elim (treeBody H1 P pg pp r) (fun e => .inr (.error e)) ?_
    rintro ⟨a, t2, r1⟩ ⟨a', t2', r1'⟩ ⟨ha, H2, e2⟩
    simp only at ha H2 e2
    subst e2
    simp only []
    refine ERel.elim (refreshEnd p1' H2.toE) (fun e => .inr (.error e)) ?_
    rintro ⟨p2, t3⟩ ⟨p2', t3'⟩ ⟨e3, H3⟩
    simp only at e3 H3
    subst e3
    simp only []
    refine ERelF.elim (ih p2' r1') (fun _ => .inl rfl) (fun e => .inr (.error e)) ?_
    rintro ⟨as, p3, ts1, r2⟩ ⟨as', p3', ts1', r2'⟩ ⟨ha2, e4, H4, e5⟩
    simp only at ha2 e4 H4 e5
    subst e4; subst e5
    exact .inr (.ok ⟨.cons ha ha2, rfl, .cons H3 H4, rfl⟩)

namespace MRel

theorem params (H : MRel γ m m') : m'.params = m.params := by
  simp only [BModel.params, H.alpha, H.beta, H.k, H.nTrees, H.sigma]

theorem sweepTrees (H : MRel γ m m') (pg pp : K) (r : Rand K) :
    ERelF (fun a b => List.Forall₂ SameAcc a.1 b.1 ∧ MRel γ a.2.1 b.2.1 ∧ b.2.2 = a.2.2) (m.sweepTrees pg pp r) (m'.sweepTrees pg pp r) := by
  unfold BModel.sweepTrees
  rw [H.data.y, H.params]
  cases m.data.y.y with
  | none => exact .inr (.error _)
  | some y =>
    simp only []
    refine ERel.elim H.startPrediction (fun e => .inr (.error e)) ?_
    rintro ⟨f, m1⟩ ⟨f', m1'⟩ ⟨e1, H1⟩
    simp only at e1 H1
    subst e1
    simp only []
    refine ERelF.elim (refreshLoop y m.params pg pp H1.trees f' r) (fun _ => .inl rfl) (fun e => .inr (.error e)) ?_
    rintro ⟨as, p3, ts1, r2⟩ ⟨as', p3', ts1', r2'⟩ ⟨ha2, e4, H4, e5⟩
    simp only at ha2 e4 H4 e5
    subst e4; subst e5
    exact .inr (.ok ⟨ha2, { H1 with trees := H4, pred := rfl }, rfl⟩)

theorem sigmaStep (H : MRel γ m m') (r : Rand K) : ERel (fun a b => MRel γ a.1 b.1 ∧ b.2 = a.2) (m.sigmaStep r) (m'.sigmaStep r) := by
  unfold BModel.sigmaStep
  have e1 : m'.sigmaShape = m.sigmaShape := by simp only [BModel.sigmaShape, H.sigma, H.data.X.nObsv]
  have e2 : ∀ res, m'.sigmaRate res = m.sigmaRate res := fun res => by simp only [BModel.sigmaRate, H.sigma]
  refine ERel.elim H.residuals (fun e => .error e) ?_
  rintro ⟨res, m1⟩ ⟨res', m1'⟩ ⟨e3, H1⟩
  simp only at e3 H1
  subst e3
  simp only [e1, e2]
  split
  · exact .error _
  · cases r.gammas with
    | nil => exact .error _
    | cons g gs =>
      simp only []
      cases (MathFns.pow g (-(1/2) : K)).toFinite with
      | error e => exact .error e
      | ok v => exact .ok ⟨{ H1 with sigma := by simp only [H1.sigma] }, rfl⟩

theorem sweepF (H : MRel γ m m') (pg pp : K) (r : Rand K) :
    ERelF (fun a b => List.Forall₂ SameAcc a.1 b.1 ∧ MRel γ a.2.1 b.2.1 ∧ b.2.2 = a.2.2) (m.sweep pg pp r) (m'.sweep pg pp r) := by
  unfold BModel.sweep
  refine ERelF.elim (H.sweepTrees pg pp r) (fun _ => .inl rfl) (fun e => .inr (.error e)) ?_
  rintro ⟨mus, m1, r1⟩ ⟨mus', m1', r1'⟩ ⟨h1, H1, e1⟩
  simp only at h1 H1 e1
  subst e1
  simp only []
  refine ERel.elim (H1.sigmaStep r1') (fun e => .inr (.error e)) ?_
  rintro ⟨m2, r2⟩ ⟨m2', r2'⟩ ⟨H2, e2⟩
  simp only at H2 e2
  subst e2
  exact .inr (.ok ⟨h1, H2, rfl⟩)

theorem sweep (H : MRel γ m m') {N : Prop} {X : Fin n → Fin p → Fl K} (hX : NoNan X) {y : Fin n → K} (hI : ModelInv N X y m) {pg pp : K} (hp1 : pg ≠ 0) (hp2 : pp ≠ 0) (r : Rand K) :
    ERel (fun a b => List.Forall₂ SameAcc a.1 b.1 ∧ MRel γ a.2.1 b.2.1 ∧ b.2.2 = a.2.2) (m.sweep pg pp r) (m'.sweep pg pp r) := by
  refine (H.sweepF pg pp r).out (fun e => ?_)
  have := hI.sweep hX hp1 hp2 r
  rw [e] at this
  rcases this with h | h | h <;> cases h

end MRel

theorem acceptance_same {a b : List (Option TreeMutation)} (h : List.Forall₂ SameAcc a b) : (BModel.acceptance b : Option K) = BModel.acceptance a := by
  have h1 : b.countP Option.isSome = a.countP Option.isSome := by
    induction h with
    | nil => rfl
    | cons h1 h2 ih => rw [List.countP_cons, List.countP_cons, ih, h1]
  have h2 : b = [] ↔ a = [] := by cases h <;> simp
  unfold BModel.acceptance
  by_cases e : a = []
  · rw [if_pos e, if_pos (h2.2 e)]
  · rw [if_neg e, if_neg (fun h => e (h2.1 h)), h1, h.length_eq]

end

/-! ### copies on the second side -/

theorem copyNodes_same (l : List Nat) : ∀ (h : Heap K n p), (Tree.copyNodes l h).2.data = h.data ∧ (Tree.copyNodes l h).2.nextData = h.nextData ∧
    h.nextNode ≤ (Tree.copyNodes l h).2.nextNode ∧ ∀ i < h.nextNode, (Tree.copyNodes l h).2.node i = h.node i := by
  induction l with
  | nil => intro h; exact ⟨rfl, rfl, le_refl _, fun _ _ => rfl⟩
  | cons i l ih =>
    intro h
    obtain ⟨a1, a2, a3, a4⟩ := ih (h.deepCopyNode i).2
    have key : (h.deepCopyNode i).2.data = h.data ∧ (h.deepCopyNode i).2.nextData = h.nextData ∧ (h.deepCopyNode i).2.nextNode = h.nextNode + 1 ∧
        ∀ j < h.nextNode, (h.deepCopyNode i).2.node j = h.node j := by
      unfold Heap.deepCopyNode
      cases e : (h.node i).kind <;> simp only [e] <;>
        exact ⟨rfl, rfl, rfl, fun j hj => Function.update_of_ne (Nat.ne_of_lt hj) _ _⟩
    obtain ⟨b1, b2, b3, b4⟩ := key
    refine ⟨a1.trans b1, a2.trans b2, by show _ ≤ (Tree.copyNodes l (h.deepCopyNode i).2).2.nextNode; omega, fun j hj => ?_⟩
    exact (a4 j (by omega)).trans (b4 j hj)

theorem TRelE.copy {t : Bart.Tree K n p} {t' : Bart.Tree K n p'} (H : TRelE γ t t') : TRelE γ t t'.deepCopy.2 := by
  obtain ⟨R, H⟩ := H
  obtain ⟨a1, a2, a3, a4⟩ := copyNodes_same t'.nodes t'.heap
  refine ⟨R, ?_, H.nodes, H.cache, H.pred⟩
  exact { H.heap with
    nextData := by show (Tree.copyNodes t'.nodes t'.heap).2.nextData = _; rw [a2]; exact H.heap.nextData
    data := by
      intro i
      show DataRel γ _ ((Tree.copyNodes t'.nodes t'.heap).2.data i)
      rw [a1]; exact H.heap.data i
    le := le_trans H.heap.le a3
    lt' := fun h => lt_of_lt_of_le (H.heap.lt' h) a3
    node := by
      intro i j hij
      show NodeRel γ R _ ((Tree.copyNodes t'.nodes t'.heap).2.node j)
      rw [a4 j (H.heap.lt' hij)]; exact H.heap.node hij }

theorem MRel.copy (H : MRel γ m m') : MRel γ m m'.deepCopy.2 := by
  refine { H with trees := ?_ }
  show List.Forall₂ (TRelE γ) m.trees (m'.trees.map _)
  rw [List.forall₂_map_right_iff]
  exact H.trees.imp (fun {a b} h => h.copy)

/-! ### new models -/

theorem construct {X : Fin n → Fin p → Fl K} {y0 : Fin n → K} {nz : Bool} {d : Data K n p} {d' : Data K n p'} (hi : Data.init X y0 none nz none none none none = .ok d)
    (hd : DataRel γ d d') (s : Sigma K) (nT : Nat) (al be k : K) :
    ERel (MRel γ) (BModel.construct d s nT al be k) (BModel.construct d' s nT al be k) := by
  have hok : ∃ m, BModel.construct d s nT al be k = .ok m := by
    obtain ⟨m', -, -, e, -⟩ := construct_inv (N := False) (fun h => h.elim) hi s nT al be k
    exact ⟨m', e⟩
  have h1 : ERelF (TRelE γ) (BModel.initTree d nT) (BModel.initTree d' nT) := by
    unfold BModel.initTree
    rw [hd.y]
    cases d.y.y with
    | none => exact .inr (.error _)
    | some y =>
      simp only []
      refine ERelF.elim (R := TRel γ (idRel 1)) ((tRel_ofData hd).updateY _) (fun _ => .inl rfl) (fun e => .inr (.error e)) (fun t1 t1' H1 => ?_)
      simp only []
      refine ERelF.elim (R := TRel γ (idRel 1)) (H1.updateY _) (fun _ => .inl rfl) (fun e => .inr (.error e)) (fun t2 t2' H2 => .inr (.ok (Exists.intro _ H2)))
  unfold BModel.construct at hok ⊢
  refine ERel.elim (h1.out ?_) (fun e => .error e) (fun t t' H => .ok ?_)
  · intro e
    rw [e] at hok
    obtain ⟨m, h⟩ := hok
    cases h
  · refine ⟨hd, rfl, rfl, rfl, rfl, rfl, ?_, rfl⟩
    have : ∀ k, List.Forall₂ (TRelE γ) (List.replicate k t) (List.replicate k t') := by
      intro k
      induction k with
      | zero => exact .nil
      | succ k ih => exact .cons H ih
    exact this nT

end Sim
end Bart
