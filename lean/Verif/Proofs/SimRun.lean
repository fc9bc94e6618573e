import Verif.Proofs.SimModel
import Verif.Props.SklearnProps

/-! Two runs of whole chains side by side (see `Verif/Proofs/Sim.lean`), with any settings for what is stored. -/

set_option linter.unusedSectionVars false

namespace Bart.Sim
open Spec
variable {K : Type} [Field K] [LinearOrder K] [IsStrictOrderedRing K] {n p p' : Nat} {γ : Cols p p'} [MathFns K] [FloorRing K]
variable {X : Fin n → Fin p → Fl K} {m m1 : BModel K n p} {m' : BModel K n p'} {y : Fin n → K}

/-- `k` sweeps and nothing else. -/
def sweeps (pg pp : K) : Nat → BModel K n p → Rand K → Except PyErr (BModel K n p × Rand K)
  | 0, m, r => .ok (m, r)
  | k + 1, m, r =>
    match sweeps pg pp k m r with
    | .error e => .error e
    | .ok (m1, r1) =>
      match m1.sweep pg pp r1 with
      | .error e => .error e
      | .ok (_, m2, r2) => .ok (m2, r2)

theorem sweeps_head (pg pp : K) (k : Nat) : ∀ (m : BModel K n p) (r : Rand K), sweeps pg pp (k + 1) m r =
    match m.sweep pg pp r with
    | .error e => .error e
    | .ok (_, m1, r1) => sweeps pg pp k m1 r1 := by
  induction k with
  | zero =>
    intro m r
    simp only [sweeps]
  | succ k ih =>
    intro m r
    rw [sweeps, ih]
    cases m.sweep pg pp r with
    | error e => rfl
    | ok a => rfl

theorem sweeps_burn (c : SampleParams K) (k : Nat) : ∀ (m : BModel K n p) (r : Rand K), BModel.burn c k m r = sweeps c.pGrow c.pPrune k m r := by
  induction k with
  | zero => intro m r; rfl
  | succ k ih =>
    intro m r
    rw [sweeps_head, BModel.burn]
    cases m.sweep c.pGrow c.pPrune r with
    | error e => rfl
    | ok a => exact ih _ _

theorem sweeps_add (pg pp : K) (a b : Nat) (m : BModel K n p) (r : Rand K) : sweeps pg pp (a + b) m r =
    match sweeps pg pp a m r with
    | .error e => .error e
    | .ok (m1, r1) => sweeps pg pp b m1 r1 := by
  induction b with
  | zero =>
    simp only [Nat.add_zero, sweeps]
    cases sweeps pg pp a m r <;> rfl
  | succ b ih =>
    rw [← Nat.add_assoc, sweeps, ih]
    cases sweeps pg pp a m r <;> rfl

/-- A good sweep keeps the invariant. -/
theorem inv_sweep {N : Prop} (hX : NoNan X) (h : ModelInv N X y m) {pg pp : K} (hp1 : pg ≠ 0) (hp2 : pp ≠ 0) {r r' : Rand K} {mus} {m2 : BModel K n p}
    (e : m.sweep pg pp r = .ok (mus, m2, r')) : ModelInv N X y m2 := by
  have := h.sweep hX hp1 hp2 r
  rw [e] at this
  exact this.1

theorem sweeps_rel (hX : NoNan X) {pg pp : K} (hp1 : pg ≠ 0) (hp2 : pp ≠ 0) (H : MRel γ m m') (hI : ModelInv False X y m) (r : Rand K) (k : Nat) :
    ERel (fun a b => MRel γ a.1 b.1 ∧ b.2 = a.2 ∧ ModelInv False X y a.1) (sweeps pg pp k m r) (sweeps pg pp k m' r) := by
  induction k with
  | zero => exact .ok ⟨H, rfl, hI⟩
  | succ k ih =>
    simp only [sweeps]
    refine ERel.elim ih (fun e => .error e) ?_
    rintro ⟨m1, r1⟩ ⟨m1', r1'⟩ ⟨H1, e1, hI1⟩
    simp only at H1 e1 hI1
    subst e1
    simp only []
    have h2 := H1.sweep hX hI1 hp1 hp2 r1'
    rcases e2 : m1.sweep pg pp r1' with e | ⟨mus, m2, r2⟩ <;> rcases e2' : m1'.sweep pg pp r1' with e' | ⟨mus', m2', r2'⟩ <;> rw [e2, e2'] at h2 <;> cases h2
    · exact .error _
    · next h2 => exact .ok ⟨h2.2.1, h2.2.2, inv_sweep hX hI1 hp1 hp2 e2⟩

/-- A run with copies shows the same as the run without them. -/
theorem drawRun_sweeps (hX : NoNan X) {pg pp : K} (hp1 : pg ≠ 0) (hp2 : pp ≠ 0) (H : MRel (Cols.refl p) m m) (hI : ModelInv False X y m) {r : Rand K} {k : Nat}
    {b : BModel K n p × Rand K} (h : DrawRun pg pp (m, r) k b) :
    ∃ M, sweeps pg pp k m r = .ok (M, b.2) ∧ MRel (Cols.refl p) M b.1 ∧ ModelInv False X y M := by
  induction h with
  | nil => exact ⟨m, rfl, H, hI⟩
  | @sweep k m1 r1 mus m2 r2 _ e ih =>
    obtain ⟨M, e1, H1, hI1⟩ := ih
    have h2 := H1.sweep hX hI1 hp1 hp2 r1
    simp only at e1 H1 h2
    rw [e] at h2
    rcases e2 : M.sweep pg pp r1 with e' | ⟨mus', M2, r2'⟩ <;> rw [e2] at h2 <;> cases h2
    next h2 =>
    obtain ⟨-, H2, e3⟩ := h2
    simp only at H2 e3
    refine ⟨M2, ?_, H2, inv_sweep hX hI1 hp1 hp2 e2⟩
    simp only [sweeps, e1, e2, e3]
  | copy _ ih =>
    obtain ⟨M, e1, H1, hI1⟩ := ih
    exact ⟨M, e1, H1.copy, hI1⟩

/-- The loop that stores ends as the sweeps alone do. -/
theorem loop_sweeps (hX : NoNan X) {c : SampleParams K} (hp1 : c.pGrow ≠ 0) (hp2 : c.pPrune ≠ 0) (ti : K) (k : Nat) :
    ∀ {ss : Nat} {M m : BModel K n p} (_ : MRel (Cols.refl p) M m) (_ : ModelInv False X y M) (_ : ModelInv False X y m) (r : Rand K),
    ERel (fun _ _ => True) (sweeps c.pGrow c.pPrune k M r) (BModel.sampleLoop c ti k ss m r) := by
  induction k with
  | zero => intro ss M m _ _ _ r; exact .ok trivial
  | succ k ih =>
    intro ss M m H hI hI' r
    rw [sweeps_head, BModel.sampleLoop]
    have h2 := H.sweep hX hI hp1 hp2 r
    rcases e2 : M.sweep c.pGrow c.pPrune r with e | ⟨mus, M2, r2⟩ <;> rcases e2' : m.sweep c.pGrow c.pPrune r with e' | ⟨mus', m2, r2'⟩ <;> rw [e2, e2'] at h2 <;> cases h2
    · exact .error _
    · next h2 =>
      obtain ⟨-, H2, e3⟩ := h2
      simp only at H2 e3
      subst e3
      have hI2 := inv_sweep hX hI hp1 hp2 e2
      have hI2' := inv_sweep hX hI' hp1 hp2 e2'
      simp only []
      split
      · have hrec : ∃ fs, BModel.recordPrediction c m2 = .ok (fs, m2) := by
          unfold BModel.recordPrediction
          split
          · obtain ⟨m3, e4, -⟩ := hI2'.predict hX
            have e5 := BModel.sweep_predict e2' e4
            rw [e4, e5]
            exact ⟨_, rfl⟩
          · exact ⟨_, rfl⟩
        obtain ⟨fs, e4⟩ := hrec
        simp only [e4]
        refine ERel.elim (ih (ss := ss + 1) H2.copy hI2 hI2'.copy r2') (fun e => .error e) ?_
        rintro ⟨a1, a2⟩ ⟨b1, b2, b3⟩ -
        exact .ok trivial
      · exact ih H2 hI2 hI2' r2'

/-- `samples` fails if and only if the sweeps alone do, with the same exception. -/
theorem samples_sweeps (hX : NoNan X) {c : SampleParams K} (hp1 : c.pGrow ≠ 0) (hp2 : c.pPrune ≠ 0) (hth : c.thin ≠ 0) (H : MRel (Cols.refl p) m m) (hI : ModelInv False X y m)
    (nS nB : Nat) (r : Rand K) : ERel (fun _ _ => True) (sweeps c.pGrow c.pPrune (nB + nS) m r) (m.samples c nS nB r) := by
  rw [sweeps_add, BModel.samples, sweeps_burn]
  simp only [if_neg hth]
  have h1 := sweeps_rel hX hp1 hp2 H hI r nB
  rcases e : sweeps c.pGrow c.pPrune nB m r with e | ⟨m1, r1⟩
  · exact .error _
  · rw [e] at h1
    cases h1
    next h1 => exact loop_sweeps hX hp1 hp2 _ nS h1.1 h1.2.2 h1.2.2 r1

/-! ### stored samples -/

/-- What `samples` stores at time `t` shows the state after the sweeps alone. -/
theorem stored_sweeps (hX : NoNan X) {y0 : Fin n → K} (hf : FreshModel X y0 m) {c : SampleParams K} (hp1 : c.pGrow ≠ 0) (hp2 : c.pPrune ≠ 0) (H : MRel (Cols.refl p) m m)
    (hI : ModelInv False X y m) {nS nB : Nat} {r r' : Rand K} {ch : Chain K n} (h : m.samples c nS nB r = .ok (ch, m1, r'))
    {j t : Nat} (hj : (storedTimes nS c.thin)[j]? = some t) :
    ∃ s P mus0 M0 r0 rM, ch.model[j]? = some s ∧ sweeps c.pGrow c.pPrune (nB + t) m r = .ok (P, r0) ∧ P.sweep c.pGrow c.pPrune r0 = .ok (mus0, M0, rM) ∧ ModelInv False X y M0 ∧
      ModelInv False X y P ∧
      m1.storedSigma s = M0.sigma ∧ (∀ {q : Nat} (Z : Fin q → Fin p → Fl K), m1.storedPredictX s Z = M0.predictX Z) ∧
      (c.storeAcceptance = true → ch.acceptance[j]? = some (BModel.acceptance mus0)) ∧
      (c.storePredictions = true → ch.predictions[j]? = some (fun row => sumValue M0.trees row)) := by
  have hm : ReachableModel X m := ⟨y0, c.pGrow, c.pPrune, m, 0, hp1, hp2, hf, .nil m⟩
  obtain ⟨-, -, -, -, h5⟩ := C44_samples hX hm hp1 hp2 h
  obtain ⟨s, m0, r0, mus, M, rM, g1, g2, g3, -, g5, g6, g7, g8⟩ := h5 j t hj
  obtain ⟨P, e1, H1, hI1⟩ := drawRun_sweeps hX hp1 hp2 H hI g2
  simp only at e1 H1
  have h2 := H1.sweep hX hI1 hp1 hp2 r0
  rw [g3] at h2
  rcases e2 : P.sweep c.pGrow c.pPrune r0 with e' | ⟨mus', M2, r2'⟩ <;> rw [e2] at h2 <;> cases h2
  next h2 =>
  obtain ⟨ha, H2, e3⟩ := h2
  simp only at ha H2 e3
  have hI2 := inv_sweep hX hI1 hp1 hp2 e2
  refine ⟨s, P, mus', M2, r0, r2', g1, e1, e2, hI2, hI1, g5.trans H2.sigma, ?_, ?_, ?_⟩
  · intro q Z
    rw [g6 Z]
    exact H2.predictX (fun r => ⟨fun v => rfl, fun j hj => absurd rfl (hj j)⟩)
  · intro hc; rw [g7 hc, acceptance_same ha]
  · intro hc
    rw [g8 hc]
    have hIM : ModelInv False X y M := by
      have := hI.run hX hp1 hp2 (DrawRun.sweep g2 g3).run
      exact this
    obtain ⟨a1, q1, -⟩ := hI2.predict hX
    obtain ⟨a2, q2, -⟩ := hIM.predict hX
    have h3 := H2.predict
    rw [q1, q2] at h3
    cases h3
    next h3 => exact congrArg some h3.1

end Bart.Sim
