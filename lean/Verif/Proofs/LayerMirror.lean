import Verif.Spec.Layers
import Verif.Proofs.RefMirror

/-! The reference implementation of the oblivious tree sampler on a target with the other sign. -/

set_option linter.unusedSectionVars false

namespace Bart.Layers
open Spec Reference
variable {K : Type} [Field K] [LinearOrder K] {n p : Nat} {X : Fin n → Fin p → Fl K}

/-- The tree with the other sign. -/
def LTree.mirror (t : LTree K p) : LTree K p := ⟨t.layers, t.values.map (- ·)⟩

/-- The state with the other sign. -/
def State.mirror (s : State K p) : State K p := ⟨s.trees.map LTree.mirror, s.sigma⟩

theorem mirror_value (t : LTree K p) (x : Fin p → Fl K) : t.mirror.value x = -t.value x := by
  unfold LTree.value LTree.mirror
  simp only
  rw [List.zip_map_right, List.filter_map]
  have : ((fun q : List (Cond K p) × K => meets q.1 x) ∘ Prod.map id (- ·)) = fun q => meets q.1 x := rfl
  rw [this, List.getLast?_map]
  cases (((paths t.layers).zip t.values).filter (fun q => meets q.1 x)).getLast? with
  | none => exact neg_zero.symm
  | some q => rfl

theorem mirror_forest (ts : List (LTree K p)) (x : Fin p → Fl K) : forest (ts.map LTree.mirror) x = -forest ts x := by
  unfold forest
  induction ts with
  | nil => simp
  | cons t ts ih => simp only [List.map_cons, List.sum_cons, ih, mirror_value]; ring

variable [MathFns K]

theorem mirror_likelihoodOf (P : Params K) (y : Fin n → K) (path : List (Cond K p)) (rule : Rule K p) : likelihoodOf P X (fun i => -y i) path rule = likelihoodOf P X y path rule := by
  cases rule with
  | none =>
    unfold likelihoodOf Lik.growRatioValue
    simp only [mirror_total, Fl.mul, neg_mul_neg]
  | some q => exact mirror_likelihood P y _ _ _

theorem mirror_propose (P : Params K) (pGrow pPrune : K) (y : Fin n → K) (layers : List (List (Rule K p))) (me : Method) (us : List Nat) :
    propose P pGrow pPrune X (fun i => -y i) layers me us = propose P pGrow pPrune X y layers me us := by
  have h1 : ∀ d, growTerm P pGrow pPrune X (fun i => -y i) d = growTerm P pGrow pPrune X y d := by
    intro d; funext path rule
    unfold growTerm
    simp only [mirror_likelihoodOf]
  have h2 : ∀ d, pruneTerm P pGrow pPrune X (fun i => -y i) d = pruneTerm P pGrow pPrune X y d := by
    intro d; funext path rule
    unfold pruneTerm
    simp only [mirror_likelihoodOf]
  cases me with
  | grow => simp only [propose, h1]
  | prune =>
    cases layers with
    | nil => rfl
    | cons rules rest => simp only [propose, h2]

theorem mirror_treeStep (P : Params K) (pGrow pPrune : K) (y : Fin n → K) (layers : List (List (Rule K p))) (r : Rand K) :
    treeStep P pGrow pPrune X (fun i => -y i) layers (mirrored r) = (treeStep P pGrow pPrune X y layers r).map (fun a => (a.1, a.2.1, mirrored a.2.2)) := by
  unfold treeStep
  rw [show (mirrored r).methods = r.methods from rfl]
  rcases r.methods with _ | ⟨me, ms⟩
  · rfl
  · simp only
    rw [show (mirrored r).picks = r.picks from rfl, mirror_propose]
    rcases propose P pGrow pPrune X y layers me r.picks with e | ⟨L, ratio, us⟩
    · rfl
    · simp only
      rw [show (mirrored r).uniforms = r.uniforms from rfl]
      rcases r.uniforms with _ | ⟨u, uniforms⟩ <;> rfl

variable [IsStrictOrderedRing K]

theorem mirror_leafValues (P : Params K) (y : Fin n → K) : ∀ (ps : List (List (Cond K p))) (zs : List K),
    leafValues P X (fun i => -y i) ps (zs.map (- ·)) = (leafValues P X y ps zs).map (fun a => (a.1.map (- ·), a.2.map (- ·))) := by
  intro ps
  induction ps with
  | nil => intro zs; rfl
  | cons path ps ih =>
    intro zs
    cases zs with
    | nil => rfl
    | cons z zs =>
      simp only [List.map_cons, leafValues, mirror_total, mirror_leafValue]
      cases Sampler.leafValue P (Fl.ofInt (count (rowsOn X path))) (.fin (total y (rowsOn X path))) (.fin z) with
      | fin w =>
        simp only [Fl.neg, Fl.toFinite]
        rw [ih]
        rcases leafValues P X y ps zs with e | ⟨l, zs'⟩ <;> rfl
      | nan => rfl
      | pinf => rfl
      | ninf => rfl

theorem mirror_treeBody (P : Params K) (pGrow pPrune : K) (y : Fin n → K) (t : LTree K p) (r : Rand K) :
    treeBody P pGrow pPrune X (fun i => -y i) t.mirror (mirrored r) = (treeBody P pGrow pPrune X y t r).map (fun a => (a.1, a.2.1.mirror, mirrored a.2.2)) := by
  unfold treeBody
  rw [show t.mirror.layers = t.layers from rfl, mirror_treeStep]
  rcases treeStep P pGrow pPrune X y t.layers r with e | ⟨b, L, r1⟩
  · rfl
  · simp only [Except.map]
    rw [show (mirrored r1).normals = r1.normals.map (- ·) from rfl, mirror_leafValues]
    rcases leafValues P X y (paths L) r1.normals with e | ⟨l, zs⟩ <;> rfl

theorem mirror_sweepTrees (P : Params K) (pGrow pPrune : K) (y : Fin n → K) (done ts : List (LTree K p)) (r : Rand K) :
    sweepTrees P pGrow pPrune X (fun i => -y i) (done.map LTree.mirror) (ts.map LTree.mirror) (mirrored r) =
      (sweepTrees P pGrow pPrune X y done ts r).map (fun a => (a.1, a.2.1.map LTree.mirror, mirrored a.2.2)) := by
  induction ts generalizing done r with
  | nil => rfl
  | cons t ts ih =>
    simp only [List.map_cons, sweepTrees]
    rw [← List.map_append]
    rw [show (fun i => -y i - forest ((done ++ ts).map LTree.mirror) (X i)) = fun i => -(y i - forest (done ++ ts) (X i)) by funext i; rw [mirror_forest]; ring, mirror_treeBody]
    rcases treeBody P pGrow pPrune X (fun i => y i - forest (done ++ ts) (X i)) t r with e | ⟨b, t1, r1⟩
    · rfl
    · simp only [Except.map]
      rw [show done.map LTree.mirror ++ [t1.mirror] = (done ++ [t1]).map LTree.mirror by simp, ih]
      rcases sweepTrees P pGrow pPrune X y (done ++ [t1]) ts r1 with e | ⟨bs, all, r2⟩ <;> rfl

theorem mirror_sigmaStep (c : Settings K) (y : Fin n → K) (ts : List (LTree K p)) (gs : List K) :
    sigmaStep c X (fun i => -y i) (ts.map LTree.mirror) gs = sigmaStep c X y ts gs := by
  unfold sigmaStep
  have h : ∀ i, (-y i - forest (ts.map LTree.mirror) (X i)) * (-y i - forest (ts.map LTree.mirror) (X i)) = (y i - forest ts (X i)) * (y i - forest ts (X i)) := by
    intro i; rw [mirror_forest]; ring
  simp only [h]

theorem mirror_sweep (c : Settings K) (y : Fin n → K) (s : State K p) (r : Rand K) :
    sweep c X (fun i => -y i) s.mirror (mirrored r) = (sweep c X y s r).map (fun a => (a.1, a.2.1.mirror, mirrored a.2.2)) := by
  unfold sweep
  have h := mirror_sweepTrees (X := X) (c.params s.sigma) c.pGrow c.pPrune y [] s.trees r
  rw [List.map_nil] at h
  rw [show s.mirror.sigma = s.sigma from rfl, show s.mirror.trees = s.trees.map LTree.mirror from rfl, h]
  rcases sweepTrees (c.params s.sigma) c.pGrow c.pPrune X y [] s.trees r with e | ⟨bs, ts, r1⟩
  · rfl
  · simp only [Except.map, mirror_sigmaStep]
    rw [show (mirrored r1).gammas = r1.gammas from rfl]
    rcases sigmaStep c X y ts r1.gammas with e | ⟨v, gs⟩ <;> rfl

theorem mirror_sweeps (c : Settings K) (y : Fin n → K) (k : Nat) (s : State K p) (r : Rand K) :
    sweeps c X (fun i => -y i) k s.mirror (mirrored r) = (sweeps c X y k s r).map (fun a => (a.1.map (fun b => (b.1, b.2.mirror)), a.2.1.mirror, mirrored a.2.2)) := by
  induction k generalizing s r with
  | zero => rfl
  | succ k ih =>
    simp only [sweeps, mirror_sweep]
    rcases sweep c X y s r with e | ⟨bs, s1, r1⟩
    · rfl
    · simp only [Except.map]
      rw [ih]
      rcases sweeps c X y k s1 r1 with e | ⟨l, s2, r2⟩ <;> rfl

theorem mirror_chain (c : Config K) (y : Fin n → K) (r : Rand K) : chain c X (fun i => -y i) (mirrored r) = (chain c X y r).map (List.map (fun a => (a.1, a.2.mirror))) := by
  unfold chain
  have h := mirror_sweeps (X := X) c.toSettings y (c.nBurn + c.nSamples) (start c.toSettings) r
  rw [show (start c.toSettings : State K p).mirror = start c.toSettings by simp [start, State.mirror, LTree.root, LTree.mirror]] at h
  rw [h]
  rcases sweeps c.toSettings X y (c.nBurn + c.nSamples) (start c.toSettings) r with e | ⟨l, s2, r2⟩
  · rfl
  · simp only [Except.map, List.getElem?_map, List.map_filterMap]

theorem mirror_chains (c : Config K) (y : Fin n → K) (rs : List (Rand K)) : chains c X (fun i => -y i) (rs.map mirrored) = (chains c X y rs).map (List.map (fun a => (a.1, a.2.mirror))) := by
  induction rs with
  | nil => rfl
  | cons r rs ih =>
    simp only [List.map_cons, chains, mirror_chain, ih]
    cases chain c X y r with
    | error e => rfl
    | ok l =>
      cases chains c X y rs with
      | error e => rfl
      | ok ls => simp [Except.map]

theorem prediction_mirror (a b lo hi : K) (l : List (List Bool × State K p)) (x : Fin p → Fl K) :
    prediction (a * hi + b) (a * lo + b) (l.map (fun s => (s.1, s.2.mirror))) x = a * prediction lo hi l x + b := by
  unfold prediction
  have h : ((l.map (fun s => (s.1, s.2.mirror))).map (fun s => forest s.2.trees x)).sum = -(l.map (fun s => forest s.2.trees x)).sum := by
    induction l with
    | nil => simp
    | cons s l ih =>
      simp only [List.map_cons, List.sum_cons, ih]
      rw [show s.2.mirror.trees = s.2.trees.map LTree.mirror from rfl, mirror_forest]
      ring
  rw [h, List.length_map, neg_div]
  ring

end Bart.Layers
