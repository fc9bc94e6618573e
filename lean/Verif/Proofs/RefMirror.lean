import Verif.Spec.Reference
import Verif.Spec.Mirror
import Mathlib.Tactic.Ring
import Mathlib.Tactic.FieldSimp
import Mathlib.Tactic.Linarith
import Mathlib.Algebra.BigOperators.Group.Finset.Basic
import Mathlib.Algebra.BigOperators.Ring.List

/-! The reference sampler on a target with the other sign. -/

set_option linter.unusedSectionVars false

namespace Bart.Reference
open Spec
variable {K : Type} [Field K] [LinearOrder K] {n p : Nat}

/-- The content of a node with the other sign. -/
def Content.mirror : Content K p → Content K p
  | .leaf v => .leaf (-v)
  | .split j v => .split j v

/-- The node with the other sign. -/
def RNode.mirror (nd : RNode K p) : RNode K p := ⟨nd.path, nd.content.mirror⟩

/-- The tree with the other sign. -/
def RTree.mirror (t : RTree K p) : RTree K p := t.map RNode.mirror

/-- The state with the other sign. -/
def State.mirror (s : State K p) : State K p := ⟨s.trees.map RTree.mirror, s.sigma⟩

section
variable {X : Fin n → Fin p → Fl K}

theorem mirror_isLeaf (nd : RNode K p) : nd.mirror.isLeaf = nd.isLeaf := by rcases nd with ⟨_, _ | _⟩ <;> rfl
theorem mirror_reaches (nd : RNode K p) (x : Fin p → Fl K) : nd.mirror.reaches x = nd.reaches x := rfl
theorem mirror_rows (nd : RNode K p) : nd.mirror.rows X = nd.rows X := rfl
theorem mirror_path (nd : RNode K p) : nd.mirror.path = nd.path := rfl

theorem mirror_root : (RTree.root : RTree K p).mirror = RTree.root := by simp [RTree.root, RTree.mirror, RNode.mirror, Content.mirror]

theorem mirror_value (t : RTree K p) (x : Fin p → Fl K) : t.mirror.value x = -t.value x := by
  unfold RTree.value RTree.mirror
  rw [List.find?_map]
  have h : (fun nd : RNode K p => nd.isLeaf && nd.reaches x) ∘ RNode.mirror = fun nd => nd.isLeaf && nd.reaches x := by
    funext nd; simp [mirror_isLeaf, mirror_reaches]
  rw [h]
  generalize List.find? (fun nd : RNode K p => nd.isLeaf && nd.reaches x) t = o
  rcases o with _ | ⟨_, _ | _⟩
  · exact neg_zero.symm
  · rfl
  · exact neg_zero.symm

theorem mirror_forest (ts : List (RTree K p)) (x : Fin p → Fl K) : forest (ts.map RTree.mirror) x = -forest ts x := by
  unfold forest
  induction ts with
  | nil => simp
  | cons t ts ih => simp only [List.map_cons, List.sum_cons, ih, mirror_value]; ring

theorem mirror_splittable (t : RTree K p) : t.mirror.splittable X = (t.splittable X).map RNode.mirror := by
  unfold RTree.splittable RTree.mirror
  rw [List.filter_map]
  congr 2
  funext nd
  simp [mirror_isLeaf, mirror_rows]

theorem mirror_hasLeaf (t : RTree K p) (path : List (Cond K p)) : t.mirror.hasLeaf path = t.hasLeaf path := by
  unfold RTree.hasLeaf RTree.mirror
  rw [List.any_map]
  congr 1
  funext nd
  rw [Function.comp_apply, mirror_isLeaf, mirror_path]

theorem mirror_prunable (t : RTree K p) : t.mirror.prunable = t.prunable.map RNode.mirror := by
  unfold RTree.prunable
  rw [show t.mirror = t.map RNode.mirror from rfl, List.filter_map]
  congr 2
  funext nd
  rcases nd with ⟨path, v | ⟨j, v⟩⟩
  · rfl
  · simp only [Function.comp_apply, RNode.mirror, Content.mirror]
    rw [← mirror_hasLeaf t, ← mirror_hasLeaf t]
    rfl

theorem mirror_apply (t : RTree K p) (mv : Move K p) : t.mirror.apply mv = (t.apply mv).mirror := by
  cases mv with
  | grow path j v =>
    simp only [RTree.apply, RTree.mirror, List.map_append, List.filter_map]
    congr 1
    simp [RNode.mirror, Content.mirror]
  | prune path j v =>
    simp only [RTree.apply, RTree.mirror, List.map_append, List.filter_map]
    congr 2
    simp [RNode.mirror, Content.mirror]

theorem choice_map {α β : Type} (f : α → β) (l : List α) (u : Nat) : choice (l.map f) u = (choice l u).map f := by
  unfold choice
  rw [List.length_map, List.getElem?_map]
  cases l[u % l.length]? <;> rfl

theorem mirror_proposeGrow (t : RTree K p) (us : List Nat) : proposeGrow X t.mirror us = proposeGrow X t us := by
  unfold proposeGrow
  rcases us with _ | ⟨u1, _ | ⟨u2, us⟩⟩
  · rfl
  · rfl
  · simp only [mirror_splittable, choice_map]
    cases choice (t.splittable X) u1 with
    | error e => rfl
    | ok nd => rfl

theorem mirror_proposePrune (t : RTree K p) (us : List Nat) : proposePrune t.mirror us = proposePrune t us := by
  unfold proposePrune
  cases us with
  | nil => rfl
  | cons u us =>
    simp only [mirror_prunable, choice_map]
    rcases choice t.prunable u with e | ⟨path, v | ⟨j, v⟩⟩ <;> rfl

theorem mirror_propose (t : RTree K p) (us : List Nat) (ms : List Method) : propose X t.mirror us ms = propose X t us ms := by
  induction ms with
  | nil => rfl
  | cons m ms ih =>
    cases m
    · simp only [propose, mirror_splittable, List.map_eq_nil_iff, mirror_proposeGrow, ih]
    · simp only [propose, mirror_prunable, List.map_eq_nil_iff, mirror_proposePrune, ih]

theorem mirror_total (y : Fin n → K) (rows : Fin n → Bool) : total (fun i => -y i) rows = -total y rows := by
  unfold total
  rw [← Finset.sum_neg_distrib]
  

variable [MathFns K]

theorem mirror_likelihood (P : Params K) (y : Fin n → K) (rows : Fin n → Bool) (j : Fin p) (v : Fl K) : likelihood P X (fun i => -y i) rows j v = likelihood P X y rows j v := by
  unfold likelihood Lik.growRatioValue
  simp only [mirror_total, Fl.mul, neg_mul_neg]

theorem mirror_ratio (P : Params K) (pGrow pPrune : K) (y : Fin n → K) (t : RTree K p) (mv : Move K p) :
    ratio P pGrow pPrune X (fun i => -y i) t.mirror mv = ratio P pGrow pPrune X y t mv := by
  cases mv <;> simp only [ratio, mirror_splittable, mirror_prunable, List.length_map, mirror_likelihood]

theorem mirror_treeStep (P : Params K) (pGrow pPrune : K) (y : Fin n → K) (t : RTree K p) (r : Rand K) :
    treeStep P pGrow pPrune X (fun i => -y i) t.mirror (mirrored r) = match treeStep P pGrow pPrune X y t r with
      | .error e => .error e
      | .ok (b, t', r') => .ok (b, t'.mirror, mirrored r') := by
  unfold treeStep
  rw [show (mirrored r).picks = r.picks from rfl, show (mirrored r).methods = r.methods from rfl, mirror_propose]
  rcases propose X t r.picks r.methods with e | ⟨mv, us, ms⟩
  · rfl
  · simp only
    rw [show (mirrored r).uniforms = r.uniforms from rfl]
    rcases r.uniforms with _ | ⟨u, uniforms⟩
    · rfl
    · simp only [mirror_ratio, mirror_apply]
      by_cases h : Fl.lt (.fin u) (ratio P pGrow pPrune X y t mv) = true
      · rw [if_pos h, if_pos h]; rfl
      · rw [if_neg h, if_neg h]; rfl

variable [IsStrictOrderedRing K]

theorem infSign_neg (a : K) : Fl.infSign (-a) = (Fl.infSign a).neg := by
  unfold Fl.infSign
  rcases lt_trichotomy a 0 with h | h | h
  · rw [if_pos (by linarith), if_neg (by linarith), if_pos h]; rfl
  · subst h; simp [Fl.neg]
  · rw [if_neg (by linarith), if_pos (by linarith), if_pos h]; rfl

theorem fin_div_neg (a : K) (b : Fl K) : Fl.div (.fin (-a)) b = (Fl.div (.fin a) b).neg := by
  cases b with
  | nan => rfl
  | ninf => simp [Fl.div, Fl.neg]
  | pinf => simp [Fl.div, Fl.neg]
  | fin b =>
    simp only [Fl.div]
    split
    · exact infSign_neg a
    · simp [Fl.neg, neg_div]

theorem mul_neg_left (a b : Fl K) : Fl.mul a.neg b = (Fl.mul a b).neg := by
  cases a <;> cases b <;> simp [Fl.mul, Fl.neg, infSign_neg]
  all_goals (unfold Fl.infSign; split_ifs <;> rfl)

theorem add_neg_neg (a b : Fl K) : Fl.add a.neg b.neg = (Fl.add a b).neg := by
  cases a <;> cases b <;> simp [Fl.add, Fl.neg]
  ring

theorem mirror_leafValue (P : Params K) (n : Fl K) (s z : K) : Sampler.leafValue P n (.fin (-s)) (.fin (-z)) = (Sampler.leafValue P n (.fin s) (.fin z)).neg := by
  unfold Sampler.leafValue Sampler.leafPosteriorMean
  simp only [fin_div_neg, mul_neg_left]
  rw [show (Fl.fin (-z) : Fl K) = (Fl.fin z).neg from rfl, mul_neg_left, add_neg_neg]

theorem mirror_leafValues (P : Params K) (y : Fin n → K) (t : RTree K p) (zs : List K) :
    leafValues P X (fun i => -y i) t.mirror (zs.map (- ·)) = match leafValues P X y t zs with
      | .error e => .error e
      | .ok (t', zs') => .ok (t'.mirror, zs'.map (- ·)) := by
  induction t generalizing zs with
  | nil => rfl
  | cons nd t ih =>
    rcases nd with ⟨path, v | ⟨j, v⟩⟩
    · cases zs with
      | nil => rfl
      | cons z zs =>
        have ih' := ih zs
        simp only [RTree.mirror] at ih' ⊢
        simp only [List.map_cons, RNode.mirror, Content.mirror, leafValues, mirror_total, mirror_leafValue]
        rw [show RNode.rows X ⟨path, .leaf (-v)⟩ = RNode.rows X ⟨path, .leaf v⟩ from rfl]
        cases Sampler.leafValue P (Fl.ofInt (count (RNode.rows X ⟨path, .leaf v⟩))) (.fin (total y (RNode.rows X ⟨path, .leaf v⟩))) (.fin z) with
        | fin w =>
          simp only [Fl.neg, Fl.toFinite]
          rw [show List.map RNode.mirror t = List.map RNode.mirror t from rfl, ih']
          rcases leafValues P X y t zs with e | ⟨t', zs'⟩ <;> rfl
        | nan => rfl
        | pinf => rfl
        | ninf => rfl
    · have ih' := ih zs
      simp only [RTree.mirror] at ih' ⊢
      simp only [List.map_cons, RNode.mirror, Content.mirror, leafValues]
      rw [ih']
      rcases leafValues P X y t zs with e | ⟨t', zs'⟩ <;> rfl

theorem mirror_treeBody (P : Params K) (pGrow pPrune : K) (y : Fin n → K) (t : RTree K p) (r : Rand K) :
    treeBody P pGrow pPrune X (fun i => -y i) t.mirror (mirrored r) = match treeBody P pGrow pPrune X y t r with
      | .error e => .error e
      | .ok (b, t', r') => .ok (b, t'.mirror, mirrored r') := by
  unfold treeBody
  rw [mirror_treeStep]
  rcases treeStep P pGrow pPrune X y t r with e | ⟨b, t1, r1⟩
  · rfl
  · simp only
    rw [show (mirrored r1).normals = r1.normals.map (- ·) from rfl, mirror_leafValues]
    rcases leafValues P X y t1 r1.normals with e | ⟨t2, zs⟩ <;> rfl

theorem mirror_sweepTrees (P : Params K) (pGrow pPrune : K) (y : Fin n → K) (done ts : List (RTree K p)) (r : Rand K) :
    sweepTrees P pGrow pPrune X (fun i => -y i) (done.map RTree.mirror) (ts.map RTree.mirror) (mirrored r) = match sweepTrees P pGrow pPrune X y done ts r with
      | .error e => .error e
      | .ok (bs, ts', r') => .ok (bs, ts'.map RTree.mirror, mirrored r') := by
  induction ts generalizing done r with
  | nil => rfl
  | cons t ts ih =>
    simp only [List.map_cons, sweepTrees]
    rw [← List.map_append]
    rw [show (fun i => -y i - forest ((done ++ ts).map RTree.mirror) (X i)) = fun i => -(y i - forest (done ++ ts) (X i)) by funext i; rw [mirror_forest]; ring, mirror_treeBody]
    rcases treeBody P pGrow pPrune X (fun i => y i - forest (done ++ ts) (X i)) t r with e | ⟨b, t1, r1⟩
    · rfl
    · simp only
      rw [show done.map RTree.mirror ++ [t1.mirror] = (done ++ [t1]).map RTree.mirror by simp, ih]
      rcases sweepTrees P pGrow pPrune X y (done ++ [t1]) ts r1 with e | ⟨bs, all, r2⟩ <;> rfl

theorem mirror_sigmaStep (c : Settings K) (y : Fin n → K) (ts : List (RTree K p)) (gs : List K) :
    sigmaStep c X (fun i => -y i) (ts.map RTree.mirror) gs = sigmaStep c X y ts gs := by
  unfold sigmaStep
  have h : ∀ i, (-y i - forest (ts.map RTree.mirror) (X i)) * (-y i - forest (ts.map RTree.mirror) (X i)) = (y i - forest ts (X i)) * (y i - forest ts (X i)) := by
    intro i; rw [mirror_forest]; ring
  simp only [h]

theorem mirror_sweep (c : Settings K) (y : Fin n → K) (s : State K p) (r : Rand K) :
    sweep c X (fun i => -y i) s.mirror (mirrored r) = match sweep c X y s r with
      | .error e => .error e
      | .ok (bs, s', r') => .ok (bs, s'.mirror, mirrored r') := by
  unfold sweep
  have h := mirror_sweepTrees (X := X) (c.params s.sigma) c.pGrow c.pPrune y [] s.trees r
  rw [List.map_nil] at h
  rw [show s.mirror.sigma = s.sigma from rfl, show s.mirror.trees = s.trees.map RTree.mirror from rfl, h]
  rcases sweepTrees (c.params s.sigma) c.pGrow c.pPrune X y [] s.trees r with e | ⟨bs, ts, r1⟩
  · rfl
  · simp only [mirror_sigmaStep]
    rw [show (mirrored r1).gammas = r1.gammas from rfl]
    rcases sigmaStep c X y ts r1.gammas with e | ⟨v, gs⟩ <;> rfl

theorem mirror_sweeps (c : Settings K) (y : Fin n → K) (k : Nat) (s : State K p) (r : Rand K) :
    sweeps c X (fun i => -y i) k s.mirror (mirrored r) = match sweeps c X y k s r with
      | .error e => .error e
      | .ok (l, s', r') => .ok (l.map (fun a => (a.1, a.2.mirror)), s'.mirror, mirrored r') := by
  induction k generalizing s r with
  | zero => rfl
  | succ k ih =>
    simp only [sweeps, mirror_sweep]
    rcases sweep c X y s r with e | ⟨bs, s1, r1⟩
    · rfl
    · simp only [ih]
      rcases sweeps c X y k s1 r1 with e | ⟨l, s2, r2⟩ <;> rfl

theorem mirror_chain (c : Config K) (y : Fin n → K) (r : Rand K) :
    chain c X (fun i => -y i) (mirrored r) = match chain c X y r with
      | .error e => .error e
      | .ok l => .ok (l.map (fun a => (a.1, a.2.mirror))) := by
  unfold chain
  have h := mirror_sweeps (X := X) c.toSettings y (c.nBurn + c.nSamples) (start c.toSettings) r
  rw [show (start c.toSettings : State K p).mirror = start c.toSettings by simp [start, State.mirror, mirror_root]] at h
  rw [h]
  rcases sweeps c.toSettings X y (c.nBurn + c.nSamples) (start c.toSettings) r with e | ⟨l, s2, r2⟩
  · rfl
  · simp only [List.getElem?_map, List.map_filterMap]

theorem mirror_chains (c : Config K) (y : Fin n → K) (rs : List (Rand K)) :
    chains c X (fun i => -y i) (rs.map mirrored) = match chains c X y rs with
      | .error e => .error e
      | .ok l => .ok (l.map (fun a => (a.1, a.2.mirror))) := by
  induction rs with
  | nil => rfl
  | cons r rs ih =>
    simp only [List.map_cons, chains, mirror_chain, ih]
    cases chain c X y r with
    | error e => rfl
    | ok l =>
      cases chains c X y rs with
      | error e => rfl
      | ok ls => simp

theorem scaled_mirror {a : K} (b : K) {lo hi : K} (ha : a < 0) (h : lo < hi) (y : Fin n → K) :
    scaled (a * hi + b) (a * lo + b) (fun i => a * y i + b) = fun i => -scaled lo hi y i := by
  funext i
  unfold scaled
  have h1 : hi - lo ≠ 0 := by intro h'; linarith
  have h2 : a * lo + b - (a * hi + b) = -a * (hi - lo) := by ring
  have h3 : a * y i + b - (a * hi + b) = -a * (hi - y i) := by ring
  rw [h2, h3, mul_div_mul_left _ _ (by intro h'; linarith)]
  field_simp
  ring

theorem prediction_mirror (a b lo hi : K) (l : List (List Bool × State K p)) (x : Fin p → Fl K) :
    prediction (a * hi + b) (a * lo + b) (l.map (fun s => (s.1, s.2.mirror))) x = a * prediction lo hi l x + b := by
  unfold prediction
  have h : ((l.map (fun s => (s.1, s.2.mirror))).map (fun s => forest s.2.trees x)).sum = -(l.map (fun s => forest s.2.trees x)).sum := by
    induction l with
    | nil => simp
    | cons s l ih =>
      simp only [List.map_cons, List.sum_cons, ih]
      rw [show s.2.mirror.trees = s.2.trees.map RTree.mirror from rfl, mirror_forest]
      ring
  rw [h, List.length_map, neg_div]
  ring

end
end Bart.Reference
