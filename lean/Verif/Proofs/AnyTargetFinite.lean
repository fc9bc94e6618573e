import Verif.Proofs.AnyTargetLemmas
import Verif.Proofs.DataRun
import Mathlib.Order.Bounds.Basic
import Mathlib.Tactic.Ring
import Mathlib.Tactic.Abel
import Mathlib.Data.Fintype.BigOperators
import Mathlib.Algebra.BigOperators.Fin

/-! For finite targets the code for any targets does what the reference sampler does. -/

set_option linter.unusedSectionVars false

namespace Bart.AnyTarget
open Reference Spec
variable {K : Type} [Field K] [LinearOrder K] {n p : Nat}

/-- A node with a finite value. -/
def embNode : RNode K p → ANode K p
  | ⟨path, .leaf v⟩ => ⟨path, .leaf (.fin v)⟩
  | ⟨path, .split j v⟩ => ⟨path, .split j v⟩

/-- A tree with finite values. -/
def emb (t : RTree K p) : ATree K p := t.map embNode

/-- The node with the value 0. -/
def zeroNode (nd : RNode K p) : RNode K p := (embNode nd).shape

theorem shape_emb (t : RTree K p) : (emb t).shape = t.map zeroNode := by
  unfold emb ATree.shape
  rw [List.map_map]
  rfl

@[simp] theorem embNode_path (nd : RNode K p) : (embNode nd).path = nd.path := by
  obtain ⟨path, c⟩ := nd; cases c <;> rfl

@[simp] theorem zeroNode_path (nd : RNode K p) : (zeroNode nd).path = nd.path := by
  obtain ⟨path, c⟩ := nd; cases c <;> rfl

@[simp] theorem zeroNode_isLeaf (nd : RNode K p) : (zeroNode nd).isLeaf = nd.isLeaf := by
  obtain ⟨path, c⟩ := nd; cases c <;> rfl

theorem zeroNode_reaches (nd : RNode K p) (x : Fin p → Fl K) : (zeroNode nd).reaches x = nd.reaches x := by
  unfold RNode.reaches; rw [zeroNode_path]

theorem zeroNode_rows (X : Fin n → Fin p → Fl K) (nd : RNode K p) : (zeroNode nd).rows X = nd.rows X := funext (fun r => zeroNode_reaches nd (X r))

theorem splittable_zero (X : Fin n → Fin p → Fl K) (t : RTree K p) : RTree.splittable X (t.map zeroNode) = (t.splittable X).map zeroNode := by
  unfold RTree.splittable
  rw [List.filter_map]
  congr 1
  apply List.filter_congr
  intro nd _
  simp only [Function.comp, zeroNode_isLeaf, zeroNode_rows]

theorem hasLeaf_zero (t : RTree K p) (path : List (Cond K p)) : RTree.hasLeaf (t.map zeroNode) path = t.hasLeaf path := by
  unfold RTree.hasLeaf
  rw [List.any_map]
  congr 1
  funext nd
  simp only [Function.comp, zeroNode_isLeaf, zeroNode_path]

theorem prunable_zero (t : RTree K p) : RTree.prunable (t.map zeroNode) = t.prunable.map zeroNode := by
  unfold RTree.prunable
  rw [List.filter_map]
  congr 1
  apply List.filter_congr
  intro nd _
  obtain ⟨path, c⟩ := nd
  cases c with
  | leaf v => rfl
  | split j v =>
    show (RTree.hasLeaf (t.map zeroNode) _ && RTree.hasLeaf (t.map zeroNode) _) = _
    rw [hasLeaf_zero, hasLeaf_zero]
    rfl

theorem choice_map {α β : Type} (f : α → β) (l : List α) (u : Nat) : choice (l.map f) u = (match choice l u with | .ok a => .ok (f a) | .error e => .error e) := by
  unfold choice
  rw [List.getElem?_map, List.length_map]
  cases l[u % l.length]? <;> rfl

theorem proposeGrow_zero (X : Fin n → Fin p → Fl K) (t : RTree K p) (us : List Nat) : proposeGrow X (t.map zeroNode) us = proposeGrow X t us := by
  unfold proposeGrow
  rcases us with _ | ⟨u1, _ | ⟨u2, us⟩⟩
  · rfl
  · rfl
  · dsimp only
    rw [splittable_zero, choice_map]
    cases choice (t.splittable X) u1 with
    | error e => rfl
    | ok nd => simp only [zeroNode_rows, zeroNode_path]

theorem proposePrune_zero (t : RTree K p) (us : List Nat) : proposePrune (t.map zeroNode) us = proposePrune t us := by
  unfold proposePrune
  rcases us with _ | ⟨u, us⟩
  · rfl
  · dsimp only
    rw [prunable_zero, choice_map]
    cases choice t.prunable u with
    | error e => rfl
    | ok nd =>
      obtain ⟨path, c⟩ := nd
      cases c <;> rfl

theorem propose_zero (X : Fin n → Fin p → Fl K) (t : RTree K p) (us : List Nat) (ms : List Method) : propose X (t.map zeroNode) us ms = propose X t us ms := by
  induction ms with
  | nil => rfl
  | cons m ms ih =>
    cases m with
    | grow => unfold propose; simp only [splittable_zero, List.map_eq_nil_iff, proposeGrow_zero, ih]
    | prune => unfold propose; simp only [prunable_zero, List.map_eq_nil_iff, proposePrune_zero, ih]

theorem emb_apply (t : RTree K p) (mv : Move K p) : (emb t).apply mv = emb (t.apply mv) := by
  unfold emb
  cases mv with
  | grow path j v =>
    unfold ATree.apply RTree.apply
    dsimp only
    rw [List.map_append, List.filter_map]
    simp only [Function.comp_def, embNode_path]
    rfl
  | prune path j v =>
    unfold ATree.apply RTree.apply
    dsimp only
    rw [List.map_append, List.filter_map]
    simp only [Function.comp_def, embNode_path]
    rfl

theorem emb_value (t : RTree K p) (x : Fin p → Fl K) : (emb t).value x = .fin (RTree.value t x) := by
  unfold ATree.value RTree.value emb
  rw [List.find?_map]
  have h : ((fun nd : ANode K p => nd.shape.isLeaf && nd.shape.reaches x) ∘ embNode) = fun nd => nd.isLeaf && nd.reaches x := by
    funext nd
    show ((zeroNode nd).isLeaf && (zeroNode nd).reaches x) = _
    rw [zeroNode_isLeaf, zeroNode_reaches]
  rw [h]
  cases hf : t.find? (fun nd => nd.isLeaf && nd.reaches x) with
  | none => rfl
  | some nd =>
    obtain ⟨path, c⟩ := nd
    cases c <;> rfl

theorem flSum_fin {α : Type} (f : α → K) (l : List α) : flSum (l.map (fun a => .fin (f a))) = .fin (l.map f).sum := by
  induction l with
  | nil => rfl
  | cons a l ih => show Fl.add (.fin (f a)) (flSum _) = _; rw [ih]; rfl

theorem predictTrees_emb (ts : List (RTree K p)) (x : Fin p → Fl K) : predictTrees (ts.map emb) x = .fin (forest ts x) := by
  unfold predictTrees forest
  rw [List.map_map, show ((fun t : ATree K p => t.value x) ∘ emb) = fun t => .fin (RTree.value t x) from funext (fun t => emb_value t x), flSum_fin]

theorem summedY_fin (y : Fin n → K) (rows : Fin n → Bool) : summedY (fun i => .fin (y i)) rows = .fin (total y rows) := by
  unfold summedY total
  have h : (fun r => Fl.mul (.fin (y r)) (Fl.ofInt (if rows r then 1 else 0))) = fun r => (.fin (if rows r = true then y r else 0) : Fl K) := by
    funext r
    by_cases hr : rows r = true <;> simp [Fl.mul, Fl.ofInt, hr]
  rw [h, flSum_fin, Finset.sum_filter, ← List.ofFn_eq_map, Fin.sum_ofFn]

/-- bartpy/node.py:92 makes the sum of the right node as a difference. This is its sum, if all targets are finite or one of them is NaN (no other targets occur in `C112_nan` and `C112_numbers_partial`). -/
theorem summedY_right {y : Fin n → Fl K} (h : (∃ a : Fin n → K, y = fun i => .fin (a i)) ∨ ∃ r, y r = .nan) (rows P : Fin n → Bool) :
    summedY y (fun r => rows r && !P r) = Fl.sub (summedY y rows) (summedY y (fun r => rows r && P r)) := by
  rcases h with ⟨a, rfl⟩ | ⟨r, hr⟩
  · rw [summedY_fin, summedY_fin, summedY_fin, ← total_split a rows P]
    show _ = Fl.fin (_ + -_)
    congr 1
    ring
  · rw [summedY_nan hr, summedY_nan hr]
    rfl

variable [MathFns K]

theorem ratio_fin (c : Settings K) (sigma : K) (X : Fin n → Fin p → Fl K) (y : Fin n → K) (t : RTree K p) (mv : Move K p) :
    ratio (c.params 1) (.fin sigma) c.pGrow c.pPrune X (fun i => .fin (y i)) (t.map zeroNode) mv = Reference.ratio (c.params sigma) c.pGrow c.pPrune X y t mv := by
  cases mv with
  | grow path j v =>
    unfold ratio Reference.ratio AnyTarget.likelihood
    simp only [splittable_zero, prunable_zero, List.length_map, summedY_fin]
    rfl
  | prune path j v =>
    unfold ratio Reference.ratio AnyTarget.likelihood
    simp only [splittable_zero, prunable_zero, List.length_map, summedY_fin]
    rfl

/-- The results agree, except that the reference sampler stops at values that are not finite. -/
def Agrees {α β : Type} (f : α → β) (ref : Except PyErr α) (res : Except PyErr β) : Prop :=
  match ref with
  | .ok a => res = .ok (f a)
  | .error e => e ≠ .nonFinite → res = .error e

theorem treeStep_fin (c : Settings K) (sigma : K) (X : Fin n → Fin p → Fl K) (y : Fin n → K) (t : RTree K p) (r : Rand K) :
    treeStep (c.params 1) (.fin sigma) c.pGrow c.pPrune X (fun i => .fin (y i)) (emb t) r =
      (match Reference.treeStep (c.params sigma) c.pGrow c.pPrune X y t r with
      | .ok (b, t', r') => .ok (b, emb t', r')
      | .error e => .error e) := by
  unfold treeStep Reference.treeStep
  rw [shape_emb, propose_zero]
  cases propose X t r.picks r.methods with
  | error e => rfl
  | ok q =>
    obtain ⟨mv, us, ms⟩ := q
    dsimp only
    cases r.uniforms with
    | nil => rfl
    | cons u uniforms =>
      dsimp only
      rw [ratio_fin, emb_apply]
      congr 3
      split <;> rfl

theorem leafValues_fin (c : Settings K) (sigma : K) (X : Fin n → Fin p → Fl K) (y : Fin n → K) (t : RTree K p) :
    ∀ zs, Agrees (fun q => (emb q.1, q.2)) (Reference.leafValues (c.params sigma) X y t zs) (leafValues (c.params 1) (.fin sigma) X (fun i => .fin (y i)) (emb t) zs) := by
  induction t with
  | nil => intro zs; rfl
  | cons nd t ih =>
    intro zs
    obtain ⟨path, ct⟩ := nd
    cases ct with
    | split j v =>
      have h := ih zs
      show Agrees _ (Reference.leafValues _ X y (⟨path, .split j v⟩ :: t) zs) (leafValues _ _ X _ (⟨path, .split j v⟩ :: emb t) zs)
      unfold Reference.leafValues leafValues
      cases hr : Reference.leafValues (c.params sigma) X y t zs with
      | error e =>
        rw [hr] at h
        intro hne
        rw [h hne]
      | ok q =>
        rw [hr] at h
        show _ = Except.ok _
        rw [show leafValues (c.params 1) (.fin sigma) X (fun i => .fin (y i)) (emb t) zs = _ from h]
        rfl
    | leaf v0 =>
      cases zs with
      | nil => intro _; rfl
      | cons z zs =>
        have h := ih zs
        show Agrees _ (Reference.leafValues _ X y (⟨path, .leaf v0⟩ :: t) (z :: zs)) (leafValues _ _ X _ (⟨path, .leaf (.fin v0)⟩ :: emb t) (z :: zs))
        unfold Reference.leafValues leafValues
        dsimp only
        rw [summedY_fin]
        have hv : leafValue (c.params 1) (.fin sigma) (Fl.ofInt (count (RNode.rows X ⟨path, .leaf 0⟩))) (.fin (total y (RNode.rows X ⟨path, .leaf 0⟩))) (.fin z) =
          Sampler.leafValue (c.params sigma) (Fl.ofInt (count (RNode.rows X ⟨path, .leaf v0⟩))) (.fin (total y (RNode.rows X ⟨path, .leaf v0⟩))) (.fin z) := rfl
        rw [hv]
        cases hl : Sampler.leafValue (c.params sigma) (Fl.ofInt (count (RNode.rows X ⟨path, .leaf v0⟩))) (.fin (total y (RNode.rows X ⟨path, .leaf v0⟩))) (.fin z) with
        | nan => intro hne; exact absurd rfl hne
        | ninf => intro hne; exact absurd rfl hne
        | pinf => intro hne; exact absurd rfl hne
        | fin v =>
          cases hr : Reference.leafValues (c.params sigma) X y t zs with
          | error e =>
            rw [hr] at h
            intro hne
            rw [h hne]
          | ok q =>
            rw [hr] at h
            show _ = Except.ok _
            rw [show leafValues (c.params 1) (.fin sigma) X (fun i => .fin (y i)) (emb t) zs = _ from h]
            rfl

theorem treeBody_fin (c : Settings K) (sigma : K) (X : Fin n → Fin p → Fl K) (y : Fin n → K) (t : RTree K p) (r : Rand K) :
    Agrees (fun q => (q.1, emb q.2.1, q.2.2)) (Reference.treeBody (c.params sigma) c.pGrow c.pPrune X y t r) (treeBody (c.params 1) (.fin sigma) c.pGrow c.pPrune X (fun i => .fin (y i)) (emb t) r) := by
  unfold treeBody Reference.treeBody
  rw [treeStep_fin]
  cases Reference.treeStep (c.params sigma) c.pGrow c.pPrune X y t r with
  | error e => intro _; rfl
  | ok q =>
    obtain ⟨b, t1, r1⟩ := q
    dsimp only
    have h := leafValues_fin c sigma X y t1 r1.normals
    cases hr : Reference.leafValues (c.params sigma) X y t1 r1.normals with
    | error e => rw [hr] at h; intro hne; rw [h hne]
    | ok q =>
      rw [hr] at h
      show _ = Except.ok _
      rw [show leafValues (c.params 1) (.fin sigma) X (fun i => .fin (y i)) (emb t1) r1.normals = _ from h]

theorem forest_append' (ts us : List (RTree K p)) (x : Fin p → Fl K) : forest (ts ++ us) x = forest ts x + forest us x := by
  unfold forest; rw [List.map_append, List.sum_append]

theorem forest_cons' (t : RTree K p) (us : List (RTree K p)) (x : Fin p → Fl K) : forest (t :: us) x = RTree.value t x + forest us x := by
  unfold forest; rw [List.map_cons, List.sum_cons]

theorem sweepTrees_fin (c : Settings K) (sigma : K) (X : Fin n → Fin p → Fl K) (y : Fin n → K) (ts : List (RTree K p)) : ∀ (done : List (RTree K p)) (r : Rand K),
    match Reference.sweepTrees (c.params sigma) c.pGrow c.pPrune X y done ts r with
    | .error e => e ≠ .nonFinite → sweepTrees (c.params 1) (.fin sigma) c.pGrow c.pPrune X (fun i => .fin (y i)) (fun i => .fin (forest (done ++ ts) (X i))) (ts.map emb) r = .error e
    | .ok (bs, all, r') => ∃ new, all = done ++ new ∧
        sweepTrees (c.params 1) (.fin sigma) c.pGrow c.pPrune X (fun i => .fin (y i)) (fun i => .fin (forest (done ++ ts) (X i))) (ts.map emb) r = .ok (bs, new.map emb, fun i => .fin (forest all (X i)), r') := by
  induction ts with
  | nil => intro done r; exact ⟨[], by simp, by simp [sweepTrees]⟩
  | cons t ts ih =>
    intro done r
    unfold Reference.sweepTrees
    rw [List.map_cons]
    have e0 : (fun i => Fl.sub (.fin (forest (done ++ t :: ts) (X i))) ((emb t).value (X i))) = fun i => (.fin (forest (done ++ ts) (X i)) : Fl K) := by
      funext i
      rw [emb_value, forest_append', forest_append', forest_cons']
      show Fl.fin _ = _
      congr 1
      ring
    have h := treeBody_fin c sigma X (fun i => y i - forest (done ++ ts) (X i)) t r
    have e1 : (fun i => Fl.sub (.fin (y i)) (.fin (forest (done ++ ts) (X i)))) = fun i => (.fin (y i - forest (done ++ ts) (X i)) : Fl K) := by
      funext i; show Fl.fin _ = _; rw [sub_eq_add_neg]
    cases hr : Reference.treeBody (c.params sigma) c.pGrow c.pPrune X (fun i => y i - forest (done ++ ts) (X i)) t r with
    | error e =>
      rw [hr] at h
      intro hne
      unfold sweepTrees
      dsimp only
      have e0' : ∀ i, Fl.sub (.fin (forest (done ++ t :: ts) (X i))) ((emb t).value (X i)) = (.fin (forest (done ++ ts) (X i)) : Fl K) := fun i => congrFun e0 i
      simp only [e0']
      rw [e1, h hne]
    | ok q =>
      obtain ⟨b, t1, r1⟩ := q
      rw [hr] at h
      dsimp only
      have h2 := ih (done ++ [t1]) r1
      have e0' : ∀ i, Fl.sub (.fin (forest (done ++ t :: ts) (X i))) ((emb t).value (X i)) = (.fin (forest (done ++ ts) (X i)) : Fl K) := fun i => congrFun e0 i
      have e2 : (fun i => Fl.add (.fin (forest (done ++ ts) (X i))) ((emb t1).value (X i))) = fun i => (.fin (forest (done ++ [t1] ++ ts) (X i)) : Fl K) := by
        funext i
        rw [emb_value]
        show Fl.fin _ = _
        congr 1
        simp only [forest_append', forest_cons']
        rw [show forest ([] : List (RTree K p)) (X i) = 0 from rfl]
        ring
      have e3 : sweepTrees (c.params 1) (.fin sigma) c.pGrow c.pPrune X (fun i => .fin (y i)) (fun i => .fin (forest (done ++ t :: ts) (X i))) (emb t :: ts.map emb) r =
          (match sweepTrees (c.params 1) (.fin sigma) c.pGrow c.pPrune X (fun i => .fin (y i)) (fun i => .fin (forest (done ++ [t1] ++ ts) (X i))) (ts.map emb) r1 with
          | .error e => .error e
          | .ok (bs, ts1, pred1, r2) => .ok (b :: bs, emb t1 :: ts1, pred1, r2)) := by
        rw [sweepTrees]
        dsimp only
        simp only [e0']
        rw [e1, show treeBody (c.params 1) (.fin sigma) c.pGrow c.pPrune X (fun i => .fin (y i - forest (done ++ ts) (X i))) (emb t) r = _ from h]
        dsimp only
        rw [e2]
        rfl
      cases hr2 : Reference.sweepTrees (c.params sigma) c.pGrow c.pPrune X y (done ++ [t1]) ts r1 with
      | error e =>
        rw [hr2] at h2
        intro hne
        rw [e3, h2 hne]
      | ok q =>
        obtain ⟨bs, all, r2⟩ := q
        rw [hr2] at h2
        obtain ⟨new, rfl, h3⟩ := h2
        refine ⟨t1 :: new, by simp, ?_⟩
        rw [e3, h3]
        simp

/-- A state with finite values. -/
def embState (X : Fin n → Fin p → Fl K) (s : State K p) : AState K n p := ⟨s.trees.map emb, .fin s.sigma, fun i => .fin (forest s.trees (X i))⟩

theorem posteriorBeta_fin (b : K) (X : Fin n → Fin p → Fl K) (y : Fin n → K) (ts : List (RTree K p)) : posteriorBeta b X (fun i => .fin (y i)) (ts.map emb) =
    .fin (b + (1/2) * ∑ i, (y i - forest ts (X i)) * (y i - forest ts (X i))) := by
  unfold posteriorBeta
  dsimp only
  have h : (fun i => Fl.mul (Fl.sub (.fin (y i)) (predictTrees (ts.map emb) (X i))) (Fl.sub (.fin (y i)) (predictTrees (ts.map emb) (X i)))) =
      fun i => (.fin ((y i - forest ts (X i)) * (y i - forest ts (X i))) : Fl K) := by
    funext i
    rw [predictTrees_emb]
    show Fl.fin _ = _
    rw [sub_eq_add_neg]
  rw [h, flSum_fin, ← List.ofFn_eq_map, Fin.sum_ofFn]
  rfl

theorem sweep_fin (c : Settings K) (X : Fin n → Fin p → Fl K) (y : Fin n → K) (s : State K p) (r : Rand K) :
    Agrees (fun q => (q.1, embState X q.2.1, q.2.2)) (Reference.sweep c X y s r) (sweep c X (fun i => .fin (y i)) (embState X s) r) := by
  unfold sweep Reference.sweep
  have h := sweepTrees_fin c s.sigma X y s.trees [] r
  have hs : sweepTrees (c.params 1) (embState X s).sigma c.pGrow c.pPrune X (fun i => .fin (y i)) (embState X s).prediction (embState X s).trees r =
      sweepTrees (c.params 1) (.fin s.sigma) c.pGrow c.pPrune X (fun i => .fin (y i)) (fun i => .fin (forest ([] ++ s.trees) (X i))) (s.trees.map emb) r := rfl
  rw [hs]
  cases hr : Reference.sweepTrees (c.params s.sigma) c.pGrow c.pPrune X y [] s.trees r with
  | error e => rw [hr] at h; intro hne; rw [h hne]
  | ok q =>
    obtain ⟨bs, all, r1⟩ := q
    rw [hr] at h
    obtain ⟨new, rfl, h1⟩ := h
    rw [h1]
    dsimp only
    rw [posteriorBeta_fin]
    unfold sigmaStep sigmaValue
    by_cases hlt : c.sigmaA + (n : K) / 2 < 0 ∨ c.sigmaB + (1/2) * ∑ i, (y i - forest all (X i)) * (y i - forest all (X i)) < 0
    · rw [if_pos hlt, if_pos (by simpa [Fl.lt] using hlt)]
      intro _; rfl
    · rw [if_neg hlt, if_neg (by simpa [Fl.lt] using hlt)]
      cases r1.gammas with
      | nil => intro _; rfl
      | cons g gs =>
        dsimp only
        cases hp : (MathFns.pow g (-(1/2)) : Fl K) with
        | nan => intro hne; exact absurd rfl hne
        | ninf => intro hne; exact absurd rfl hne
        | pinf => intro hne; exact absurd rfl hne
        | fin v => rfl

theorem sweeps_fin (c : Settings K) (X : Fin n → Fin p → Fl K) (y : Fin n → K) : ∀ (k : Nat) (s : State K p) (r : Rand K),
    Agrees (fun q => q.1.map (fun a => (a.1, embState X a.2))) (Reference.sweeps c X y k s r) (sweeps c X (fun i => .fin (y i)) k (embState X s) r)
  | 0, s, r => rfl
  | k + 1, s, r => by
    unfold Reference.sweeps sweeps
    have h := sweep_fin c X y s r
    cases hr : Reference.sweep c X y s r with
    | error e => rw [hr] at h; intro hne; rw [h hne]
    | ok q =>
      obtain ⟨bs, s1, r1⟩ := q
      rw [hr] at h
      rw [show sweep c X (fun i => .fin (y i)) (embState X s) r = _ from h]
      dsimp only
      have h2 := sweeps_fin c X y k s1 r1
      cases hr2 : Reference.sweeps c X y k s1 r1 with
      | error e => rw [hr2] at h2; intro hne; rw [h2 hne]
      | ok q =>
        rw [hr2] at h2
        show _ = Except.ok _
        rw [show sweeps c X (fun i => .fin (y i)) k (embState X s1) r1 = _ from h2]
        rfl

theorem start_fin (c : Settings K) (X : Fin n → Fin p → Fl K) : start c X = embState X (Reference.start c) := by
  unfold start embState Reference.start
  have h : (List.replicate c.nTrees RTree.root).map emb = List.replicate c.nTrees (ATree.root : ATree K p) := by rw [List.map_replicate]; rfl
  rw [← h]
  congr 1
  funext i
  exact predictTrees_emb _ _

theorem chains_fin (c : Config K) (X : Fin n → Fin p → Fl K) (y : Fin n → K) (rs : List (Rand K)) :
    Agrees (fun l => l.map (fun a => (a.1, embState X a.2))) (Reference.chains c X y rs) (chains c X (fun i => .fin (y i)) rs) := by
  induction rs with
  | nil => rfl
  | cons r rs ih =>
    unfold Reference.chains chains Reference.chain chain
    rw [start_fin]
    have h := sweeps_fin c.toSettings X y (c.nBurn + c.nSamples) (Reference.start c.toSettings) r
    cases hr : Reference.sweeps c.toSettings X y (c.nBurn + c.nSamples) (Reference.start c.toSettings) r with
    | error e => rw [hr] at h; intro hne; rw [h hne]
    | ok q =>
      obtain ⟨l, s1, r1⟩ := q
      rw [hr] at h
      rw [show sweeps c.toSettings X (fun i => .fin (y i)) (c.nBurn + c.nSamples) (embState X (Reference.start c.toSettings)) r = _ from h]
      dsimp only
      cases hr2 : Reference.chains c X y rs with
      | error e => rw [hr2] at ih; intro hne; rw [ih hne]
      | ok ls =>
        rw [hr2] at ih
        show _ = Except.ok _
        rw [show chains c X (fun i => .fin (y i)) rs = _ from ih]
        dsimp only
        rw [List.map_append, List.map_filterMap]
        simp only [List.getElem?_map]

/-! ### the range of the target -/

theorem foldl_min_fin (l : List K) : ∀ a : K, (l.map Fl.fin).foldl flMin (.fin a) = .fin (l.foldl min a) := by
  induction l with
  | nil => intro a; rfl
  | cons b l ih =>
    intro a
    rw [List.map_cons, List.foldl_cons, List.foldl_cons, ← ih]
    congr 1
    by_cases h : b < a
    · simp [flMin, Fl.isNan, Fl.lt, h, min_eq_right h.le]
    · simp [flMin, Fl.isNan, Fl.lt, h, min_eq_left (not_lt.1 h)]

theorem foldl_max_fin (l : List K) : ∀ a : K, (l.map Fl.fin).foldl flMax (.fin a) = .fin (l.foldl max a) := by
  induction l with
  | nil => intro a; rfl
  | cons b l ih =>
    intro a
    rw [List.map_cons, List.foldl_cons, List.foldl_cons, ← ih]
    congr 1
    by_cases h : a < b
    · simp [flMax, Fl.isNan, Fl.lt, h, max_eq_right h.le]
    · simp [flMax, Fl.isNan, Fl.lt, h, max_eq_left (not_lt.1 h)]

theorem foldl_min_spec (l : List K) : ∀ a : K, (l.foldl min a = a ∨ l.foldl min a ∈ l) ∧ l.foldl min a ≤ a ∧ ∀ b ∈ l, l.foldl min a ≤ b := by
  induction l with
  | nil => intro a; simp
  | cons c l ih =>
    intro a
    rw [List.foldl_cons]
    obtain ⟨h1, h2, h3⟩ := ih (min a c)
    refine ⟨?_, h2.trans (min_le_left _ _), ?_⟩
    · rcases h1 with h1 | h1
      · rw [h1]; rcases min_choice a c with h | h <;> simp [h]
      · exact .inr (List.mem_cons_of_mem _ h1)
    · intro b hb
      rcases List.mem_cons.1 hb with rfl | hb
      · exact h2.trans (min_le_right _ _)
      · exact h3 b hb

theorem foldl_max_spec (l : List K) : ∀ a : K, (l.foldl max a = a ∨ l.foldl max a ∈ l) ∧ a ≤ l.foldl max a ∧ ∀ b ∈ l, b ≤ l.foldl max a := by
  induction l with
  | nil => intro a; simp
  | cons c l ih =>
    intro a
    rw [List.foldl_cons]
    obtain ⟨h1, h2, h3⟩ := ih (max a c)
    refine ⟨?_, (le_max_left _ _).trans h2, ?_⟩
    · rcases h1 with h1 | h1
      · rw [h1]; rcases max_choice a c with h | h <;> simp [h]
      · exact .inr (List.mem_cons_of_mem _ h1)
    · intro b hb
      rcases List.mem_cons.1 hb with rfl | hb
      · exact (le_max_right _ _).trans h2
      · exact h3 b hb

theorem yMin_fin {y : Fin n → K} {lo : K} (h : IsLeast (Set.range y) lo) : yMin (fun i => .fin (y i)) = .ok (.fin lo) := by
  unfold yMin
  have hm : (List.finRange n).map (fun i => (.fin (y i) : Fl K)) = ((List.finRange n).map y).map Fl.fin := by rw [List.map_map]; rfl
  rw [hm]
  obtain ⟨⟨r, hr⟩, hle⟩ := h
  have mem : ∀ v, v ∈ (List.finRange n).map y ↔ v ∈ Set.range y := by intro v; simp [Set.mem_range]
  cases hl : (List.finRange n).map y with
  | nil => have := (mem lo).2 ⟨r, hr⟩; rw [hl] at this; simp at this
  | cons a l =>
    rw [List.map_cons]
    dsimp only
    rw [foldl_min_fin]
    obtain ⟨h1, h2, h3⟩ := foldl_min_spec l a
    have hin : l.foldl min a ∈ a :: l := by
      rcases h1 with h1 | h1
      · rw [h1]; exact List.mem_cons_self ..
      · exact List.mem_cons_of_mem _ h1
    have ge := hle ((mem _).1 (by rw [hl]; exact hin))
    have hlo : lo ∈ a :: l := by rw [← hl]; exact (mem lo).2 ⟨r, hr⟩
    have le : l.foldl min a ≤ lo := by
      rcases List.mem_cons.1 hlo with rfl | h
      · exact h2
      · exact h3 _ h
    rw [le_antisymm le ge]

theorem yMax_fin {y : Fin n → K} {hi : K} (h : IsGreatest (Set.range y) hi) : yMax (fun i => .fin (y i)) = .ok (.fin hi) := by
  unfold yMax
  have hm : (List.finRange n).map (fun i => (.fin (y i) : Fl K)) = ((List.finRange n).map y).map Fl.fin := by rw [List.map_map]; rfl
  rw [hm]
  obtain ⟨⟨r, hr⟩, hge⟩ := h
  have mem : ∀ v, v ∈ (List.finRange n).map y ↔ v ∈ Set.range y := by intro v; simp [Set.mem_range]
  cases hl : (List.finRange n).map y with
  | nil => have := (mem hi).2 ⟨r, hr⟩; rw [hl] at this; simp at this
  | cons a l =>
    rw [List.map_cons]
    dsimp only
    rw [foldl_max_fin]
    obtain ⟨h1, h2, h3⟩ := foldl_max_spec l a
    have hin : l.foldl max a ∈ a :: l := by
      rcases h1 with h1 | h1
      · rw [h1]; exact List.mem_cons_self ..
      · exact List.mem_cons_of_mem _ h1
    have le := hge ((mem _).1 (by rw [hl]; exact hin))
    have hhi : hi ∈ a :: l := by rw [← hl]; exact (mem hi).2 ⟨r, hr⟩
    have ge : hi ≤ l.foldl max a := by
      rcases List.mem_cons.1 hhi with rfl | h
      · exact h2
      · exact h3 _ h
    rw [le_antisymm le ge]

theorem normalized_fin {lo hi : K} (h : lo < hi) (y : Fin n → K) : (fun i => normalized (.fin lo) (.fin hi) (.fin (y i))) = fun i => (.fin (scaled lo hi y i) : Fl K) := by
  funext i
  have hne : hi - lo ≠ 0 := by intro h0; exact absurd (sub_eq_zero.1 h0) h.ne'
  simp only [normalized, Fl.sub, Fl.neg, Fl.add, Fl.div, ← sub_eq_add_neg, hne, if_false, scaled]
  congr 1
  ring

/-- What the reference sampler gives, with floats. -/
def embFit (X : Fin n → Fin p → Fl K) (lo hi : K) (l : List (List Bool × State K p)) : AFit K n p := ⟨.fin lo, .fin hi, l.map (fun a => (a.1, embState X a.2))⟩

theorem fit_fin {c : Config K} {X : Fin n → Fin p → Fl K} {y : Fin n → K} {lo hi : K} (hn : n ≠ 0) (hp : p ≠ 0) (hch : c.nChains ≠ 0) (hlo : IsLeast (Set.range y) lo)
    (hhi : IsGreatest (Set.range y) hi) (hlt : lo < hi) (rs : Nat → Rand K) :
    Agrees (embFit X lo hi) (Reference.fit c X lo hi y rs) (fit c X (fun i => .fin (y i)) rs) := by
  unfold fit Reference.fit
  rw [if_neg (by tauto), yMin_fin hlo, yMax_fin hhi]
  dsimp only
  rw [if_neg hch, normalized_fin hlt]
  have h := chains_fin c X (scaled lo hi y) ((List.range c.nChains).map rs)
  cases hr : Reference.chains c X (scaled lo hi y) ((List.range c.nChains).map rs) with
  | error e => rw [hr] at h; intro hne; rw [h hne]
  | ok l =>
    rw [hr] at h
    show _ = Except.ok _
    rw [show chains c X (fun i => .fin (scaled lo hi y i)) ((List.range c.nChains).map rs) = _ from h]
    rfl

theorem predict_fin [IsStrictOrderedRing K] {X : Fin n → Fin p → Fl K} {lo hi : K} {l : List (List Bool × State K p)} (hl : l ≠ []) (x : Fin p → Fl K) :
    (embFit X lo hi l).predict x = .fin (prediction lo hi l x) := by
  unfold AFit.predict embFit prediction
  dsimp only
  rw [List.map_map, List.length_map]
  rw [show ((fun s : List Bool × AState K n p => predictTrees s.2.trees x) ∘ fun a : List Bool × State K p => (a.1, embState X a.2)) = fun a => .fin (forest a.2.trees x) from
    funext (fun a => predictTrees_emb _ _), flSum_fin]
  have hne : ((l.length : Int) : K) ≠ 0 := by
    rw [Int.cast_natCast]; exact Nat.cast_ne_zero.2 (by simpa using hl)
  rw [show ∀ a : K, Fl.div (.fin a) (Fl.ofInt (l.length : Int)) = .fin (a / ((l.length : Int) : K)) from fun a => if_neg hne, Int.cast_natCast]
  simp only [unnormalized, Fl.sub, Fl.neg, Fl.add, Fl.mul]
  congr 1
  ring

end Bart.AnyTarget
