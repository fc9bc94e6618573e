import Verif.Proofs.NoReturn
import Verif.Proofs.AnyTargetDraws

/-! The reference sampler with more draws: what was done is not changed by draws that come later, and a bounded number of picks and kinds of move lets a chain come to its end. -/

set_option linter.unusedSectionVars false

namespace Bart.Returns
open Reference Spec
variable {K : Type} [Field K] [LinearOrder K] {n p : Nat}

/-- First the draws `a`, then the draws `b`. -/
def more (a b : Rand K) : Rand K :=
  { methods := a.methods ++ b.methods, picks := a.picks ++ b.picks, uniforms := a.uniforms ++ b.uniforms, normals := a.normals ++ b.normals, gammas := a.gammas ++ b.gammas }

/-- Picks and kinds of move. -/
def pairs (e : List (Nat × Method)) : Rand K := ⟨e.map Prod.snd, e.map Prod.fst, [], [], []⟩

theorem more_pairs (r : Rand K) (e e' : List (Nat × Method)) : more (more r (pairs e)) (pairs e') = more r (pairs (e ++ e')) := by simp [more, pairs]

/-! ### what was done is not changed by later draws -/

theorem drawCut_more {col : List (Fl K)} {us : List Nat} (e : List Nat) (h : drawCut col us ≠ .error .outOfDraws) :
    drawCut col (us ++ e) = (drawCut col us).map (fun q => (q.1, q.2 ++ e)) := by
  induction us with
  | nil => exact absurd rfl h
  | cons u us ih =>
    rw [List.cons_append]
    unfold drawCut at h ⊢
    cases hc : choice col u with
    | error e' => rfl
    | ok v =>
      rw [hc] at h
      dsimp only at h ⊢
      by_cases hv : (col.any fun m => Fl.lt v m) = true
      · rw [if_pos hv, if_pos hv]; rfl
      · rw [if_neg hv] at h ⊢
        rw [if_neg hv]
        exact ih h

theorem proposeGrow_more {X : Fin n → Fin p → Fl K} {t : RTree K p} {us : List Nat} (e : List Nat) (h : proposeGrow X t us ≠ .error .outOfDraws) :
    proposeGrow X t (us ++ e) = (proposeGrow X t us).map (fun q => (q.1, q.2 ++ e)) := by
  match us, h with
  | [], h => exact absurd rfl h
  | [u], h => exact absurd rfl h
  | u1 :: u2 :: us, h =>
    rw [List.cons_append, List.cons_append]
    unfold proposeGrow at h ⊢
    dsimp only at h ⊢
    cases h1 : choice (t.splittable X) u1 with
    | error e' => rfl
    | ok nd =>
      rw [h1] at h
      dsimp only at h ⊢
      cases h2 : choice (columns X (nd.rows X)) u2 with
      | error e' => rfl
      | ok j =>
        rw [h2] at h
        dsimp only at h ⊢
        have h3 : drawCut (column X (nd.rows X) j) us ≠ .error .outOfDraws := by
          intro h0; rw [h0] at h; exact h rfl
        rw [drawCut_more e h3]
        cases drawCut (column X (nd.rows X) j) us with
        | error e' => rfl
        | ok q => rfl

theorem proposePrune_more {t : RTree K p} {us : List Nat} (e : List Nat) (h : proposePrune t us ≠ .error .outOfDraws) :
    proposePrune t (us ++ e) = (proposePrune t us).map (fun q => (q.1, q.2 ++ e)) := by
  match us, h with
  | [], h => exact absurd rfl h
  | u :: us, h =>
    rw [List.cons_append]
    unfold proposePrune
    dsimp only
    cases choice t.prunable u with
    | error e' => rfl
    | ok nd =>
      rcases nd with ⟨path, w | ⟨j, v⟩⟩ <;> rfl

theorem propose_more {X : Fin n → Fin p → Fl K} {t : RTree K p} {us : List Nat} {ms : List Method} (e : List Nat) (e' : List Method) (h : propose X t us ms ≠ .error .outOfDraws) :
    propose X t (us ++ e) (ms ++ e') = (propose X t us ms).map (fun q => (q.1, q.2.1 ++ e, q.2.2 ++ e')) := by
  induction ms with
  | nil => exact absurd rfl h
  | cons m ms ih =>
    rw [List.cons_append]
    cases m with
    | grow =>
      unfold propose at h ⊢
      by_cases hs : t.splittable X = []
      · rw [if_pos hs] at h ⊢; rw [if_pos hs]; exact ih h
      · rw [if_neg hs] at h ⊢
        rw [if_neg hs]
        have h3 : proposeGrow X t us ≠ .error .outOfDraws := by
          intro h0; rw [h0] at h; exact h rfl
        rw [proposeGrow_more e h3]
        cases proposeGrow X t us with
        | error e' => rfl
        | ok q => rfl
    | prune =>
      unfold propose at h ⊢
      by_cases hs : t.prunable = []
      · rw [if_pos hs] at h ⊢; rw [if_pos hs]; exact ih h
      · rw [if_neg hs] at h ⊢
        rw [if_neg hs]
        have h3 : proposePrune t us ≠ .error .outOfDraws := by
          intro h0; rw [h0] at h; exact h rfl
        rw [proposePrune_more e h3]
        cases proposePrune t us with
        | error e' => rfl
        | ok q => rfl

variable [MathFns K]

theorem treeStep_more {P : Params K} {pGrow pPrune : K} {X : Fin n → Fin p → Fl K} {y : Fin n → K} {t : RTree K p} {r : Rand K} (e : Rand K)
    (h : Reference.treeStep P pGrow pPrune X y t r ≠ .error .outOfDraws) :
    Reference.treeStep P pGrow pPrune X y t (more r e) = (Reference.treeStep P pGrow pPrune X y t r).map (fun q => (q.1, q.2.1, more q.2.2 e)) := by
  unfold Reference.treeStep at h ⊢
  have h1 : propose X t r.picks r.methods ≠ .error .outOfDraws := by
    intro h0; rw [h0] at h; exact h rfl
  rw [show (more r e).picks = r.picks ++ e.picks from rfl, show (more r e).methods = r.methods ++ e.methods from rfl, propose_more _ _ h1]
  cases hp : propose X t r.picks r.methods with
  | error e' => rfl
  | ok q =>
    obtain ⟨mv, us, ms⟩ := q
    rw [hp] at h
    dsimp only [Except.map] at h ⊢
    cases hu : r.uniforms with
    | nil => rw [hu] at h; exact absurd rfl h
    | cons u uniforms =>
      rw [show (more r e).uniforms = u :: (uniforms ++ e.uniforms) from by simp [more, hu]]
      rfl

theorem leafValues_more {P : Params K} {X : Fin n → Fin p → Fl K} {y : Fin n → K} (e : List K) (t : RTree K p) : ∀ {zs : List K}, leafValues P X y t zs ≠ .error .outOfDraws →
    leafValues P X y t (zs ++ e) = (leafValues P X y t zs).map (fun q => (q.1, q.2 ++ e)) := by
  induction t with
  | nil => intro zs h; simp [leafValues, Except.map]
  | cons nd t ih =>
    intro zs h
    rcases nd with ⟨path, v0 | ⟨j, v⟩⟩
    · cases zs with
      | nil => exact absurd (by simp [leafValues]) h
      | cons z zs =>
        rw [List.cons_append]
        unfold leafValues at h ⊢
        dsimp only at h ⊢
        cases hv : (Sampler.leafValue P (Fl.ofInt (count (RNode.rows X ⟨path, .leaf v0⟩))) (.fin (total y (RNode.rows X ⟨path, .leaf v0⟩))) (.fin z)).toFinite with
        | error e' => rfl
        | ok v =>
          rw [hv] at h
          dsimp only at h ⊢
          have h1 : leafValues P X y t zs ≠ .error .outOfDraws := by
            intro h0; rw [h0] at h; exact h rfl
          rw [ih h1]
          cases leafValues P X y t zs with
          | error e' => rfl
          | ok q => rfl
    · have e1 : ∀ zs, leafValues P X y (⟨path, .split j v⟩ :: t) zs = (leafValues P X y t zs).map (fun q => (⟨path, .split j v⟩ :: q.1, q.2)) := by
        intro zs
        rw [leafValues]
        cases leafValues P X y t zs with
        | error e' => rfl
        | ok q => rfl
      rw [e1] at h
      rw [e1, e1]
      have h1 : leafValues P X y t zs ≠ .error .outOfDraws := by
        intro h0; rw [h0] at h; exact h rfl
      rw [ih h1]
      cases leafValues P X y t zs with
      | error e' => rfl
      | ok q => rfl

theorem treeBody_more {P : Params K} {pGrow pPrune : K} {X : Fin n → Fin p → Fl K} {y : Fin n → K} {t : RTree K p} {r : Rand K} (e : Rand K)
    (h : Reference.treeBody P pGrow pPrune X y t r ≠ .error .outOfDraws) :
    Reference.treeBody P pGrow pPrune X y t (more r e) = (Reference.treeBody P pGrow pPrune X y t r).map (fun q => (q.1, q.2.1, more q.2.2 e)) := by
  unfold Reference.treeBody at h ⊢
  have h1 : Reference.treeStep P pGrow pPrune X y t r ≠ .error .outOfDraws := by
    intro h0; rw [h0] at h; exact h rfl
  rw [treeStep_more e h1]
  cases hp : Reference.treeStep P pGrow pPrune X y t r with
  | error e' => rfl
  | ok q =>
    obtain ⟨b, t1, r1⟩ := q
    rw [hp] at h
    dsimp only [Except.map] at h ⊢
    have h2 : leafValues P X y t1 r1.normals ≠ .error .outOfDraws := by
      intro h0; rw [h0] at h; exact h rfl
    rw [show (more r1 e).normals = r1.normals ++ e.normals from rfl, leafValues_more _ _ h2]
    cases leafValues P X y t1 r1.normals with
    | error e' => rfl
    | ok q => rfl

theorem sweepTrees_more {P : Params K} {pGrow pPrune : K} {X : Fin n → Fin p → Fl K} {y : Fin n → K} (e : Rand K) (ts : List (RTree K p)) : ∀ {done : List (RTree K p)} {r : Rand K},
    Reference.sweepTrees P pGrow pPrune X y done ts r ≠ .error .outOfDraws →
    Reference.sweepTrees P pGrow pPrune X y done ts (more r e) = (Reference.sweepTrees P pGrow pPrune X y done ts r).map (fun q => (q.1, q.2.1, more q.2.2 e)) := by
  induction ts with
  | nil => intro done r h; rfl
  | cons t ts ih =>
    intro done r h
    unfold Reference.sweepTrees at h ⊢
    have h1 : Reference.treeBody P pGrow pPrune X (fun i => y i - forest (done ++ ts) (X i)) t r ≠ .error .outOfDraws := by
      intro h0; rw [h0] at h; exact h rfl
    rw [treeBody_more e h1]
    cases hp : Reference.treeBody P pGrow pPrune X (fun i => y i - forest (done ++ ts) (X i)) t r with
    | error e' => rfl
    | ok q =>
      obtain ⟨b, t1, r1⟩ := q
      rw [hp] at h
      dsimp only [Except.map] at h ⊢
      have h2 : Reference.sweepTrees P pGrow pPrune X y (done ++ [t1]) ts r1 ≠ .error .outOfDraws := by
        intro h0; rw [h0] at h; exact h rfl
      rw [ih h2]
      cases Reference.sweepTrees P pGrow pPrune X y (done ++ [t1]) ts r1 with
      | error e' => rfl
      | ok q => rfl

theorem sigmaStep_more {c : Reference.Settings K} {X : Fin n → Fin p → Fl K} {y : Fin n → K} {ts : List (RTree K p)} {gs : List K} (e : List K)
    (h : Reference.sigmaStep c X y ts gs ≠ .error .outOfDraws) : Reference.sigmaStep c X y ts (gs ++ e) = (Reference.sigmaStep c X y ts gs).map (fun q => (q.1, q.2 ++ e)) := by
  unfold Reference.sigmaStep at h ⊢
  by_cases h0 : c.sigmaA + (n : K) / 2 < 0 ∨ c.sigmaB + (1/2) * ∑ i, (y i - forest ts (X i)) * (y i - forest ts (X i)) < 0
  · rw [if_pos h0, if_pos h0]; rfl
  · rw [if_neg h0] at h ⊢
    rw [if_neg h0]
    cases gs with
    | nil => exact absurd rfl h
    | cons g gs =>
      rw [List.cons_append]
      dsimp only
      cases (MathFns.pow g (-(1/2))).toFinite with
      | error e' => rfl
      | ok v => rfl

theorem sweep_more {c : Reference.Settings K} {X : Fin n → Fin p → Fl K} {y : Fin n → K} {s : State K p} {r : Rand K} (e : Rand K)
    (h : Reference.sweep c X y s r ≠ .error .outOfDraws) : Reference.sweep c X y s (more r e) = (Reference.sweep c X y s r).map (fun q => (q.1, q.2.1, more q.2.2 e)) := by
  unfold Reference.sweep at h ⊢
  have h1 : Reference.sweepTrees (c.params s.sigma) c.pGrow c.pPrune X y [] s.trees r ≠ .error .outOfDraws := by
    intro h0; rw [h0] at h; exact h rfl
  rw [sweepTrees_more e _ h1]
  cases hp : Reference.sweepTrees (c.params s.sigma) c.pGrow c.pPrune X y [] s.trees r with
  | error e' => rfl
  | ok q =>
    obtain ⟨bs, ts, r1⟩ := q
    rw [hp] at h
    dsimp only [Except.map] at h ⊢
    have h2 : Reference.sigmaStep c X y ts r1.gammas ≠ .error .outOfDraws := by
      intro h0; rw [h0] at h; exact h rfl
    rw [show (more r1 e).gammas = r1.gammas ++ e.gammas from rfl, sigmaStep_more _ h2]
    cases Reference.sigmaStep c X y ts r1.gammas with
    | error e' => rfl
    | ok q => rfl

theorem sweeps_more {c : Reference.Settings K} {X : Fin n → Fin p → Fl K} {y : Fin n → K} (e : Rand K) (k : Nat) : ∀ {s : State K p} {r : Rand K},
    Reference.sweeps c X y k s r ≠ .error .outOfDraws → Reference.sweeps c X y k s (more r e) = (Reference.sweeps c X y k s r).map (fun q => (q.1, q.2.1, more q.2.2 e)) := by
  induction k with
  | zero => intro s r h; rfl
  | succ k ih =>
    intro s r h
    unfold Reference.sweeps at h ⊢
    have h1 : Reference.sweep c X y s r ≠ .error .outOfDraws := by
      intro h0; rw [h0] at h; exact h rfl
    rw [sweep_more e h1]
    cases hp : Reference.sweep c X y s r with
    | error e' => rfl
    | ok q =>
      obtain ⟨bs, s1, r1⟩ := q
      rw [hp] at h
      dsimp only [Except.map] at h ⊢
      have h2 : Reference.sweeps c X y k s1 r1 ≠ .error .outOfDraws := by
        intro h0; rw [h0] at h; exact h rfl
      rw [ih h2]
      cases Reference.sweeps c X y k s1 r1 with
      | error e' => rfl
      | ok q => rfl

/-! ### every tree of a chain can be changed -/

/-- The tree has a root, and every split has its two children. -/
structure Alive (t : RTree K p) : Prop where
  root : [] ∈ t.map RNode.path
  children : ∀ path j v b, (⟨path, .split j v⟩ : RNode K p) ∈ t → path ++ [⟨j, v, b⟩] ∈ t.map RNode.path

omit [MathFns K] in
theorem alive_root : Alive (RTree.root : RTree K p) := ⟨by simp [RTree.root], by simp [RTree.root]⟩

omit [MathFns K] in
theorem alive_grow {t : RTree K p} (h : Alive t) (path : List (Cond K p)) (j : Fin p) (v : Fl K) : Alive (t.apply (.grow path j v)) := by
  have keep : ∀ q, q ∈ t.map RNode.path → q ∈ (t.apply (.grow path j v)).map RNode.path := by
    intro q hq
    obtain ⟨nd, hnd, rfl⟩ := List.mem_map.1 hq
    by_cases hp : nd.path = path
    · rw [hp]; exact List.mem_map.2 ⟨⟨path, .split j v⟩, by simp [RTree.apply], rfl⟩
    · exact List.mem_map.2 ⟨nd, by simp only [RTree.apply]; exact List.mem_append_left _ (List.mem_filter.2 ⟨hnd, by simpa using hp⟩), rfl⟩
  refine ⟨keep _ h.root, ?_⟩
  intro q j' v' b hq
  simp only [RTree.apply] at hq
  rcases List.mem_append.1 hq with hq | hq
  · exact keep _ (h.children _ _ _ _ (List.mem_filter.1 hq).1)
  · simp only [List.mem_cons, List.not_mem_nil, or_false, RNode.mk.injEq, reduceCtorEq, and_false, false_or, Content.split.injEq] at hq
    obtain ⟨rfl, rfl, rfl⟩ := hq
    cases b <;> simp [RTree.apply]

omit [MathFns K] in
theorem alive_prune {t : RTree K p} (h : Alive t) (path : List (Cond K p)) (j : Fin p) (v : Fl K) : Alive (t.apply (.prune path j v)) := by
  have keep : ∀ q, q ∈ t.map RNode.path → (∀ b, q ≠ path ++ [⟨j, v, b⟩]) → q ∈ (t.apply (.prune path j v)).map RNode.path := by
    intro q hq hb
    obtain ⟨nd, hnd, rfl⟩ := List.mem_map.1 hq
    by_cases hp : nd.path = path
    · rw [hp]; exact List.mem_map.2 ⟨⟨path, .leaf 0⟩, by simp [RTree.apply], rfl⟩
    · exact List.mem_map.2 ⟨nd, by simp only [RTree.apply]; exact List.mem_append_left _ (List.mem_filter.2 ⟨hnd, by simp [hp, hb true, hb false]⟩), rfl⟩
  refine ⟨keep _ h.root (by simp), ?_⟩
  intro q j' v' b hq
  simp only [RTree.apply] at hq
  rcases List.mem_append.1 hq with hq | hq
  · have hq' := List.mem_filter.1 hq
    refine keep _ (h.children _ _ _ _ hq'.1) ?_
    intro b' e
    have := List.append_inj_left' e rfl
    simp [this] at hq'
  · simp at hq

omit [MathFns K] in
/-- Something can be proposed for the tree. -/
theorem alive_can {X : Fin n → Fin p → Fl K} (hc : columns X (fun _ => true) ≠ []) {t : RTree K p} (h : Alive t) : t.splittable X ≠ [] ∨ t.prunable ≠ [] := by
  by_cases hs : ∃ nd ∈ t, nd.isLeaf = false
  · right
    have key : ∀ (d : Nat) (nd : RNode K p), nd ∈ t → nd.isLeaf = false → (∀ nd' ∈ t, nd'.path.length ≤ nd.path.length + d) → t.prunable ≠ [] := by
      intro d
      induction d with
      | zero =>
        intro nd hnd hl hd
        rcases nd with ⟨path, w | ⟨j, v⟩⟩
        · cases hl
        have hch : ∀ b, t.hasLeaf (path ++ [⟨j, v, b⟩]) = true := by
          intro b
          obtain ⟨nd', h1, h2⟩ := List.mem_map.1 (h.children _ _ _ b hnd)
          have := hd nd' h1
          rw [h2] at this
          simp at this
        exact List.ne_nil_of_mem (mem_prunable.2 ⟨path, j, v, rfl, hnd, hch⟩)
      | succ d ih =>
        intro nd hnd hl hd
        rcases nd with ⟨path, w | ⟨j, v⟩⟩
        · cases hl
        by_cases hch : ∀ b, t.hasLeaf (path ++ [⟨j, v, b⟩]) = true
        · exact List.ne_nil_of_mem (mem_prunable.2 ⟨path, j, v, rfl, hnd, hch⟩)
        · push Not at hch
          obtain ⟨b, hb⟩ := hch
          obtain ⟨nd', h1, h2⟩ := List.mem_map.1 (h.children _ _ _ b hnd)
          refine ih nd' h1 ?_ ?_
          · rcases nd' with ⟨path', w | ⟨j', v'⟩⟩
            · subst h2; exact absurd (mem_hasLeaf.2 ⟨w, h1⟩) hb
            · rfl
          · intro nd'' h3
            have := hd nd'' h3
            rw [h2]; simp; simp at this; omega
    obtain ⟨nd, hnd, hl⟩ := hs
    refine key ((t.map (fun nd => nd.path.length)).sum) nd hnd hl ?_
    intro nd' h'
    have := List.le_sum_of_mem (List.mem_map.2 ⟨nd', h', rfl⟩ : nd'.path.length ∈ t.map (fun nd => nd.path.length))
    omega
  · left
    push Not at hs
    obtain ⟨nd, hnd, hp⟩ := List.mem_map.1 h.root
    have hl : nd.isLeaf = true := by
      have := hs nd hnd; simpa using this
    refine List.ne_nil_of_mem (a := nd) (List.mem_filter.2 ⟨hnd, ?_⟩)
    have hr : nd.rows X = fun _ => true := by
      funext r; simp [RNode.rows, RNode.reaches, hp]
    rw [hl, hr]
    simp [hc]

theorem leafValues_shape {P : Params K} {X : Fin n → Fin p → Fl K} {y : Fin n → K} (t : RTree K p) : ∀ {t' : RTree K p} {zs zs' : List K}, leafValues P X y t zs = .ok (t', zs') →
    t'.map RNode.path = t.map RNode.path ∧ (∀ path j v, (⟨path, .split j v⟩ : RNode K p) ∈ t' → (⟨path, .split j v⟩ : RNode K p) ∈ t) ∧ zs.length ≤ zs'.length + t.length := by
  induction t with
  | nil => intro t' zs zs' h; simp only [leafValues, Except.ok.injEq, Prod.mk.injEq] at h; obtain ⟨rfl, rfl⟩ := h; simp
  | cons nd t ih =>
    intro t' zs zs' h
    rcases nd with ⟨path, v0 | ⟨j, v⟩⟩
    · cases zs with
      | nil => simp [leafValues] at h
      | cons z zs =>
        unfold leafValues at h
        dsimp only at h
        split at h
        · cases h
        · split at h
          · cases h
          · next h1 =>
            cases h
            obtain ⟨i1, i2, i3⟩ := ih h1
            refine ⟨by simp [i1], ?_, by simp; omega⟩
            intro q j v hq
            simp only [List.mem_cons, RNode.mk.injEq, reduceCtorEq, and_false, false_or] at hq ⊢
            exact i2 _ _ _ hq
    · rw [leafValues] at h
      split at h
      · cases h
      · next h1 =>
        cases h
        obtain ⟨i1, i2, i3⟩ := ih h1
        refine ⟨by simp [i1], ?_, by simp; omega⟩
        intro q j' v' hq
        rcases List.mem_cons.1 hq with hq | hq
        · exact hq ▸ List.mem_cons_self ..
        · exact List.mem_cons_of_mem _ (i2 _ _ _ hq)

theorem leafValues_enough {P : Params K} {X : Fin n → Fin p → Fl K} {y : Fin n → K} (t : RTree K p) : ∀ {zs : List K}, t.length ≤ zs.length → leafValues P X y t zs ≠ .error .outOfDraws := by
  induction t with
  | nil => intro zs h h'; simp [leafValues] at h'
  | cons nd t ih =>
    intro zs h h'
    rcases nd with ⟨path, v0 | ⟨j, v⟩⟩
    · cases zs with
      | nil => simp at h
      | cons z zs =>
        unfold leafValues at h'
        dsimp only at h'
        split at h'
        · next e he =>
          cases h'
          unfold Fl.toFinite at he
          split at he <;> cases he
        · split at h'
          · next h1 => cases h'; exact ih (by simpa using h) h1
          · cases h'
    · rw [leafValues] at h'
      split at h'
      · next h1 => cases h'; exact ih (by simp at h; omega) h1
      · cases h'

/-! ### a bounded number of draws is enough -/

omit [MathFns K] in
theorem drawCut_completes {col : List (Fl K)} {g : Nat} {v : Fl K} (hg : choice col g = .ok v) (hv : (col.any fun m => Fl.lt v m) = true) (us : List Nat) : ∃ q, drawCut col (us ++ [g]) = .ok q := by
  have hcol : col ≠ [] := by rintro rfl; simp [choice] at hg
  induction us with
  | nil => exact ⟨(v, []), by simp [drawCut, hg, hv]⟩
  | cons u us ih =>
    rw [List.cons_append]
    unfold drawCut
    obtain ⟨w, -, hw⟩ := AnyTarget.choice_ne_nil hcol u
    rw [hw]
    dsimp only
    split
    · exact ⟨_, rfl⟩
    · exact ih

omit [MathFns K] in
theorem exists_cut {X : Fin n → Fin p → Fl K} (hX : NoNan X) {rows : Fin n → Bool} {j : Fin p} (hj : j ∈ columns X rows) :
    ∃ g v, g < n ∧ choice (column X rows j) g = .ok v ∧ ((column X rows j).any fun m => Fl.lt v m) = true := by
  have h1 := (List.mem_filter.1 hj).2
  obtain ⟨a, ha, hab⟩ := List.any_eq_true.1 h1
  obtain ⟨b, hb, hne⟩ := List.any_eq_true.1 hab
  have hne : a ≠ b := of_decide_eq_true hne
  have ha := List.mem_of_mem_tail ha
  have hb := List.mem_of_mem_tail hb
  have hlen : (column X rows j).length ≤ n := by
    have : (column X rows j).length ≤ (List.finRange n).length := by
      unfold column; rw [List.length_map]; exact List.length_filter_le _ _
    simpa using this
  have key : ∀ {a b}, a ∈ column X rows j → b ∈ column X rows j → Fl.lt a b = true →
      ∃ g v, g < n ∧ choice (column X rows j) g = .ok v ∧ ((column X rows j).any fun m => Fl.lt v m) = true := by
    intro a b ha hb hlt
    obtain ⟨u, hu, rfl⟩ := List.mem_iff_getElem.1 ha
    refine ⟨u, _, by omega, ?_, List.any_eq_true.2 ⟨b, hb, hlt⟩⟩
    unfold choice
    rw [Nat.mod_eq_of_lt hu, List.getElem?_eq_getElem hu]
  have nn : ∀ {a}, a ∈ column X rows j → a ≠ .nan := by
    intro a ha
    obtain ⟨r, -, rfl⟩ := List.mem_map.1 ha
    exact hX r j
  have tri : Fl.lt a b = true ∨ Fl.lt b a = true := by
    have na := nn ha
    have nb := nn hb
    rcases a with _ | _ | a | _ <;> rcases b with _ | _ | b | _ <;> simp_all [Fl.lt]
  rcases tri with h | h
  · exact key ha hb h
  · exact key hb ha h

omit [MathFns K] in
theorem proposeGrow_completes {X : Fin n → Fin p → Fl K} (hX : NoNan X) {t : RTree K p} (hs : t.splittable X ≠ []) (us : List Nat) :
    ∃ g < n, ∃ q, proposeGrow X t (us ++ [0, 0, g]) = .ok q := by
  have main : ∀ (u1 u2 : Nat) (rest : List Nat), ∃ g < n, ∃ q, proposeGrow X t (u1 :: u2 :: (rest ++ [g])) = .ok q := by
    intro u1 u2 rest
    obtain ⟨nd, hnd, h1⟩ := AnyTarget.choice_ne_nil hs u1
    have hcol : columns X (nd.rows X) ≠ [] := by
      have := (List.mem_filter.1 hnd).2
      simp only [Bool.and_eq_true, Bool.not_eq_true', List.isEmpty_eq_false_iff] at this
      exact this.2
    obtain ⟨j, hj, h2⟩ := AnyTarget.choice_ne_nil hcol u2
    obtain ⟨g, v, hg, h3, h4⟩ := exists_cut hX hj
    obtain ⟨q, hq⟩ := drawCut_completes h3 h4 rest
    refine ⟨g, hg, (.grow nd.path j q.1, q.2), ?_⟩
    unfold proposeGrow
    simp only [h1, h2, hq]
  match us with
  | [] => exact main 0 0 []
  | [u] => exact main u 0 [0]
  | u1 :: u2 :: us =>
    obtain ⟨g, hg, q, hq⟩ := main u1 u2 (us ++ [0, 0])
    exact ⟨g, hg, q, by simpa using hq⟩

omit [MathFns K] in
theorem proposePrune_completes {t : RTree K p} (hs : t.prunable ≠ []) (us : List Nat) (g : Nat) : ∃ q, proposePrune t (us ++ [0, 0, g]) = .ok q := by
  have main : ∀ (u : Nat) (rest : List Nat), ∃ q, proposePrune t (u :: rest) = .ok q := by
    intro u rest
    obtain ⟨nd, hnd, h1⟩ := AnyTarget.choice_ne_nil hs u
    obtain ⟨path, j, v, rfl, -, -⟩ := mem_prunable.1 hnd
    exact ⟨(.prune path j v, rest), by unfold proposePrune; simp only [h1]⟩
  cases us with
  | nil => exact main 0 _
  | cons u us => exact main u _

omit [MathFns K] in
theorem propose_completes {X : Fin n → Fin p → Fl K} (hX : NoNan X) (hn : 0 < n) {t : RTree K p} (hc : t.splittable X ≠ [] ∨ t.prunable ≠ []) (us : List Nat) (ms : List Method) :
    ∃ g < n, ∃ m q, propose X t (us ++ [0, 0, g]) (ms ++ [m, m, m]) = .ok q := by
  induction ms with
  | nil =>
    rcases hc with hc | hc
    · obtain ⟨g, hg, q, hq⟩ := proposeGrow_completes hX hc us
      exact ⟨g, hg, .grow, (q.1, q.2, [.grow, .grow]), by rw [List.nil_append, propose, if_neg hc, hq]⟩
    · obtain ⟨q, hq⟩ := proposePrune_completes hc us 0
      exact ⟨0, hn, .prune, (q.1, q.2, [.prune, .prune]), by rw [List.nil_append, propose, if_neg hc, hq]⟩
  | cons a ms ih =>
    cases a with
    | grow =>
      by_cases h : t.splittable X = []
      · obtain ⟨g, hg, m, q, hq⟩ := ih
        exact ⟨g, hg, m, q, by rw [List.cons_append, propose, if_pos h, hq]⟩
      · obtain ⟨g, hg, q, hq⟩ := proposeGrow_completes hX h us
        exact ⟨g, hg, .grow, (q.1, q.2, ms ++ [.grow, .grow, .grow]), by rw [List.cons_append, propose, if_neg h, hq]⟩
    | prune =>
      by_cases h : t.prunable = []
      · obtain ⟨g, hg, m, q, hq⟩ := ih
        exact ⟨g, hg, m, q, by rw [List.cons_append, propose, if_pos h, hq]⟩
      · obtain ⟨q, hq⟩ := proposePrune_completes h us 0
        exact ⟨0, hn, .grow, (q.1, q.2, ms ++ [.grow, .grow, .grow]), by rw [List.cons_append, propose, if_neg h, hq]⟩

omit [MathFns K] in
theorem apply_length (t : RTree K p) (mv : Move K p) : (t.apply mv).length ≤ t.length + 3 := by
  cases mv with
  | grow path j v => simp only [RTree.apply, List.length_append]; exact Nat.add_le_add (List.length_filter_le _ _) (by simp)
  | prune path j v => simp only [RTree.apply, List.length_append]; exact Nat.add_le_add (List.length_filter_le _ _) (by simp)

omit [MathFns K] in
theorem apply_alive {t : RTree K p} (h : Alive t) (mv : Move K p) : Alive (t.apply mv) := by
  cases mv with
  | grow path j v => exact alive_grow h path j v
  | prune path j v => exact alive_prune h path j v

theorem treeStep_shape {P : Params K} {pGrow pPrune : K} {X : Fin n → Fin p → Fl K} {y : Fin n → K} {t t' : RTree K p} {r r' : Rand K} {b : Bool} (ha : Alive t)
    (h : Reference.treeStep P pGrow pPrune X y t r = .ok (b, t', r')) :
    Alive t' ∧ t'.length ≤ t.length + 3 ∧ r.uniforms.length = r'.uniforms.length + 1 ∧ r'.normals = r.normals ∧ r'.gammas = r.gammas := by
  unfold Reference.treeStep at h
  split at h
  · cases h
  · split at h
    · cases h
    · next u us hu =>
      dsimp only at h
      injection h with h; injection h with h1 h2; injection h2 with h2 h3
      subst h3
      refine ⟨?_, ?_, by simp [hu], rfl, rfl⟩
      · rw [← h2]; split
        · exact apply_alive ha _
        · exact ha
      · rw [← h2]; split
        · exact apply_length _ _
        · omega

theorem treeBody_shape {P : Params K} {pGrow pPrune : K} {X : Fin n → Fin p → Fl K} {y : Fin n → K} {t t' : RTree K p} {r r' : Rand K} {b : Bool} (ha : Alive t)
    (h : Reference.treeBody P pGrow pPrune X y t r = .ok (b, t', r')) :
    Alive t' ∧ t'.length ≤ t.length + 3 ∧ r.uniforms.length = r'.uniforms.length + 1 ∧ r.normals.length ≤ r'.normals.length + (t.length + 3) ∧ r'.gammas = r.gammas := by
  unfold Reference.treeBody at h
  split at h
  · cases h
  · next b1 t1 r1 e1 =>
    split at h
    · cases h
    · next t2 zs e2 =>
      cases h
      obtain ⟨i1, i2, i3, i4, i5⟩ := treeStep_shape ha e1
      obtain ⟨k1, k2, k3⟩ := leafValues_shape _ e2
      have kl : t'.length = t1.length := by have := congrArg List.length k1; simpa using this
      refine ⟨⟨k1 ▸ i1.root, fun path j v b hq => k1 ▸ i1.children path j v b (k2 _ _ _ hq)⟩, by omega, i3, ?_, i5⟩
      rw [i4] at k3
      simp only
      omega

theorem treeBody_completes {P : Params K} {pGrow pPrune : K} {X : Fin n → Fin p → Fl K} (hX : NoNan X) (hn : 0 < n) (hc : columns X (fun _ => true) ≠ []) {y : Fin n → K} {t : RTree K p}
    (ha : Alive t) {r : Rand K} (hu : 0 < r.uniforms.length) (hz : t.length + 3 ≤ r.normals.length) :
    ∃ e : List (Nat × Method), e.length = 3 ∧ (∀ x ∈ e, x.1 < n) ∧ Reference.treeBody P pGrow pPrune X y t (more r (pairs e)) ≠ .error .outOfDraws := by
  obtain ⟨g, hg, m, q, hq⟩ := propose_completes hX hn (alive_can hc ha) r.picks r.methods
  refine ⟨[(0, m), (0, m), (g, m)], rfl, ?_, ?_⟩
  · intro x hx
    simp only [List.mem_cons, List.not_mem_nil, or_false] at hx
    rcases hx with rfl | rfl | rfl <;> assumption
  · have hr : Reference.propose X t (more r (pairs [(0, m), (0, m), (g, m)])).picks (more r (pairs [(0, m), (0, m), (g, m)])).methods = .ok q := hq
    generalize hrr : more r (pairs [(0, m), (0, m), (g, m)]) = rr at hr ⊢
    have hu' : rr.uniforms = r.uniforms := by rw [← hrr]; simp [more, pairs]
    have hz' : rr.normals = r.normals := by rw [← hrr]; simp [more, pairs]
    have hst : ∃ b t1 r1, Reference.treeStep P pGrow pPrune X y t rr = .ok (b, t1, r1) := by
      unfold Reference.treeStep
      rw [hr]
      obtain ⟨mv, us, ms⟩ := q
      dsimp only
      cases hh : rr.uniforms with
      | nil => rw [hu'] at hh; rw [hh] at hu; simp at hu
      | cons u us' => exact ⟨_, _, _, rfl⟩
    obtain ⟨b, t1, r1, hst⟩ := hst
    obtain ⟨-, i2, -, i4, -⟩ := treeStep_shape ha hst
    unfold Reference.treeBody
    rw [hst]
    dsimp only
    have := leafValues_enough (P := P) (X := X) (y := y) t1 (zs := r1.normals) (by rw [i4, hz']; omega)
    intro h
    split at h
    · next h1 => cases h; exact this h1
    · cases h

theorem sweepTrees_shape {P : Params K} {pGrow pPrune : K} {X : Fin n → Fin p → Fl K} {y : Fin n → K} {d : Nat} (ts : List (RTree K p)) :
    ∀ {done all : List (RTree K p)} {bs : List Bool} {r r' : Rand K}, (∀ t ∈ done, Alive t ∧ t.length ≤ d + 3) → (∀ t ∈ ts, Alive t ∧ t.length ≤ d) →
      Reference.sweepTrees P pGrow pPrune X y done ts r = .ok (bs, all, r') →
      (∀ t ∈ all, Alive t ∧ t.length ≤ d + 3) ∧ all.length = done.length + ts.length ∧ r.uniforms.length = r'.uniforms.length + ts.length ∧
        r.normals.length ≤ r'.normals.length + ts.length * (d + 3) ∧ r'.gammas = r.gammas := by
  induction ts with
  | nil =>
    intro done all bs r r' hd ht h
    cases h
    exact ⟨hd, by simp, by simp, by simp, rfl⟩
  | cons t ts ih =>
    intro done all bs r r' hd ht h
    unfold Reference.sweepTrees at h
    split at h
    · cases h
    · next b t1 r1 e1 =>
      split at h
      · cases h
      · next bs' all' r2 e2 =>
        cases h
        obtain ⟨i1, i2, i3, i4, i5⟩ := treeBody_shape (ht t (List.mem_cons_self ..)).1 e1
        have hl := (ht t (List.mem_cons_self ..)).2
        obtain ⟨k1, k2, k3, k4, k5⟩ := ih (by
          intro t' ht'
          rcases List.mem_append.1 ht' with h | h
          · exact hd _ h
          · rw [List.mem_singleton.1 h]; exact ⟨i1, by omega⟩) (fun t' ht' => ht t' (List.mem_cons_of_mem _ ht')) e2
        refine ⟨k1, by simp at k2 ⊢; omega, by simp; omega, ?_, by rw [k5, i5]⟩
        rw [List.length_cons, Nat.succ_mul]
        omega

theorem sweepTrees_completes {P : Params K} {pGrow pPrune : K} {X : Fin n → Fin p → Fl K} (hX : NoNan X) (hn : 0 < n) (hc : columns X (fun _ => true) ≠ []) {y : Fin n → K} {d : Nat}
    (ts : List (RTree K p)) : ∀ {done : List (RTree K p)} {r : Rand K}, (∀ t ∈ ts, Alive t ∧ t.length ≤ d) → ts.length ≤ r.uniforms.length → ts.length * (d + 3) ≤ r.normals.length →
      ∃ e : List (Nat × Method), e.length = 3 * ts.length ∧ (∀ x ∈ e, x.1 < n) ∧ Reference.sweepTrees P pGrow pPrune X y done ts (more r (pairs e)) ≠ .error .outOfDraws := by
  induction ts with
  | nil => intro done r _ _ _; exact ⟨[], rfl, by simp, by simp [Reference.sweepTrees]⟩
  | cons t ts ih =>
    intro done r ht hu hz
    obtain ⟨ha, hl⟩ := ht t (List.mem_cons_self ..)
    rw [List.length_cons, Nat.succ_mul] at hz
    rw [List.length_cons] at hu
    obtain ⟨e1, l1, b1, h1⟩ := treeBody_completes (P := P) (pGrow := pGrow) (pPrune := pPrune) hX hn hc (y := fun i => y i - forest (done ++ ts) (X i)) ha (r := r) (by omega) (by omega)
    cases hb : Reference.treeBody P pGrow pPrune X (fun i => y i - forest (done ++ ts) (X i)) t (more r (pairs e1)) with
    | error er =>
      refine ⟨e1 ++ List.replicate (3 * ts.length) (0, .grow), by rw [List.length_append, l1, List.length_replicate, List.length_cons]; omega, ?_, ?_⟩
      · intro x hx
        rcases List.mem_append.1 hx with hx | hx
        · exact b1 x hx
        · rw [List.eq_of_mem_replicate hx]; exact hn
      · rw [← more_pairs]
        unfold Reference.sweepTrees
        rw [treeBody_more _ h1, hb]
        rw [hb] at h1
        simpa [Except.map] using h1
    | ok q =>
      obtain ⟨b, t1, r1⟩ := q
      obtain ⟨i1, i2, i3, i4, i5⟩ := treeBody_shape ha hb
      have eu : (more r (pairs e1)).uniforms = r.uniforms := by simp [more, pairs]
      have ez : (more r (pairs e1)).normals = r.normals := by simp [more, pairs]
      rw [eu] at i3
      rw [ez] at i4
      obtain ⟨e2, l2, b2, h2⟩ := ih (done := done ++ [t1]) (r := r1) (fun t' ht' => ht t' (List.mem_cons_of_mem _ ht')) (by omega) (by omega)
      refine ⟨e1 ++ e2, by rw [List.length_append, l1, l2, List.length_cons]; omega, ?_, ?_⟩
      · intro x hx
        rcases List.mem_append.1 hx with hx | hx
        · exact b1 x hx
        · exact b2 x hx
      · rw [← more_pairs]
        unfold Reference.sweepTrees
        rw [treeBody_more _ h1, hb]
        dsimp only [Except.map]
        intro h
        split at h
        · next h3 => cases h; exact h2 h3
        · cases h

theorem sweep_shape {c : Reference.Settings K} {X : Fin n → Fin p → Fl K} {y : Fin n → K} {s s' : State K p} {r r' : Rand K} {bs : List Bool} {d : Nat} (ht : ∀ t ∈ s.trees, Alive t ∧ t.length ≤ d)
    (h : Reference.sweep c X y s r = .ok (bs, s', r')) :
    (∀ t ∈ s'.trees, Alive t ∧ t.length ≤ d + 3) ∧ s'.trees.length = s.trees.length ∧ r.uniforms.length = r'.uniforms.length + s.trees.length ∧
      r.normals.length ≤ r'.normals.length + s.trees.length * (d + 3) ∧ r.gammas.length = r'.gammas.length + 1 := by
  unfold Reference.sweep at h
  split at h
  · cases h
  · next bs' ts r1 e1 =>
    split at h
    · cases h
    · next v gs e2 =>
      cases h
      obtain ⟨k1, k2, k3, k4, k5⟩ := sweepTrees_shape s.trees (done := []) (by simp) ht e1
      refine ⟨k1, by simpa using k2, k3, k4, ?_⟩
      unfold Reference.sigmaStep at e2
      split at e2
      · cases e2
      · split at e2
        · cases e2
        · next g gs' hgs =>
          split at e2
          · cases e2
          · cases e2; rw [← k5, hgs]; rfl

theorem sweep_completes {c : Reference.Settings K} {X : Fin n → Fin p → Fl K} (hX : NoNan X) (hn : 0 < n) (hc : columns X (fun _ => true) ≠ []) {y : Fin n → K} {s : State K p} {r : Rand K} {d : Nat}
    (ht : ∀ t ∈ s.trees, Alive t ∧ t.length ≤ d) (hu : s.trees.length ≤ r.uniforms.length) (hz : s.trees.length * (d + 3) ≤ r.normals.length) (hg : 0 < r.gammas.length) :
    ∃ e : List (Nat × Method), e.length = 3 * s.trees.length ∧ (∀ x ∈ e, x.1 < n) ∧ Reference.sweep c X y s (more r (pairs e)) ≠ .error .outOfDraws := by
  obtain ⟨e, l, b, h⟩ := sweepTrees_completes (P := c.params s.sigma) (pGrow := c.pGrow) (pPrune := c.pPrune) hX hn hc (y := y) s.trees (done := []) (r := r) ht hu hz
  refine ⟨e, l, b, ?_⟩
  intro h0
  unfold Reference.sweep at h0
  split at h0
  · next e1 => cases h0; exact h e1
  · next bs ts r1 e1 =>
    obtain ⟨-, -, -, -, k5⟩ := sweepTrees_shape s.trees (done := []) (by simp) ht e1
    have eg : (more r (pairs e)).gammas = r.gammas := by simp [more, pairs]
    rw [eg] at k5
    split at h0
    · next e2 =>
      cases h0
      unfold Reference.sigmaStep at e2
      split at e2
      · cases e2
      · split at e2
        · next hgs => rw [k5] at hgs; rw [hgs] at hg; simp at hg
        · split at e2
          · next e3 =>
            cases e2
            unfold Fl.toFinite at e3
            split at e3 <;> cases e3
          · cases e2
    · cases h0

theorem sweeps_completes {c : Reference.Settings K} {X : Fin n → Fin p → Fl K} (hX : NoNan X) (hn : 0 < n) (hc : columns X (fun _ => true) ≠ []) {y : Fin n → K} (k : Nat) :
    ∀ {s : State K p} {r : Rand K} {d T : Nat}, s.trees.length = T → (∀ t ∈ s.trees, Alive t ∧ t.length ≤ d) → k * T ≤ r.uniforms.length → k * (T * (d + 3 * k)) ≤ r.normals.length → k ≤ r.gammas.length →
    ∃ e : List (Nat × Method), e.length = k * (3 * T) ∧ (∀ x ∈ e, x.1 < n) ∧ Reference.sweeps c X y k s (more r (pairs e)) ≠ .error .outOfDraws := by
  induction k with
  | zero => intro s r d T _ _ _ _ _; exact ⟨[], by simp, by simp, by simp [Reference.sweeps]⟩
  | succ k ih =>
    intro s r d T hT ht hu hz hg
    rw [Nat.succ_mul] at hu
    have hz1 : k * (T * (d + 3 + 3 * k)) + T * (d + 3) ≤ r.normals.length := by
      refine le_trans ?_ hz
      have e1 : d + 3 * (k + 1) = d + 3 + 3 * k := by omega
      rw [e1, Nat.succ_mul k (T * _)]
      exact Nat.add_le_add_left (Nat.mul_le_mul_left _ (by omega)) _
    obtain ⟨e1, l1, b1, h1⟩ := sweep_completes (c := c) hX hn hc (y := y) (r := r) ht (by omega) (by rw [hT]; omega) (by omega)
    rw [hT] at l1
    cases hb : Reference.sweep c X y s (more r (pairs e1)) with
    | error er =>
      refine ⟨e1 ++ List.replicate (k * (3 * T)) (0, .grow), by rw [List.length_append, l1, List.length_replicate, Nat.succ_mul k (3 * T)]; omega, ?_, ?_⟩
      · intro x hx
        rcases List.mem_append.1 hx with hx | hx
        · exact b1 x hx
        · rw [List.eq_of_mem_replicate hx]; exact hn
      · rw [← more_pairs]
        unfold Reference.sweeps
        rw [sweep_more _ h1, hb]
        rw [hb] at h1
        simpa [Except.map] using h1
    | ok q =>
      obtain ⟨b, s1, r1⟩ := q
      obtain ⟨i1, i2, i3, i4, i5⟩ := sweep_shape ht hb
      have eu : (more r (pairs e1)).uniforms = r.uniforms := by simp [more, pairs]
      have ez : (more r (pairs e1)).normals = r.normals := by simp [more, pairs]
      have eg : (more r (pairs e1)).gammas = r.gammas := by simp [more, pairs]
      rw [eu, hT] at i3
      rw [ez, hT] at i4
      rw [eg] at i5
      obtain ⟨e2, l2, b2, h2⟩ := ih (s := s1) (r := r1) (d := d + 3) (T := T) (by omega) i1 (by omega) (by omega) (by omega)
      refine ⟨e1 ++ e2, by rw [List.length_append, l1, l2, Nat.succ_mul k (3 * T)]; omega, ?_, ?_⟩
      · intro x hx
        rcases List.mem_append.1 hx with hx | hx
        · exact b1 x hx
        · exact b2 x hx
      · rw [← more_pairs]
        unfold Reference.sweeps
        rw [sweep_more _ h1, hb]
        dsimp only [Except.map]
        intro h
        split at h
        · next h3 => cases h; exact h2 h3
        · cases h

end Bart.Returns
