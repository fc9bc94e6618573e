import Verif.Proofs.LayerDraws
import Verif.Proofs.LayerRecur

/-! The proposals of the oblivious sampler: the proposed growths, and the transition ratio. -/

set_option linter.unusedSectionVars false
set_option linter.unusedVariables false

namespace Bart.Oblivious
open Bart Spec Reference Lik LayerRecur

variable {n p : Nat} {X : Fin n → Fin p → Fl ℝ}

/-- The growths of the proposed tree and the picks that are left. -/
noncomputable def layerProposal (X : Fin n → Fin p → Fl ℝ) (layers : List (List (Layers.Rule ℝ p))) (me : Method) (us : List Nat) : Except PyErr (List (List (Layers.Rule ℝ p)) × List Nat) :=
  match me with
  | .grow =>
    match Layers.growRules X (Layers.paths layers) us with
    | .error e => .error e
    | .ok (rules, us1) => .ok (rules :: layers, us1)
  | .prune => .ok (layers.tail, us)

theorem sumTerms_error {e : PyErr} : ∀ {l : List (Except PyErr (Fl ℝ))}, (∀ x ∈ l, ∀ e', x = .error e' → e' = .attributeError) → Layers.sumTerms l = .error e → e = .attributeError := by
  intro l
  induction l with
  | nil => intro _ h; cases h
  | cons x l ih =>
    intro hx h
    cases x with
    | error e' =>
      unfold Layers.sumTerms at h
      injection h with h
      subst h
      exact hx _ (by simp) _ rfl
    | ok a =>
      unfold Layers.sumTerms at h
      cases e1 : Layers.sumTerms l with
      | error e' =>
        rw [e1] at h; injection h with h; subst h
        exact ih (fun x h' => hx x (by simp [h'])) e1
      | ok b => rw [e1] at h; cases h

theorem growTerm_error {m : Params ℝ} {pGrow pPrune : ℝ} {y : Fin n → ℝ} {d : Nat} (ps : List (List (Cond ℝ p))) (rs : List (Layers.Rule ℝ p)) :
    (∀ x ∈ List.zipWith (Layers.growTerm m pGrow pPrune X y d) ps rs, ∀ e', x = .error e' → e' = .attributeError) ∧
    (∀ x ∈ List.zipWith (Layers.pruneTerm m pGrow pPrune X y d) ps rs, ∀ e', x = .error e' → e' = .attributeError) := by
  have aux : ∀ (f : List (Cond ℝ p) → Layers.Rule ℝ p → Except PyErr (Fl ℝ)), (∀ a b e', f a b = .error e' → e' = .attributeError) →
      ∀ (ps : List (List (Cond ℝ p))) (rs : List (Layers.Rule ℝ p)), ∀ x ∈ List.zipWith f ps rs, ∀ e', x = .error e' → e' = .attributeError := by
    intro f hf ps
    induction ps with
    | nil => intro rs x hx; simp at hx
    | cons a ps ih =>
      intro rs
      cases rs with
      | nil => intro x hx; simp at hx
      | cons b rs =>
        intro x hx e' he
        rw [List.zipWith_cons_cons, List.mem_cons] at hx
        rcases hx with rfl | hx
        · exact hf a b e' he
        · exact ih rs x hx e' he
  constructor
  · apply aux
    intro a b e' h
    unfold Layers.growTerm at h
    split at h
    · injection h with h; exact h.symm
    · cases h
  · apply aux
    intro a b e' h
    unfold Layers.pruneTerm at h
    split at h
    · injection h with h; exact h.symm
    · cases h

theorem layerProposal_of {m : Params ℝ} {pGrow pPrune : ℝ} {y : Fin n → ℝ} {layers proposed : List (List (Layers.Rule ℝ p))} {me : Method} {us us1 : List Nat} {ratio : Fl ℝ}
    (h : Layers.propose m pGrow pPrune X y layers me us = .ok (proposed, ratio, us1)) : layerProposal X layers me us = .ok (proposed, us1) := by
  unfold Layers.propose at h
  unfold layerProposal
  cases me with
  | grow =>
    dsimp only at h ⊢
    cases e : Layers.growRules X (Layers.paths layers) us with
    | error e' => rw [e] at h; cases h
    | ok q =>
      obtain ⟨rules, us2⟩ := q
      rw [e] at h
      dsimp only at h ⊢
      split at h
      · cases h
      · injection h with h; injection h with h1 h2; injection h2 with h2 h3
        subst h1 h3; rfl
  | prune =>
    dsimp only at h ⊢
    cases layers with
    | nil => dsimp only at h; injection h with h; injection h with h1 h2; injection h2 with h2 h3; subst h1 h3; rfl
    | cons r l =>
      dsimp only at h
      split at h
      · cases h
      · injection h with h; injection h with h1 h2; injection h2 with h2 h3
        subst h1 h3; rfl

theorem layerProposal_error {m : Params ℝ} {pGrow pPrune : ℝ} {y : Fin n → ℝ} {layers : List (List (Layers.Rule ℝ p))} {me : Method} {us : List Nat}
    (h : Layers.propose m pGrow pPrune X y layers me us = .error .outOfDraws) : layerProposal X layers me us = .error .outOfDraws := by
  unfold Layers.propose at h
  unfold layerProposal
  cases me with
  | grow =>
    dsimp only at h ⊢
    cases e : Layers.growRules X (Layers.paths layers) us with
    | error e' => rw [e] at h; injection h with h; subst h; rfl
    | ok q =>
      obtain ⟨rules, us2⟩ := q
      rw [e] at h
      dsimp only at h
      split at h
      · next h' =>
        injection h with h; subst h
        exact absurd (sumTerms_error (growTerm_error _ _).1 h') (by simp)
      · cases h
  | prune =>
    dsimp only at h ⊢
    cases layers with
    | nil => cases h
    | cons r l =>
      dsimp only at h
      split at h
      · next h' =>
        injection h with h; subst h
        exact absurd (sumTerms_error (growTerm_error _ _).2 h') (by simp)
      · cases h

/-- The proposals and the growths. -/
theorem proposal_ref (hX : NoNan X) (hc : columns X (fun _ => true) ≠ []) {y : Fin n → ℝ} {t : Tree ℝ n p} {layers : List (List (Layers.Rule ℝ p))} (hS : Seen X (some y) t layers)
    (us : List Nat) (me : Method) (ms : List Method) :
    match propose t us (me :: ms) with
    | .error e => layerProposal X layers me us = .error e
    | .ok (mus, t1, us1, ms1) => ms1 = ms ∧ ∃ proposed t', layerProposal X layers me us = .ok (proposed, us1) ∧ mutateAll mus t1 = .ok t' ∧ Seen X (some y) t' proposed := by
  obtain ⟨s, d, hT, hv⟩ := hS
  have m : Params ℝ := ⟨0, 0, 0, 0, 0⟩
  have hp := propose_ref hX hT hv m (pGrow := 1) (pPrune := 1) one_ne_zero one_ne_zero us me ms
  have ho := opropose_spec hX hT.inv us (me :: ms)
  have hst := otreeStep_spec hX hT m 1 1 ⟨me :: ms, us, [0], [], []⟩
  unfold treeStep treeSample at hst
  cases e1 : propose t us (me :: ms) with
  | error e =>
    rw [e1] at hp ho
    simp only at hp ho ⊢
    subst ho
    exact layerProposal_error hp
  | ok q =>
    obtain ⟨mus, t1, us1, ms1⟩ := q
    rw [e1] at hp ho
    dsimp only at hst
    rw [e1] at hst
    obtain ⟨rfl, he, proposed, terms, hf, hpr, hlen, hview⟩ := hp
    obtain ⟨-, me', hme, hmv⟩ := ho
    injection hme with hme
    subst hme
    have hs := sumRatios_ref hf
    have hrated : ∀ mu ∈ mus, ∃ c d l r, Rated X y t1.heap mu c d l r := by
      intro mu hmu
      cases hmv with
      | grow qs a b c =>
        obtain ⟨q, hq, rfl⟩ := List.mem_map.1 hmu
        exact ⟨_, _, _, _, (c q hq).rated⟩
      | prune qs a b c =>
        obtain ⟨q, hq, rfl⟩ := List.mem_map.1 hmu
        exact ⟨_, _, _, _, (c q hq).1.rated⟩
    have hs' := sumRatios_spec m 1 1 mus hrated
    simp only
    cases e2 : sumRatios m 1 1 mus t1.heap with
    | error e =>
      exfalso
      rw [e2] at hs'
      dsimp only at hst
      rw [e2] at hst
      dsimp only at hst
      rcases hs' with ⟨rfl, -⟩ | ⟨-, h | h⟩
      · rcases hst with h | h | ⟨-, h⟩
        · cases h
        · cases h.1
        · obtain ⟨-, i, hi, hcol⟩ := h
          have hd := hT.depth_of hv
          have hl := hT.leaves
          have hle : t.leafNodes.length ≤ 1 := by
            have : t.leafNodes.length ≤ t.nodes.length := List.length_filter_le _ _
            rw [hi] at this; exact this
          have hd0 : d = 0 := by
            by_contra h0
            have := Nat.one_lt_two_pow h0
            omega
          subst hd0
          obtain rfl : layers = [] := List.eq_nil_of_length_eq_zero (by omega)
          have hpth := hv.1.paths
          have hin : i ∈ t.nodes := by rw [hi]; simp
          have hpi : pathOf t.heap i = [] := by
            have h0 : (idsAt t 0).map (pathOf t.heap) = [[]] := hpth
            have h1 : idsAt t 0 ≠ [] := by intro h; rw [h] at h0; cases h0
            obtain ⟨k, hk⟩ := List.exists_mem_of_ne_nil _ h1
            have h2 : k ∈ t.nodes := (List.mem_filter.1 hk).1
            rw [hi, List.mem_singleton] at h2
            subst h2
            have h3 : pathOf t.heap k ∈ (idsAt t 0).map (pathOf t.heap) := List.mem_map_of_mem hk
            rw [h0] at h3
            simpa using h3
          obtain ⟨kq, kc⟩ := hT.inv.nodeOk hin
          have hrows := (hT.inv.good hin).rows hX kc
          rw [hpi] at hrows
          have hall : Layers.rowsOn X ([] : List (Cond ℝ p)) = fun _ => true := by funext r; rfl
          rw [hall] at hrows
          rw [hrows] at hcol
          obtain ⟨j, hj⟩ := List.exists_mem_of_ne_nil _ hc
          rw [columns_eq hX] at hj
          have := (List.mem_filter.1 hj).2
          rw [hcol j] at this
          cases this
      · exact one_ne_zero h
      · exact one_ne_zero h
    | ok q2 =>
      obtain ⟨ratio, h2⟩ := q2
      rw [e2] at hs hs'
      rw [hs.1] at hpr
      obtain ⟨t', s', news, g1, g2, -, -⟩ := OMove.apply hT he hmv hs'.2
      obtain ⟨t'', g3, hlv⟩ := hview t1.heap (HeapExt.refl _)
      rw [show ({ t1 with heap := t1.heap } : Tree ℝ n p) = t1 from rfl, g1] at g3
      injection g3 with g3
      subst g3
      refine ⟨trivial, proposed, t', layerProposal_of hpr, g1, s', _, g2, hlv, fun i hi => ?_⟩
      rw [g2.level i hi, hlen]
      cases me <;> rfl

/-! ### the transition ratio of a growth -/

/-- The contribution of a leaf to the transition ratio of a growth. -/
noncomputable def growTransition (pGrow pPrune : ℝ) (X : Fin n → Fin p → Fl ℝ) (path : List (Cond ℝ p)) (rule : Layers.Rule ℝ p) : Except PyErr (Fl ℝ) :=
  match Layers.counted path rule with
  | none => .error .attributeError
  | some (j, v) => .ok (Fl.add (Fl.log (.fin (pPrune / pGrow))) (Fl.sub (Fl.neg (Fl.log (.fin 1))) (Fl.log (frequency X (Layers.rowsOn X path) j v))))

/-- The contribution of a mutation, now and later. -/
def TValued (pGrow pPrune : ℝ) (h : Heap ℝ n p) (mu : TreeMutation) (term : Except PyErr (Fl ℝ)) : Prop :=
  ∀ h', HeapExt h h' → ∀ z, term = .ok z → ∃ h2, logTransitionRatio pGrow pPrune h' mu = .ok (z, h2) ∧ HeapExt h' h2

theorem Rated.transition (hX : NoNan X) {y : Fin n → ℝ} {h : Heap ℝ n p} {c e l r : NodeId} {pGrow pPrune : ℝ} (hp1 : pGrow ≠ 0) (hr : Rated X y h ⟨.grow, c, e⟩ c e l r)
    (gc : GoodNode h c) {rule : Layers.Rule ℝ p} (hrule : [pathOf h l, pathOf h r] = Layers.expand (pathOf h c) rule) :
    TValued pGrow pPrune h ⟨.grow, c, e⟩ (growTransition pGrow pPrune X (pathOf h c) rule) := by
  intro h' he z hz
  have hcount := counted_eq hrule
  rw [← recent_path] at hcount
  have ltc := hr.lt c (by simp)
  have ltl := hr.lt l (by simp)
  unfold growTransition at hz
  rw [hcount] at hz
  cases hmr : (h.node l).split.combined.mostRecentSplitCondition with
  | none => rw [hmr] at hz; cases hz
  | some cd =>
    rw [hmr] at hz
    simp only [Option.map_some] at hz
    injection hz with hz
    subst hz
    have hr' := hr.ext he
    obtain ⟨qc, kc⟩ := hr'.okc
    obtain ⟨h1, e1, x1⟩ := hr'.within_value (cd := cd) (by unfold HasRule; rw [he.node l ltl, hmr])
    rw [(gc.ext he ltc).rows hX kc, pathOf_ext he ltc, logFreq_eq] at e1
    refine ⟨h1, ?_, x1⟩
    unfold logTransitionRatio
    simp only [e1, Lik.pyDiv, hp1, if_false]

theorem grow_tvalued (hX : NoNan X) {y : Fin n → ℝ} {h : Heap ℝ n p} {N d : Nat} {pGrow pPrune : ℝ} (hp1 : pGrow ≠ 0) :
    ∀ {qs : List Quad} {rules : List (Layers.Rule ℝ p)}, List.Forall₂ (fun (q : Quad) rule => NodeRule h q.D rule) qs rules →
    (∀ q ∈ qs, OBuilt X y N h q ∧ (h.node q.i).depth = d ∧ GoodNode h q.i) →
    List.Forall₂ (TValued pGrow pPrune h) (qs.map Quad.mu) (List.zipWith (growTransition pGrow pPrune X) (qs.map (fun q => pathOf h q.i)) rules) := by
  intro qs rules hf
  induction hf with
  | nil => intro _; exact .nil
  | @cons q rule qs rules hd tl ih =>
    intro hq
    obtain ⟨hb, hdep, hg⟩ := hq q (by simp)
    obtain ⟨b1, b2, b3, b4, b5, b6⟩ := hb.nodes hdep
    obtain ⟨l, r, f1, f2, -, -, -, f3⟩ := hd
    rw [b4] at f1; rw [b5] at f2
    injection f1 with f1; injection f2 with f2
    subst f1 f2
    rw [b6] at f3
    exact .cons (hb.rated.transition hX hp1 hg f3) (ih (fun q hq' => hq q (by simp [hq'])))

theorem transitionSum_ref {pGrow pPrune : ℝ} : ∀ {mus : List TreeMutation} {terms : List (Except PyErr (Fl ℝ))} {h : Heap ℝ n p}, List.Forall₂ (TValued pGrow pPrune h) mus terms → ∀ z,
    Layers.sumTerms terms = .ok z → ∃ h', transitionSum pGrow pPrune mus h = .ok (z, h') ∧ HeapExt h h' := by
  intro mus
  induction mus with
  | nil => intro terms h hf z hz; cases hf; unfold Layers.sumTerms at hz; injection hz with hz; subst hz; exact ⟨h, rfl, HeapExt.refl _⟩
  | cons mu mus ih =>
    intro terms h hf z hz
    cases hf with
    | @cons _ term _ terms h1 h2 =>
      cases term with
      | error e => unfold Layers.sumTerms at hz; cases hz
      | ok a =>
        obtain ⟨h3, e3, x3⟩ := h1 h (HeapExt.refl _) a rfl
        unfold Layers.sumTerms at hz
        cases e4 : Layers.sumTerms terms with
        | error e => rw [e4] at hz; cases hz
        | ok b =>
          rw [e4] at hz
          injection hz with hz
          subst hz
          obtain ⟨h5, e5, x5⟩ := ih (h := h3) (h2.imp (fun mu term hv h' he => hv h' (x3.trans he))) b e4
          refine ⟨h5, ?_, x3.trans x5⟩
          unfold transitionSum
          simp only [e3, e5]

/-- The transition ratio of a growth. -/
theorem transition_ref (hX : NoNan X) {y : Fin n → ℝ} {t t1 : Tree ℝ n p} {layers : List (List (Layers.Rule ℝ p))} (hS : Seen X (some y) t layers) {us us1 : List Nat} {ms ms1 : List Method}
    {mus : List TreeMutation} (hpr : propose t us (.grow :: ms) = .ok (mus, t1, us1, ms1)) {pGrow pPrune : ℝ} (hp1 : pGrow ≠ 0) :
    ∃ rules, Layers.growRules X (leafPaths t) us = .ok (rules, us1) ∧ ∀ z, Layers.sumTerms (List.zipWith (growTransition pGrow pPrune X) (leafPaths t) rules) = .ok z →
      ∃ h', transitionSum pGrow pPrune mus t1.heap = .ok (z, h') := by
  rw [hS.paths]
  obtain ⟨s, d, hT, hv⟩ := hS
  have hd := hT.depth_of hv
  have hlt : ∀ i ∈ t.nodes, i < t.heap.nextNode := fun i hi => hT.inv.mem_lt hi
  have hp := opropose_spec hX hT.inv us (.grow :: ms)
  have hg := growMutations_ref hX (y := y) (h := t.heap) t.leafNodes (fun i hi => by
    have hin : i ∈ t.nodes := (List.mem_filter.1 hi).1
    exact ⟨hT.inv.mem_lt hin, hT.inv.nodeOk hin, (hT.inv.leaf_sub hi).2, hT.inv.good hin⟩) us
  rw [hv.leaves hT] at hg
  unfold propose sampleMethod at hp hpr
  rcases e : growMutations t.leafNodes t.heap us with ⟨h', us2, res⟩
  rw [e] at hg
  simp only [e] at hp hpr
  cases res with
  | error er =>
    have hge := ogrowMutations_spec hX (y := y) (h := t.heap) t.leafNodes (fun i hi => by
      have hin : i ∈ t.nodes := (List.mem_filter.1 hi).1
      exact ⟨hT.inv.mem_lt hin, hT.inv.nodeOk hin, (hT.inv.leaf_sub hi).2⟩) us
    rw [e] at hge
    obtain ⟨-, rfl⟩ := hge
    cases hpr
  | ok mus' =>
    simp only at hg hp hpr
    injection hpr with hpr; injection hpr with r1 r2; injection r2 with r2 r3; injection r3 with r3 r4
    subst r1 r2 r3 r4
    obtain ⟨rules, e1, hf⟩ := hg
    obtain ⟨he, me', hme, hmv⟩ := hp
    injection hme with hme
    subst hme
    generalize hmus : mus' = mus at hmv
    cases hmv with
    | grow qs a b c =>
      subst hmus
      have hf' : List.Forall₂ (fun (q : Quad) rule => NodeRule h' q.D rule) qs rules := by
        rw [List.forall₂_map_left_iff] at hf; exact hf
      have hleaf : ∀ q ∈ qs, q.i ∈ t.leafNodes := fun q hq => by rw [← a]; exact List.mem_map_of_mem hq
      have hlf : ∀ q ∈ qs, q.i < t.heap.nextNode := fun q hq => hlt _ (List.mem_filter.1 (hleaf q hq)).1
      have hpath : qs.map (fun q => pathOf h' q.i) = Layers.paths layers := by
        rw [← hv.leaves hT, ← a, List.map_map]
        exact List.map_congr_left (fun q hq => pathOf_ext he.heap (hlf q hq))
      refine ⟨rules, e1, fun z hz => ?_⟩
      rw [← hpath] at hz
      obtain ⟨h2, e2, -⟩ := transitionSum_ref (grow_tvalued hX (y := y) (N := t.heap.nextNode) (d := d) hp1 hf' (fun q hq => ⟨c q hq, by
          rw [he.heap.node _ (hlf q hq)]
          exact hT.level q.i (hleaf q hq), (hT.inv.good (List.mem_filter.1 (hleaf q hq)).1).ext he.heap (hlf q hq)⟩)) z hz
      exact ⟨h2, e2⟩

end Bart.Oblivious
