import Verif.Proofs.LayerSweep
import Verif.Proofs.LayerNodes
import Verif.Proofs.ObliviousRatio
import Verif.Spec.ObliviousRecur

/-! The log ratio of taking a growth back is minus the log ratio of the growth; what this means for a run with fixed target, sigma and settings. -/

set_option linter.unusedSectionVars false

namespace Bart.LayerRecur
open Bart Spec Reference Oblivious Lik

variable {n p : Nat} {X : Fin n → Fin p → Fl ℝ} {m : Params ℝ} {pGrow pPrune : ℝ} {y : Fin n → ℝ}

/-- A sum and the sum of the opposite terms. -/
def Opposite (a b : Except PyErr (Fl ℝ)) : Prop := (∃ e, a = .error e ∧ b = .error e) ∨ (a = .ok .nan ∧ b = .ok .nan) ∨ ∃ w : ℝ, a = .ok (.fin w) ∧ b = .ok (.fin (-w))

theorem likelihoodOf_fin (gp : GoodParams m) (path : List (Cond ℝ p)) (rule : Layers.Rule ℝ p) : ∃ w : ℝ, Layers.likelihoodOf m X y path rule = .fin w := by
  cases rule with
  | none =>
    simp only [Layers.likelihoodOf, Fl.ofInt, Int.cast_natCast]
    rw [Lik.sigmaM_eq gp, growRatioValue_eq gp.sigma (sm_pos gp) (by positivity) (by positivity) (by positivity)]
    exact ⟨_, rfl⟩
  | some q =>
    simp only [Layers.likelihoodOf, Reference.likelihood, Fl.ofInt, Int.cast_natCast]
    rw [Lik.sigmaM_eq gp, growRatioValue_eq gp.sigma (sm_pos gp) (by positivity) (by positivity) (by positivity)]
    exact ⟨_, rfl⟩

theorem terms (gp : GoodParams m) (gpr : GoodPrior m) (h1 : 0 < pGrow) (h2 : 0 < pPrune) (d : Nat) (path : List (Cond ℝ p)) (rule : Layers.Rule ℝ p) :
    Opposite (Layers.growTerm m pGrow pPrune X y d path rule) (Layers.pruneTerm m pGrow pPrune X y d path rule) := by
  unfold Layers.growTerm Layers.pruneTerm
  cases Layers.counted path rule with
  | none => exact .inl ⟨_, rfl, rfl⟩
  | some q =>
    obtain ⟨j, v⟩ := q
    dsimp only
    have one : Fl.log (.fin (1 : ℝ)) = .fin 0 := by rw [Fl.log_fin one_pos]; simp
    have hv : (Fl.log (frequency X (Layers.rowsOn X path) j v) = .ninf ∨ Fl.log (frequency X (Layers.rowsOn X path) j v) = .pinf ∨ Fl.log (frequency X (Layers.rowsOn X path) j v) = .nan) ∨
        ∃ w : ℝ, Fl.log (frequency X (Layers.rowsOn X path) j v) = .fin w := by
      cases Fl.log (frequency X (Layers.rowsOn X path) j v) <;> simp
    rcases hv with hv | ⟨w, hw⟩
    · refine .inr (.inl ⟨?_, ?_⟩)
      · unfold splitPrior; rw [nan_grow hv]
      · unfold splitPrior; rw [nan_prune hv]
    · obtain ⟨l, hl⟩ := likelihoodOf_fin (X := X) (y := y) gp path rule
      refine .inr (.inr ?_)
      unfold splitPrior
      rw [hw, hl, one, logNodeNotSplit_eq gpr, logNodeNotSplit_eq gpr, logNodeSplit_eq gpr, Fl.log_fin (div_pos h2 h1), Fl.log_fin (div_pos h1 h2)]
      simp only [Fl.add_fin, Fl.sub_fin, Fl.neg_fin]
      refine ⟨_, rfl, ?_⟩
      congr 2
      rw [Real.log_div h1.ne' h2.ne', Real.log_div h2.ne' h1.ne']
      ring

theorem sums {a b : List (Except PyErr (Fl ℝ))} (h : List.Forall₂ Opposite a b) : Opposite (Layers.sumTerms a) (Layers.sumTerms b) := by
  induction h with
  | nil => exact .inr (.inr ⟨0, rfl, by simp [Layers.sumTerms]⟩)
  | @cons x z l l' hx _ ih =>
    rcases hx with ⟨e, rfl, rfl⟩ | ⟨rfl, rfl⟩ | ⟨w, rfl, rfl⟩
    · exact .inl ⟨e, rfl, rfl⟩
    · simp only [Layers.sumTerms]
      rcases ih with ⟨e, h1, h2⟩ | ⟨h1, h2⟩ | ⟨w, h1, h2⟩ <;> rw [h1, h2]
      · exact .inl ⟨e, rfl, rfl⟩
      · exact .inr (.inl ⟨rfl, rfl⟩)
      · exact .inr (.inl ⟨rfl, rfl⟩)
    · simp only [Layers.sumTerms]
      rcases ih with ⟨e, h1, h2⟩ | ⟨h1, h2⟩ | ⟨w', h1, h2⟩ <;> rw [h1, h2]
      · exact .inl ⟨e, rfl, rfl⟩
      · exact .inr (.inl ⟨rfl, rfl⟩)
      · refine .inr (.inr ⟨w + w', rfl, ?_⟩)
        simp only [Fl.add_fin]
        congr 2; ring

theorem zip_terms (gp : GoodParams m) (gpr : GoodPrior m) (h1 : 0 < pGrow) (h2 : 0 < pPrune) (d : Nat) : ∀ (ps : List (List (Cond ℝ p))) (rules : List (Layers.Rule ℝ p)),
    List.Forall₂ Opposite (List.zipWith (Layers.growTerm m pGrow pPrune X y d) ps rules) (List.zipWith (Layers.pruneTerm m pGrow pPrune X y d) ps rules) := by
  intro ps
  induction ps with
  | nil => intro rules; simp
  | cons a ps ih =>
    intro rules
    cases rules with
    | nil => simp
    | cons r rules => exact .cons (terms gp gpr h1 h2 d a r) (ih rules)

/-- The log ratio of a growth. -/
noncomputable def growSum (m : Params ℝ) (pGrow pPrune : ℝ) (X : Fin n → Fin p → Fl ℝ) (y : Fin n → ℝ) (rules : List (Layers.Rule ℝ p)) (rest : List (List (Layers.Rule ℝ p))) : Except PyErr (Fl ℝ) :=
  Layers.sumTerms (List.zipWith (Layers.growTerm m pGrow pPrune X y rest.length) (Layers.paths rest) rules)

/-- The sum of the log ratios of all growths of a tree; growths whose log ratio is not a number do not count. -/
noncomputable def gains (m : Params ℝ) (pGrow pPrune : ℝ) (X : Fin n → Fin p → Fl ℝ) (y : Fin n → ℝ) : List (List (Layers.Rule ℝ p)) → ℝ
  | [] => 0
  | rules :: rest =>
    match growSum m pGrow pPrune X y rules rest with
    | .ok (.fin w) => w + gains m pGrow pPrune X y rest
    | _ => gains m pGrow pPrune X y rest

/-- Taking the last growth back is never accepted. -/
def Firm (m : Params ℝ) (pGrow pPrune : ℝ) (X : Fin n → Fin p → Fl ℝ) (y : Fin n → ℝ) : List (List (Layers.Rule ℝ p)) → Prop
  | [] => False
  | rules :: rest => ∃ w : ℝ, 0 < w ∧ growSum m pGrow pPrune X y rules rest = .ok (.fin w)

/-- What a step can do. -/
theorem step_cases (gp : GoodParams m) (gpr : GoodPrior m) (h1 : 0 < pGrow) (h2 : 0 < pPrune) {layers layers' : List (List (Layers.Rule ℝ p))} {r r' : Rand ℝ} {b : Bool}
    (hu : ∀ u ∈ r.uniforms, 0 ≤ u) (h : Layers.treeStep m pGrow pPrune X y layers r = .ok (b, layers', r')) :
    (b = false ∧ layers' = layers) ∨
    (b = true ∧ ∃ rules, layers' = rules :: layers ∧ ∃ w : ℝ, 0 < w ∧ growSum m pGrow pPrune X y rules layers = .ok (.fin w)) ∨
    (b = true ∧ ∃ rules, layers = rules :: layers' ∧ ∃ w : ℝ, w < 0 ∧ growSum m pGrow pPrune X y rules layers' = .ok (.fin w)) := by
  unfold Layers.treeStep at h
  cases hm : r.methods with
  | nil => rw [hm] at h; cases h
  | cons me ms =>
    rw [hm] at h
    dsimp only at h
    cases hp : Layers.propose m pGrow pPrune X y layers me r.picks with
    | error e => rw [hp] at h; cases h
    | ok q =>
      obtain ⟨proposed, ratio, us⟩ := q
      rw [hp] at h
      dsimp only at h
      cases huu : r.uniforms with
      | nil => rw [huu] at h; cases h
      | cons u uniforms =>
        rw [huu] at h
        dsimp only at h
        have hu0 : 0 ≤ u := hu u (by rw [huu]; simp)
        injection h with h; injection h with hb h; injection h with hl _
        cases hacc : Fl.lt (.fin u) ratio with
        | false => rw [hacc] at hb hl; exact .inl ⟨hb.symm, hl.symm⟩
        | true =>
          rw [hacc] at hb hl
          simp only [if_true] at hl
          subst hl; subst hb
          refine .inr ?_
          cases me with
          | grow =>
            simp only [Layers.propose] at hp
            cases eg : Layers.growRules X (Layers.paths layers) r.picks with
            | error e => rw [eg] at hp; cases hp
            | ok g =>
              obtain ⟨rules, us1⟩ := g
              rw [eg] at hp
              dsimp only at hp
              rcases sums (zip_terms (X := X) (y := y) gp gpr h1 h2 layers.length (Layers.paths layers) rules) with ⟨e, e1, -⟩ | ⟨e1, -⟩ | ⟨w, e1, -⟩
              · rw [e1] at hp; cases hp
              · rw [e1] at hp
                injection hp with hp; injection hp with _ hp; injection hp with hr _
                rw [← hr] at hacc; cases hacc
              · rw [e1] at hp
                injection hp with hp; injection hp with hL hp; injection hp with hr _
                rw [← hr] at hacc
                have : u < w := by simpa [Fl.lt] using hacc
                exact .inl ⟨rfl, rules, hL.symm, w, by linarith, e1⟩
          | prune =>
            cases layers with
            | nil =>
              simp only [Layers.propose] at hp
              injection hp with hp; injection hp with _ hp; injection hp with hr _
              rw [← hr] at hacc
              have : u < 0 := by simpa [Fl.lt] using hacc
              linarith
            | cons rules rest =>
              simp only [Layers.propose] at hp
              rcases sums (zip_terms (X := X) (y := y) gp gpr h1 h2 rest.length (Layers.paths rest) rules) with ⟨e, -, e1⟩ | ⟨-, e1⟩ | ⟨w, e0, e1⟩
              · rw [e1] at hp; cases hp
              · rw [e1] at hp
                injection hp with hp; injection hp with _ hp; injection hp with hr _
                rw [← hr] at hacc; cases hacc
              · rw [e1] at hp
                injection hp with hp; injection hp with hL hp; injection hp with hr _
                rw [← hr] at hacc
                have : u < -w := by simpa [Fl.lt] using hacc
                subst hL
                exact .inr ⟨rfl, rules, rfl, w, by linarith, e0⟩

/-- A growth is added that is firm, or the last growth, which was not firm, is taken back, or nothing changes. -/
def Move (m : Params ℝ) (pGrow pPrune : ℝ) (X : Fin n → Fin p → Fl ℝ) (y : Fin n → ℝ) (a b : List (List (Layers.Rule ℝ p))) : Prop :=
  b = a ∨ (∃ rules, b = rules :: a ∧ Firm m pGrow pPrune X y b) ∨ (∃ rules, a = rules :: b ∧ ∃ w : ℝ, w < 0 ∧ growSum m pGrow pPrune X y rules b = .ok (.fin w))

theorem Move.gains {a b : List (List (Layers.Rule ℝ p))} (h : Move m pGrow pPrune X y a b) : gains m pGrow pPrune X y a ≤ gains m pGrow pPrune X y b ∧
    (gains m pGrow pPrune X y a = gains m pGrow pPrune X y b → b = a) := by
  rcases h with rfl | ⟨rules, rfl, w, hw, e⟩ | ⟨rules, rfl, w, hw, e⟩
  · exact ⟨le_refl _, fun _ => rfl⟩
  · simp only [LayerRecur.gains, e]
    exact ⟨by linarith, fun h => by linarith⟩
  · simp only [LayerRecur.gains, e]
    exact ⟨by linarith, fun h => by linarith⟩

/-- Once the last growth is firm, growths are only added. -/
theorem Move.firm {a b : List (List (Layers.Rule ℝ p))} (h : Move m pGrow pPrune X y a b) (hf : Firm m pGrow pPrune X y a) : Firm m pGrow pPrune X y b ∧ ∃ ext, b = ext ++ a := by
  rcases h with rfl | ⟨rules, rfl, h⟩ | ⟨rules, rfl, w, hw, e⟩
  · exact ⟨hf, [], rfl⟩
  · exact ⟨h, [rules], rfl⟩
  · obtain ⟨w', hw', e'⟩ := hf
    rw [e] at e'
    injection e' with e'; injection e' with e'
    linarith

variable {L : ℕ → List (List (Layers.Rule ℝ p))} {k : ℕ}

theorem run_firm (h : ∀ i < k, Move m pGrow pPrune X y (L i) (L (i + 1))) {a : ℕ} (hf : Firm m pGrow pPrune X y (L a)) : ∀ {b : ℕ}, a ≤ b → b ≤ k →
    Firm m pGrow pPrune X y (L b) ∧ ∃ ext, L b = ext ++ L a := by
  intro b hab
  induction b, hab using Nat.le_induction with
  | base => intro _; exact ⟨hf, [], rfl⟩
  | succ b hab ih =>
    intro hb
    obtain ⟨h1, ext, h2⟩ := ih (by omega)
    obtain ⟨h3, ext', h4⟩ := (h b (by omega)).firm h1
    exact ⟨h3, ext' ++ ext, by rw [h4, h2, List.append_assoc]⟩

theorem run_gains (h : ∀ i < k, Move m pGrow pPrune X y (L i) (L (i + 1))) {a b : ℕ} (hab : a ≤ b) (hb : b ≤ k) : gains m pGrow pPrune X y (L a) ≤ gains m pGrow pPrune X y (L b) := by
  induction b, hab using Nat.le_induction with
  | base => exact le_refl _
  | succ b hab ih => exact (ih (by omega)).trans (h b (by omega)).gains.1

theorem run_return (h : ∀ i < k, Move m pGrow pPrune X y (L i) (L (i + 1))) {a b : ℕ} (hb : b ≤ k) (he : L b = L a) : ∀ {i : ℕ}, a ≤ i → i ≤ b → L i = L a := by
  intro i hai
  induction i, hai using Nat.le_induction with
  | base => intro _; rfl
  | succ i hai ih =>
    intro hib
    have h0 := ih (by omega)
    have h1 := run_gains h (a := i + 1) hib hb
    rw [he, ← h0] at h1
    have h2 := (h i (by omega)).gains
    rw [h2.2 (le_antisymm h2.1 h1), h0]

/-! ### the leaves determine the growths -/

theorem expand_injective (a b : List (Cond ℝ p)) (r r' : Layers.Rule ℝ p) (h : Layers.expand a r = Layers.expand b r') : a = b ∧ r = r' := by
  cases r with
  | none =>
    cases r' with
    | none => simp [Layers.expand] at h; exact ⟨h, rfl⟩
    | some q =>
      simp only [Layers.expand, List.cons.injEq, and_true] at h
      have := h.1.symm.trans h.2
      simp at this
  | some q =>
    cases r' with
    | none =>
      simp only [Layers.expand, List.cons.injEq, and_true] at h
      have := h.1.trans h.2.symm
      simp at this
    | some q' =>
      simp only [Layers.expand, List.cons.injEq, and_true] at h
      obtain ⟨h1, h2⟩ := List.append_inj' h.1 rfl
      simp only [List.cons.injEq, Cond.mk.injEq, and_true] at h2
      exact ⟨h1, by rw [Option.some.injEq]; exact Prod.ext h2.1 h2.2⟩

theorem flatten_injective : ∀ (as bs : List (List (Cond ℝ p))) (rs rs' : List (Layers.Rule ℝ p)), as.length = rs.length → bs.length = rs'.length →
    (List.zipWith Layers.expand as rs).flatten = (List.zipWith Layers.expand bs rs').flatten → as = bs ∧ rs = rs' := by
  intro as
  induction as with
  | nil =>
    intro bs rs rs' h1 h2 h
    cases rs with
    | cons => simp at h1
    | nil =>
      cases bs with
      | nil => cases rs' with
        | nil => exact ⟨rfl, rfl⟩
        | cons => simp at h2
      | cons b bs => cases rs' with
        | nil => simp at h2
        | cons r' rs' =>
          have := congrArg List.length h
          simp [expand_length] at this
          omega
  | cons a as ih =>
    intro bs rs rs' h1 h2 h
    cases rs with
    | nil => simp at h1
    | cons r rs =>
      cases bs with
      | nil => cases rs' with
        | nil =>
          have := congrArg List.length h
          simp [expand_length] at this
        | cons => simp at h2
      | cons b bs => cases rs' with
        | nil => simp at h2
        | cons r' rs' =>
          simp only [List.zipWith_cons_cons, List.flatten_cons] at h
          obtain ⟨e1, e2⟩ := List.append_inj h (by rw [expand_length, expand_length])
          obtain ⟨rfl, rfl⟩ := expand_injective _ _ _ _ e1
          obtain ⟨rfl, rfl⟩ := ih bs rs rs' (by simpa using h1) (by simpa using h2) e2
          exact ⟨rfl, rfl⟩

theorem paths_injective : ∀ {a b : List (List (Layers.Rule ℝ p))}, Full a → Full b → Layers.paths a = Layers.paths b → a = b := by
  intro a
  induction a with
  | nil =>
    intro b _ hb h
    have := congrArg List.length h
    rw [hb.paths_length] at this
    cases b with
    | nil => rfl
    | cons r b =>
      simp only [Layers.paths, List.length_cons, List.length_nil, zero_add, pow_succ] at this
      omega
  | cons r a ih =>
    intro b ha hb h
    cases b with
    | nil =>
      have := congrArg List.length h
      rw [ha.paths_length] at this
      simp only [Layers.paths, List.length_cons, List.length_nil, zero_add, pow_succ] at this
      omega
    | cons r' b =>
      obtain ⟨h1, rfl⟩ := flatten_injective _ _ _ _ (ha.1.paths_length.trans ha.2.symm) (hb.1.paths_length.trans hb.2.symm) h
      rw [ih ha.1 hb.1 h1]

theorem getElem_flatten_expand : ∀ (as : List (List (Cond ℝ p))) (rs : List (Layers.Rule ℝ p)) (i : ℕ) (q' : List (Cond ℝ p)), (List.zipWith Layers.expand as rs).flatten[i]? = some q' →
    ∃ q, as[i / 2]? = some q ∧ q <+: q' := by
  intro as
  induction as with
  | nil => intro rs i q' h; simp at h
  | cons a as ih =>
    intro rs i q' h
    cases rs with
    | nil => simp at h
    | cons r rs =>
      rw [List.zipWith_cons_cons, List.flatten_cons] at h
      by_cases hi : i < 2
      · rw [List.getElem?_append_left (by rw [expand_length]; exact hi)] at h
        refine ⟨a, by rw [Nat.div_eq_of_lt hi]; rfl, ?_⟩
        cases r with
        | none =>
          have : i = 0 ∨ i = 1 := by omega
          rcases this with rfl | rfl <;> simp [Layers.expand] at h <;> rw [h]
        | some c =>
          have : i = 0 ∨ i = 1 := by omega
          rcases this with rfl | rfl <;> simp [Layers.expand] at h <;> rw [← h] <;> exact List.prefix_append _ _
      · rw [List.getElem?_append_right (by rw [expand_length]; omega), expand_length] at h
        obtain ⟨q, h1, h2⟩ := ih rs (i - 2) q' h
        refine ⟨q, ?_, h2⟩
        rw [show i / 2 = (i - 2) / 2 + 1 by omega]
        exact h1

/-- The leaves after further growths. -/
theorem paths_extend (a : List (List (Layers.Rule ℝ p))) : ∀ (ext : List (List (Layers.Rule ℝ p))) (i : ℕ) (q' : List (Cond ℝ p)), (Layers.paths (ext ++ a))[i]? = some q' →
    ∃ q, (Layers.paths a)[i / 2 ^ ext.length]? = some q ∧ q <+: q' := by
  intro ext
  induction ext with
  | nil => intro i q' h; exact ⟨q', by simpa using h, List.prefix_rfl⟩
  | cons r ext ih =>
    intro i q' h
    obtain ⟨q1, h1, h2⟩ := getElem_flatten_expand _ _ _ _ h
    obtain ⟨q, h3, h4⟩ := ih (i / 2) q1 h1
    exact ⟨q, by rw [List.length_cons, pow_succ', ← Nat.div_div_eq_div_mul]; exact h3, h4.trans h2⟩

/-! ### trees -/

section work
variable {K : Type} [Field K] [LinearOrder K] {X : Fin n → Fin p → Fl K}

theorem leafPaths_eq (t : Tree K n p) : leafPaths t = t.leafNodes.map (pathOf t.heap) := rfl

/-- A tree of one node. -/
theorem single_tree {y : Option (Fin n → K)} {t : Tree K n p} {s : Shape} (hI : TreeInv X y t s) (hn : t.nodes.length = 1) : OTree X y t s 0 ∧ View t [] := by
  have hs : ∃ i, s = .leaf i := by
    have hp := hI.perm.length_eq
    rw [hn] at hp
    cases s with
    | leaf i => exact ⟨i, rfl⟩
    | node i l r =>
      have h1 := List.length_pos_of_mem l.root_mem
      have h2 := List.length_pos_of_mem r.root_mem
      simp only [Shape.ids, List.length_cons, List.length_append] at hp
      omega
  obtain ⟨i, rfl⟩ := hs
  obtain ⟨r1, r2, r3, r4, hk⟩ := hI.repr
  have hN : t.nodes = [i] := by
    have := hI.perm; simp only [Shape.ids] at this
    exact List.perm_singleton.1 this
  have hlf : t.leafNodes = [i] := by unfold Tree.leafNodes; rw [hN]; simp [r1]
  refine ⟨⟨⟨⟨r1, r2, r3, r4⟩, hI.repr.nodeOk, hk.combined, hI.perm, hI.nodup, hI.lt⟩, ?_, ?_⟩, ?_, ?_⟩
  · rw [hlf]; intro j hj; simp at hj; subst hj; exact r4
  · rw [hN]; intro j hj hne; simp at hj; exact absurd hj hne
  · have : idsAt t 0 = [i] := by unfold idsAt; rw [hN]; simp [r4]
    unfold Lv
    rw [this]
    simp only [List.map_cons, List.map_nil]
    rw [pathOf_init hk.combined]; rfl
  · rw [hlf]; intro j hj; simp at hj; subst hj; exact r4

theorem target_of {y : Option (Fin n → K)} {y' : Fin n → K} {t : Tree K n p} {s : Shape} {d : Nat} (hT : OTree X y t s d) (h : HasTarget t y') : y = some y' := by
  have hr := hT.inv.perm.mem_iff.2 s.root_mem
  obtain ⟨q, hk⟩ := hT.inv.ok _ s.root_mem
  rw [← hk.y, h _ hr]

theorem hasTarget_of {y : Fin n → K} {t : Tree K n p} {s : Shape} {d : Nat} (hT : OTree X (some y) t s d) : HasTarget t y := by
  intro i hi
  obtain ⟨q, hk⟩ := hT.inv.nodeOk hi
  exact hk.y

/-- A tree that shows the growths. -/
def Seen (X : Fin n → Fin p → Fl K) (y : Option (Fin n → K)) (t : Tree K n p) (layers : List (List (Layers.Rule K p))) : Prop := ∃ s d, OTree X y t s d ∧ View t layers

theorem Seen.paths {y : Option (Fin n → K)} {t : Tree K n p} {layers : List (List (Layers.Rule K p))} (h : Seen X y t layers) : leafPaths t = Layers.paths layers := by
  obtain ⟨s, d, hT, hv⟩ := h
  exact hv.leaves hT

theorem Seen.full {y : Option (Fin n → K)} {t : Tree K n p} {layers : List (List (Layers.Rule K p))} (h : Seen X y t layers) : Full layers := by
  obtain ⟨s, d, hT, hv⟩ := h
  exact hv.1.full

theorem Seen.predict {y : Option (Fin n → K)} {t t' : Tree K n p} {layers : List (List (Layers.Rule K p))} {b : PredBuf K n} (h : Seen X y t layers) (e : t.predict = .ok (b, t')) : Seen X y t' layers := by
  have key : t'.heap = t.heap ∧ t'.nodes = t.nodes := by
    unfold Tree.predict at e
    split at e
    · injection e with e; injection e with _ e; subst e; exact ⟨rfl, rfl⟩
    · split at e
      · cases e
      · injection e with e; injection e with _ e; subst e; exact ⟨rfl, rfl⟩
  obtain ⟨s, d, hT, hv⟩ := h
  refine ⟨s, d, hT.of_eq key.1 key.2, hv.congr (fun i hi => hT.inv.mem_lt hi) key.2 (by rw [key.1]) (fun k _ => by rw [key.1]; exact SameNode.refl _)⟩

theorem Seen.target {y : Option (Fin n → K)} {t t' : Tree K n p} {layers : List (List (Layers.Rule K p))} (h : Seen X y t layers) {y' : Option (Fin n → K)} (e : t.updateY y' = .ok t') :
    Seen X y' t' layers := by
  obtain ⟨s, d, hT, hv⟩ := h
  obtain ⟨t1, e1, hT1, h1, -, -, -, h2, h3⟩ := hT.target y'
  rw [e] at e1; injection e1 with e1; subst e1
  exact ⟨s, d, hT1, hv.congr (fun i hi => hT.inv.mem_lt hi) h1 (by rw [h3]) (fun k _ => by rw [h2]; exact SameNode.refl _)⟩

variable [MathFns K]

theorem Seen.leaf {y : Fin n → K} {t t' : Tree K n p} {layers : List (List (Layers.Rule K p))} (h : Seen X (some y) t layers) (m : Params K) {i : NodeId} (hi : i ∈ t.leafNodes) {r r' : Rand K}
    (e : Sampler.leafStep m t i r = .ok (t', r')) : Seen X (some y) t' layers := by
  obtain ⟨s, d, hT, hv⟩ := h
  obtain ⟨q, hok⟩ := hT.inv.nodeOk (List.mem_filter.1 hi).1
  obtain ⟨h', e1, x1⟩ := Lik.sumYOf_spec hok
  unfold Sampler.leafStep at e
  simp only [e1] at e
  cases hz : r.normals with
  | nil => rw [hz] at e; cases e
  | cons z zs =>
    rw [hz] at e
    dsimp only at e
    cases hval : (Sampler.leafValue m (Fl.ofInt (t.heap.dataOf i).X.nObsv) (.fin (total y (rowsOf (t.heap.dataOf i)))) (.fin z)).toFinite with
    | error er => rw [hval] at e; cases e
    | ok v =>
      rw [hval] at e
      injection e with e; injection e with e _
      subst e
      have hsame : ∀ j, (h'.setValue i v).node j = (if j = i then { h'.node j with value := v } else h'.node j) := by
        intro j
        by_cases hj : j = i
        · subst hj; simp [Heap.setValue, Heap.setNode]
        · simp [Heap.setValue, Heap.setNode, hj]
      have hT1 := hT.ext (TreeExt.withHeap x1)
      have hk : ∀ j, ((h'.setValue i v).node j).kind = (h'.node j).kind := fun j => by rw [hsame]; split <;> rfl
      have hl : ({ t with heap := h'.setValue i v } : Tree K n p).leafNodes = ({ t with heap := h' } : Tree K n p).leafNodes := by
        unfold Tree.leafNodes
        simp only [hk]
      refine ⟨s, d, ⟨hT1.inv.setValue i v, ?_, ?_⟩, hv.congr (fun k hk => hT.inv.mem_lt hk) rfl x1.nextNode ?_⟩
      · intro j hj
        rw [hl] at hj
        have := hT1.level j hj
        simp only at this ⊢
        rw [hsame]
        split <;> exact this
      · intro j hj hjr
        have := hT1.ruled j hj hjr
        simp only at this ⊢
        rw [hsame]
        split <;> exact this
      · intro k hk
        simp only
        rw [hsame, x1.node k hk]
        split <;> exact ⟨rfl, rfl, rfl, rfl, rfl⟩

theorem Seen.step (hX : NoNan X) {y : Fin n → K} {t t' : Tree K n p} {layers : List (List (Layers.Rule K p))} (h : Seen X (some y) t layers) (m : Params K) {pGrow pPrune : K} (h1 : pGrow ≠ 0)
    (h2 : pPrune ≠ 0) {r r' : Rand K} {mus : Option (List TreeMutation)} (e : Oblivious.treeStep m pGrow pPrune t r = .ok (mus, t', r')) :
    ∃ layers', Layers.treeStep m pGrow pPrune X y layers r = .ok (mus.isSome, layers', r') ∧ Seen X (some y) t' layers' := by
  obtain ⟨s, d, hT, hv⟩ := h
  have hr := Oblivious.treeStep_ref hX hT hv m h1 h2 r
  have hs := otreeStep_spec hX hT m pGrow pPrune r
  rw [e] at hr hs
  obtain ⟨layers', e1, hv'⟩ := hr
  refine ⟨layers', e1, ?_⟩
  cases mus with
  | none => exact ⟨s, d, hT.ext hs, hv'⟩
  | some mus =>
    obtain ⟨t0, s', news, me, -, -, hT', -, -⟩ := hs
    exact ⟨s', _, hT', hv'⟩

end work

/-- Every tree of the oblivious sampler shows its growths. -/
theorem work_seen {K : Type} [Field K] [LinearOrder K] {X : Fin n → Fin p → Fl K} (hX : NoNan X) {t : Tree K n p} (h : ObliviousWork X t) : ∃ y layers, Seen X y t layers := by
  induction h with
  | single h hn =>
    obtain ⟨y, s, hI⟩ := reachable_tree_inv hX h
    exact ⟨y, [], s, 0, single_tree hI hn⟩
  | tree F m _ hy h1 h2 e ih =>
    obtain ⟨y0, layers, hS⟩ := ih
    obtain ⟨y, hy⟩ := hy
    obtain ⟨s, d, hT, hv⟩ := hS
    obtain rfl := target_of hT hy
    obtain ⟨layers', -, h⟩ := Seen.step hX ⟨s, d, hT, hv⟩ m h1 h2 e
    exact ⟨_, layers', h⟩
  | leaf F m _ hy hi e ih =>
    obtain ⟨y0, layers, hS⟩ := ih
    obtain ⟨y, hy⟩ := hy
    obtain ⟨s, d, hT, hv⟩ := hS
    obtain rfl := target_of hT hy
    exact ⟨_, layers, Seen.leaf ⟨s, d, hT, hv⟩ m hi e⟩
  | target _ e ih =>
    obtain ⟨y0, layers, hS⟩ := ih
    exact ⟨_, layers, hS.target e⟩
  | predict _ e ih =>
    obtain ⟨y0, layers, hS⟩ := ih
    exact ⟨_, layers, hS.predict e⟩

/-- A step with fixed target, sigma and settings. -/
theorem fixed_move (hX : NoNan X) (gp : GoodParams m) (gpr : GoodPrior m) (h1 : 0 < pGrow) (h2 : 0 < pPrune) {t t' : Tree ℝ n p} {layers : List (List (Layers.Rule ℝ p))}
    (hS : Seen X (some y) t layers) (h : ObliviousFixed m pGrow pPrune y t t') : ∃ layers', Move m pGrow pPrune X y layers layers' ∧ Seen X (some y) t' layers' := by
  cases h with
  | tree hu e =>
    obtain ⟨layers', e1, hS'⟩ := hS.step hX m h1.ne' h2.ne' e
    refine ⟨layers', ?_, hS'⟩
    rcases step_cases gp gpr h1 h2 hu e1 with ⟨-, h⟩ | ⟨-, rules, rfl, w, hw, e⟩ | ⟨-, rules, rfl, w, hw, e⟩
    · exact .inl h
    · exact .inr (.inl ⟨rules, rfl, w, hw, e⟩)
    · exact .inr (.inr ⟨rules, rfl, w, hw, e⟩)
  | leaf hi e => exact ⟨layers, .inl rfl, hS.leaf m hi e⟩
  | target e => exact ⟨layers, .inl rfl, hS.target e⟩
  | predict e => exact ⟨layers, .inl rfl, hS.predict e⟩

/-- A run. -/
theorem fixed_run (hX : NoNan X) (gp : GoodParams m) (gpr : GoodPrior m) (h1 : 0 < pGrow) (h2 : 0 < pPrune) {f : ℕ → Tree ℝ n p} (h0 : ObliviousWork X (f 0)) (hy : HasTarget (f 0) y) {k : ℕ}
    (h : ∀ i < k, ObliviousFixed m pGrow pPrune y (f i) (f (i + 1))) :
    ∃ L : ℕ → List (List (Layers.Rule ℝ p)), (∀ i ≤ k, Seen X (some y) (f i) (L i)) ∧ ∀ i < k, Move m pGrow pPrune X y (L i) (L (i + 1)) := by
  have h00 : ∃ layers, Seen X (some y) (f 0) layers := by
    obtain ⟨y0, layers, s, d, hT, hv⟩ := work_seen hX h0
    obtain rfl := target_of hT hy
    exact ⟨layers, s, d, hT, hv⟩
  induction k with
  | zero =>
    obtain ⟨layers, hS⟩ := h00
    exact ⟨fun _ => layers, fun i hi => by obtain rfl : i = 0 := by omega
                                           exact hS, fun i hi => by omega⟩
  | succ k ih =>
    obtain ⟨L, hL, hM⟩ := ih (fun i hi => h i (by omega))
    obtain ⟨layers', h3, h4⟩ := fixed_move hX gp gpr h1 h2 (hL k (le_refl _)) (h k (by omega))
    refine ⟨fun i => if i ≤ k then L i else layers', fun i hi => ?_, fun i hi => ?_⟩
    · by_cases hk : i ≤ k
      · simp only [hk, if_true]; exact hL i hk
      · obtain rfl : i = k + 1 := by omega
        simp only [hk, if_false]; exact h4
    · by_cases hk : i + 1 ≤ k
      · simp only [show i ≤ k by omega, hk, if_true]; exact hM i (by omega)
      · obtain rfl : i = k := by omega
        simp only [le_refl, hk, if_true, if_false]; exact h3

end Bart.LayerRecur
