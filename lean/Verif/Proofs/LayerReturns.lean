import Verif.Spec.Layers
import Verif.Proofs.Returns

/-! The reference sampler of the oblivious tree sampler with more draws: what was done is not changed by draws that come later, and a bounded number of picks and kinds of move lets a chain come to its end. -/

set_option linter.unusedSectionVars false

namespace Bart.LayerReturns
open Reference Spec Returns
variable {K : Type} [Field K] [LinearOrder K] {n p : Nat}

/-! ### what was done is not changed by later draws -/

theorem growRule_more {X : Fin n → Fin p → Fl K} {q : List (Cond K p)} {us : List Nat} (e : List Nat) (h : Layers.growRule X q us ≠ .error .outOfDraws) :
    Layers.growRule X q (us ++ e) = (Layers.growRule X q us).map (fun a => (a.1, a.2 ++ e)) := by
  unfold Layers.growRule at h ⊢
  by_cases hc : columns X (Layers.rowsOn X q) = []
  · rw [if_pos hc, if_pos hc]; rfl
  · rw [if_neg hc] at h ⊢
    rw [if_neg hc]
    cases us with
    | nil => exact absurd rfl h
    | cons u us =>
      rw [List.cons_append]
      dsimp only at h ⊢
      cases h1 : choice (columns X (Layers.rowsOn X q)) u with
      | error e' => rfl
      | ok j =>
        rw [h1] at h
        dsimp only at h ⊢
        have h3 : drawCut (column X (Layers.rowsOn X q) j) us ≠ .error .outOfDraws := by
          intro h0; rw [h0] at h; exact h rfl
        rw [drawCut_more e h3]
        cases drawCut (column X (Layers.rowsOn X q) j) us with
        | error e' => rfl
        | ok q => rfl

theorem growRules_more {X : Fin n → Fin p → Fl K} (e : List Nat) (ps : List (List (Cond K p))) : ∀ {us : List Nat}, Layers.growRules X ps us ≠ .error .outOfDraws →
    Layers.growRules X ps (us ++ e) = (Layers.growRules X ps us).map (fun a => (a.1, a.2 ++ e)) := by
  induction ps with
  | nil => intro us _; rfl
  | cons q ps ih =>
    intro us h
    unfold Layers.growRules at h ⊢
    have h1 : Layers.growRule X q us ≠ .error .outOfDraws := by
      intro h0; rw [h0] at h; exact h rfl
    rw [growRule_more e h1]
    cases hg : Layers.growRule X q us with
    | error e' => rfl
    | ok a =>
      obtain ⟨rule, us1⟩ := a
      rw [hg] at h
      dsimp only [Except.map] at h ⊢
      have h2 : Layers.growRules X ps us1 ≠ .error .outOfDraws := by
        intro h0; rw [h0] at h; exact h rfl
      rw [ih h2]
      cases Layers.growRules X ps us1 with
      | error e' => rfl
      | ok a => rfl

variable [MathFns K]

theorem propose_more {P : Params K} {pG pP : K} {X : Fin n → Fin p → Fl K} {y : Fin n → K} {L : List (List (Layers.Rule K p))} {me : Method} {us : List Nat} (e : List Nat)
    (h : Layers.propose P pG pP X y L me us ≠ .error .outOfDraws) :
    Layers.propose P pG pP X y L me (us ++ e) = (Layers.propose P pG pP X y L me us).map (fun a => (a.1, a.2.1, a.2.2 ++ e)) := by
  cases me with
  | grow =>
    unfold Layers.propose at h ⊢
    dsimp only at h ⊢
    have h1 : Layers.growRules X (Layers.paths L) us ≠ .error .outOfDraws := by
      intro h0; rw [h0] at h; exact h rfl
    rw [growRules_more e _ h1]
    cases Layers.growRules X (Layers.paths L) us with
    | error e' => rfl
    | ok a =>
      obtain ⟨rules, us1⟩ := a
      dsimp only [Except.map]
      cases Layers.sumTerms (List.zipWith (Layers.growTerm P pG pP X y L.length) (Layers.paths L) rules) with
      | error e' => rfl
      | ok b => rfl
  | prune =>
    cases L with
    | nil => rfl
    | cons rules rest =>
      unfold Layers.propose
      dsimp only
      cases Layers.sumTerms (List.zipWith (Layers.pruneTerm P pG pP X y rest.length) (Layers.paths rest) rules) with
      | error e' => rfl
      | ok b => rfl

theorem treeStep_more {P : Params K} {pG pP : K} {X : Fin n → Fin p → Fl K} {y : Fin n → K} {L : List (List (Layers.Rule K p))} {r : Rand K} (e : Rand K)
    (h : Layers.treeStep P pG pP X y L r ≠ .error .outOfDraws) :
    Layers.treeStep P pG pP X y L (more r e) = (Layers.treeStep P pG pP X y L r).map (fun q => (q.1, q.2.1, more q.2.2 e)) := by
  unfold Layers.treeStep at h ⊢
  cases hm : r.methods with
  | nil => rw [hm] at h; exact absurd rfl h
  | cons me ms =>
    rw [hm] at h
    rw [show (more r e).methods = me :: (ms ++ e.methods) from by simp [more, hm], show (more r e).picks = r.picks ++ e.picks from rfl]
    dsimp only at h ⊢
    have h1 : Layers.propose P pG pP X y L me r.picks ≠ .error .outOfDraws := by
      intro h0; rw [h0] at h; exact h rfl
    rw [propose_more _ h1]
    cases hp : Layers.propose P pG pP X y L me r.picks with
    | error e' => rfl
    | ok q =>
      obtain ⟨L', ratio, us⟩ := q
      rw [hp] at h
      dsimp only [Except.map] at h ⊢
      cases hu : r.uniforms with
      | nil => rw [hu] at h; exact absurd rfl h
      | cons u uniforms =>
        rw [show (more r e).uniforms = u :: (uniforms ++ e.uniforms) from by simp [more, hu]]
        rfl

theorem leafValues_more {P : Params K} {X : Fin n → Fin p → Fl K} {y : Fin n → K} (e : List K) (ps : List (List (Cond K p))) : ∀ {zs : List K}, Layers.leafValues P X y ps zs ≠ .error .outOfDraws →
    Layers.leafValues P X y ps (zs ++ e) = (Layers.leafValues P X y ps zs).map (fun q => (q.1, q.2 ++ e)) := by
  induction ps with
  | nil => intro zs _; simp [Layers.leafValues, Except.map]
  | cons q ps ih =>
    intro zs h
    cases zs with
    | nil => exact absurd (by simp [Layers.leafValues]) h
    | cons z zs =>
      rw [List.cons_append]
      unfold Layers.leafValues at h ⊢
      cases hv : (Sampler.leafValue P (Fl.ofInt (count (Layers.rowsOn X q))) (.fin (total y (Layers.rowsOn X q))) (.fin z)).toFinite with
      | error e' => rfl
      | ok v =>
        rw [hv] at h
        dsimp only at h ⊢
        have h1 : Layers.leafValues P X y ps zs ≠ .error .outOfDraws := by
          intro h0; rw [h0] at h; exact h rfl
        rw [ih h1]
        cases Layers.leafValues P X y ps zs with
        | error e' => rfl
        | ok q => rfl

theorem treeBody_more {P : Params K} {pG pP : K} {X : Fin n → Fin p → Fl K} {y : Fin n → K} {t : Layers.LTree K p} {r : Rand K} (e : Rand K)
    (h : Layers.treeBody P pG pP X y t r ≠ .error .outOfDraws) :
    Layers.treeBody P pG pP X y t (more r e) = (Layers.treeBody P pG pP X y t r).map (fun q => (q.1, q.2.1, more q.2.2 e)) := by
  unfold Layers.treeBody at h ⊢
  have h1 : Layers.treeStep P pG pP X y t.layers r ≠ .error .outOfDraws := by
    intro h0; rw [h0] at h; exact h rfl
  rw [treeStep_more e h1]
  cases hp : Layers.treeStep P pG pP X y t.layers r with
  | error e' => rfl
  | ok q =>
    obtain ⟨b, L, r1⟩ := q
    rw [hp] at h
    dsimp only [Except.map] at h ⊢
    have h2 : Layers.leafValues P X y (Layers.paths L) r1.normals ≠ .error .outOfDraws := by
      intro h0; rw [h0] at h; exact h rfl
    rw [show (more r1 e).normals = r1.normals ++ e.normals from rfl, leafValues_more _ _ h2]
    cases Layers.leafValues P X y (Layers.paths L) r1.normals with
    | error e' => rfl
    | ok q => rfl

theorem sweepTrees_more {P : Params K} {pG pP : K} {X : Fin n → Fin p → Fl K} {y : Fin n → K} (e : Rand K) (ts : List (Layers.LTree K p)) : ∀ {done : List (Layers.LTree K p)} {r : Rand K},
    Layers.sweepTrees P pG pP X y done ts r ≠ .error .outOfDraws →
    Layers.sweepTrees P pG pP X y done ts (more r e) = (Layers.sweepTrees P pG pP X y done ts r).map (fun q => (q.1, q.2.1, more q.2.2 e)) := by
  induction ts with
  | nil => intro done r h; rfl
  | cons t ts ih =>
    intro done r h
    unfold Layers.sweepTrees at h ⊢
    have h1 : Layers.treeBody P pG pP X (fun i => y i - Layers.forest (done ++ ts) (X i)) t r ≠ .error .outOfDraws := by
      intro h0; rw [h0] at h; exact h rfl
    rw [treeBody_more e h1]
    cases hp : Layers.treeBody P pG pP X (fun i => y i - Layers.forest (done ++ ts) (X i)) t r with
    | error e' => rfl
    | ok q =>
      obtain ⟨b, t1, r1⟩ := q
      rw [hp] at h
      dsimp only [Except.map] at h ⊢
      have h2 : Layers.sweepTrees P pG pP X y (done ++ [t1]) ts r1 ≠ .error .outOfDraws := by
        intro h0; rw [h0] at h; exact h rfl
      rw [ih h2]
      cases Layers.sweepTrees P pG pP X y (done ++ [t1]) ts r1 with
      | error e' => rfl
      | ok q => rfl

theorem sigmaStep_more {c : Reference.Settings K} {X : Fin n → Fin p → Fl K} {y : Fin n → K} {ts : List (Layers.LTree K p)} {gs : List K} (e : List K)
    (h : Layers.sigmaStep c X y ts gs ≠ .error .outOfDraws) : Layers.sigmaStep c X y ts (gs ++ e) = (Layers.sigmaStep c X y ts gs).map (fun q => (q.1, q.2 ++ e)) := by
  unfold Layers.sigmaStep at h ⊢
  by_cases h0 : c.sigmaA + (n : K) / 2 < 0 ∨ c.sigmaB + (1/2) * ∑ i, (y i - Layers.forest ts (X i)) * (y i - Layers.forest ts (X i)) < 0
  · rw [if_pos h0, if_pos h0]; rfl
  · rw [if_neg h0] at h ⊢
    rw [if_neg h0]
    cases gs with
    | nil => exact absurd rfl h
    | cons g gs =>
      rw [List.cons_append]
      dsimp only
      cases (MathFns.pow g (-(1/2))).toFinite with
      | error e' => rfl
      | ok v => rfl

theorem sweep_more {c : Reference.Settings K} {X : Fin n → Fin p → Fl K} {y : Fin n → K} {s : Layers.State K p} {r : Rand K} (e : Rand K)
    (h : Layers.sweep c X y s r ≠ .error .outOfDraws) : Layers.sweep c X y s (more r e) = (Layers.sweep c X y s r).map (fun q => (q.1, q.2.1, more q.2.2 e)) := by
  unfold Layers.sweep at h ⊢
  have h1 : Layers.sweepTrees (c.params s.sigma) c.pGrow c.pPrune X y [] s.trees r ≠ .error .outOfDraws := by
    intro h0; rw [h0] at h; exact h rfl
  rw [sweepTrees_more e _ h1]
  cases hp : Layers.sweepTrees (c.params s.sigma) c.pGrow c.pPrune X y [] s.trees r with
  | error e' => rfl
  | ok q =>
    obtain ⟨bs, ts, r1⟩ := q
    rw [hp] at h
    dsimp only [Except.map] at h ⊢
    have h2 : Layers.sigmaStep c X y ts r1.gammas ≠ .error .outOfDraws := by
      intro h0; rw [h0] at h; exact h rfl
    rw [show (more r1 e).gammas = r1.gammas ++ e.gammas from rfl, sigmaStep_more _ h2]
    cases Layers.sigmaStep c X y ts r1.gammas with
    | error e' => rfl
    | ok q => rfl

theorem sweeps_more {c : Reference.Settings K} {X : Fin n → Fin p → Fl K} {y : Fin n → K} (e : Rand K) (k : Nat) : ∀ {s : Layers.State K p} {r : Rand K},
    Layers.sweeps c X y k s r ≠ .error .outOfDraws → Layers.sweeps c X y k s (more r e) = (Layers.sweeps c X y k s r).map (fun q => (q.1, q.2.1, more q.2.2 e)) := by
  induction k with
  | zero => intro s r h; rfl
  | succ k ih =>
    intro s r h
    unfold Layers.sweeps at h ⊢
    have h1 : Layers.sweep c X y s r ≠ .error .outOfDraws := by
      intro h0; rw [h0] at h; exact h rfl
    rw [sweep_more e h1]
    cases hp : Layers.sweep c X y s r with
    | error e' => rfl
    | ok q =>
      obtain ⟨bs, s1, r1⟩ := q
      rw [hp] at h
      dsimp only [Except.map] at h ⊢
      have h2 : Layers.sweeps c X y k s1 r1 ≠ .error .outOfDraws := by
        intro h0; rw [h0] at h; exact h rfl
      rw [ih h2]
      cases Layers.sweeps c X y k s1 r1 with
      | error e' => rfl
      | ok q => rfl

/-- Once a chain has ended, further draws do not change that. -/
theorem sweeps_more_ne {c : Reference.Settings K} {X : Fin n → Fin p → Fl K} {y : Fin n → K} (e : Rand K) (k : Nat) {s : Layers.State K p} {r : Rand K}
    (h : Layers.sweeps c X y k s r ≠ .error .outOfDraws) : Layers.sweeps c X y k s (more r e) ≠ .error .outOfDraws := by
  rw [sweeps_more e k h]
  intro h'
  cases hh : Layers.sweeps c X y k s r with
  | error er => rw [hh] at h h'; simp only [Except.map, Except.error.injEq] at h'; rw [h'] at h; exact h rfl
  | ok q => rw [hh] at h'; cases h'

/-! ### a bounded number of draws is enough -/

omit [MathFns K] in
theorem paths_length (L : List (List (Layers.Rule K p))) : (Layers.paths L).length ≤ 2 ^ L.length := by
  induction L with
  | nil => simp [Layers.paths]
  | cons rules rest ih =>
    have main : ∀ (ps : List (List (Cond K p))) (rs : List (Layers.Rule K p)), (List.zipWith Layers.expand ps rs).flatten.length ≤ 2 * ps.length := by
      intro ps
      induction ps with
      | nil => intro rs; simp
      | cons q ps ihp =>
        intro rs
        cases rs with
        | nil => simp
        | cons r rs =>
          rw [List.zipWith_cons_cons, List.flatten_cons, List.length_append, List.length_cons]
          have h1 := ihp rs
          have h2 : (Layers.expand q r).length = 2 := by
            rcases r with _ | ⟨j, v⟩ <;> rfl
          omega
    rw [Layers.paths, List.length_cons, Nat.pow_succ]
    have := main (Layers.paths rest) rules
    omega

theorem sumTerms_error : ∀ {l : List (Except PyErr (Fl K))} {e : PyErr}, Layers.sumTerms l = .error e → .error e ∈ l := by
  intro l
  induction l with
  | nil => intro e h; cases h
  | cons a l ih =>
    intro e h
    cases a with
    | error e' => rw [Layers.sumTerms] at h; cases h; exact List.mem_cons_self ..
    | ok a =>
      rw [Layers.sumTerms] at h
      split at h
      · next h1 => cases h; exact List.mem_cons_of_mem _ (ih h1)
      · cases h

theorem sumTerms_grow {P : Params K} {pG pP : K} {X : Fin n → Fin p → Fl K} {y : Fin n → K} {d : Nat} {ps : List (List (Cond K p))} {rs : List (Layers.Rule K p)} :
    Layers.sumTerms (List.zipWith (Layers.growTerm P pG pP X y d) ps rs) ≠ .error .outOfDraws := by
  intro h
  obtain ⟨i, hi, he⟩ := List.mem_iff_getElem.1 (sumTerms_error h)
  rw [List.getElem_zipWith] at he
  unfold Layers.growTerm at he
  split at he <;> cases he

theorem sumTerms_prune {P : Params K} {pG pP : K} {X : Fin n → Fin p → Fl K} {y : Fin n → K} {d : Nat} {ps : List (List (Cond K p))} {rs : List (Layers.Rule K p)} :
    Layers.sumTerms (List.zipWith (Layers.pruneTerm P pG pP X y d) ps rs) ≠ .error .outOfDraws := by
  intro h
  obtain ⟨i, hi, he⟩ := List.mem_iff_getElem.1 (sumTerms_error h)
  rw [List.getElem_zipWith] at he
  unfold Layers.pruneTerm at he
  split at he <;> cases he

theorem leafValues_shape {P : Params K} {X : Fin n → Fin p → Fl K} {y : Fin n → K} (ps : List (List (Cond K p))) : ∀ {zs : List K} {q : List K × List K}, Layers.leafValues P X y ps zs = .ok q →
    zs.length = q.2.length + ps.length := by
  induction ps with
  | nil => intro zs q h; rw [Layers.leafValues] at h; cases h; rfl
  | cons a ps ih =>
    intro zs q h
    cases zs with
    | nil => rw [Layers.leafValues] at h; cases h
    | cons z zs =>
      rw [Layers.leafValues] at h
      split at h
      · cases h
      · split at h
        · cases h
        · next h1 => cases h; have := ih h1; simp at this ⊢; omega

theorem leafValues_enough {P : Params K} {X : Fin n → Fin p → Fl K} {y : Fin n → K} (ps : List (List (Cond K p))) : ∀ {zs : List K}, ps.length ≤ zs.length →
    Layers.leafValues P X y ps zs ≠ .error .outOfDraws := by
  induction ps with
  | nil => intro zs _ h; rw [Layers.leafValues] at h; cases h
  | cons q ps ih =>
    intro zs h h'
    cases zs with
    | nil => simp at h
    | cons z zs =>
      rw [Layers.leafValues] at h'
      split at h'
      · next e he =>
        cases h'
        unfold Fl.toFinite at he
        split at he <;> cases he
      · split at h'
        · next h1 => cases h'; exact ih (by simpa using h) h1
        · cases h'

omit [MathFns K] in
theorem growRule_completes {X : Fin n → Fin p → Fl K} (hX : NoNan X) (hn : 0 < n) (q : List (Cond K p)) (us : List Nat) :
    ∃ e : List Nat, e.length ≤ 2 ∧ (∀ x ∈ e, x < n) ∧ ∃ a, Layers.growRule X q (us ++ e) = .ok a := by
  by_cases hc : columns X (Layers.rowsOn X q) = []
  · exact ⟨[], by simp, by simp, (none, us ++ []), by unfold Layers.growRule; rw [if_pos hc]⟩
  · have main : ∀ (u : Nat) (rest : List Nat), ∃ g < n, ∃ a, Layers.growRule X q (u :: (rest ++ [g])) = .ok a := by
      intro u rest
      obtain ⟨j, hj, h2⟩ := AnyTarget.choice_ne_nil hc u
      obtain ⟨g, v, hg, h3, h4⟩ := exists_cut hX hj
      obtain ⟨a, ha⟩ := drawCut_completes h3 h4 rest
      refine ⟨g, hg, (some (j, a.1), a.2), ?_⟩
      unfold Layers.growRule
      rw [if_neg hc]
      simp only [h2, ha]
    cases us with
    | nil =>
      obtain ⟨g, hg, a, ha⟩ := main 0 []
      exact ⟨[0, g], by simp, by simp [hn, hg], a, ha⟩
    | cons u us =>
      obtain ⟨g, hg, a, ha⟩ := main u us
      exact ⟨[g], by simp, by simp [hg], a, ha⟩

omit [MathFns K] in
theorem growRules_completes {X : Fin n → Fin p → Fl K} (hX : NoNan X) (hn : 0 < n) (ps : List (List (Cond K p))) : ∀ us : List Nat,
    ∃ e : List Nat, e.length ≤ 2 * ps.length ∧ (∀ x ∈ e, x < n) ∧ ∃ a, Layers.growRules X ps (us ++ e) = .ok a := by
  induction ps with
  | nil => intro us; exact ⟨[], by simp, by simp, ([], us ++ []), rfl⟩
  | cons q ps ih =>
    intro us
    obtain ⟨e1, l1, b1, a, ha⟩ := growRule_completes hX hn q us
    obtain ⟨e2, l2, b2, a2, ha2⟩ := ih a.2
    refine ⟨e1 ++ e2, by rw [List.length_append, List.length_cons]; omega, ?_, (a.1 :: a2.1, a2.2), ?_⟩
    · intro x hx
      rcases List.mem_append.1 hx with hx | hx
      · exact b1 x hx
      · exact b2 x hx
    · have h1 := growRule_more (X := X) (q := q) (us := us ++ e1) e2 (by rw [ha]; simp)
      rw [ha] at h1
      rw [← List.append_assoc, Layers.growRules, h1]
      simp only [Except.map, ha2]

theorem treeStep_shape {P : Params K} {pG pP : K} {X : Fin n → Fin p → Fl K} {y : Fin n → K} {L L' : List (List (Layers.Rule K p))} {r r' : Rand K} {b : Bool}
    (h : Layers.treeStep P pG pP X y L r = .ok (b, L', r')) :
    L'.length ≤ L.length + 1 ∧ r.uniforms.length = r'.uniforms.length + 1 ∧ r'.normals = r.normals ∧ r'.gammas = r.gammas := by
  unfold Layers.treeStep at h
  split at h
  · cases h
  · next me ms hm =>
    split at h
    · cases h
    · next L1 ratio us hp =>
      split at h
      · cases h
      · next u uniforms hu =>
        dsimp only at h
        injection h with h; injection h with h1 h2; injection h2 with h2 h3
        subst h3
        refine ⟨?_, by simp [hu], rfl, rfl⟩
        have hl : L1.length ≤ L.length + 1 := by
          unfold Layers.propose at hp
          split at hp
          · split at hp
            · cases hp
            · split at hp
              · cases hp
              · cases hp; simp
          · split at hp
            · cases hp; simp
            · split at hp
              · cases hp
              · cases hp; simp; omega
        rw [← h2]; split
        · exact hl
        · omega

theorem treeBody_shape {P : Params K} {pG pP : K} {X : Fin n → Fin p → Fl K} {y : Fin n → K} {t t' : Layers.LTree K p} {r r' : Rand K} {b : Bool} {d : Nat} (hd : t.layers.length ≤ d)
    (h : Layers.treeBody P pG pP X y t r = .ok (b, t', r')) :
    t'.layers.length ≤ d + 1 ∧ r.uniforms.length = r'.uniforms.length + 1 ∧ r.normals.length ≤ r'.normals.length + 2 ^ (d + 1) ∧ r'.gammas = r.gammas := by
  unfold Layers.treeBody at h
  split at h
  · cases h
  · next b1 L1 r1 e1 =>
    split at h
    · cases h
    · next vs zs e2 =>
      cases h
      obtain ⟨i2, i3, i4, i5⟩ := treeStep_shape e1
      have k := leafValues_shape _ e2
      have kp := paths_length L1
      have kd : 2 ^ L1.length ≤ 2 ^ (d + 1) := Nat.pow_le_pow_right (by norm_num) (by omega)
      refine ⟨by show L1.length ≤ _; omega, i3, ?_, i5⟩
      rw [i4] at k
      simp only at k ⊢
      omega

theorem treeBody_completes {P : Params K} {pG pP : K} {X : Fin n → Fin p → Fl K} (hX : NoNan X) (hn : 0 < n) {y : Fin n → K} {t : Layers.LTree K p} {d : Nat} (hd : t.layers.length ≤ d)
    {r : Rand K} (hu : 0 < r.uniforms.length) (hz : 2 ^ (d + 1) ≤ r.normals.length) :
    ∃ e : List (Nat × Method), e.length ≤ 2 ^ (d + 1) ∧ (∀ x ∈ e, x.1 < n) ∧ Layers.treeBody P pG pP X y t (more r (pairs e)) ≠ .error .outOfDraws := by
  have main : ∃ e : List (Nat × Method), e.length ≤ 2 ^ (d + 1) ∧ (∀ x ∈ e, x.1 < n) ∧ Layers.treeStep P pG pP X y t.layers (more r (pairs e)) ≠ .error .outOfDraws := by
    have step : ∀ (e : List (Nat × Method)) {me : Method} {ms : List Method}, (more r (pairs e)).methods = me :: ms → Layers.propose P pG pP X y t.layers me (more r (pairs e)).picks ≠ .error .outOfDraws →
        Layers.treeStep P pG pP X y t.layers (more r (pairs e)) ≠ .error .outOfDraws := by
      intro e me ms hm hp h
      have hu' : (more r (pairs e)).uniforms = r.uniforms := by simp [more, pairs]
      generalize more r (pairs e) = rr at hm hp h hu'
      unfold Layers.treeStep at h
      rw [hm] at h
      dsimp only at h
      split at h
      · next h1 => cases h; exact hp h1
      · split at h
        · next hh => rw [hu'] at hh; rw [hh] at hu; simp at hu
        · cases h
    have hprune : ∀ us, Layers.propose P pG pP X y t.layers .prune us ≠ .error .outOfDraws := by
      intro us h
      unfold Layers.propose at h
      dsimp only at h
      split at h
      · cases h
      · split at h
        · next h1 => cases h; exact sumTerms_prune h1
        · cases h
    have h2 : 1 ≤ 2 ^ (d + 1) := Nat.one_le_two_pow
    cases hm : r.methods with
    | nil => exact ⟨[(0, .prune)], by simpa using h2, by simp [hn], step _ (me := .prune) (ms := []) (by simp [more, pairs, hm]) (hprune _)⟩
    | cons me ms =>
      cases me with
      | prune => exact ⟨[], by simp, by simp, step _ (me := .prune) (ms := ms) (by simp [more, pairs, hm]) (hprune _)⟩
      | grow =>
        obtain ⟨e, le, be, a, ha⟩ := growRules_completes hX hn (Layers.paths t.layers) r.picks
        refine ⟨e.map (fun x => (x, .grow)), ?_, ?_, step _ (me := .grow) (ms := ms ++ e.map (fun _ => .grow)) (by simp [more, pairs, hm, Function.comp_def]) ?_⟩
        · have kp := paths_length t.layers
          have kd : 2 ^ t.layers.length ≤ 2 ^ d := Nat.pow_le_pow_right (by norm_num) hd
          rw [List.length_map, Nat.pow_succ]
          omega
        · intro x hx
          obtain ⟨g, hg, rfl⟩ := List.mem_map.1 hx
          exact be g hg
        · intro h
          have hpk : (more r (pairs (e.map (fun x => (x, Method.grow))))).picks = r.picks ++ e := by simp [more, pairs, Function.comp_def]
          rw [hpk] at h
          unfold Layers.propose at h
          rw [ha] at h
          dsimp only at h
          split at h
          · next h1 => cases h; exact sumTerms_grow h1
          · cases h
  obtain ⟨e, le, be, he⟩ := main
  refine ⟨e, le, be, ?_⟩
  intro h
  unfold Layers.treeBody at h
  split at h
  · next h1 => cases h; exact he h1
  · next b L r1 h1 =>
    obtain ⟨i2, -, i4, -⟩ := treeStep_shape h1
    have hz' : (more r (pairs e)).normals = r.normals := by simp [more, pairs]
    have kp := paths_length L
    have kd : 2 ^ L.length ≤ 2 ^ (d + 1) := Nat.pow_le_pow_right (by norm_num) (by omega)
    have := leafValues_enough (P := P) (X := X) (y := y) (Layers.paths L) (zs := r1.normals) (by rw [i4, hz']; omega)
    split at h
    · next h2 => cases h; exact this h2
    · cases h

theorem sweepTrees_shape {P : Params K} {pG pP : K} {X : Fin n → Fin p → Fl K} {y : Fin n → K} {d : Nat} (ts : List (Layers.LTree K p)) :
    ∀ {done all : List (Layers.LTree K p)} {bs : List Bool} {r r' : Rand K}, (∀ t ∈ done, t.layers.length ≤ d + 1) → (∀ t ∈ ts, t.layers.length ≤ d) →
      Layers.sweepTrees P pG pP X y done ts r = .ok (bs, all, r') →
      (∀ t ∈ all, t.layers.length ≤ d + 1) ∧ all.length = done.length + ts.length ∧ r.uniforms.length = r'.uniforms.length + ts.length ∧
        r.normals.length ≤ r'.normals.length + ts.length * 2 ^ (d + 1) ∧ r'.gammas = r.gammas := by
  induction ts with
  | nil =>
    intro done all bs r r' hd ht h
    cases h
    exact ⟨hd, by simp, by simp, by simp, rfl⟩
  | cons t ts ih =>
    intro done all bs r r' hd ht h
    unfold Layers.sweepTrees at h
    split at h
    · cases h
    · next b t1 r1 e1 =>
      split at h
      · cases h
      · next bs' all' r2 e2 =>
        cases h
        obtain ⟨i2, i3, i4, i5⟩ := treeBody_shape (ht t (List.mem_cons_self ..)) e1
        obtain ⟨k1, k2, k3, k4, k5⟩ := ih (by
          intro t' ht'
          rcases List.mem_append.1 ht' with h | h
          · exact hd _ h
          · rw [List.mem_singleton.1 h]; exact i2) (fun t' ht' => ht t' (List.mem_cons_of_mem _ ht')) e2
        refine ⟨k1, by simp at k2 ⊢; omega, by simp; omega, ?_, by rw [k5, i5]⟩
        rw [List.length_cons, Nat.succ_mul]
        omega

theorem sweepTrees_completes {P : Params K} {pG pP : K} {X : Fin n → Fin p → Fl K} (hX : NoNan X) (hn : 0 < n) {y : Fin n → K} {d : Nat}
    (ts : List (Layers.LTree K p)) : ∀ {done : List (Layers.LTree K p)} {r : Rand K}, (∀ t ∈ ts, t.layers.length ≤ d) → ts.length ≤ r.uniforms.length → ts.length * 2 ^ (d + 1) ≤ r.normals.length →
      ∃ e : List (Nat × Method), e.length ≤ ts.length * 2 ^ (d + 1) ∧ (∀ x ∈ e, x.1 < n) ∧ Layers.sweepTrees P pG pP X y done ts (more r (pairs e)) ≠ .error .outOfDraws := by
  induction ts with
  | nil => intro done r _ _ _; exact ⟨[], by simp, by simp, by simp [Layers.sweepTrees]⟩
  | cons t ts ih =>
    intro done r ht hu hz
    have hl := ht t (List.mem_cons_self ..)
    rw [List.length_cons, Nat.succ_mul] at hz
    rw [List.length_cons] at hu
    obtain ⟨e1, l1, b1, h1⟩ := treeBody_completes (P := P) (pG := pG) (pP := pP) hX hn (y := fun i => y i - Layers.forest (done ++ ts) (X i)) hl (r := r) (by omega) (by omega)
    cases hb : Layers.treeBody P pG pP X (fun i => y i - Layers.forest (done ++ ts) (X i)) t (more r (pairs e1)) with
    | error er =>
      refine ⟨e1, by rw [List.length_cons, Nat.succ_mul]; omega, b1, ?_⟩
      unfold Layers.sweepTrees
      rw [hb]
      rw [hb] at h1
      simpa using h1
    | ok q =>
      obtain ⟨b, t1, r1⟩ := q
      obtain ⟨i2, i3, i4, i5⟩ := treeBody_shape hl hb
      have eu : (more r (pairs e1)).uniforms = r.uniforms := by simp [more, pairs]
      have ez : (more r (pairs e1)).normals = r.normals := by simp [more, pairs]
      rw [eu] at i3
      rw [ez] at i4
      obtain ⟨e2, l2, b2, h2⟩ := ih (done := done ++ [t1]) (r := r1) (fun t' ht' => ht t' (List.mem_cons_of_mem _ ht')) (by omega) (by omega)
      refine ⟨e1 ++ e2, by rw [List.length_append, List.length_cons, Nat.succ_mul]; omega, ?_, ?_⟩
      · intro x hx
        rcases List.mem_append.1 hx with hx | hx
        · exact b1 x hx
        · exact b2 x hx
      · rw [← more_pairs]
        unfold Layers.sweepTrees
        rw [treeBody_more _ h1, hb]
        dsimp only [Except.map]
        intro h
        split at h
        · next h3 => cases h; exact h2 h3
        · cases h

theorem sweep_shape {c : Reference.Settings K} {X : Fin n → Fin p → Fl K} {y : Fin n → K} {s s' : Layers.State K p} {r r' : Rand K} {bs : List Bool} {d : Nat} (ht : ∀ t ∈ s.trees, t.layers.length ≤ d)
    (h : Layers.sweep c X y s r = .ok (bs, s', r')) :
    (∀ t ∈ s'.trees, t.layers.length ≤ d + 1) ∧ s'.trees.length = s.trees.length ∧ r.uniforms.length = r'.uniforms.length + s.trees.length ∧
      r.normals.length ≤ r'.normals.length + s.trees.length * 2 ^ (d + 1) ∧ r.gammas.length = r'.gammas.length + 1 := by
  unfold Layers.sweep at h
  split at h
  · cases h
  · next bs' ts r1 e1 =>
    split at h
    · cases h
    · next v gs e2 =>
      cases h
      obtain ⟨k1, k2, k3, k4, k5⟩ := sweepTrees_shape s.trees (done := []) (by simp) ht e1
      refine ⟨k1, by simpa using k2, k3, k4, ?_⟩
      unfold Layers.sigmaStep at e2
      split at e2
      · cases e2
      · split at e2
        · cases e2
        · next g gs' hgs =>
          split at e2
          · cases e2
          · cases e2; rw [← k5, hgs]; rfl

theorem sweep_completes {c : Reference.Settings K} {X : Fin n → Fin p → Fl K} (hX : NoNan X) (hn : 0 < n) {y : Fin n → K} {s : Layers.State K p} {r : Rand K} {d : Nat}
    (ht : ∀ t ∈ s.trees, t.layers.length ≤ d) (hu : s.trees.length ≤ r.uniforms.length) (hz : s.trees.length * 2 ^ (d + 1) ≤ r.normals.length) (hg : 0 < r.gammas.length) :
    ∃ e : List (Nat × Method), e.length ≤ s.trees.length * 2 ^ (d + 1) ∧ (∀ x ∈ e, x.1 < n) ∧ Layers.sweep c X y s (more r (pairs e)) ≠ .error .outOfDraws := by
  obtain ⟨e, l, b, h⟩ := sweepTrees_completes (P := c.params s.sigma) (pG := c.pGrow) (pP := c.pPrune) hX hn (y := y) s.trees (done := []) (r := r) ht hu hz
  refine ⟨e, l, b, ?_⟩
  intro h0
  unfold Layers.sweep at h0
  split at h0
  · next e1 => cases h0; exact h e1
  · next bs ts r1 e1 =>
    obtain ⟨-, -, -, -, k5⟩ := sweepTrees_shape s.trees (done := []) (by simp) ht e1
    have eg : (more r (pairs e)).gammas = r.gammas := by simp [more, pairs]
    rw [eg] at k5
    split at h0
    · next e2 =>
      cases h0
      unfold Layers.sigmaStep at e2
      split at e2
      · cases e2
      · split at e2
        · next hgs => rw [k5] at hgs; rw [hgs] at hg; simp at hg
        · split at e2
          · next e3 =>
            cases e2
            unfold Fl.toFinite at e3
            split at e3 <;> cases e3
          · cases e2
    · cases h0

theorem sweeps_completes {c : Reference.Settings K} {X : Fin n → Fin p → Fl K} (hX : NoNan X) (hn : 0 < n) {y : Fin n → K} (k : Nat) :
    ∀ {s : Layers.State K p} {r : Rand K} {d T : Nat}, s.trees.length = T → (∀ t ∈ s.trees, t.layers.length ≤ d) → k * T ≤ r.uniforms.length → k * (T * 2 ^ (d + k)) ≤ r.normals.length → k ≤ r.gammas.length →
    ∃ e : List (Nat × Method), e.length ≤ k * (T * 2 ^ (d + k)) ∧ (∀ x ∈ e, x.1 < n) ∧ Layers.sweeps c X y k s (more r (pairs e)) ≠ .error .outOfDraws := by
  induction k with
  | zero => intro s r d T _ _ _ _ _; exact ⟨[], by simp, by simp, by simp [Layers.sweeps]⟩
  | succ k ih =>
    intro s r d T hT ht hu hz hg
    rw [Nat.succ_mul] at hu
    have e1 : d + (k + 1) = d + 1 + k := by omega
    have hb0 : k * (T * 2 ^ (d + 1 + k)) + T * 2 ^ (d + 1) ≤ (k + 1) * (T * 2 ^ (d + (k + 1))) := by
      rw [e1, Nat.succ_mul k (T * _)]
      exact Nat.add_le_add_left (Nat.mul_le_mul_left _ (Nat.pow_le_pow_right (by norm_num) (by omega))) _
    obtain ⟨e1, l1, b1, h1⟩ := sweep_completes (c := c) hX hn (y := y) (r := r) ht (by omega) (by rw [hT]; omega) (by omega)
    rw [hT] at l1
    cases hb : Layers.sweep c X y s (more r (pairs e1)) with
    | error er =>
      refine ⟨e1, by omega, b1, ?_⟩
      unfold Layers.sweeps
      rw [hb]
      rw [hb] at h1
      simpa using h1
    | ok q =>
      obtain ⟨b, s1, r1⟩ := q
      obtain ⟨i1, i2, i3, i4, i5⟩ := sweep_shape ht hb
      have eu : (more r (pairs e1)).uniforms = r.uniforms := by simp [more, pairs]
      have ez : (more r (pairs e1)).normals = r.normals := by simp [more, pairs]
      have eg : (more r (pairs e1)).gammas = r.gammas := by simp [more, pairs]
      rw [eu, hT] at i3
      rw [ez, hT] at i4
      rw [eg] at i5
      obtain ⟨e2, l2, b2, h2⟩ := ih (s := s1) (r := r1) (d := d + 1) (T := T) (by omega) i1 (by omega) (by omega) (by omega)
      refine ⟨e1 ++ e2, by rw [List.length_append]; omega, ?_, ?_⟩
      · intro x hx
        rcases List.mem_append.1 hx with hx | hx
        · exact b1 x hx
        · exact b2 x hx
      · rw [← more_pairs]
        unfold Layers.sweeps
        rw [sweep_more _ h1, hb]
        dsimp only [Except.map]
        intro h
        split at h
        · next h3 => cases h; exact h2 h3
        · cases h

/-! ### tables that cannot be split -/

theorem treeBody_stuck {P : Params K} {pG pP : K} {X : Fin n → Fin p → Fl K} {y : Fin n → K} (hc : columns X (Layers.rowsOn X []) = []) {t : Layers.LTree K p} (ht : t.layers = []) (r : Rand K) :
    (∀ {b t' r'}, Layers.treeBody P pG pP X y t r = .ok (b, t', r') → r.methods = .prune :: r'.methods ∧ t'.layers = []) ∧
      (Layers.treeBody P pG pP X y t r = .error .attributeError → ∃ ms, r.methods = .grow :: ms) := by
  unfold Layers.treeBody
  rw [ht]
  cases hm : r.methods with
  | nil =>
    have h : Layers.treeStep P pG pP X y [] r = .error .outOfDraws := by unfold Layers.treeStep; rw [hm]
    rw [h]
    constructor
    · intro b t' r' h; cases h
    · intro h; cases h
  | cons me ms =>
    cases me with
    | grow =>
      have h : Layers.treeStep P pG pP X y [] r = .error .attributeError := by
        unfold Layers.treeStep
        simp only [hm, Layers.propose, Layers.paths, Layers.growRules, Layers.growRule, if_pos hc, List.zipWith, Layers.growTerm, Layers.counted, List.getLast?_nil, Option.map_none, Layers.sumTerms]
      rw [h]
      constructor
      · intro b t' r' h; cases h
      · intro _; exact ⟨ms, rfl⟩
    | prune =>
      cases hs : Layers.treeStep P pG pP X y [] r with
      | error e =>
        constructor
        · intro b t' r' h; cases h
        · intro h
          simp only [Except.error.injEq] at h
          subst h
          unfold Layers.treeStep at hs
          rw [hm] at hs
          simp only [Layers.propose] at hs
          split at hs <;> cases hs
      | ok q =>
        obtain ⟨b1, L, r1⟩ := q
        have hL : L = [] ∧ r1.methods = ms := by
          unfold Layers.treeStep at hs
          rw [hm] at hs
          simp only [Layers.propose] at hs
          split at hs
          · cases hs
          · cases hs; simp
        constructor
        · intro b t' r' h
          dsimp only at h
          split at h
          · cases h
          · cases h; exact ⟨by rw [hL.2], hL.1⟩
        · intro h
          exfalso
          dsimp only at h
          split at h
          · next e he =>
            cases h
            have none : ∀ (ps : List (List (Cond K p))) (zs : List K), Layers.leafValues P X y ps zs ≠ .error .attributeError := by
              intro ps
              induction ps with
              | nil => intro zs h; rw [Layers.leafValues] at h; cases h
              | cons q ps ih =>
                intro zs h
                cases zs with
                | nil => rw [Layers.leafValues] at h; cases h
                | cons z zs =>
                  rw [Layers.leafValues] at h
                  split at h
                  · next he =>
                    cases h
                    unfold Fl.toFinite at he
                    split at he <;> cases he
                  · split at h
                    · next h1 => cases h; exact ih _ h1
                    · cases h
            exact none _ _ he
          · cases h

theorem sweepTrees_stuck {P : Params K} {pG pP : K} {X : Fin n → Fin p → Fl K} {y : Fin n → K} (hc : columns X (Layers.rowsOn X []) = []) (ts : List (Layers.LTree K p)) :
    ∀ {done : List (Layers.LTree K p)} (_ : ∀ t ∈ done, t.layers = []) (_ : ∀ t ∈ ts, t.layers = []) (r : Rand K),
    (∀ {bs all r'}, Layers.sweepTrees P pG pP X y done ts r = .ok (bs, all, r') → r.methods = List.replicate ts.length .prune ++ r'.methods ∧ ∀ t ∈ all, t.layers = []) ∧
      (Layers.sweepTrees P pG pP X y done ts r = .error .attributeError → ¬∃ l, r.methods = List.replicate ts.length .prune ++ l) := by
  induction ts with
  | nil =>
    intro done hd _ r
    constructor
    · intro bs all r' h; cases h; exact ⟨by simp, hd⟩
    · intro h; cases h
  | cons t ts ih =>
    intro done hd ht r
    obtain ⟨h1, h2⟩ := treeBody_stuck (P := P) (pG := pG) (pP := pP) (y := fun i => y i - Layers.forest (done ++ ts) (X i)) hc (ht t (List.mem_cons_self ..)) r
    unfold Layers.sweepTrees
    cases hb : Layers.treeBody P pG pP X (fun i => y i - Layers.forest (done ++ ts) (X i)) t r with
    | error e =>
      constructor
      · intro bs all r' h; cases h
      · rintro h ⟨l, hl⟩
        simp only [Except.error.injEq] at h
        subst h
        obtain ⟨ms, hms⟩ := h2 hb
        rw [hms, List.length_cons, List.replicate_succ, List.cons_append] at hl
        cases hl
    | ok q =>
      obtain ⟨b, t1, r1⟩ := q
      obtain ⟨m1, k1⟩ := h1 hb
      obtain ⟨i1, i2⟩ := ih (done := done ++ [t1]) (by
        intro t' ht'
        rcases List.mem_append.1 ht' with h | h
        · exact hd _ h
        · rw [List.mem_singleton.1 h]; exact k1) (fun t' ht' => ht t' (List.mem_cons_of_mem _ ht')) r1
      dsimp only
      constructor
      · intro bs all r' h
        split at h
        · cases h
        · next hh =>
          cases h
          obtain ⟨j1, j2⟩ := i1 hh
          exact ⟨by rw [m1, j1, List.length_cons, List.replicate_succ, List.cons_append], j2⟩
      · rintro h ⟨l, hl⟩
        split at h
        · next hh =>
          cases h
          rw [m1, List.length_cons, List.replicate_succ, List.cons_append] at hl
          injection hl with _ hl
          exact i2 hh ⟨l, hl⟩
        · cases h

theorem sweep_stuck {c : Reference.Settings K} {X : Fin n → Fin p → Fl K} {y : Fin n → K} (hc : columns X (Layers.rowsOn X []) = []) {s : Layers.State K p} (hs : ∀ t ∈ s.trees, t.layers = []) (r : Rand K) :
    (∀ {bs s' r'}, Layers.sweep c X y s r = .ok (bs, s', r') → r.methods = List.replicate s.trees.length .prune ++ r'.methods ∧ (∀ t ∈ s'.trees, t.layers = []) ∧ s'.trees.length = s.trees.length) ∧
      (Layers.sweep c X y s r = .error .attributeError → ¬∃ l, r.methods = List.replicate s.trees.length .prune ++ l) := by
  obtain ⟨h1, h2⟩ := sweepTrees_stuck (P := c.params s.sigma) (pG := c.pGrow) (pP := c.pPrune) (y := y) hc s.trees (done := []) (by simp) hs r
  unfold Layers.sweep
  cases hb : Layers.sweepTrees (c.params s.sigma) c.pGrow c.pPrune X y [] s.trees r with
  | error e =>
    constructor
    · intro bs s' r' h; cases h
    · intro h
      simp only [Except.error.injEq] at h
      subst h
      exact h2 hb
  | ok q =>
    obtain ⟨b, ts, r1⟩ := q
    obtain ⟨m1, k1⟩ := h1 hb
    obtain ⟨-, k2, -⟩ := sweepTrees_shape (d := 0) s.trees (done := []) (by simp) (fun t ht => by rw [hs t ht]; simp) hb
    dsimp only
    constructor
    · intro bs s' r' h
      split at h
      · cases h
      · cases h; exact ⟨m1, k1, by simpa using k2⟩
    · intro h
      exfalso
      split at h
      · next e he =>
        cases h
        unfold Layers.sigmaStep at he
        split at he
        · cases he
        · split at he
          · cases he
          · split at he
            · next e3 =>
              cases he
              unfold Fl.toFinite at e3
              split at e3 <;> cases e3
            · cases he
      · cases h

theorem sweeps_stuck {c : Reference.Settings K} {X : Fin n → Fin p → Fl K} {y : Fin n → K} (hc : columns X (Layers.rowsOn X []) = []) {T : Nat} (k : Nat) :
    ∀ {s : Layers.State K p} (_ : ∀ t ∈ s.trees, t.layers = []) (_ : s.trees.length = T) (r : Rand K),
    (∀ {q}, Layers.sweeps c X y k s r = .ok q → ∃ l, r.methods = List.replicate (k * T) .prune ++ l) ∧
      (Layers.sweeps c X y k s r = .error .attributeError → ¬∃ l, r.methods = List.replicate (k * T) .prune ++ l) := by
  induction k with
  | zero =>
    intro s _ _ r
    constructor
    · intro q _; exact ⟨r.methods, by simp⟩
    · intro h; cases h
  | succ k ih =>
    intro s hs hT r
    obtain ⟨h1, h2⟩ := sweep_stuck (c := c) (y := y) hc hs r
    rw [hT] at h1 h2
    have split2 : List.replicate ((k + 1) * T) Method.prune = List.replicate T .prune ++ List.replicate (k * T) .prune := by
      rw [List.replicate_append_replicate, Nat.succ_mul, Nat.add_comm]
    unfold Layers.sweeps
    cases hb : Layers.sweep c X y s r with
    | error e =>
      constructor
      · intro q h; cases h
      · rintro h ⟨l, hl⟩
        simp only [Except.error.injEq] at h
        subst h
        exact h2 hb ⟨_, by rw [hl, split2, List.append_assoc]⟩
    | ok q =>
      obtain ⟨b, s1, r1⟩ := q
      obtain ⟨m1, k1, k2⟩ := h1 hb
      obtain ⟨i1, i2⟩ := ih k1 k2 r1
      dsimp only
      constructor
      · intro q h
        split at h
        · cases h
        · next hh =>
          obtain ⟨l, hl⟩ := i1 hh
          exact ⟨l, by rw [m1, hl, split2, List.append_assoc]⟩
      · rintro h ⟨l, hl⟩
        split at h
        · next hh =>
          cases h
          rw [m1, split2, List.append_assoc] at hl
          exact i2 hh ⟨l, List.append_cancel_left hl⟩
        · cases h

end Bart.LayerReturns
