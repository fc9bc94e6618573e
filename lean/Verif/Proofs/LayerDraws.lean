import Verif.Proofs.Draws
import Verif.Proofs.LayerReturns
import Verif.Spec.ObliviousDraws

/-! The probabilities of the growths of the oblivious sampler. -/

set_option linter.unusedSectionVars false
set_option linter.unusedVariables false

namespace Bart
open Spec
open scoped ENNReal

section
variable {α : Type} {w : α → ℝ≥0∞}

/-- A sequence that is a sequence in `A` followed by one in `B`, where it is determined where the first one ends. -/
theorem prob_append {A B E : List α → Prop} (hA : ∀ a b a' b', A a → A a' → a ++ b = a' ++ b' → a = a') (hE : ∀ l, E l ↔ ∃ a b, l = a ++ b ∧ A a ∧ B b) :
    prob w E = prob w A * prob w B := by
  classical
  unfold prob
  have h1 : (∑' a : List α, if A a then (a.map w).prod else 0) * (∑' b : List α, if B b then (b.map w).prod else 0) =
      ∑' q : List α × List α, if A q.1 ∧ B q.2 then ((q.1 ++ q.2).map w).prod else 0 := by
    rw [ENNReal.tsum_prod', ← ENNReal.tsum_mul_right]
    refine tsum_congr fun a => ?_
    rw [← ENNReal.tsum_mul_left]
    refine tsum_congr fun b => ?_
    by_cases ha : A a <;> by_cases hb : B b <;> simp [ha, hb]
  rw [h1]
  have h2 : ∀ q : List α × List α, (if A q.1 ∧ B q.2 then ((q.1 ++ q.2).map w).prod else 0) = ∑' l : List α, if l = q.1 ++ q.2 ∧ A q.1 ∧ B q.2 then (l.map w).prod else 0 := by
    intro q
    rw [tsum_eq_single (q.1 ++ q.2)]
    · simp
    · intro l hl; simp [hl]
  rw [tsum_congr h2, ENNReal.tsum_comm]
  refine tsum_congr fun l => ?_
  by_cases hl : E l
  · obtain ⟨a, b, e, ha, hb⟩ := (hE l).1 hl
    rw [if_pos hl, tsum_eq_single (a, b)]
    · simp [e, ha, hb]
    · rintro ⟨a', b'⟩ hne
      rw [if_neg]
      rintro ⟨e', ha', hb'⟩
      simp only at e' ha' hb'
      have := hA a b a' b' ha ha' (e.symm.trans e')
      subst this
      rw [e] at e'
      exact hne (by rw [List.append_cancel_left e'])
  · rw [if_neg hl]
    symm
    rw [ENNReal.tsum_eq_zero]
    rintro ⟨a', b'⟩
    rw [if_neg]
    rintro ⟨e', ha', hb'⟩
    exact hl ((hE l).2 ⟨a', b', e', ha', hb'⟩)

end

namespace Layers
open Reference
variable {K : Type} [Field K] [LinearOrder K] {n p : Nat} {X : Fin n → Fin p → Fl K} {N : Nat}

theorem drawCut_split {col : List (Fl K)} {v : Fl K} {rest : List Nat} : ∀ {us : List Nat}, drawCut col us = .ok (v, rest) → ∃ pre, us = pre ++ rest ∧ drawCut col pre = .ok (v, []) := by
  intro us
  induction us with
  | nil => intro h; cases h
  | cons u us ih =>
    intro h
    unfold drawCut at h
    cases hc : choice col u with
    | error e' => rw [hc] at h; cases h
    | ok v' =>
      rw [hc] at h
      dsimp only at h
      by_cases hv : (col.any fun m => Fl.lt v' m) = true
      · rw [if_pos hv] at h
        injection h with h; injection h with e1 e2; subst e1 e2
        refine ⟨[u], rfl, ?_⟩
        unfold drawCut
        rw [hc]; dsimp only; rw [if_pos hv]
      · rw [if_neg hv] at h
        obtain ⟨pre, e1, e2⟩ := ih h
        refine ⟨u :: pre, by rw [e1]; rfl, ?_⟩
        unfold drawCut
        rw [hc]; dsimp only; rw [if_neg hv]; exact e2

theorem growRule_split {path : List (Cond K p)} {rule : Rule K p} {us rest : List Nat} (h : growRule X path us = .ok (rule, rest)) : ∃ pre, us = pre ++ rest ∧ growRule X path pre = .ok (rule, []) := by
  unfold growRule at h
  by_cases hc : columns X (rowsOn X path) = []
  · rw [if_pos hc] at h
    injection h with h; injection h with e1 e2; subst e1 e2
    exact ⟨[], rfl, by unfold growRule; rw [if_pos hc]⟩
  · rw [if_neg hc] at h
    cases us with
    | nil => cases h
    | cons u us =>
      dsimp only at h
      cases e1 : choice (columns X (rowsOn X path)) u with
      | error e => rw [e1] at h; cases h
      | ok j =>
        rw [e1] at h
        dsimp only at h
        cases e2 : drawCut (column X (rowsOn X path) j) us with
        | error e => rw [e2] at h; cases h
        | ok q =>
          obtain ⟨v, us1⟩ := q
          rw [e2] at h
          injection h with h; injection h with e3 e4; subst e3 e4
          obtain ⟨pre, e5, e6⟩ := drawCut_split e2
          refine ⟨u :: pre, by rw [e5]; rfl, ?_⟩
          unfold growRule
          rw [if_neg hc]
          dsimp only
          rw [e1]; dsimp only; rw [e6]

theorem growRule_append {path : List (Cond K p)} {rule : Rule K p} {us us' : List Nat} (h : growRule X path us = .ok (rule, us')) (e : List Nat) :
    growRule X path (us ++ e) = .ok (rule, us' ++ e) := by
  unfold growRule at h ⊢
  by_cases hc : columns X (rowsOn X path) = []
  · rw [if_pos hc] at h ⊢
    injection h with h; injection h with e1 e2; subst e1 e2; rfl
  · rw [if_neg hc] at h ⊢
    cases us with
    | nil => cases h
    | cons u us =>
      rw [List.cons_append]
      dsimp only at h ⊢
      cases e1 : choice (columns X (rowsOn X path)) u with
      | error e => rw [e1] at h; cases h
      | ok j =>
        rw [e1] at h
        dsimp only at h ⊢
        cases e2 : drawCut (column X (rowsOn X path) j) us with
        | error e => rw [e2] at h; cases h
        | ok q =>
          obtain ⟨v, us1⟩ := q
          rw [e2] at h
          injection h with h; injection h with e3 e4; subst e3 e4
          rw [Returns.drawCut_more e (by rw [e2]; simp), e2]
          rfl

/-- The probability of what becomes of a leaf. -/
noncomputable def ruleProb (X : Fin n → Fin p → Fl K) (path : List (Cond K p)) : Rule K p → ℝ≥0∞
  | none => 1
  | some (j, v) => 1 / (columns X (rowsOn X path)).length * cutProb (column X (rowsOn X path) j) (fun x => decide (x = v))

/-- What can become of a leaf. -/
def Possible (X : Fin n → Fin p → Fl K) (path : List (Cond K p)) : Rule K p → Prop
  | none => columns X (rowsOn X path) = []
  | some (j, v) => j ∈ columns X (rowsOn X path) ∧ v ∈ column X (rowsOn X path) j ∧ ∃ m ∈ column X (rowsOn X path) j, Fl.lt v m = true

theorem columns_length_le (rows : Fin n → Bool) : (columns X rows).length ≤ p := (List.length_filter_le _ _).trans (by simp)

theorem column_length_le (rows : Fin n → Bool) (j : Fin p) : (column X rows j).length ≤ n := by
  rw [column_length]
  exact (Finset.card_filter_le _ _).trans (by simp)

theorem prob_growRule (hN : DividesAll n p N) (path : List (Cond K p)) {rule : Rule K p} (hr : Possible X path rule) :
    prob (uniform N) (fun us => growRule X path (us.map Fin.val) = .ok (rule, [])) = ruleProb X path rule := by
  cases rule with
  | none =>
    unfold Possible at hr
    rw [prob_congr (E' := fun us => us = []) (fun us => by
      unfold growRule
      rw [if_pos hr]
      simp), prob_nil]
    rfl
  | some q =>
    obtain ⟨j, v⟩ := q
    obtain ⟨hj, hv, hlt⟩ := hr
    have hc : columns X (rowsOn X path) ≠ [] := List.ne_nil_of_mem hj
    have hlen : 1 ≤ (columns X (rowsOn X path)).length := List.length_pos_of_mem hj
    have hnd : (columns X (rowsOn X path)).Nodup := (List.nodup_finRange _).filter _
    rw [prob_choice (l := columns X (rowsOn X path)) hc (hN.2 _ hlen (.inr (columns_length_le _))) hN.1 (by
      intro h; unfold growRule at h; rw [if_neg hc] at h; cases h) (fun a => decide (a = j)) (c := cutProb (column X (rowsOn X path) j) (fun x => decide (x = v)))]
    · have : (columns X (rowsOn X path)).countP (fun a => decide (a = j)) = 1 := by
        have := List.count_eq_one_of_mem hnd hj
        rw [List.count] at this
        rw [← this]
        exact List.countP_congr (by simp)
      rw [this, Nat.cast_one]
      rfl
    · intro u x hx hq
      obtain rfl : x = j := by simpa using hq
      have hcol : 1 ≤ (column X (rowsOn X path) x).length := List.length_pos_of_mem hv
      rw [← prob_drawCut (N := N) (List.ne_nil_of_mem hv) (hN.2 _ hcol (.inl (column_length_le _ _))) hN.1]
      refine prob_congr fun us => ?_
      unfold growRule
      rw [if_neg hc, List.map_cons]
      dsimp only
      rw [hx]
      dsimp only
      cases e : drawCut (column X (rowsOn X path) x) (us.map Fin.val) with
      | error e' => simp
      | ok q =>
        obtain ⟨v', us1⟩ := q
        simp only [Except.ok.injEq, Prod.mk.injEq, Option.some.injEq, true_and, decide_eq_true_eq]
        constructor
        · rintro ⟨rfl, rfl⟩; exact ⟨_, rfl, rfl, rfl⟩
        · rintro ⟨v2, rfl, rfl, rfl⟩; exact ⟨rfl, rfl⟩
    · intro u x hx hq us h
      unfold growRule at h
      rw [if_neg hc, List.map_cons] at h
      dsimp only at h
      rw [hx] at h
      dsimp only at h
      cases e : drawCut (column X (rowsOn X path) x) (us.map Fin.val) with
      | error e' => rw [e] at h; cases h
      | ok q =>
        rw [e] at h
        injection h with h; injection h with h; injection h with h; injection h with h
        simp [h] at hq

/-- Only what is possible. -/
theorem growRule_possible {path : List (Cond K p)} {rule : Rule K p} {us rest : List Nat} (h : growRule X path us = .ok (rule, rest)) : Possible X path rule := by
  unfold growRule at h
  by_cases hc : columns X (rowsOn X path) = []
  · rw [if_pos hc] at h
    injection h with h; injection h with e1 e2; subst e1
    exact hc
  · rw [if_neg hc] at h
    cases us with
    | nil => cases h
    | cons u us =>
      dsimp only at h
      cases e1 : choice (columns X (rowsOn X path)) u with
      | error e => rw [e1] at h; cases h
      | ok j =>
        rw [e1] at h
        dsimp only at h
        cases e2 : drawCut (column X (rowsOn X path) j) us with
        | error e => rw [e2] at h; cases h
        | ok q =>
          obtain ⟨v, us1⟩ := q
          rw [e2] at h
          injection h with h; injection h with e3 e4; subst e3
          obtain ⟨a, b⟩ := drawCut_mem e2
          obtain ⟨x, hx, hx'⟩ := choice_ok_of_ne_nil hc u
          rw [e1] at hx'
          injection hx' with hx'
          subst hx'
          exact ⟨hx, a, b⟩

/-- Something becomes of the leaf with probability 1. -/
theorem prob_growRule_any (hN : DividesAll n p N) (path : List (Cond K p)) (hcol : ∀ j ∈ columns X (rowsOn X path), ∃ x ∈ column X (rowsOn X path) j, isMax (column X (rowsOn X path) j) x = false) :
    prob (uniform N) (fun us => ∃ rule, growRule X path (us.map Fin.val) = .ok (rule, [])) = 1 := by
  by_cases hc : columns X (rowsOn X path) = []
  · rw [prob_congr (E' := fun us => us = []) (fun us => by
      unfold growRule
      rw [if_pos hc]
      simp), prob_nil]
  · have hlen : 1 ≤ (columns X (rowsOn X path)).length := List.length_pos_iff.2 hc
    rw [prob_choice (l := columns X (rowsOn X path)) hc (hN.2 _ hlen (.inr (columns_length_le _))) hN.1 (by
      rintro ⟨r, h⟩; unfold growRule at h; rw [if_neg hc] at h; cases h) (fun _ => true) (c := 1), List.countP_true, mul_one]
    · exact ENNReal.div_self (by exact_mod_cast (List.length_pos_iff.2 hc).ne') (ENNReal.natCast_ne_top _)
    · intro u x hx hq
      obtain ⟨x', hm, hx'⟩ := choice_ok_of_ne_nil hc u.val
      rw [hx] at hx'
      injection hx' with hx'
      subst hx'
      have hex := hcol x hm
      have hl : 1 ≤ (column X (rowsOn X path) x).length := by obtain ⟨z, hz, -⟩ := hex; exact List.length_pos_of_mem hz
      rw [← prob_drawCut_any (N := N) hex (hN.2 _ hl (.inl (column_length_le _ _))) hN.1]
      refine prob_congr fun us => ?_
      unfold growRule
      rw [if_neg hc, List.map_cons]
      dsimp only
      rw [hx]
      dsimp only
      cases e : drawCut (column X (rowsOn X path) x) (us.map Fin.val) with
      | error e' => simp
      | ok q =>
        obtain ⟨v', us1⟩ := q
        simp
    · intro u x hx hq; cases hq

theorem growRules_cons_iff {path : List (Cond K p)} {ps : List (List (Cond K p))} {r : Rule K p} {rs : List (Rule K p)} (us : List (Fin N)) :
    growRules X (path :: ps) (us.map Fin.val) = .ok (r :: rs, []) ↔
      ∃ a b, us = a ++ b ∧ growRule X path (a.map Fin.val) = .ok (r, []) ∧ growRules X ps (b.map Fin.val) = .ok (rs, []) := by
  constructor
  · intro h
    unfold growRules at h
    cases e1 : growRule X path (us.map Fin.val) with
    | error e => rw [e1] at h; cases h
    | ok q =>
      obtain ⟨r', us1⟩ := q
      rw [e1] at h
      dsimp only at h
      cases e2 : growRules X ps us1 with
      | error e => rw [e2] at h; cases h
      | ok q2 =>
        obtain ⟨l, us2⟩ := q2
        rw [e2] at h
        injection h with h; injection h with h1 h2; injection h1 with h0 h1; subst h0 h1 h2
        obtain ⟨pre, e3, e4⟩ := growRule_split e1
        obtain ⟨a, b, rfl, ea, eb⟩ := List.map_eq_append_iff.1 e3
        exact ⟨a, b, rfl, by rw [ea]; exact e4, by rw [eb]; exact e2⟩
  · rintro ⟨a, b, rfl, e1, e2⟩
    unfold growRules
    rw [List.map_append, growRule_append e1, List.nil_append]
    dsimp only
    rw [e2]

theorem growRule_prefix {path : List (Cond K p)} (a b a' b' : List (Fin N)) (h : ∃ r, growRule X path (a.map Fin.val) = .ok (r, [])) (h' : ∃ r, growRule X path (a'.map Fin.val) = .ok (r, []))
    (e : a ++ b = a' ++ b') : a = a' := by
  obtain ⟨r, h⟩ := h
  obtain ⟨r', h'⟩ := h'
  have h1 := growRule_append h (b.map Fin.val)
  have h2 := growRule_append h' (b'.map Fin.val)
  rw [← List.map_append] at h1 h2
  rw [e, h2] at h1
  injection h1 with h1; injection h1 with h0 h1
  rw [List.nil_append, List.nil_append] at h1
  have hl := congrArg List.length h1
  simp only [List.length_map] at hl
  exact (List.append_inj' e hl.symm).1

/-- The probability of a growth. -/
noncomputable def rulesProb (X : Fin n → Fin p → Fl K) (ps : List (List (Cond K p))) (rs : List (Rule K p)) : ℝ≥0∞ := (List.zipWith (ruleProb X) ps rs).prod

theorem prob_growRules (hN : DividesAll n p N) : ∀ {ps : List (List (Cond K p))} {rs : List (Rule K p)}, List.Forall₂ (Possible X) ps rs →
    prob (uniform N) (fun us => growRules X ps (us.map Fin.val) = .ok (rs, [])) = rulesProb X ps rs := by
  intro ps rs h
  induction h with
  | nil =>
    rw [prob_congr (E' := fun us => us = []) (fun us => by simp [growRules]), prob_nil]
    rfl
  | @cons path r ps rs hr _ ih =>
    rw [prob_append (A := fun us => growRule X path (us.map Fin.val) = .ok (r, [])) (B := fun us => growRules X ps (us.map Fin.val) = .ok (rs, []))
      (fun a b a' b' h h' e => growRule_prefix a b a' b' ⟨_, h⟩ ⟨_, h'⟩ e) growRules_cons_iff, ih, prob_growRule hN path hr]
    unfold rulesProb
    rw [List.zipWith_cons_cons, List.prod_cons]

theorem growRules_possible : ∀ {ps : List (List (Cond K p))} {us rest : List Nat} {rs : List (Rule K p)}, growRules X ps us = .ok (rs, rest) → List.Forall₂ (Possible X) ps rs := by
  intro ps
  induction ps with
  | nil => intro us rest rs h; unfold growRules at h; injection h with h; injection h with h1 h2; subst h1; exact .nil
  | cons path ps ih =>
    intro us rest rs h
    unfold growRules at h
    cases e1 : growRule X path us with
    | error e => rw [e1] at h; cases h
    | ok q =>
      obtain ⟨r', us1⟩ := q
      rw [e1] at h
      dsimp only at h
      cases e2 : growRules X ps us1 with
      | error e => rw [e2] at h; cases h
      | ok q2 =>
        obtain ⟨l, us2⟩ := q2
        rw [e2] at h
        injection h with h; injection h with h1 h2; subst h1
        exact .cons (growRule_possible e1) (ih e2)

theorem prob_growRules_any (hN : DividesAll n p N) : ∀ {ps : List (List (Cond K p))},
    (∀ path ∈ ps, ∀ j ∈ columns X (rowsOn X path), ∃ x ∈ column X (rowsOn X path) j, isMax (column X (rowsOn X path) j) x = false) →
    prob (uniform N) (fun us => ∃ rs, growRules X ps (us.map Fin.val) = .ok (rs, [])) = 1 := by
  intro ps
  induction ps with
  | nil =>
    intro _
    rw [prob_congr (E' := fun us => us = []) (fun us => by simp [growRules]), prob_nil]
  | cons path ps ih =>
    intro h
    rw [prob_append (A := fun us => ∃ r, growRule X path (us.map Fin.val) = .ok (r, [])) (B := fun us => ∃ rs, growRules X ps (us.map Fin.val) = .ok (rs, []))
      (fun a b a' b' h h' e => growRule_prefix a b a' b' h h' e), ih (fun q hq => h q (by simp [hq])), prob_growRule_any hN path (h path (by simp)), one_mul]
    intro us
    constructor
    · rintro ⟨rs, e⟩
      cases rs with
      | nil =>
        have := growRules_possible e
        cases this
      | cons r rs =>
        obtain ⟨a, b, e1, e2, e3⟩ := (growRules_cons_iff us).1 e
        exact ⟨a, b, e1, ⟨_, e2⟩, ⟨_, e3⟩⟩
    · rintro ⟨a, b, e1, ⟨r, e2⟩, ⟨rs, e3⟩⟩
      exact ⟨_, (growRules_cons_iff us).2 ⟨a, b, e1, e2, e3⟩⟩

end Layers
end Bart
