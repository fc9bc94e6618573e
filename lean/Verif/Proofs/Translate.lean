import Verif.Model.Samplers
import Mathlib.Logic.Equiv.Basic
import Mathlib.Data.List.Perm.Basic

/-! Computations that read a list of picks, and one-to-one translations of the picks between two of them. -/

set_option linter.unusedSectionVars false

namespace Bart.Translate

/-- A computation that reads picks from the front of a list and returns the rest. -/
abbrev Reader (α : Type) := List Nat → Except PyErr (α × List Nat)

/-- First `f`, then `h`. -/
def rbind {α β : Type} (f : Reader α) (h : α → Reader β) : Reader β := fun us =>
  match f us with
  | .error e => .error e
  | .ok (a, rest) => h a rest

/-- No reading. -/
def rpure {α : Type} (a : α) : Reader α := fun us => .ok (a, us)

/-- An exception. -/
def rfail {α : Type} (e : PyErr) : Reader α := fun _ => .error e

/-- The translation keeps the number of picks, and the range of the picks if it is a multiple of all numbers up to `B`. -/
structure Keeps (B : Nat) (φ : List Nat → List Nat) : Prop where
  length : ∀ us, (φ us).length = us.length
  range : ∀ N, (∀ L, 1 ≤ L → L ≤ B → L ∣ N) → ∀ us, (∀ u ∈ φ us, u < N) ↔ ∀ u ∈ us, u < N

/-- There is a one-to-one translation of picks under which `g` does what `f` does, up to `e`. -/
def Trans {α β : Type} (B : Nat) (e : α → β) (f : Reader α) (g : Reader β) : Prop :=
  ∃ φ : Equiv.Perm (List Nat), Keeps B φ ∧ ∀ us, match f us with
    | .error er => g (φ us) = .error er
    | .ok (a, rest) => ∃ pre pre', us = pre ++ rest ∧ ∀ v, φ (pre ++ v) = pre' ++ v ∧ f (pre ++ v) = .ok (a, v) ∧ g (pre' ++ v) = .ok (e a, v)

section
variable {α β γ δ : Type} {B : Nat}

theorem trans_pure {e : α → β} {a : α} {b : β} (h : b = e a) : Trans B e (rpure a) (rpure b) := by
  refine ⟨Equiv.refl _, ⟨fun _ => rfl, fun _ _ _ => Iff.rfl⟩, fun us => ?_⟩
  subst h
  exact ⟨[], [], rfl, fun v => ⟨rfl, rfl, rfl⟩⟩

theorem trans_fail {e : α → β} (er : PyErr) : Trans B e (rfail er) (rfail er) :=
  ⟨Equiv.refl _, ⟨fun _ => rfl, fun _ _ _ => Iff.rfl⟩, fun _ => rfl⟩

theorem trans_bind {e : α → β} {e' : γ → δ} {f : Reader α} {g : Reader β} {h : α → Reader γ} {k : β → Reader δ} (H : Trans B e f g) (H' : ∀ a, Trans B e' (h a) (k (e a))) :
    Trans B e' (rbind f h) (rbind g k) := by
  obtain ⟨φ, hφ, hf⟩ := H
  choose ψ hψ hh using H'
  let toF : List Nat → List Nat := fun us =>
    match f us with
    | .error _ => φ us
    | .ok (a, rest) => (φ us).take (us.length - rest.length) ++ ψ a rest
  let inv : List Nat → List Nat := fun vs =>
    match f (φ.symm vs) with
    | .error _ => φ.symm vs
    | .ok (a, rest) => (φ.symm vs).take (vs.length - rest.length) ++ (ψ a).symm rest
  -- what is known when `f` returns
  have key : ∀ us a rest, f us = .ok (a, rest) → ∃ pre pre', us = pre ++ rest ∧ pre'.length = pre.length ∧
      (∀ v, φ (pre ++ v) = pre' ++ v ∧ f (pre ++ v) = .ok (a, v) ∧ g (pre' ++ v) = .ok (e a, v)) ∧
      (∀ v, toF (pre ++ v) = pre' ++ ψ a v) ∧ ∀ v, inv (pre' ++ v) = pre ++ (ψ a).symm v := by
    intro us a rest ef
    have := hf us
    rw [ef] at this
    obtain ⟨pre, pre', e1, e2⟩ := this
    have hl : pre'.length = pre.length := by
      have h1 := hφ.length (pre ++ [])
      rw [(e2 []).1] at h1
      simpa using h1
    refine ⟨pre, pre', e1, hl, e2, fun v => ?_, fun v => ?_⟩
    · simp only [toF, (e2 v).2.1, (e2 v).1, List.length_append, Nat.add_sub_cancel]
      rw [← hl, List.take_left]
    · have h1 : φ.symm (pre' ++ v) = pre ++ v := by rw [← (e2 v).1, Equiv.symm_apply_apply]
      simp only [inv, h1, (e2 v).2.1, List.length_append, Nat.add_sub_cancel]
      rw [hl, List.take_left]
  have hli : Function.LeftInverse inv toF := by
    intro us
    cases ef : f us with
    | error er =>
      have h1 : toF us = φ us := by simp only [toF, ef]
      rw [h1]
      simp only [inv, Equiv.symm_apply_apply, ef]
    | ok q =>
      obtain ⟨a, rest⟩ := q
      obtain ⟨pre, pre', e1, -, -, e2, e3⟩ := key us a rest ef
      rw [e1, e2, e3, Equiv.symm_apply_apply]
  have hri : Function.RightInverse inv toF := by
    intro vs
    cases ef : f (φ.symm vs) with
    | error er =>
      have h1 : inv vs = φ.symm vs := by simp only [inv, ef]
      rw [h1]
      simp only [toF, ef, Equiv.apply_symm_apply]
    | ok q =>
      obtain ⟨a, rest⟩ := q
      obtain ⟨pre, pre', e1, -, e4, e2, e3⟩ := key _ a rest ef
      have h1 : vs = pre' ++ rest := by rw [← (e4 rest).1, ← e1, Equiv.apply_symm_apply]
      rw [h1, e3, e2, Equiv.apply_symm_apply]
  refine ⟨⟨toF, inv, hli, hri⟩, ⟨fun us => ?_, fun N hN us => ?_⟩, fun us => ?_⟩
  · show (toF us).length = us.length
    cases ef : f us with
    | error er => simp only [toF, ef]; exact hφ.length us
    | ok q =>
      obtain ⟨a, rest⟩ := q
      obtain ⟨pre, pre', e1, hl, -, e2, -⟩ := key us a rest ef
      rw [e1, e2, List.length_append, List.length_append, hl, (hψ a).length]
  · show (∀ u ∈ toF us, u < N) ↔ _
    cases ef : f us with
    | error er => simp only [toF, ef]; exact hφ.range N hN us
    | ok q =>
      obtain ⟨a, rest⟩ := q
      obtain ⟨pre, pre', e1, hl, e4, e2, -⟩ := key us a rest ef
      rw [e1, e2]
      have h1 := hφ.range N hN (pre ++ [])
      rw [(e4 []).1] at h1
      have h2 := (hψ a).range N hN rest
      simp only [List.append_nil] at h1
      simp only [List.mem_append, or_imp, forall_and]
      rw [h1, h2]
  · show match rbind f h us with
      | .error er => rbind g k (toF us) = .error er
      | .ok (a, rest) => ∃ pre pre', us = pre ++ rest ∧ ∀ v, toF (pre ++ v) = pre' ++ v ∧ rbind f h (pre ++ v) = .ok (a, v) ∧ rbind g k (pre' ++ v) = .ok (e' a, v)
    cases ef : f us with
    | error er =>
      have h1 := hf us
      rw [ef] at h1
      have h2 : toF us = φ us := by simp only [toF, ef]
      simp only [rbind, ef, h2]
      simp only at h1
      rw [h1]
    | ok q =>
      obtain ⟨a, rest⟩ := q
      obtain ⟨pre, pre', e1, hl, e4, e2, -⟩ := key us a rest ef
      have h1 := hh a rest
      have h2 : rbind f h us = h a rest := by simp only [rbind, ef]
      rw [h2]
      cases eh : h a rest with
      | error er =>
        rw [eh] at h1
        simp only at h1 ⊢
        rw [e1, e2]
        simp only [rbind, (e4 _).2.2, h1]
      | ok q =>
        obtain ⟨c, rest'⟩ := q
        rw [eh] at h1
        simp only at h1 ⊢
        obtain ⟨p1, p1', f1, f2⟩ := h1
        refine ⟨pre ++ p1, pre' ++ p1', by rw [e1, f1, List.append_assoc], fun v => ⟨?_, ?_, ?_⟩⟩
        · rw [List.append_assoc, e2, (f2 v).1, List.append_assoc]
        · rw [List.append_assoc]; simp only [rbind, (e4 _).2.1, (f2 v).2.1]
        · rw [List.append_assoc]; simp only [rbind, (e4 _).2.2, (f2 v).2.2]

/-! ### picks from a list -/

/-- `np.random.choice(l)` with the next pick. -/
def pick (l : List α) : Reader α
  | [] => .error .outOfDraws
  | u :: us =>
    match choice l u with
    | .error e => .error e
    | .ok a => .ok (a, us)

/-- Extension of a permutation of the natural numbers by one position in front. -/
def consPerm (τ : Equiv.Perm Nat) : Equiv.Perm Nat where
  toFun i := match i with | 0 => 0 | i + 1 => τ i + 1
  invFun i := match i with | 0 => 0 | i + 1 => τ.symm i + 1
  left_inv i := by cases i <;> simp
  right_inv i := by cases i <;> simp

theorem perm_index {l l' : List α} (h : l.Perm l') : ∃ τ : Equiv.Perm Nat, ∀ i, l'[τ i]? = l[i]? := by
  induction h with
  | nil => exact ⟨Equiv.refl _, fun i => rfl⟩
  | cons a _ ih =>
    obtain ⟨τ, h⟩ := ih
    refine ⟨consPerm τ, fun i => ?_⟩
    cases i with
    | zero => rfl
    | succ i => simpa [consPerm] using h i
  | swap a b l =>
    refine ⟨Equiv.swap 0 1, fun i => ?_⟩
    match i with
    | 0 => simp
    | 1 => simp
    | i + 2 => rw [Equiv.swap_apply_of_ne_of_ne (by omega) (by omega)]; rfl
  | trans _ _ ih1 ih2 =>
    obtain ⟨τ, h⟩ := ih1
    obtain ⟨τ', h'⟩ := ih2
    exact ⟨τ.trans τ', fun i => by rw [Equiv.trans_apply, h', h]⟩

/-- A permutation of the remainders modulo `L`. -/
def modPerm (L : Nat) (τ : Equiv.Perm Nat) (h : ∀ i, i < L → τ i < L) (h' : ∀ i, i < L → τ.symm i < L) (hL : 0 < L) : Equiv.Perm Nat where
  toFun u := L * (u / L) + τ (u % L)
  invFun u := L * (u / L) + τ.symm (u % L)
  left_inv u := by
    have h1 := h _ (Nat.mod_lt u hL)
    simp only [Nat.mul_add_div hL, Nat.mul_add_mod, Nat.div_eq_of_lt h1, Nat.mod_eq_of_lt h1, Nat.add_zero, Equiv.symm_apply_apply, Nat.div_add_mod]
  right_inv u := by
    have h1 := h' _ (Nat.mod_lt u hL)
    simp only [Nat.mul_add_div hL, Nat.mul_add_mod, Nat.div_eq_of_lt h1, Nat.mod_eq_of_lt h1, Nat.add_zero, Equiv.apply_symm_apply, Nat.div_add_mod]

/-- Picks from a list, and from a rearrangement of it. -/
theorem choice_perm {l : List α} {l' : List β} {e : α → β} (h : (l.map e).Perm l') :
    ∃ π : Equiv.Perm Nat, (∀ u, choice l' (π u) = match choice l u with | .error er => .error er | .ok a => .ok (e a)) ∧ ∀ N, (0 < l.length → l.length ∣ N) → ∀ u, π u < N ↔ u < N := by
  have hlen : l'.length = l.length := by rw [← h.length_eq, List.length_map]
  rcases Nat.eq_zero_or_pos l.length with h0 | hL
  · refine ⟨Equiv.refl _, fun u => ?_, fun N _ u => Iff.rfl⟩
    have h1 : l = [] := List.length_eq_zero_iff.1 h0
    have h2 : l' = [] := List.length_eq_zero_iff.1 (hlen.trans h0)
    subst h1 h2
    rfl
  · obtain ⟨τ, hτ⟩ := perm_index h
    have hτ' : ∀ i, l'[τ i]? = (l[i]?).map e := fun i => by rw [hτ, List.getElem?_map]
    have hb : ∀ i, i < l.length → τ i < l.length := by
      intro i hi
      by_contra hc
      have := hτ' i
      rw [List.getElem?_eq_none (by omega), List.getElem?_eq_getElem hi] at this
      cases this
    have hb' : ∀ i, i < l.length → τ.symm i < l.length := by
      intro i hi
      by_contra hc
      have := hτ' (τ.symm i)
      rw [Equiv.apply_symm_apply, List.getElem?_eq_getElem (by omega), List.getElem?_eq_none (by omega)] at this
      cases this
    refine ⟨modPerm l.length τ hb hb' hL, fun u => ?_, fun N hN u => ?_⟩
    · have h1 := hb _ (Nat.mod_lt u hL)
      unfold choice
      rw [hlen, show (modPerm l.length τ hb hb' hL) u % l.length = τ (u % l.length) by
        simp only [modPerm, Equiv.coe_fn_mk, Nat.mul_add_mod, Nat.mod_eq_of_lt h1], hτ']
      cases l[u % l.length]? <;> rfl
    · obtain ⟨q, rfl⟩ := hN hL
      have h1 := hb _ (Nat.mod_lt u hL)
      have h2 := Nat.mod_lt u hL
      have hu := Nat.div_add_mod u l.length
      show l.length * (u / l.length) + τ (u % l.length) < l.length * q ↔ u < l.length * q
      rw [Nat.mul_comm _ q, ← Nat.div_lt_iff_lt_mul hL, ← Nat.div_lt_iff_lt_mul hL, Nat.mul_add_div hL, Nat.div_eq_of_lt h1, Nat.add_zero]

/-- The same pick from the same list. -/
theorem trans_pick_same {l : List α} {e : α → β} : Trans B e (pick l) (pick (l.map e)) := by
  refine ⟨Equiv.refl _, ⟨fun _ => rfl, fun _ _ _ => Iff.rfl⟩, fun us => ?_⟩
  cases us with
  | nil => rfl
  | cons u us =>
    have hc : choice (l.map e) u = match choice l u with | .error er => .error er | .ok a => .ok (e a) := by
      unfold choice
      rw [List.length_map, List.getElem?_map]
      cases l[u % l.length]? <;> rfl
    cases h : choice l u with
    | error er => simp only [pick, h]; rw [h] at hc; simp [pick, hc]
    | ok a =>
      rw [h] at hc
      simp only [pick, h]
      exact ⟨[u], [u], rfl, fun v => ⟨rfl, by simp [pick, h], by simp [pick, hc]⟩⟩

/-! ### picks until one is accepted -/

/-- Picks from `l` until one satisfies `ok`. -/
def pickUntil (l : List α) (ok : α → Bool) : Reader α
  | [] => .error .outOfDraws
  | u :: us =>
    match choice l u with
    | .error e => .error e
    | .ok a => if ok a then .ok (a, us) else pickUntil l ok us

/-- Translate the picks up to the first with `stop`. -/
def upTo (stop : Nat → Bool) (π : Nat → Nat) : List Nat → List Nat
  | [] => []
  | u :: us => π u :: if stop u then us else upTo stop π us

theorem upTo_inv {stop stop' : Nat → Bool} {π π' : Nat → Nat} (h : ∀ u, π' (π u) = u) (hs : ∀ u, stop' (π u) = stop u) : ∀ us, upTo stop' π' (upTo stop π us) = us
  | [] => rfl
  | u :: us => by
    simp only [upTo, h, hs]
    cases stop u
    · simp [upTo_inv h hs us]
    · simp

theorem trans_pickUntil {l : List α} {l' : List β} {e : α → β} (h : (l.map e).Perm l') (hB : l.length ≤ B) {ok : α → Bool} {ok' : β → Bool} (hok : ∀ a ∈ l, ok' (e a) = ok a) :
    Trans B e (pickUntil l ok) (pickUntil l' ok') := by
  obtain ⟨π, h1, h2⟩ := choice_perm h
  let stop : Nat → Bool := fun u => match choice l u with | .error _ => true | .ok a => ok a
  have hmem : ∀ {u a}, choice l u = .ok a → a ∈ l := by
    intro u a hc
    unfold choice at hc
    split at hc
    · next b hb => injection hc with hc; subst hc; exact List.mem_of_getElem? hb
    · cases hc
  have hdiv : ∀ N, (∀ L, 1 ≤ L → L ≤ B → L ∣ N) → ∀ u, π u < N ↔ u < N := fun N hN => h2 N fun hL => hN _ hL hB
  have hst : ∀ u, stop (π.symm (π u)) = stop u := fun u => by rw [Equiv.symm_apply_apply]
  have hk : Keeps B (upTo stop π) := by
    constructor
    · intro us
      induction us with
      | nil => rfl
      | cons u us ih =>
        simp only [upTo]
        cases stop u
        · simp [ih]
        · simp
    · intro N hN us
      induction us with
      | nil => rfl
      | cons u us ih =>
        simp only [upTo]
        cases stop u
        · simp [ih, hdiv N hN u]
        · simp [hdiv N hN u]
  have hstep : ∀ u v, choice l u = .ok v → choice l' (π u) = .ok (e v) := fun u v hc => by rw [h1, hc]
  refine ⟨⟨upTo stop π, upTo (fun u => stop (π.symm u)) π.symm, upTo_inv (fun u => π.symm_apply_apply u) hst, upTo_inv (fun u => π.apply_symm_apply u) fun u => rfl⟩, hk, fun us => ?_⟩
  show match pickUntil l ok us with
      | .error er => pickUntil l' ok' (upTo stop π us) = .error er
      | .ok (a, rest) => ∃ pre pre', us = pre ++ rest ∧ ∀ v, upTo stop π (pre ++ v) = pre' ++ v ∧ pickUntil l ok (pre ++ v) = .ok (a, v) ∧ pickUntil l' ok' (pre' ++ v) = .ok (e a, v)
  induction us with
  | nil => rfl
  | cons u us ih =>
    cases hc : choice l u with
    | error er =>
      have h3 := h1 u
      rw [hc] at h3
      simp only at h3
      simp only [pickUntil, hc, upTo, h3]
    | ok a =>
      have h3 := hstep u a hc
      have h4 : stop u = ok a := by simp only [stop, hc]
      have h5 := hok a (hmem hc)
      cases ha : ok a with
      | true =>
        simp only [pickUntil, hc, ha, if_true]
        refine ⟨[u], [π u], rfl, fun v => ⟨?_, ?_, ?_⟩⟩
        · simp [upTo, h4, ha]
        · simp [pickUntil, hc, ha]
        · simp [pickUntil, h3, h5, ha]
      | false =>
        have h6 : pickUntil l ok (u :: us) = pickUntil l ok us := by simp [pickUntil, hc, ha]
        rw [h6]
        cases hp : pickUntil l ok us with
        | error er =>
          rw [hp] at ih
          simp only at ih ⊢
          simp [upTo, h4, ha, pickUntil, h3, h5, ih]
        | ok q =>
          obtain ⟨b, rest⟩ := q
          rw [hp] at ih
          simp only at ih ⊢
          obtain ⟨pre, pre', e1, e2⟩ := ih
          refine ⟨u :: pre, π u :: pre', by rw [e1]; rfl, fun v => ⟨?_, ?_, ?_⟩⟩
          · simp [upTo, h4, ha, (e2 v).1]
          · simp [pickUntil, hc, ha, (e2 v).2.1]
          · simp [pickUntil, h3, h5, ha, (e2 v).2.2]

/-- One pick from a list, and from a rearrangement of it. -/
theorem trans_pick {l : List α} {l' : List β} {e : α → β} (h : (l.map e).Perm l') (hB : l.length ≤ B) : Trans B e (pick l) (pick l') := by
  have h1 : ∀ {α : Type} (l : List α), pick l = pickUntil l fun _ => true := by
    intro α l
    funext us
    cases us with
    | nil => rfl
    | cons u us => simp only [pick, pickUntil, if_true]
  rw [h1, h1]
  exact trans_pickUntil h hB fun _ _ => rfl

end
end Bart.Translate
