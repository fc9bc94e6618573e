import Verif.Proofs.Translate

/-! Computations that read picks and normal numbers, and one-to-one translations of both between two of them. -/

set_option linter.unusedSectionVars false

namespace Bart.Streams

/-- Picks and normal numbers. -/
structure Draws (K : Type) where
  us : List Nat
  zs : List K

variable {K : Type}

/-- First `a`, then `b`. -/
def Draws.app (a b : Draws K) : Draws K := ⟨a.us ++ b.us, a.zs ++ b.zs⟩

/-- Nothing. -/
def Draws.none : Draws K := ⟨[], []⟩

/-- What is in front of `rest`, by the numbers of draws. -/
def Draws.front (s rest : Draws K) : Draws K := ⟨s.us.take (s.us.length - rest.us.length), s.zs.take (s.zs.length - rest.zs.length)⟩

theorem app_assoc (a b c : Draws K) : (a.app b).app c = a.app (b.app c) := by simp [Draws.app]
theorem none_app (a : Draws K) : Draws.none.app a = a := by simp [Draws.app, Draws.none]
theorem app_none (a : Draws K) : a.app Draws.none = a := by simp [Draws.app, Draws.none]
theorem front_app (a b : Draws K) : (a.app b).front b = a := by simp [Draws.app, Draws.front]
theorem app_left_inj {a b c : Draws K} (h : a.app c = b.app c) : a = b := by
  have h1 := front_app a c
  rw [h, front_app] at h1
  exact h1.symm

/-- A computation that reads draws from the front and returns the rest. -/
abbrev Reader (K α : Type) := Draws K → Except PyErr (α × Draws K)

/-- First `f`, then `h`. -/
def rbind {α β : Type} (f : Reader K α) (h : α → Reader K β) : Reader K β := fun s =>
  match f s with
  | .error e => .error e
  | .ok (a, rest) => h a rest

/-- No reading. -/
def rpure {α : Type} (a : α) : Reader K α := fun s => .ok (a, s)

/-- An exception. -/
def rfail {α : Type} (e : PyErr) : Reader K α := fun _ => .error e

/-- The translation keeps the number of picks, and the range of the picks if it is a multiple of all numbers up to `B`; it rearranges the normal numbers. -/
structure Keeps (B : Nat) (φ : Draws K → Draws K) : Prop where
  length : ∀ s, (φ s).us.length = s.us.length
  perm : ∀ s, (φ s).zs.Perm s.zs
  range : ∀ N, (∀ L, 1 ≤ L → L ≤ B → L ∣ N) → ∀ s, (∀ u ∈ (φ s).us, u < N) ↔ ∀ u ∈ s.us, u < N

/-- There is a one-to-one translation of draws under which `g` does what `f` does, up to `R`. -/
def Trans {α β : Type} (B : Nat) (R : α → β → Prop) (f : Reader K α) (g : Reader K β) : Prop :=
  ∃ φ : Equiv.Perm (Draws K), Keeps B φ ∧ ∀ s, match f s with
    | .error _ => ∃ er, g (φ s) = .error er
    | .ok (a, rest) => ∃ (pre pre' : Draws K) (b : β), s = pre.app rest ∧ R a b ∧ ∀ v, φ (pre.app v) = pre'.app v ∧ f (pre.app v) = .ok (a, v) ∧ g (pre'.app v) = .ok (b, v)

section
variable {α β γ δ : Type} {B : Nat}

theorem keeps_refl : Keeps B (Equiv.refl (Draws K)) := ⟨fun _ => rfl, fun _ => List.Perm.refl _, fun _ _ _ => Iff.rfl⟩

theorem trans_pure {R : α → β → Prop} {a : α} {b : β} (h : R a b) : Trans B R (rpure a : Reader K α) (rpure b) :=
  ⟨Equiv.refl _, keeps_refl, fun s => ⟨Draws.none, Draws.none, b, (none_app s).symm, h, fun v => ⟨rfl, by rw [none_app]; rfl, by rw [none_app]; rfl⟩⟩⟩

theorem trans_fail {R : α → β → Prop} (e e' : PyErr) : Trans B R (rfail e : Reader K α) (rfail e') := ⟨Equiv.refl _, keeps_refl, fun _ => ⟨e', rfl⟩⟩

theorem Trans.mono {R R' : α → β → Prop} {f : Reader K α} {g : Reader K β} (h : Trans B R f g) (hR : ∀ a b, R a b → R' a b) : Trans B R' f g := by
  obtain ⟨φ, h1, h2⟩ := h
  refine ⟨φ, h1, fun s => ?_⟩
  have h3 := h2 s
  rcases ef : f s with e | ⟨a, rest⟩
  · rw [ef] at h3; exact h3
  · rw [ef] at h3
    obtain ⟨pre, pre', b, e1, e2, e3⟩ := h3
    exact ⟨pre, pre', b, e1, hR a b e2, e3⟩

theorem trans_bind {R : α → β → Prop} {R' : γ → δ → Prop} {f : Reader K α} {g : Reader K β} {h : α → Reader K γ} {k : β → Reader K δ} (H : Trans B R f g)
    (H' : ∀ a b, R a b → Trans B R' (h a) (k b)) : Trans B R' (rbind f h) (rbind g k) := by
  classical
  obtain ⟨φ, hφ, hf⟩ := H
  have H2 : ∀ a b, ∃ ψ : Equiv.Perm (Draws K), R a b → (Keeps B ψ ∧ ∀ s, match h a s with
      | .error _ => ∃ er, k b (ψ s) = .error er
      | .ok (c, rest) => ∃ (pre pre' : Draws K) (d : δ), s = pre.app rest ∧ R' c d ∧ ∀ v, ψ (pre.app v) = pre'.app v ∧ h a (pre.app v) = .ok (c, v) ∧ k b (pre'.app v) = .ok (d, v)) := by
    intro a b
    by_cases hr : R a b
    · obtain ⟨ψ, h1⟩ := H' a b hr
      exact ⟨ψ, fun _ => h1⟩
    · exact ⟨Equiv.refl _, fun h => absurd h hr⟩
  choose ψ hψ using H2
  let toF : Draws K → Draws K := fun s =>
    match f s with
    | .error _ => φ s
    | .ok (a, rest) =>
      match g (φ s) with
      | .error _ => φ s
      | .ok (b, _) => ((φ s).front rest).app (ψ a b rest)
  let inv : Draws K → Draws K := fun t =>
    match f (φ.symm t) with
    | .error _ => φ.symm t
    | .ok (a, rest) =>
      match g t with
      | .error _ => φ.symm t
      | .ok (b, _) => ((φ.symm t).front rest).app ((ψ a b).symm rest)
  have key : ∀ s a rest, f s = .ok (a, rest) → ∃ (pre pre' : Draws K) (b : β), s = pre.app rest ∧ R a b ∧
      (∀ v, φ (pre.app v) = pre'.app v ∧ f (pre.app v) = .ok (a, v) ∧ g (pre'.app v) = .ok (b, v)) ∧
      (∀ v, toF (pre.app v) = pre'.app (ψ a b v)) ∧ ∀ v, inv (pre'.app v) = pre.app ((ψ a b).symm v) := by
    intro s a rest ef
    have := hf s
    rw [ef] at this
    obtain ⟨pre, pre', b, e1, hr, e2⟩ := this
    refine ⟨pre, pre', b, e1, hr, e2, fun v => ?_, fun v => ?_⟩
    · simp only [toF, (e2 v).2.1, (e2 v).1, (e2 v).2.2, front_app]
    · have h1 : φ.symm (pre'.app v) = pre.app v := by rw [← (e2 v).1, Equiv.symm_apply_apply]
      simp only [inv, h1, (e2 v).2.1, (e2 v).2.2, front_app]
  have hli : Function.LeftInverse inv toF := by
    intro s
    cases ef : f s with
    | error er =>
      have h1 : toF s = φ s := by simp only [toF, ef]
      rw [h1]
      simp only [inv, Equiv.symm_apply_apply, ef]
    | ok q =>
      obtain ⟨a, rest⟩ := q
      obtain ⟨pre, pre', b, e1, -, -, e2, e3⟩ := key s a rest ef
      rw [e1, e2, e3, Equiv.symm_apply_apply]
  have hri : Function.RightInverse inv toF := by
    intro t
    cases ef : f (φ.symm t) with
    | error er =>
      have h1 : inv t = φ.symm t := by simp only [inv, ef]
      rw [h1]
      simp only [toF, ef, Equiv.apply_symm_apply]
    | ok q =>
      obtain ⟨a, rest⟩ := q
      obtain ⟨pre, pre', b, e1, -, e4, e2, e3⟩ := key _ a rest ef
      have h1 : t = pre'.app rest := by rw [← (e4 rest).1, ← e1, Equiv.apply_symm_apply]
      rw [h1, e3, e2, Equiv.apply_symm_apply]
  refine ⟨⟨toF, inv, hli, hri⟩, ⟨fun s => ?_, fun s => ?_, fun N hN s => ?_⟩, fun s => ?_⟩
  · show (toF s).us.length = s.us.length
    cases ef : f s with
    | error er => simp only [toF, ef]; exact hφ.length s
    | ok q =>
      obtain ⟨a, rest⟩ := q
      obtain ⟨pre, pre', b, e1, hr, e4, e2, -⟩ := key s a rest ef
      have h1 := hφ.length (pre.app rest)
      rw [(e4 rest).1] at h1
      have h2 := (hψ a b hr).1.length rest
      simp only [Draws.app, List.length_append] at h1
      rw [e1, e2]
      simp only [Draws.app, List.length_append]
      omega
  · show (toF s).zs.Perm s.zs
    cases ef : f s with
    | error er => simp only [toF, ef]; exact hφ.perm s
    | ok q =>
      obtain ⟨a, rest⟩ := q
      obtain ⟨pre, pre', b, e1, hr, e4, e2, -⟩ := key s a rest ef
      have h1 := hφ.perm (pre.app Draws.none)
      rw [(e4 _).1, app_none, app_none] at h1
      rw [e1, e2]
      exact h1.append ((hψ a b hr).1.perm rest)
  · show (∀ u ∈ (toF s).us, u < N) ↔ _
    cases ef : f s with
    | error er => simp only [toF, ef]; exact hφ.range N hN s
    | ok q =>
      obtain ⟨a, rest⟩ := q
      obtain ⟨pre, pre', b, e1, hr, e4, e2, -⟩ := key s a rest ef
      rw [e1, e2]
      have h1 := hφ.range N hN (pre.app Draws.none)
      rw [(e4 _).1, app_none, app_none] at h1
      have h2 := (hψ a b hr).1.range N hN rest
      simp only [Draws.app, List.mem_append, or_imp, forall_and]
      rw [h1, h2]
  · show match rbind f h s with
      | .error _ => ∃ er, rbind g k (toF s) = .error er
      | .ok (a, rest) => ∃ (pre pre' : Draws K) (b : δ), s = pre.app rest ∧ R' a b ∧ ∀ v, toF (pre.app v) = pre'.app v ∧ rbind f h (pre.app v) = .ok (a, v) ∧ rbind g k (pre'.app v) = .ok (b, v)
    cases ef : f s with
    | error er =>
      have h1 := hf s
      rw [ef] at h1
      have h2 : toF s = φ s := by simp only [toF, ef]
      simp only [rbind, ef, h2]
      obtain ⟨er', h1⟩ := h1
      exact ⟨er', by rw [h1]⟩
    | ok q =>
      obtain ⟨a, rest⟩ := q
      obtain ⟨pre, pre', b, e1, hr, e4, e2, -⟩ := key s a rest ef
      have h1 := (hψ a b hr).2 rest
      have h2 : rbind f h s = h a rest := by simp only [rbind, ef]
      rw [h2]
      cases eh : h a rest with
      | error er =>
        rw [eh] at h1
        obtain ⟨er', h1⟩ := h1
        refine ⟨er', ?_⟩
        rw [e1, e2]
        simp only [rbind, (e4 _).2.2, h1]
      | ok q =>
        obtain ⟨c, rest'⟩ := q
        rw [eh] at h1
        simp only at h1 ⊢
        obtain ⟨p1, p1', d, f1, f3, f2⟩ := h1
        refine ⟨pre.app p1, pre'.app p1', d, by rw [e1, f1, app_assoc], f3, fun v => ⟨?_, ?_, ?_⟩⟩
        · rw [app_assoc, e2, (f2 v).1, app_assoc]
        · rw [app_assoc]; simp only [rbind, (e4 _).2.1, (f2 v).2.1]
        · rw [app_assoc]; simp only [rbind, (e4 _).2.2, (f2 v).2.2]

theorem trans_comp {R : α → β → Prop} {S : β → γ → Prop} {f : Reader K α} {g : Reader K β} {h : Reader K γ} (H : Trans B R f g) (H' : Trans B S g h) :
    Trans B (fun a c => ∃ b, R a b ∧ S b c) f h := by
  obtain ⟨φ, h1, h2⟩ := H
  obtain ⟨ψ, h3, h4⟩ := H'
  refine ⟨φ.trans ψ, ⟨fun s => ?_, fun s => ?_, fun N hN s => ?_⟩, fun s => ?_⟩
  · rw [Equiv.trans_apply, h3.length, h1.length]
  · rw [Equiv.trans_apply]; exact (h3.perm _).trans (h1.perm s)
  · rw [Equiv.trans_apply, h3.range N hN, h1.range N hN]
  · have h5 := h2 s
    rcases e : f s with er | ⟨a, rest⟩
    · rw [e] at h5
      obtain ⟨er', h5⟩ := h5
      have h6 := h4 (φ s)
      rw [h5] at h6
      exact h6
    · rw [e] at h5
      obtain ⟨pre, pre', b, e1, e2, e3⟩ := h5
      have h6 := h4 (pre'.app rest)
      rw [(e3 rest).2.2] at h6
      obtain ⟨q, q', c, f1, f2, f3⟩ := h6
      have hq := app_left_inj f1
      subst hq
      refine ⟨pre, q', c, e1, ⟨b, e2, f2⟩, fun v => ⟨?_, (e3 v).2.1, (f3 v).2.2⟩⟩
      rw [Equiv.trans_apply, (e3 v).1, (f3 v).1]

/-! ### computations that read picks only -/

/-- A computation that reads picks. -/
def onUs (f : Translate.Reader α) : Reader K α := fun s =>
  match f s.us with
  | .error e => .error e
  | .ok (a, rest) => .ok (a, ⟨rest, s.zs⟩)

theorem trans_onUs {e : α → β} {f : Translate.Reader α} {g : Translate.Reader β} (H : Translate.Trans B e f g) {P : α → Prop} (hP : ∀ us a rest, f us = .ok (a, rest) → P a) :
    Trans B (fun a b => P a ∧ b = e a) (onUs f : Reader K α) (onUs g) := by
  obtain ⟨φ, h1, h2⟩ := H
  refine ⟨⟨fun s => ⟨φ s.us, s.zs⟩, fun s => ⟨φ.symm s.us, s.zs⟩, fun s => by simp, fun s => by simp⟩, ⟨fun s => h1.length s.us, fun s => List.Perm.refl _, fun N hN s => h1.range N hN s.us⟩, fun s => ?_⟩
  have h3 := h2 s.us
  rcases e1 : f s.us with er | ⟨a, rest⟩
  · rw [e1] at h3
    simp only at h3
    simp only [onUs, e1]
    refine ⟨er, ?_⟩
    simp only [Equiv.coe_fn_mk, h3]
  · rw [e1] at h3
    obtain ⟨pre, pre', f1, f2⟩ := h3
    simp only [onUs, e1]
    refine ⟨⟨pre, []⟩, ⟨pre', []⟩, e a, ?_, ⟨hP _ _ _ e1, rfl⟩, fun v => ⟨?_, ?_, ?_⟩⟩
    · simp [Draws.app, ← f1]
    · simp [Draws.app, (f2 v.us).1]
    · simp [Draws.app, (f2 v.us).2.1]
    · simp [Draws.app, (f2 v.us).2.2]

/-! ### one normal number for each entry of a list -/

/-- Read one normal number. -/
def readZ (G : K → Except PyErr α) : Reader K α := fun s =>
  match s.zs with
  | [] => .error .outOfDraws
  | z :: zs =>
    match G z with
    | .error e => .error e
    | .ok a => .ok (a, ⟨s.us, zs⟩)

theorem trans_readZ {R : α → β → Prop} {G : K → Except PyErr α} {G' : K → Except PyErr β} (h : ∀ z, match G z with
      | .error _ => ∃ e, G' z = .error e
      | .ok a => ∃ b, G' z = .ok b ∧ R a b) : Trans B R (readZ G) (readZ G') := by
  refine ⟨Equiv.refl _, keeps_refl, fun s => ?_⟩
  rcases s with ⟨us, _ | ⟨z, zs⟩⟩
  · exact ⟨_, rfl⟩
  · have h1 := h z
    simp only [readZ, Equiv.refl_apply]
    rcases e : G z with er | a
    · rw [e] at h1
      obtain ⟨e', h1⟩ := h1
      exact ⟨e', by simp only [h1]⟩
    · rw [e] at h1
      obtain ⟨b, h1, h2⟩ := h1
      refine ⟨⟨[], [z]⟩, ⟨[], [z]⟩, b, rfl, h2, fun v => ⟨rfl, ?_, ?_⟩⟩
      · simp [Draws.app, e]
      · simp [Draws.app, h1]

/-- One after the other. -/
def mapR (f : α → Reader K β) : List α → Reader K (List β)
  | [] => rpure []
  | a :: l => rbind (f a) fun b => rbind (mapR f l) fun bs => rpure (b :: bs)

/-- Reads nothing, or one normal number. -/
def Simple (f : Reader K α) : Prop := (∃ a, f = rpure a) ∨ ∃ G, f = readZ G

/-- Exchange the first two normal numbers. -/
def swapTwo (s : Draws K) : Draws K :=
  match s with
  | ⟨us, z1 :: z2 :: zs⟩ => ⟨us, z2 :: z1 :: zs⟩
  | s => s

theorem swapTwo_twice (s : Draws K) : swapTwo (swapTwo s) = s := by
  rcases s with ⟨us, _ | ⟨z1, _ | ⟨z2, zs⟩⟩⟩ <;> rfl

theorem keeps_swapTwo : Keeps B (swapTwo : Draws K → Draws K) := by
  refine ⟨fun s => ?_, fun s => ?_, fun N _ s => ?_⟩
  · rcases s with ⟨us, _ | ⟨z1, _ | ⟨z2, zs⟩⟩⟩ <;> rfl
  · rcases s with ⟨us, _ | ⟨z1, _ | ⟨z2, zs⟩⟩⟩
    · exact List.Perm.refl _
    · exact List.Perm.refl _
    · exact List.Perm.swap _ _ _
  · rcases s with ⟨us, _ | ⟨z1, _ | ⟨z2, zs⟩⟩⟩ <;> exact Iff.rfl

theorem trans_two {f : Reader K α} {g : Reader K β} (hf : Simple f) (hg : Simple g) :
    Trans B (fun (x : α × β) (y : β × α) => y = x.swap) (rbind f fun a => rbind g fun b => rpure (a, b)) (rbind g fun b => rbind f fun a => rpure (b, a)) := by
  rcases hf with ⟨a, rfl⟩ | ⟨G, rfl⟩
  · rcases hg with ⟨b, rfl⟩ | ⟨G, rfl⟩
    · exact trans_pure rfl
    · have h1 : ∀ (s : Draws K), rbind (rpure a) (fun a => rbind (readZ G) fun b => rpure (a, b)) s = rbind (readZ G) (fun b => rpure (a, b)) s := fun s => rfl
      rw [show (rbind (rpure a) (fun a => rbind (readZ G) fun b => rpure (a, b)) : Reader K (α × β)) = rbind (readZ G) (fun b => rpure (a, b)) from rfl]
      exact trans_bind (R := Eq) (trans_readZ fun z => by cases G z <;> simp) fun b b' h => by subst h; exact trans_pure rfl
  · rcases hg with ⟨b, rfl⟩ | ⟨G', rfl⟩
    · rw [show (rbind (rpure b) (fun b => rbind (readZ G) fun a => rpure (b, a)) : Reader K (β × α)) = rbind (readZ G) (fun a => rpure (b, a)) from rfl]
      exact trans_bind (R := Eq) (trans_readZ fun z => by cases G z <;> simp) fun b b' h => by subst h; exact trans_pure rfl
    · refine ⟨⟨swapTwo, swapTwo, swapTwo_twice, swapTwo_twice⟩, keeps_swapTwo, fun s => ?_⟩
      rcases s with ⟨us, _ | ⟨z1, _ | ⟨z2, zs⟩⟩⟩
      · exact ⟨_, rfl⟩
      · simp only [rbind, readZ]
        rcases e1 : G z1 with er | a
        · simp only [Equiv.coe_fn_mk, swapTwo]
          rcases e2 : G' z1 with er' | b
          · exact ⟨er', by simp only [e2]⟩
          · exact ⟨.outOfDraws, by simp only [e2]⟩
        · simp only [Equiv.coe_fn_mk, swapTwo]
          rcases e2 : G' z1 with er' | b
          · exact ⟨er', by simp only [e2]⟩
          · exact ⟨.outOfDraws, by simp only [e2]⟩
      · simp only [rbind, readZ, rpure]
        rcases e1 : G z1 with er | a
        · simp only [Equiv.coe_fn_mk, swapTwo]
          rcases e2 : G' z2 with er' | b
          · exact ⟨er', by simp only [e2]⟩
          · exact ⟨er, by simp only [e2, e1]⟩
        · simp only [Equiv.coe_fn_mk]
          rcases e2 : G' z2 with er' | b
          · exact ⟨er', by simp only [swapTwo, e2]⟩
          · refine ⟨⟨[], [z1, z2]⟩, ⟨[], [z2, z1]⟩, (b, a), rfl, rfl, fun v => ⟨rfl, ?_, ?_⟩⟩
            · simp [Draws.app, e1, e2]
            · simp [Draws.app, e1, e2]

theorem rbind_assoc (f : Reader K α) (g : α → Reader K β) (h : β → Reader K γ) : rbind (rbind f g) h = rbind f fun a => rbind (g a) h := by
  funext s
  simp only [rbind]
  rcases f s with e | ⟨a, rest⟩ <;> rfl

theorem trans_refl (f : Reader K α) (h : ∀ s a rest, f s = .ok (a, rest) → ∃ pre : Draws K, s = pre.app rest ∧ ∀ v, f (pre.app v) = .ok (a, v)) : Trans B Eq f f := by
  refine ⟨Equiv.refl _, keeps_refl, fun s => ?_⟩
  rcases e : f s with er | ⟨a, rest⟩
  · exact ⟨er, e⟩
  · obtain ⟨pre, h1, h2⟩ := h s a rest e
    exact ⟨pre, pre, a, h1, rfl, fun v => ⟨rfl, h2 v, h2 v⟩⟩

theorem trans_simple {f : Reader K α} (h : Simple f) : Trans B Eq f f := by
  rcases h with ⟨a, rfl⟩ | ⟨G, rfl⟩
  · exact trans_pure rfl
  · exact trans_readZ fun z => by cases G z <;> simp

theorem trans_mapR_same {f : α → Reader K β} {l : List α} (h : ∀ a ∈ l, Simple (f a)) : Trans B Eq (mapR f l) (mapR f l) := by
  induction l with
  | nil => exact trans_pure rfl
  | cons a l ih =>
    refine trans_bind (trans_simple (h a (by simp))) fun b b' hb => ?_
    subst hb
    exact trans_bind (ih fun a ha => h a (List.mem_cons_of_mem _ ha)) fun bs bs' hbs => by subst hbs; exact trans_pure rfl

/-- The same for entries in another order. -/
theorem trans_mapR_perm {f : α → Reader K β} {l l' : List α} (hp : l.Perm l') (h : ∀ a ∈ l, Simple (f a)) : Trans B List.Perm (mapR f l) (mapR f l') := by
  induction hp with
  | nil => exact trans_pure (List.Perm.refl _)
  | cons a _ ih =>
    refine trans_bind (trans_simple (h a (by simp))) fun b b' hb => ?_
    subst hb
    exact trans_bind (ih fun a ha => h a (List.mem_cons_of_mem _ ha)) fun bs bs' hbs => trans_pure (hbs.cons b)
  | swap a b l =>
    have h1 : ∀ a b, mapR f (a :: b :: l) = rbind (rbind (f a) fun x => rbind (f b) fun y => rpure (x, y)) fun q => rbind (mapR f l) fun bs => rpure (q.1 :: q.2 :: bs) := by
      intro a b
      simp only [mapR, rbind_assoc]
      rfl
    rw [h1, h1]
    refine trans_bind (trans_two (h b (by simp)) (h a (by simp))) fun q q' hq => ?_
    subst hq
    exact trans_bind (trans_mapR_same fun c hc => h c (by simp [hc])) fun bs bs' hbs => by subst hbs; exact trans_pure (List.Perm.swap _ _ _)
  | trans h1 h2 ih1 ih2 =>
    refine (trans_comp (ih1 h) (ih2 fun a ha => h a (h1.mem_iff.2 ha))).mono ?_
    rintro a c ⟨b, hab, hbc⟩
    exact hab.trans hbc

/-- The same for corresponding entries. -/
theorem trans_mapR_map {e : α → γ} {f : α → Reader K β} {g : γ → Reader K δ} {R : β → δ → Prop} {l : List α} (h : ∀ a ∈ l, Trans B R (f a) (g (e a))) :
    Trans B (List.Forall₂ R) (mapR f l) (mapR g (l.map e)) := by
  induction l with
  | nil => exact trans_pure List.Forall₂.nil
  | cons a l ih =>
    refine trans_bind (h a (by simp)) fun b b' hb => ?_
    exact trans_bind (ih fun a ha => h a (List.mem_cons_of_mem _ ha)) fun bs bs' hbs => trans_pure (List.Forall₂.cons hb hbs)

end
end Bart.Streams
