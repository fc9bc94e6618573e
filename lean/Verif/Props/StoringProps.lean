import Verif.Proofs.SimRun
import Verif.Props.RunnerProps
import Verif.Spec.Storing

/-! C86: what is stored, and how long the burn-in is, has no influence on the chain. C87: columns that are constant in the training data have no influence. -/

set_option linter.unusedSectionVars false

namespace Bart
open Spec Sim
variable {K : Type} [Field K] [LinearOrder K] [IsStrictOrderedRing K] {n p p' : Nat} [MathFns K] [FloorRing K]

/-! ### lemmas -/

theorem sameUpTo_of_eRel {α β : Type} {R : α → β → Prop} {x : Except PyErr α} {y : Except PyErr β} (h : ERel R x y) : SameUpTo R x y := by
  cases h with
  | error e => exact rfl
  | ok h => exact h

section pair
variable {γ : Cols p p'} {X : Fin n → Fin p → Fl K} {X' : Fin n → Fin p' → Fl K} {s : SkModel K p} {s' : SkModel K p'} {y : Fin n → K} {d : Data K n p} {m : BModel K n p}

theorem constructModel_rel (hp : 0 < p) (hX : ∀ r v, X' r (γ.at' v) = X r v) (hc : ∀ j, γ.Extra j → ∃ a : Fl K, a ≠ .nan ∧ ∀ r, X' r j = a) (hs : SameSampling s s') :
    ERel (fun a b => DataRel γ a.1 b.1 ∧ MRel γ a.2 b.2) (s.constructModel X y) (s'.constructModel X' y) := by
  have hp' : p' ≠ 0 := fun h => by
    subst h; exact (γ.at' ⟨0, hp⟩).elim0
  unfold SkModel.constructModel
  by_cases hn : n = 0
  · rw [if_pos (.inl hn), if_pos (.inl hn)]; exact .error _
  · rw [if_neg (by omega), if_neg (by omega)]
    have h1 := dataRel_init hX hc y none true none none
    unfold SkModel.convertData
    rcases e1 : Data.init X y none true none none none none with e | d <;> rcases e1' : Data.init X' y none true none none none none with e' | d' <;> rw [e1, e1'] at h1 <;> cases h1
    · exact .error _
    · next hd =>
      simp only []
      rw [hd.y]
      cases d.y.normalizingScale with
      | error e => exact .error e
      | ok c =>
        simp only [hs.nTrees, hs.sigmaA, hs.sigmaB, hs.alpha, hs.beta]
        refine ERel.elim (construct e1 hd _ _ _ _ _) (fun e => .error e) ?_
        intro m m' H
        exact .ok ⟨hd, H⟩

theorem constructModel_refl (h : s.constructModel X y = .ok (d, m)) : MRel (Cols.refl p) m m := by
  obtain ⟨-, hp, -⟩ := constructModel_spec h
  have := constructModel_rel (γ := Cols.refl p) (X := X) (X' := X) (s := s) (s' := s) (y := y) hp (fun _ _ => rfl) (fun j hj => absurd rfl (hj j)) ⟨rfl, rfl, rfl, rfl, rfl, rfl, rfl, rfl⟩
  rw [h] at this
  cases this with
  | ok h => exact h.2

theorem constructModel_inv (hX : NoNan X) (h : s.constructModel X y = .ok (d, m)) : ∃ y', ModelInv False X y' m := by
  obtain ⟨-, -, -, hf, -⟩ := constructModel_spec h
  obtain ⟨y', -, hI, -⟩ := reachable_model_inv (N := False) hX (fun h => h.elim) one_ne_zero one_ne_zero hf (.nil m)
  exact ⟨y', hI⟩

theorem noNan_extra (hX : ∀ r v, X' r (γ.at' v) = X r v) (hc : ∀ j, γ.Extra j → ∃ a : Fl K, a ≠ .nan ∧ ∀ r, X' r j = a) (h : NoNan X) : NoNan X' := by
  intro r j
  rcases γ.extra_or j with hj | ⟨v, rfl⟩
  · obtain ⟨a, ha, e⟩ := hc j hj
    rw [e r]; exact ha
  · rw [hX]; exact h r v

/-- A chain with any settings for storing: the sweeps alone decide whether it fails. -/
theorem runChain_sweeps (hX : NoNan X) (hp1 : s.pGrow ≠ 0) (hp2 : s.pPrune ≠ 0) (hth : s.thin ≠ 0) (h : s.constructModel X y = .ok (d, m)) (r : Rand K) :
    ERel (fun _ _ => True) (sweeps s.pGrow s.pPrune (s.nBurn + s.nSamples) m r) (s.runChain X y r) := by
  obtain ⟨y', hI⟩ := constructModel_inv hX h
  have h1 := samples_sweeps (c := s.sampleParams) hX hp1 hp2 hth (constructModel_refl h) hI s.nSamples s.nBurn r
  unfold SkModel.runChain
  simp only [h]
  refine ERel.elim h1 (fun e => .error e) ?_
  intro a b _
  exact .ok trivial

theorem runChain_rel (hp : 0 < p) (hN : NoNan X) (hX : ∀ r v, X' r (γ.at' v) = X r v) (hc : ∀ j, γ.Extra j → ∃ a : Fl K, a ≠ .nan ∧ ∀ r, X' r j = a) (hs : SameSampling s s')
    (hp1 : s.pGrow ≠ 0) (hp2 : s.pPrune ≠ 0) (hth : s.thin ≠ 0) (hth' : s'.thin ≠ 0) (hlen : s.nBurn + s.nSamples = s'.nBurn + s'.nSamples) (r : Rand K) :
    ERel (fun _ _ => True) (s.runChain X y r) (s'.runChain X' y r) := by
  have h0 := constructModel_rel (y := y) hp hX hc hs
  rcases e1 : s.constructModel X y with e | ⟨d, m⟩ <;> rcases e1' : s'.constructModel X' y with e' | ⟨d', m'⟩ <;> rw [e1, e1'] at h0 <;> cases h0
  · unfold SkModel.runChain
    rw [e1, e1']
    exact .error _
  · next h0 =>
    have h1 := runChain_sweeps hN hp1 hp2 hth e1 r
    have h2 := runChain_sweeps (noNan_extra hX hc hN) (by rw [hs.pGrow]; exact hp1) (by rw [hs.pPrune]; exact hp2) hth' e1' r
    rw [hs.pGrow, hs.pPrune, ← hlen] at h2
    obtain ⟨y', hI⟩ := constructModel_inv hN e1
    have h3 := sweeps_rel hN hp1 hp2 h0.2 hI r (s.nBurn + s.nSamples)
    simp only at h3
    rcases q1 : sweeps s.pGrow s.pPrune (s.nBurn + s.nSamples) m r with e | a <;> rcases q2 : sweeps s.pGrow s.pPrune (s.nBurn + s.nSamples) m' r with e' | a' <;>
      rw [q1] at h1 h3 <;> rw [q2] at h2 h3 <;> cases h3 <;> rcases q3 : s.runChain X y r with e1 | b <;> rcases q4 : s'.runChain X' y r with e2 | b' <;> rw [q3] at h1 <;> rw [q4] at h2 <;>
      cases h1 <;> cases h2
    · exact .error _
    · exact .ok trivial

/-- Samples stored at the same time, counted from the beginning of the burn-in, show the same. -/
theorem chain_pair (hN : NoNan X) (hX : ∀ r v, X' r (γ.at' v) = X r v) (hc : ∀ j, γ.Extra j → ∃ a : Fl K, a ≠ .nan ∧ ∀ r, X' r j = a) (hs : SameSampling s s')
    (hp1 : s.pGrow ≠ 0) (hp2 : s.pPrune ≠ 0) {r : Rand K} {o : ChainOut K p} {o' : ChainOut K p'} (h : s.runChain X y r = .ok o) (h' : s'.runChain X' y r = .ok o')
    {j t j' t' : Nat} (hj : (storedTimes s.nSamples s.thin)[j]? = some t) (hj' : (storedTimes s'.nSamples s'.thin)[j']? = some t') (ht : s.nBurn + t = s'.nBurn + t') :
    ∃ x x', o.models[j]? = some x ∧ o'.models[j']? = some x' ∧
      (∀ {q : Nat} (Z : Fin q → Fin p → Fl K) (Z' : Fin q → Fin p' → Fl K), (∀ r, RowRel γ (Z r) (Z' r)) → x'.predictX Z' = x.predictX Z) ∧
      x'.live.storedSigma x'.stored = x.live.storedSigma x.stored ∧
      (s.storeAcceptance = true → s'.storeAcceptance = true → ∃ a, o.chain.acceptance[j]? = some a ∧ o'.chain.acceptance[j']? = some a) ∧
      (s.storePredictions = true → s'.storePredictions = true → ∃ f, o.predictions[j]? = some f ∧ o'.predictions[j']? = some f) := by
  obtain ⟨d, m, m1, ch, r1, e1, e2, rfl⟩ := runChain_spec h
  obtain ⟨d', m', m1', ch', r1', e1', e2', rfl⟩ := runChain_spec h'
  obtain ⟨-, hp, -, hf, -⟩ := constructModel_spec e1
  obtain ⟨-, -, -, hf', -⟩ := constructModel_spec e1'
  have hN' := noNan_extra hX hc hN
  obtain ⟨yy, hI⟩ := constructModel_inv hN e1
  obtain ⟨yy', hI'⟩ := constructModel_inv hN' e1'
  have h0 := constructModel_rel (y := y) hp hX hc hs
  rw [e1, e1'] at h0
  obtain ⟨x, P, mus, M, r0, rM, a1, a2, a3, a4, a5, a6, a7, a8, a9⟩ := stored_sweeps hN hf (c := s.sampleParams) hp1 hp2 (constructModel_refl e1) hI e2 hj
  obtain ⟨x', P', mus', M', r0', rM', b1, b2, b3, b4, b5, b6, b7, b8, b9⟩ := stored_sweeps hN' hf' (c := s'.sampleParams) (by show s'.pGrow ≠ 0; rw [hs.pGrow]; exact hp1)
    (by show s'.pPrune ≠ 0; rw [hs.pPrune]; exact hp2) (constructModel_refl e1') hI' e2' hj'
  cases h0
  next h0 =>
  have h3 := sweeps_rel hN hp1 hp2 h0.2 hI r (s.nBurn + t)
  simp only [SkModel.sampleParams, hs.pGrow, hs.pPrune, ← ht] at a2 a3 b2 b3 h3
  rw [a2, b2] at h3
  cases h3
  next h3 =>
  obtain ⟨HP, e3, -⟩ := h3
  simp only at HP e3
  subst e3
  have h4 := HP.sweep hN a5 hp1 hp2 r0'
  rw [a3, b3] at h4
  cases h4
  next h4 =>
  obtain ⟨ha, H, -⟩ := h4
  simp only at ha H
  refine ⟨⟨n, m1, x⟩, ⟨n, m1', x'⟩, by simp [ChainOut.models, a1], by simp [ChainOut.models, b1], ?_, ?_, ?_, ?_⟩
  · intro q Z Z' hZ
    unfold Sample.predictX
    simp only []
    rw [a7, b7]
    exact H.predictX hZ
  · simp only []
    rw [a6, b6]; exact H.sigma
  · intro c c'
    exact ⟨_, a8 c, by rw [b8 c', acceptance_same ha]⟩
  · intro c c'
    refine ⟨List.ofFn (fun row => sumValue M.trees row), by simp [ChainOut.predictions, a9 c], ?_⟩
    simp only [ChainOut.predictions, List.getElem?_map, b9 c', Option.map_some]
    obtain ⟨u1, q1, -⟩ := a4.predict hN
    obtain ⟨u2, q2, -⟩ := b4.predict hN'
    have h5 := H.predict
    rw [q1, q2] at h5
    cases h5
    next h5 => exact congrArg (fun f => some (List.ofFn f)) h5.1

/-- With `thin = 0` the burn-in decides which exception is raised. -/
theorem runChain_thin0 (hth : s.thin = 0) (h : s.constructModel X y = .ok (d, m)) (r : Rand K) :
    s.runChain X y r = match sweeps s.pGrow s.pPrune s.nBurn m r with
      | .error e => .error e
      | .ok _ => .error .zeroDivision := by
  unfold SkModel.runChain
  simp only [h, BModel.samples, sweeps_burn, SkModel.sampleParams, hth, if_true]
  cases sweeps s.pGrow s.pPrune s.nBurn m r <;> rfl

theorem runChain_rel' (hp : 0 < p) (hN : NoNan X) (hX : ∀ r v, X' r (γ.at' v) = X r v) (hc : ∀ j, γ.Extra j → ∃ a : Fl K, a ≠ .nan ∧ ∀ r, X' r j = a) (hs : SameSampling s s')
    (hl : SameLength s s') (hp1 : s.pGrow ≠ 0) (hp2 : s.pPrune ≠ 0) (r : Rand K) :
    ERel (fun _ _ => True) (s.runChain X y r) (s'.runChain X' y r) := by
  by_cases hth : s.thin = 0
  · have h0 := constructModel_rel (y := y) hp hX hc hs
    rcases e1 : s.constructModel X y with e | ⟨d, m⟩ <;> rcases e1' : s'.constructModel X' y with e' | ⟨d', m'⟩ <;> rw [e1, e1'] at h0 <;> cases h0
    · unfold SkModel.runChain
      rw [e1, e1']
      exact .error _
    · next h0 =>
      rw [runChain_thin0 hth e1, runChain_thin0 (hl.thin.trans hth) e1', hs.pGrow, hs.pPrune, hl.nBurn]
      obtain ⟨y', hI⟩ := constructModel_inv hN e1
      refine ERel.elim (sweeps_rel hN hp1 hp2 h0.2 hI r s.nBurn) (fun e => .error e) ?_
      intro a b _
      exact .error _
  · exact runChain_rel hp hN hX hc hs hp1 hp2 hth (by rw [hl.thin]; exact hth) (by rw [hl.nBurn, hl.nSamples]) r

theorem runChains_rel {R : ChainOut K p → ChainOut K p' → Prop} {rs : List (Rand K)} (h : ∀ r ∈ rs, ERel R (s.runChain X y r) (s'.runChain X' y r)) :
    ERel (List.Forall₂ R) (s.runChains X y rs) (s'.runChains X' y rs) := by
  induction rs with
  | nil => exact .ok .nil
  | cons r rs ih =>
    simp only [SkModel.runChains]
    refine ERel.elim (h r (by simp)) (fun e => .error e) ?_
    intro o o' ho
    simp only []
    refine ERel.elim (ih (fun r hr => h r (by simp [hr]))) (fun e => .error e) ?_
    intro os os' hos
    exact .ok (.cons ho hos)

variable (γ) in
/-- The two samples predict the same. -/
def SamplePair (x : Sample K p) (x' : Sample K p') : Prop :=
  (∀ {q : Nat} (Z : Fin q → Fin p → Fl K) (Z' : Fin q → Fin p' → Fl K), (∀ r, RowRel γ (Z r) (Z' r)) → x'.predictX Z' = x.predictX Z) ∧
    x'.live.storedSigma x'.stored = x.live.storedSigma x.stored

variable (γ s s') in
/-- The two chains show the same. -/
def ChainPair (o : ChainOut K p) (o' : ChainOut K p') : Prop :=
  List.Forall₂ (SamplePair γ) o.models o'.models ∧ (s.storeAcceptance = true → s'.storeAcceptance = true → o'.chain.acceptance = o.chain.acceptance) ∧
    (s.storePredictions = true → s'.storePredictions = true → o'.predictions = o.predictions)

theorem forall₂_getElem? {α β : Type} {R : α → β → Prop} : ∀ {l : List α} {l' : List β}, l.length = l'.length → (∀ (j : Nat) x x', l[j]? = some x → l'[j]? = some x' → R x x') → List.Forall₂ R l l'
  | [], [], _, _ => .nil
  | a :: l, b :: l', h, H => .cons (H 0 a b rfl rfl) (forall₂_getElem? (by simpa using h) (fun j x x' h1 h2 => H (j + 1) x x' (by simpa using h1) (by simpa using h2)))

theorem chainPair_of (hN : NoNan X) (hX : ∀ r v, X' r (γ.at' v) = X r v) (hc : ∀ j, γ.Extra j → ∃ a : Fl K, a ≠ .nan ∧ ∀ r, X' r j = a) (hs : SameSampling s s')
    (hl : SameLength s s') (hp1 : s.pGrow ≠ 0) (hp2 : s.pPrune ≠ 0) {r : Rand K} {o : ChainOut K p} {o' : ChainOut K p'} (h : s.runChain X y r = .ok o) (h' : s'.runChain X' y r = .ok o') :
    ChainPair γ s s' o o' := by
  obtain ⟨-, l1, l2, l3⟩ := chain_facts hN hp1 hp2 h
  obtain ⟨-, l1', l2', l3'⟩ := chain_facts (noNan_extra hX hc hN) (by rw [hs.pGrow]; exact hp1) (by rw [hs.pPrune]; exact hp2) h'
  rw [hl.nSamples, hl.thin] at l1'
  have key : ∀ j < (storedTimes s.nSamples s.thin).length, ∃ x x', o.models[j]? = some x ∧ o'.models[j]? = some x' ∧ SamplePair γ x x' ∧
      (s.storeAcceptance = true → s'.storeAcceptance = true → o'.chain.acceptance[j]? = o.chain.acceptance[j]?) ∧
      (s.storePredictions = true → s'.storePredictions = true → o'.predictions[j]? = o.predictions[j]?) := by
    intro j hj
    obtain ⟨x, x', a1, a2, a3, a4, a5, a6⟩ := chain_pair hN hX hc hs hp1 hp2 h h' (List.getElem?_eq_getElem hj) (by rw [hl.nSamples, hl.thin]; exact List.getElem?_eq_getElem hj)
      (by rw [hl.nBurn])
    exact ⟨x, x', a1, a2, ⟨a3, a4⟩, fun c c' => by obtain ⟨a, e, e'⟩ := a5 c c'; rw [e, e'], fun c c' => by obtain ⟨a, e, e'⟩ := a6 c c'; rw [e, e']⟩
  refine ⟨forall₂_getElem? (by simp [ChainOut.models, l1, l1']) ?_, ?_, ?_⟩
  · intro j x x' e e'
    have hj : j < (storedTimes s.nSamples s.thin).length := by
      have := (List.getElem?_eq_some_iff.1 e).1
      simpa [ChainOut.models, l1] using this
    obtain ⟨z, z', a1, a2, a3, -⟩ := key j hj
    rw [a1] at e; rw [a2] at e'
    cases e; cases e'
    exact a3
  · intro c c'
    apply List.ext_getElem?
    intro j
    by_cases hj : j < (storedTimes s.nSamples s.thin).length
    · obtain ⟨_, _, -, -, -, a4, -⟩ := key j hj
      exact a4 c c'
    · rw [List.getElem?_eq_none (by rw [l2', l1', if_pos c']; omega), List.getElem?_eq_none (by rw [l2, l1, if_pos c]; omega)]
  · intro c c'
    apply List.ext_getElem?
    intro j
    by_cases hj : j < (storedTimes s.nSamples s.thin).length
    · obtain ⟨_, _, -, -, -, -, a5⟩ := key j hj
      exact a5 c c'
    · rw [List.getElem?_eq_none (by simp only [ChainOut.predictions, List.length_map]; rw [l3', l1', if_pos c']; omega),
        List.getElem?_eq_none (by simp only [ChainOut.predictions, List.length_map]; rw [l3, l1, if_pos c]; omega)]

variable (γ s s') in
/-- The two fitted estimators show the same. -/
structure FitPair (f : SkModel K p) (f' : SkModel K p') : Prop where
  predict : ∀ {q : Nat} (Z : Fin q → Fin p → Fl K) (Z' : Fin q → Fin p' → Fl K), (∀ r, RowRel γ (Z r) (Z' r)) → f'.predict (some ⟨q, Z'⟩) = f.predict (some ⟨q, Z⟩)
  inSample : s.storePredictions = true → s'.storePredictions = true → f'.predict none = f.predict none
  acceptance : s.storeAcceptance = true → s'.storeAcceptance = true → f'.samples.map Combined.acceptance = f.samples.map Combined.acceptance
  sigma : f'.samples.map (fun c => c.models.map (fun x => x.live.storedSigma x.stored)) = f.samples.map (fun c => c.models.map (fun x => x.live.storedSigma x.stored))

theorem forall₂_flatten {α β : Type} {R : α → β → Prop} {l : List (List α)} {l' : List (List β)} (h : List.Forall₂ (List.Forall₂ R) l l') : List.Forall₂ R l.flatten l'.flatten := by
  induction h with
  | nil => exact .nil
  | cons h _ ih =>
    simp only [List.flatten_cons]
    exact List.rel_append h ih

theorem forall₂_map_eq {α β γ' : Type} {R : α → β → Prop} {f : α → γ'} {g : β → γ'} (hR : ∀ a b, R a b → g b = f a) {l : List α} {l' : List β} (h : List.Forall₂ R l l') :
    l'.map g = l.map f := by
  induction h with
  | nil => rfl
  | cons h _ ih => simp only [List.map_cons, hR _ _ h, ih]

theorem fit_pair (hp : 0 < p) (hN : NoNan X) (hX : ∀ r v, X' r (γ.at' v) = X r v) (hc : ∀ j, γ.Extra j → ∃ a : Fl K, a ≠ .nan ∧ ∀ r, X' r j = a) (hs : SameSampling s s')
    (hl : SameLength s s') (hp1 : s.pGrow ≠ 0) (hp2 : s.pPrune ≠ 0) (rs : Nat → Rand K) :
    ERel (FitPair γ s s') (s.fit X y rs) (s'.fit X' y rs) := by
  have h0 := constructModel_rel (y := y) hp hX hc hs
  have hch : ∀ r, ERel (ChainPair γ s s') (s.runChain X y r) (s'.runChain X' y r) := by
    intro r
    have h1 := runChain_rel' (y := y) hp hN hX hc hs hl hp1 hp2 r
    rcases e : s.runChain X y r with a | o <;> rcases e' : s'.runChain X' y r with a' | o' <;> rw [e, e'] at h1 <;> cases h1
    · exact .error _
    · exact .ok (chainPair_of hN hX hc hs hl hp1 hp2 e e')
  unfold SkModel.fit
  refine ERel.elim h0 (fun e => .error e) ?_
  rintro ⟨d, m⟩ ⟨d', m'⟩ ⟨hd, hm⟩
  simp only [] at hd hm ⊢
  rw [hs.nChains]
  have h2 := runChains_rel (R := ChainPair γ s s') (X := X) (X' := X') (s := s) (s' := s') (y := y) (rs := (List.range s.nChains).map rs) (fun r _ => hch r)
  rcases e : s.runChains X y ((List.range s.nChains).map rs) with a | os <;> rcases e' : s'.runChains X' y ((List.range s.nChains).map rs) with a' | os' <;> rw [e, e'] at h2 <;> cases h2
  · exact .error _
  · next h2 =>
    simp only []
    by_cases hn : (List.range s.nChains).map rs = []
    · rw [hn] at e e'
      cases e; cases e'
      exact .error _
    · obtain ⟨c, hc1, -⟩ := C51_fit hN hp1 hp2 hn e
      obtain ⟨c', hc2, -⟩ := C51_fit (noNan_extra hX hc hN) (by rw [hs.pGrow]; exact hp1) (by rw [hs.pPrune]; exact hp2) hn e'
      rw [hc1, hc2]
      refine .ok ?_
      obtain ⟨m1, a1, p1, -⟩ := C51_combine hc1
      obtain ⟨m2, a2, p2, -⟩ := C51_combine hc2
      have hmod : List.Forall₂ (SamplePair γ) c.models c'.models := by
        rw [m1, m2]
        have : List.Forall₂ (List.Forall₂ (SamplePair γ)) (os.map ChainOut.models) (os'.map ChainOut.models) := by
          rw [List.forall₂_map_left_iff, List.forall₂_map_right_iff]
          exact h2.imp (fun _ _ h => h.1)
        exact forall₂_flatten this
      have hacc : s.storeAcceptance = true → s'.storeAcceptance = true → c'.acceptance = c.acceptance := by
        intro b b'
        rw [a1, a2, List.flatMap, List.flatMap]
        exact congrArg List.flatten (forall₂_map_eq (fun _ _ h => h.2.1 b b') h2)
      have hpred : s.storePredictions = true → s'.storePredictions = true → c'.predictions = c.predictions := by
        intro b b'
        rw [p1, p2, List.flatMap, List.flatMap]
        exact congrArg List.flatten (forall₂_map_eq (fun _ _ h => h.2.2 b b') h2)
      have hun : ∀ l : List K, unnormalizeList d' l = unnormalizeList d l := by
        intro l
        unfold unnormalizeList
        rw [hd.y]
      refine ⟨?_, ?_, ?_, ?_⟩
      · intro q Z Z' hZ
        have : c'.models.map (fun x => List.ofFn (x.predictX Z')) = c.models.map (fun x => List.ofFn (x.predictX Z)) :=
          forall₂_map_eq (fun x x' h => by rw [h.1 Z Z' hZ]) hmod
        simp only [SkModel.predict, SkModel.outOfSamplePredict, this, hun]
      · intro b b'
        simp only [SkModel.predict, b, b', if_true, hpred b b', hun]
      · intro b b'
        simp only [Option.map_some, hacc b b']
      · simp only [Option.map_some, Option.some.injEq]
        exact forall₂_map_eq (fun x x' h => h.2) hmod

end pair

/-! ### C86 -/

theorem rowRel_self (x : Fin p → Fl K) : RowRel (Cols.refl p) x x := ⟨fun _ => rfl, fun j hj => absurd rfl (hj j)⟩

variable {X : Fin n → Fin p → Fl K}

/-- C86: two chains on the same data with the same draws whose settings differ only in the length of the burn-in, the number of samples, `thin`, and in what is stored. Two samples that
were stored the same number of sweeps after the beginning (burn-in included) predict the same everywhere and have the same sigma; if both chains record the acceptance or the
predictions on the training data, then these records agree too. -/
theorem C86_samples (hX : NoNan X) {s s' : SkModel K p} (hs : SameSampling s s') (hp1 : s.pGrow ≠ 0) (hp2 : s.pPrune ≠ 0) {y : Fin n → K} {r : Rand K} {o o' : ChainOut K p}
    (h : s.runChain X y r = .ok o) (h' : s'.runChain X y r = .ok o') {j t j' t' : Nat} (hj : (storedTimes s.nSamples s.thin)[j]? = some t)
    (hj' : (storedTimes s'.nSamples s'.thin)[j']? = some t') (ht : s.nBurn + t = s'.nBurn + t') :
    ∃ x x', o.models[j]? = some x ∧ o'.models[j']? = some x' ∧ (∀ {q : Nat} (Z : Fin q → Fin p → Fl K), x'.predictX Z = x.predictX Z) ∧
      x'.live.storedSigma x'.stored = x.live.storedSigma x.stored ∧
      (s.storeAcceptance = true → s'.storeAcceptance = true → ∃ a, o.chain.acceptance[j]? = some a ∧ o'.chain.acceptance[j']? = some a) ∧
      (s.storePredictions = true → s'.storePredictions = true → ∃ f, o.predictions[j]? = some f ∧ o'.predictions[j']? = some f) := by
  obtain ⟨x, x', a1, a2, a3, a4⟩ := chain_pair (γ := Cols.refl p) hX (fun _ _ => rfl) (fun j hj => absurd rfl (hj j)) hs hp1 hp2 h h' hj hj' ht
  exact ⟨x, x', a1, a2, fun Z => a3 Z Z (fun r => rowRel_self _), a4⟩

/-- C86: if the numbers of sweeps agree (burn-in and samples together), then the one chain raises an exception if and only if the other one does, and the exceptions are the same:
storing never fails and never prevents a failure. (`thin = 0` is a division by zero.) -/
theorem C86_outcome (hX : NoNan X) {s s' : SkModel K p} (hs : SameSampling s s') (hp1 : s.pGrow ≠ 0) (hp2 : s.pPrune ≠ 0) (hth : s.thin ≠ 0) (hth' : s'.thin ≠ 0)
    (hlen : s.nBurn + s.nSamples = s'.nBurn + s'.nSamples) (y : Fin n → K) (r : Rand K) : SameUpTo (fun _ _ => True) (s.runChain X y r) (s'.runChain X y r) := by
  rcases Nat.eq_zero_or_pos p with rfl | hp
  · unfold SkModel.runChain SkModel.constructModel
    simp only [or_true, if_true]
    exact rfl
  · exact sameUpTo_of_eRel (runChain_rel (γ := Cols.refl p) hp hX (fun _ _ => rfl) (fun j hj => absurd rfl (hj j)) hs hp1 hp2 hth hth' hlen r)

/-- C86 for `fit`: what is stored besides the models (`store_in_sample_predictions`, `store_acceptance_trace`) has no influence on any prediction, nor on the samples of sigma, nor on
whether `fit` raises an exception. -/
theorem C86_fit (hX : NoNan X) {s s' : SkModel K p} (hs : SameSampling s s') (hl : SameLength s s') (hp1 : s.pGrow ≠ 0) (hp2 : s.pPrune ≠ 0) (y : Fin n → K) (rs : Nat → Rand K) :
    SameUpTo (fun f f' => (∀ (q : Nat) (Z : Fin q → Fin p → Fl K), f'.predict (some ⟨q, Z⟩) = f.predict (some ⟨q, Z⟩)) ∧
      (s.storePredictions = true → s'.storePredictions = true → f'.predict none = f.predict none) ∧
      (s.storeAcceptance = true → s'.storeAcceptance = true → f'.samples.map Combined.acceptance = f.samples.map Combined.acceptance) ∧
      f'.samples.map (fun c => c.models.map (fun x => x.live.storedSigma x.stored)) = f.samples.map (fun c => c.models.map (fun x => x.live.storedSigma x.stored)))
      (s.fit X y rs) (s'.fit X y rs) := by
  rcases Nat.eq_zero_or_pos p with rfl | hp
  · unfold SkModel.fit SkModel.constructModel
    simp only [or_true, if_true]
    exact rfl
  · refine sameUpTo_of_eRel ((fit_pair (γ := Cols.refl p) hp hX (fun _ _ => rfl) (fun j hj => absurd rfl (hj j)) hs hl hp1 hp2 rs).mono ?_)
    intro f f' H
    exact ⟨fun q Z => H.predict Z Z (fun r => rowRel_self _), H.inSample, H.acceptance, H.sigma⟩

/-! ### C87 -/

/-- C87: adding columns that are constant in the training data (any constant but NaN) to the training data has no effect. With the same draws the fits with and without them both fail
with the same exception, or the two estimators make the same predictions for all new data whose entries in the further columns are neither NaN nor -inf (whatever these entries are), the same
predictions on the training data, and have the same acceptance trace and samples of sigma. -/
theorem C87_constant_columns (hp : 0 < p) (hX : NoNan X) {g : Fin p → Fin p'} {X' : Fin n → Fin p' → Fl K} (hg : WithColumns g X X')
    (hc : ∀ j, j ∉ Set.range g → ∃ a : Fl K, a ≠ .nan ∧ ∀ r, X' r j = a) {s : SkModel K p} {s' : SkModel K p'} (hs : SameSampling s s') (hl : SameLength s s')
    (hst : s'.storePredictions = s.storePredictions ∧ s'.storeAcceptance = s.storeAcceptance) (hp1 : s.pGrow ≠ 0) (hp2 : s.pPrune ≠ 0) (y : Fin n → K) (rs : Nat → Rand K) :
    SameUpTo (fun f f' => (∀ (q : Nat) (Z : Fin q → Fin p → Fl K) (Z' : Fin q → Fin p' → Fl K), WithColumns g Z Z' → (∀ r j, j ∉ Set.range g → Z' r j ≠ .nan ∧ Z' r j ≠ .ninf) →
        f'.predict (some ⟨q, Z'⟩) = f.predict (some ⟨q, Z⟩)) ∧
      (s.storePredictions = true → f'.predict none = f.predict none) ∧
      (s.storeAcceptance = true → f'.samples.map Combined.acceptance = f.samples.map Combined.acceptance) ∧
      f'.samples.map (fun c => c.models.map (fun x => x.live.storedSigma x.stored)) = f.samples.map (fun c => c.models.map (fun x => x.live.storedSigma x.stored)))
      (s.fit X y rs) (s'.fit X' y rs) := by
  let γ : Cols p p' := ⟨g, hg.mono⟩
  have hex : ∀ j, γ.Extra j → j ∉ Set.range g := by rintro j hj ⟨v, hv⟩; exact hj v hv
  refine sameUpTo_of_eRel ((fit_pair (γ := γ) hp hX hg.common (fun j hj => hc j (hex j hj)) hs hl hp1 hp2 rs).mono ?_)
  intro f f' H
  refine ⟨fun q Z Z' hZ hZ' => H.predict Z Z' (fun r => ⟨fun v => hZ.common r v, fun j hj => hZ' r j (hex j hj)⟩), fun h => H.inSample h (hst.1.trans h), fun h => H.acceptance h (hst.2.trans h), H.sigma⟩

/-! ### examples -/

section ex
attribute [local instance] exFns

/-- C86, the example: the chain of `exSk` stores the samples 0 and 2 after 1 sweep of burn-in. The other one has no burn-in and stores each of 4 samples and nothing else; its samples 1 and 3 are the
same, and sample 2 is another one. -/
example : SameSampling (exSk true) { exSk false with nSamples := 4, nBurn := 0, thin := 1, storeAcceptance := false } ∧
    (match (exSk true).runChain exX exY exRands1, ({ exSk false with nSamples := 4, nBurn := 0, thin := 1, storeAcceptance := false } : SkModel ℚ 1).runChain exX exY exRands1 with
    | .ok o, .ok o' => decide (o.models.map (fun x => List.ofFn (x.predictX exX)) = [0, 2].filterMap (fun j => (o'.models.map (fun x => List.ofFn (x.predictX exX)))[j + 1]?) ∧
        o.models.length = 2 ∧ o'.models.length = 4 ∧ (o'.models.map (fun x => List.ofFn (x.predictX exX)))[2]? ≠ (o'.models.map (fun x => List.ofFn (x.predictX exX)))[3]?)
    | _, _ => false) = true :=
  ⟨⟨rfl, rfl, rfl, rfl, rfl, rfl, rfl, rfl⟩, by decide +kernel⟩

/-- C86 for `fit`, the example. -/
example : SameSampling (exSk true) (exSk false) ∧ SameLength (exSk true) (exSk false) ∧ (match exFit true, exFit false with
    | .ok s1, .ok s2 => match s1.predict (some ⟨3, exX⟩), s2.predict (some ⟨3, exX⟩) with
      | .ok f, .ok g => decide (f = g ∧ f[0]? ≠ f[1]?)
      | _, _ => false
    | _, _ => false) = true :=
  ⟨⟨rfl, rfl, rfl, rfl, rfl, rfl, rfl, rfl⟩, ⟨rfl, rfl, rfl⟩, by decide +kernel⟩

/-- The settings of the example for two columns. -/
def exSkc : SkModel ℚ 2 := ⟨2, 2, 1, 1, 3, 1, 1/2, 1/2, 1, true, true, 1/2, 1/2, none, none, none, none⟩

/-- A constant column before the only column of the example. -/
def exXc (a : Fl ℚ) : Fin 3 → Fin 2 → Fl ℚ := fun r j => if j = 0 then a else exX r 0

/-- C87, the example: a constant column before the only column; the predictions for new data with another value there. -/
example : WithColumns (fun _ => 1) exX (exXc (.fin 7)) ∧ SameSampling (exSk true) exSkc ∧ SameLength (exSk true) exSkc ∧ (match exFit true, exSkc.fit (exXc (.fin 7)) exY exRs with
    | .ok s1, .ok s2 => match s1.predict (some ⟨3, exX⟩), s2.predict (some ⟨3, exXc (.fin 9)⟩) with
      | .ok f, .ok g => decide (f = g ∧ f[0]? ≠ f[1]?)
      | _, _ => false
    | _, _ => false) = true := by
  refine ⟨⟨fun a b h => absurd h (by omega), ?_⟩, ⟨rfl, rfl, rfl, rfl, rfl, rfl, rfl, rfl⟩, ⟨rfl, rfl, rfl⟩, by decide +kernel⟩
  intro r v
  have : v = 0 := by omega
  subst this; rfl

/-- C87: the restriction on new data is needed. With NaN in the constant column the prediction is another one, although no tree splits on that column. -/
theorem C87_nan_refuted : ∃ f : SkModel ℚ 2, exSkc.fit (exXc (.fin 7)) exY exRs = .ok f ∧ f.predict (some ⟨3, exXc .nan⟩) ≠ f.predict (some ⟨3, exXc (.fin 7)⟩) := by
  have h : (match exSkc.fit (exXc (.fin 7)) exY exRs with | .ok f => decide (f.predict (some ⟨3, exXc .nan⟩) ≠ f.predict (some ⟨3, exXc (.fin 7)⟩)) | .error _ => false) = true := by decide +kernel
  cases e : exSkc.fit (exXc (.fin 7)) exY exRs with
  | error _ => rw [e] at h; cases h
  | ok f => rw [e] at h; exact ⟨f, rfl, of_decide_eq_true h⟩

end ex
end Bart
