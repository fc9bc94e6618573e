import Verif.Proofs.AnyTargetLemmas
import Mathlib.Tactic.Tauto

/-! Targets that cannot be scaled, and draws for them. -/

set_option linter.unusedSectionVars false

namespace Bart.AnyTarget
open Reference Spec
variable {K : Type} [Field K] [LinearOrder K] {n p : Nat}

theorem foldl_max_pinf {l : List (Fl K)} : ∀ {a : Fl K}, (Fl.pinf = a ∨ .nan = a ∨ Fl.pinf ∈ l) → l.foldl flMax a = .nan ∨ l.foldl flMax a = .pinf := by
  induction l with
  | nil => intro a h; rcases h with rfl | rfl | h
           · exact .inr rfl
           · exact .inl rfl
           · simp at h
  | cons b l ih =>
    intro a h
    rw [List.foldl_cons]
    apply ih
    rcases h with rfl | rfl | h
    · cases b <;> simp [flMax, Fl.isNan, Fl.lt]
    · simp [flMax, Fl.isNan]
    · rcases List.mem_cons.1 h with h | h
      · subst h; cases a <;> simp [flMax, Fl.isNan, Fl.lt]
      · exact .inr (.inr h)

theorem foldl_min_ninf {l : List (Fl K)} : ∀ {a : Fl K}, (Fl.ninf = a ∨ .nan = a ∨ Fl.ninf ∈ l) → l.foldl flMin a = .nan ∨ l.foldl flMin a = .ninf := by
  induction l with
  | nil => intro a h; rcases h with rfl | rfl | h
           · exact .inr rfl
           · exact .inl rfl
           · simp at h
  | cons b l ih =>
    intro a h
    rw [List.foldl_cons]
    apply ih
    rcases h with rfl | rfl | h
    · cases b <;> simp [flMin, Fl.isNan, Fl.lt]
    · simp [flMin, Fl.isNan]
    · rcases List.mem_cons.1 h with h | h
      · subst h; cases a <;> simp [flMin, Fl.isNan, Fl.lt]
      · exact .inr (.inr h)

theorem yMax_pinf {y : Fin n → Fl K} {r : Fin n} (h : y r = .pinf) {hi : Fl K} (e : yMax y = .ok hi) : hi = .nan ∨ hi = .pinf := by
  have hm : Fl.pinf ∈ (List.finRange n).map y := List.mem_map.2 ⟨r, List.mem_finRange r, h⟩
  unfold yMax at e
  split at e
  · cases e
  · next x xs e1 =>
    cases e
    rw [e1] at hm
    exact foldl_max_pinf ((List.mem_cons.1 hm).imp_right .inr)

theorem yMin_ninf {y : Fin n → Fl K} {r : Fin n} (h : y r = .ninf) {lo : Fl K} (e : yMin y = .ok lo) : lo = .nan ∨ lo = .ninf := by
  have hm : Fl.ninf ∈ (List.finRange n).map y := List.mem_map.2 ⟨r, List.mem_finRange r, h⟩
  unfold yMin at e
  split at e
  · cases e
  · next x xs e1 =>
    cases e
    rw [e1] at hm
    exact foldl_min_ninf ((List.mem_cons.1 hm).imp_right .inr)

theorem foldl_const {f : Fl K → Fl K → Fl K} {v : Fl K} (hf : f v v = v) {l : List (Fl K)} (h : ∀ x ∈ l, x = v) : l.foldl f v = v := by
  induction l with
  | nil => rfl
  | cons a l ih =>
    rw [List.foldl_cons, h a (List.mem_cons_self ..), hf]
    exact ih (fun x hx => h x (List.mem_cons_of_mem _ hx))

theorem yMin_const {y : Fin n → Fl K} {v : K} (h : ∀ r, y r = .fin v) {lo : Fl K} (e : yMin y = .ok lo) : lo = .fin v := by
  have hm : ∀ x ∈ (List.finRange n).map y, x = .fin v := by
    intro x hx; obtain ⟨r, -, rfl⟩ := List.mem_map.1 hx; exact h r
  unfold yMin at e
  split at e
  · cases e
  · next x xs e1 =>
    cases e
    rw [e1] at hm
    rw [hm x (List.mem_cons_self ..)]
    exact foldl_const (by simp [flMin, Fl.isNan, Fl.lt]) (fun x hx => hm x (List.mem_cons_of_mem _ hx))

theorem yMax_const {y : Fin n → Fl K} {v : K} (h : ∀ r, y r = .fin v) {hi : Fl K} (e : yMax y = .ok hi) : hi = .fin v := by
  have hm : ∀ x ∈ (List.finRange n).map y, x = .fin v := by
    intro x hx; obtain ⟨r, -, rfl⟩ := List.mem_map.1 hx; exact h r
  unfold yMax at e
  split at e
  · cases e
  · next x xs e1 =>
    cases e
    rw [e1] at hm
    rw [hm x (List.mem_cons_self ..)]
    exact foldl_const (by simp [flMax, Fl.isNan, Fl.lt]) (fun x hx => hm x (List.mem_cons_of_mem _ hx))

/-- A target that is not finite is scaled to NaN. -/
theorem normalized_nan {y : Fin n → Fl K} {r : Fin n} (h : ∀ v, y r ≠ .fin v) {lo hi : Fl K} (e1 : yMin y = .ok lo) (e2 : yMax y = .ok hi) : normalized lo hi (y r) = .nan := by
  unfold normalized
  rcases hy : y r with _ | _ | v | _
  · rw [nan_sub', nan_div', add_nan']
  · rcases yMin_ninf hy e1 with rfl | rfl
    · rw [sub_nan', nan_div', add_nan']
    · rw [show Fl.sub (.ninf : Fl K) .ninf = .nan from rfl, nan_div', add_nan']
  · exact absurd hy (h v)
  · rcases yMax_pinf hy e2 with rfl | rfl
    · rw [nan_sub', div_nan', add_nan']
    · cases lo <;> rfl

/-- A constant target is scaled to NaN. -/
theorem normalized_const {y : Fin n → Fl K} {v : K} (h : ∀ r, y r = .fin v) {lo hi : Fl K} (e1 : yMin y = .ok lo) (e2 : yMax y = .ok hi) (r : Fin n) : normalized lo hi (y r) = .nan := by
  obtain rfl := yMin_const h e1
  obtain rfl := yMax_const h e2
  rw [h r]
  simp [normalized, Fl.sub, Fl.neg, Fl.add, Fl.div, Fl.infSign]

/-! ### proposals for a single leaf -/

theorem drawCut_error {col : List (Fl K)} (hc : col ≠ []) {e : PyErr} : ∀ {us : List Nat}, drawCut col us = .error e → e = .outOfDraws := by
  intro us
  induction us with
  | nil => intro h; cases h; rfl
  | cons u us ih =>
    intro h
    unfold drawCut at h
    have hl : u % col.length < col.length := Nat.mod_lt _ (List.length_pos_iff.2 hc)
    unfold choice at h
    rw [List.getElem?_eq_getElem hl] at h
    dsimp only at h
    split at h
    · cases h
    · exact ih h

theorem root_splittable {X : Fin n → Fin p → Fl K} (h : columns X (fun _ => true) ≠ []) : RTree.splittable X (RTree.root : RTree K p) = RTree.root := by
  have h1 : (columns X (RNode.rows X ⟨[], .leaf 0⟩)).isEmpty = false := by
    rw [List.isEmpty_eq_false_iff]; exact h
  unfold RTree.splittable RTree.root
  rw [List.filter_cons_of_pos (by rw [h1]; rfl), List.filter_nil]

theorem root_prunable : RTree.prunable (RTree.root : RTree K p) = [] := rfl

theorem column_ne_nil {X : Fin n → Fin p → Fl K} {rows : Fin n → Bool} {j : Fin p} (h : j ∈ columns X rows) : column X rows j ≠ [] := by
  intro h0
  have h1 := (List.mem_filter.1 h).2
  rw [h0] at h1
  simp at h1

theorem choice_ne_nil {α : Type} {l : List α} (h : l ≠ []) (u : Nat) : ∃ a ∈ l, choice l u = .ok a := by
  have hl : u % l.length < l.length := Nat.mod_lt _ (List.length_pos_iff.2 h)
  exact ⟨l[u % l.length], List.getElem_mem hl, by unfold choice; rw [List.getElem?_eq_getElem hl]⟩

theorem propose_root_error {X : Fin n → Fin p → Fl K} (h : columns X (fun _ => true) ≠ []) {us : List Nat} {e : PyErr} : ∀ {ms : List Method},
    propose X RTree.root us ms = .error e → e = .outOfDraws := by
  intro ms
  induction ms with
  | nil => intro h; cases h; rfl
  | cons m ms ih =>
    intro he
    cases m with
    | prune =>
      unfold propose at he
      rw [if_pos root_prunable] at he
      exact ih he
    | grow =>
      unfold propose at he
      rw [root_splittable h, if_neg (by simp [RTree.root])] at he
      split at he
      · next e1 =>
        cases he
        unfold proposeGrow at e1
        split at e1
        · next u1 u2 us =>
          rw [root_splittable h] at e1
          obtain ⟨nd, hnd, hc⟩ := choice_ne_nil (l := (RTree.root : RTree K p)) (by simp [RTree.root]) u1
          obtain rfl : nd = ⟨[], .leaf 0⟩ := by simpa [RTree.root] using hnd
          obtain ⟨j, hj, hcj⟩ := choice_ne_nil (l := columns X (RNode.rows X ⟨[], .leaf 0⟩)) h u2
          rw [hc] at e1
          dsimp only at e1
          rw [hcj] at e1
          dsimp only at e1
          split at e1
          · next e2 => cases e1; exact drawCut_error (column_ne_nil hj) e2
          · cases e1
        · cases e1; rfl
      · cases he

/-! ### a supply of draws -/

/-- Draws for `N` trees and `g` sweeps. -/
def supply (u : Nat) (N g : Nat) : Rand K := ⟨List.replicate N .grow, (List.replicate N [0, 0, u]).flatten, List.replicate N 0, List.replicate N 0, List.replicate g 1⟩

/-- The draw `u` is a cut of the first column that can be split. -/
def Cuts (X : Fin n → Fin p → Fl K) (u : Nat) : Prop :=
  ∃ j v, choice (columns X (fun _ => true)) 0 = .ok j ∧ choice (column X (fun _ => true) j) u = .ok v ∧ (column X (fun _ => true) j).any (fun m => Fl.lt v m) = true

theorem exists_cuts {X : Fin n → Fin p → Fl K} (hX : NoNan X) (h : columns X (fun _ => true) ≠ []) : ∃ u, Cuts X u := by
  obtain ⟨j, hj, hcj⟩ := choice_ne_nil h 0
  have h1 := (List.mem_filter.1 hj).2
  obtain ⟨a, ha, hab⟩ := List.any_eq_true.1 h1
  obtain ⟨b, hb, hne⟩ := List.any_eq_true.1 hab
  have hne : a ≠ b := of_decide_eq_true hne
  have key : ∀ {a b}, a ∈ column X (fun _ => true) j → b ∈ column X (fun _ => true) j → Fl.lt a b = true → ∃ u, Cuts X u := by
    intro a b ha hb hlt
    obtain ⟨u, hu, rfl⟩ := List.mem_iff_getElem.1 ha
    refine ⟨u, j, _, hcj, ?_, List.any_eq_true.2 ⟨b, hb, hlt⟩⟩
    unfold choice
    rw [Nat.mod_eq_of_lt hu, List.getElem?_eq_getElem hu]
  have mem : ∀ {a}, a ∈ (column X (fun _ => true) j).tail → a ∈ column X (fun _ => true) j := fun h => List.mem_of_mem_tail h
  have nn : ∀ {a}, a ∈ column X (fun _ => true) j → a ≠ .nan := by
    intro a ha
    obtain ⟨r, -, rfl⟩ := List.mem_map.1 ha
    intro hc
    exact absurd (hX r j) (by simp [hc, Fl.isNan])
  have tri : Fl.lt a b = true ∨ Fl.lt b a = true := by
    have na := nn (mem ha)
    have nb := nn (mem hb)
    rcases a with _ | _ | a | _ <;> rcases b with _ | _ | b | _ <;> simp_all [Fl.lt]
  rcases tri with h | h
  · exact key (mem ha) (mem hb) h
  · exact key (mem hb) (mem ha) h

theorem propose_supply {X : Fin n → Fin p → Fl K} {u : Nat} (hu : Cuts X u) (h : columns X (fun _ => true) ≠ []) (us : List Nat) (ms : List Method) :
    ∃ mv, propose X RTree.root (0 :: 0 :: u :: us) (.grow :: ms) = .ok (mv, us, ms) := by
  obtain ⟨j, v, h1, h2, h3⟩ := hu
  refine ⟨.grow [] j v, ?_⟩
  unfold propose
  rw [root_splittable h, if_neg (by simp [RTree.root])]
  unfold proposeGrow
  rw [root_splittable h]
  have hc : choice (RTree.root : RTree K p) 0 = .ok ⟨[], .leaf 0⟩ := rfl
  simp only [hc]
  rw [show RNode.rows X ⟨[], .leaf 0⟩ = fun _ => true from rfl, h1]
  simp only [drawCut, h2, h3, if_true]

variable [MathFns K]

theorem treeBody_supply {P : Params K} {sigma : Fl K} {pGrow pPrune : K} {X : Fin n → Fin p → Fl K} {y : Fin n → Fl K} {r : Fin n} (hy : y r = .nan) {u : Nat} (hu : Cuts X u)
    (h : columns X (fun _ => true) ≠ []) (v : Fl K) (N g : Nat) : treeBody P sigma pGrow pPrune X y (only v) (supply u (N + 1) g) = .ok (false, only .nan, supply u N g) := by
  obtain ⟨mv, hmv⟩ := propose_supply hu h (List.replicate N [0, 0, u]).flatten (List.replicate N .grow)
  have e : treeBody P sigma pGrow pPrune X y (only v) (supply u (N + 1) g) = .ok (false, only (leafValue P sigma (Fl.ofInt (count (fun _ : Fin n => true))) (summedY y (fun _ => true)) (.fin 0)), supply u N g) := by
    unfold treeBody treeStep
    rw [show propose X (ATree.shape (only v)) (supply u (N + 1) g : Rand K).picks (supply u (N + 1) g : Rand K).methods = .ok (mv, (List.replicate N [0, 0, u]).flatten, List.replicate N .grow) from hmv]
    simp only [ratio_nan hy, lt_nan]
    rfl
  rw [e, summedY_nan hy, leafValue_nan]

theorem sweepTrees_supply {P : Params K} {sigma : Fl K} {pGrow pPrune : K} {X : Fin n → Fin p → Fl K} {y : Fin n → Fl K} {r : Fin n} (hy : y r = .nan) {u : Nat} (hu : Cuts X u)
    (h : columns X (fun _ => true) ≠ []) (N g : Nat) {ts : List (ATree K p)} (hts : ∀ t ∈ ts, ∃ v, t = only v) :
    ∀ (pred : Fin n → Fl K), ∃ bs ts' pred', sweepTrees P sigma pGrow pPrune X y pred ts (supply u (N + ts.length) g) = .ok (bs, ts', pred', supply u N g) := by
  induction ts with
  | nil => intro pred; exact ⟨_, _, _, rfl⟩
  | cons t ts ih =>
    intro pred
    obtain ⟨v, rfl⟩ := hts t (List.mem_cons_self ..)
    unfold sweepTrees
    dsimp only
    rw [show N + (only v :: ts).length = (N + ts.length) + 1 from rfl, treeBody_supply (r := r) (show Fl.sub (y r) _ = .nan by rw [hy, nan_sub']) hu h]
    dsimp only
    obtain ⟨bs, ts', pred', e⟩ := ih (fun t ht => hts t (List.mem_cons_of_mem _ ht)) (fun i => Fl.add (Fl.sub (pred i) ((only v).value (X i))) ((only (.nan : Fl K)).value (X i)))
    rw [e]
    exact ⟨_, _, _, rfl⟩

theorem sweeps_supply {c : Settings K} {X : Fin n → Fin p → Fl K} {y : Fin n → Fl K} {r : Fin n} (hy : y r = .nan) {u : Nat} (hu : Cuts X u) (h : columns X (fun _ => true) ≠ [])
    (ha : 0 ≤ c.sigmaA + (n : K) / 2) : ∀ (k : Nat) {s : AState K n p}, (∀ t ∈ s.trees, ∃ v, t = only v) → s.trees.length = c.nTrees →
    ∃ l, sweeps c X y k s (supply u (k * c.nTrees) k) = .ok l ∧ l.length = k
  | 0, s, _, _ => ⟨[], rfl, rfl⟩
  | k + 1, s, hs, hl => by
    obtain ⟨bs, ts', pred', e⟩ := sweepTrees_supply (P := c.params 1) (sigma := s.sigma) (pGrow := c.pGrow) (pPrune := c.pPrune) hy hu h (k * c.nTrees) (k + 1) hs s.prediction
    have e1 : sweep c X y s (supply u ((k + 1) * c.nTrees) (k + 1)) = .ok (bs, ⟨ts', .nan, pred'⟩, supply u (k * c.nTrees) k) := by
      unfold sweep
      rw [show (k + 1) * c.nTrees = k * c.nTrees + s.trees.length by rw [hl, Nat.succ_mul], e]
      dsimp only
      rw [posteriorBeta_nan hy]
      unfold sigmaValue
      rw [if_neg (by simp only [not_or, not_lt]; exact ⟨ha, by simp [Fl.lt]⟩)]
      rfl
    have h1 := sweep_nan hy hs hl e1
    obtain ⟨l, e2, hl2⟩ := sweeps_supply hy hu h ha k h1.only.1 h1.only.2
    refine ⟨(bs, ⟨ts', .nan, pred'⟩) :: l, ?_, by simp [hl2]⟩
    unfold sweeps
    rw [e1]
    dsimp only
    rw [e2]

/-! ### no other error -/

theorem treeBody_error {P : Params K} {sigma : Fl K} {pGrow pPrune : K} {X : Fin n → Fin p → Fl K} {y : Fin n → Fl K} {r : Fin n} (hy : y r = .nan)
    (h : columns X (fun _ => true) ≠ []) {v : Fl K} {q : Rand K} {e : PyErr} (he : treeBody P sigma pGrow pPrune X y (only v) q = .error e) : e = .outOfDraws := by
  unfold treeBody treeStep at he
  split at he
  · next e1 =>
    cases he
    split at e1
    · next e2 => cases e1; exact propose_root_error h e2
    · split at e1
      · cases e1; rfl
      · cases e1
  · next b t1 r1 e1 =>
    split at e1
    · cases e1
    · split at e1
      · cases e1
      · simp only [ratio_nan hy, lt_nan, Bool.false_eq_true, if_false] at e1
        cases e1
        rw [leafValues_only] at he
        split at he
        · next e2 =>
          split at e2
          · cases e2; cases he; rfl
          · cases e2
        · cases he

theorem sweepTrees_error {P : Params K} {sigma : Fl K} {pGrow pPrune : K} {X : Fin n → Fin p → Fl K} {y : Fin n → Fl K} {r : Fin n} (hy : y r = .nan)
    (h : columns X (fun _ => true) ≠ []) {ts : List (ATree K p)} (hts : ∀ t ∈ ts, ∃ v, t = only v) {e : PyErr} :
    ∀ {pred : Fin n → Fl K} {q : Rand K}, sweepTrees P sigma pGrow pPrune X y pred ts q = .error e → e = .outOfDraws := by
  induction ts with
  | nil => intro pred q he; cases he
  | cons t ts ih =>
    intro pred q he
    obtain ⟨v, rfl⟩ := hts t (List.mem_cons_self ..)
    unfold sweepTrees at he
    dsimp only at he
    split at he
    · next e1 => cases he; exact treeBody_error (r := r) (show Fl.sub (y r) _ = .nan by rw [hy, nan_sub']) h e1
    · split at he
      · next e2 => cases he; exact ih (fun t ht => hts t (List.mem_cons_of_mem _ ht)) e2
      · cases he

theorem sweep_error {c : Settings K} {X : Fin n → Fin p → Fl K} {y : Fin n → Fl K} {r : Fin n} (hy : y r = .nan) (h : columns X (fun _ => true) ≠ []) (ha : 0 ≤ c.sigmaA + (n : K) / 2)
    {s : AState K n p} (hs : ∀ t ∈ s.trees, ∃ v, t = only v) {q : Rand K} {e : PyErr} (he : sweep c X y s q = .error e) : e = .outOfDraws := by
  unfold sweep at he
  split at he
  · next e1 => cases he; exact sweepTrees_error hy h hs e1
  · rw [posteriorBeta_nan hy] at he
    unfold sigmaValue at he
    rw [if_neg (by simp only [not_or, not_lt]; exact ⟨ha, by simp [Fl.lt]⟩)] at he
    split at he
    · next e2 =>
      split at e2
      · cases e2; cases he; rfl
      · cases e2
    · cases he

theorem sweeps_error {c : Settings K} {X : Fin n → Fin p → Fl K} {y : Fin n → Fl K} {r : Fin n} (hy : y r = .nan) (h : columns X (fun _ => true) ≠ []) (ha : 0 ≤ c.sigmaA + (n : K) / 2) :
    ∀ (k : Nat) {s : AState K n p} {q : Rand K} {e : PyErr}, (∀ t ∈ s.trees, ∃ v, t = only v) → s.trees.length = c.nTrees → sweeps c X y k s q = .error e → e = .outOfDraws
  | 0, _, _, _, _, _, he => by cases he
  | k + 1, s, q, e, hs, hl, he => by
    unfold sweeps at he
    split at he
    · next e1 => cases he; exact sweep_error hy h ha hs e1
    · next bs s1 r1 e1 =>
      have h1 := sweep_nan hy hs hl e1
      split at he
      · next e2 => cases he; exact sweeps_error hy h ha k h1.only.1 h1.only.2 e2
      · cases he

theorem start_only (c : Settings K) (X : Fin n → Fin p → Fl K) : (∀ t ∈ (start c X).trees, ∃ v, t = only v) ∧ (start c X).trees.length = c.nTrees :=
  ⟨fun _ ht => ⟨_, List.eq_of_mem_replicate ht⟩, List.length_replicate⟩

theorem chains_error {c : Config K} {X : Fin n → Fin p → Fl K} {y : Fin n → Fl K} {r : Fin n} (hy : y r = .nan) (h : columns X (fun _ => true) ≠ []) (ha : 0 ≤ c.sigmaA + (n : K) / 2)
    {rs : List (Rand K)} {e : PyErr} (he : chains c X y rs = .error e) : e = .outOfDraws := by
  induction rs with
  | nil => cases he
  | cons q rs ih =>
    unfold chains chain at he
    split at he
    · next e1 =>
      cases he
      split at e1
      · next e2 => cases e1; exact sweeps_error hy h ha _ (start_only _ X).1 (start_only _ X).2 e2
      · cases e1
    · split at he
      · next e2 => cases he; exact ih e2
      · cases he

theorem chains_supply {c : Config K} {X : Fin n → Fin p → Fl K} {y : Fin n → Fl K} {r : Fin n} (hy : y r = .nan) {u : Nat} (hu : Cuts X u) (h : columns X (fun _ => true) ≠ [])
    (ha : 0 ≤ c.sigmaA + (n : K) / 2) {rs : List (Rand K)} (hrs : ∀ q ∈ rs, q = supply u ((c.nBurn + c.nSamples) * c.nTrees) (c.nBurn + c.nSamples)) :
    ∃ l, chains c X y rs = .ok l := by
  induction rs with
  | nil => exact ⟨[], rfl⟩
  | cons q rs ih =>
    obtain ⟨l, hl⟩ := ih (fun q hq => hrs q (List.mem_cons_of_mem _ hq))
    obtain ⟨l1, e1, -⟩ := sweeps_supply (c := c.toSettings) hy hu h ha (c.nBurn + c.nSamples) (start_only _ X).1 (start_only _ X).2
    unfold chains chain
    rw [hrs q (List.mem_cons_self ..), e1]
    dsimp only
    rw [hl]
    exact ⟨_, rfl⟩

end Bart.AnyTarget
