import Verif.Model.AnyTarget

/-! What happens to NaN in the code for targets that may be anything. -/

set_option linter.unusedSectionVars false

namespace Bart.AnyTarget
open Reference Spec
variable {K : Type} [Field K] [LinearOrder K] {n p : Nat}

theorem add_nan' (a : Fl K) : Fl.add a .nan = .nan := by cases a <;> rfl
theorem nan_add' (a : Fl K) : Fl.add .nan a = .nan := by cases a <;> rfl
theorem sub_nan' (a : Fl K) : Fl.sub a .nan = .nan := add_nan' a
theorem nan_sub' (a : Fl K) : Fl.sub .nan a = .nan := nan_add' _
theorem mul_nan' (a : Fl K) : Fl.mul a .nan = .nan := by cases a <;> rfl
theorem nan_mul' (a : Fl K) : Fl.mul .nan a = .nan := by cases a <;> rfl
theorem div_nan' (a : Fl K) : Fl.div a .nan = .nan := by cases a <;> rfl
theorem nan_div' (a : Fl K) : Fl.div .nan a = .nan := by cases a <;> rfl

theorem flSum_nan {l : List (Fl K)} (h : Fl.nan ∈ l) : flSum l = .nan := by
  induction l with
  | nil => simp at h
  | cons a l ih =>
    rcases List.mem_cons.1 h with h | h
    · subst h; exact nan_add' (flSum l)
    · show Fl.add a (flSum l) = _
      rw [ih h, add_nan']

theorem summedY_nan {y : Fin n → Fl K} {r : Fin n} (h : y r = .nan) (rows : Fin n → Bool) : summedY y rows = .nan :=
  flSum_nan (List.mem_map.2 ⟨r, List.mem_finRange r, by rw [h, nan_mul']⟩)

variable [MathFns K]

theorem likelihood_nan {P : Params K} {sigma : Fl K} {X : Fin n → Fin p → Fl K} {y : Fin n → Fl K} {r : Fin n} (h : y r = .nan) (rows : Fin n → Bool) (j : Fin p) (v : Fl K) :
    likelihood P sigma X y rows j v = .nan := by
  unfold likelihood Lik.growRatioValue
  simp only [summedY_nan h, mul_nan', nan_div', sub_nan', add_nan']

theorem ratio_nan {P : Params K} {sigma : Fl K} {pGrow pPrune : K} {X : Fin n → Fin p → Fl K} {y : Fin n → Fl K} {r : Fin n} (h : y r = .nan) (t : RTree K p) (mv : Move K p) :
    ratio P sigma pGrow pPrune X y t mv = .nan := by
  cases mv with
  | grow path j v => simp only [ratio, likelihood_nan h, add_nan', nan_add']
  | prune path j v => simp only [ratio, likelihood_nan h, Fl.neg, add_nan', nan_add']

theorem lt_nan (a : Fl K) : Fl.lt a .nan = false := by cases a <;> rfl

theorem leafValue_nan (P : Params K) (sigma n z : Fl K) : leafValue P sigma n .nan z = .nan := by
  simp only [leafValue, nan_div', nan_mul', nan_add']

/-- The tree that is a single leaf with the value `v`. -/
def only (v : Fl K) : ATree K p := [⟨[], .leaf v⟩]

theorem leafValues_only (P : Params K) (sigma : Fl K) (X : Fin n → Fin p → Fl K) (y : Fin n → Fl K) (v : Fl K) (zs : List K) : leafValues P sigma X y (only v) zs =
    (match zs with
    | [] => .error .outOfDraws
    | z :: zs => .ok (only (leafValue P sigma (Fl.ofInt (count (fun _ : Fin n => true))) (summedY y (fun _ => true)) (.fin z)), zs)) := by
  cases zs <;> rfl

theorem treeBody_nan {P : Params K} {sigma : Fl K} {pGrow pPrune : K} {X : Fin n → Fin p → Fl K} {y : Fin n → Fl K} {r : Fin n} (h : y r = .nan) {v : Fl K} {q : Rand K} {b : Bool}
    {t' : ATree K p} {q' : Rand K} (e : treeBody P sigma pGrow pPrune X y (only v) q = .ok (b, t', q')) : b = false ∧ t' = only .nan := by
  unfold treeBody treeStep at e
  split at e
  · cases e
  · next b1 t1 r1 e1 =>
    split at e1
    · cases e1
    · split at e1
      · cases e1
      · simp only [ratio_nan h, lt_nan, Bool.false_eq_true, if_false] at e1
        cases e1
        split at e
        · cases e
        · next t2 zs e2 =>
          cases e
          rw [leafValues_only] at e2
          split at e2
          · cases e2
          · cases e2
            exact ⟨rfl, by rw [summedY_nan h, leafValue_nan]⟩

theorem sweepTrees_nan {P : Params K} {sigma : Fl K} {pGrow pPrune : K} {X : Fin n → Fin p → Fl K} {y : Fin n → Fl K} {r : Fin n} (h : y r = .nan) {ts : List (ATree K p)}
    (hts : ∀ t ∈ ts, ∃ v, t = only v) : ∀ {pred : Fin n → Fl K} {q : Rand K} {bs : List Bool} {ts' : List (ATree K p)} {pred' : Fin n → Fl K} {q' : Rand K},
    sweepTrees P sigma pGrow pPrune X y pred ts q = .ok (bs, ts', pred', q') → bs = List.replicate ts.length false ∧ ts' = List.replicate ts.length (only .nan) := by
  induction ts with
  | nil => intro pred q bs ts' pred' q' e; cases e; exact ⟨rfl, rfl⟩
  | cons t ts ih =>
    intro pred q bs ts' pred' q' e
    obtain ⟨v, rfl⟩ := hts t (List.mem_cons_self ..)
    unfold sweepTrees at e
    dsimp only at e
    split at e
    · cases e
    · next b t1 r1 e1 =>
      obtain ⟨rfl, rfl⟩ := treeBody_nan (r := r) (show Fl.sub (y r) _ = .nan by rw [h, nan_sub']) e1
      split at e
      · cases e
      · next bs ts1 pred1 r2 e2 =>
        cases e
        obtain ⟨rfl, rfl⟩ := ih (fun t ht => hts t (List.mem_cons_of_mem _ ht)) e2
        exact ⟨rfl, rfl⟩

theorem posteriorBeta_nan {b : K} {X : Fin n → Fin p → Fl K} {y : Fin n → Fl K} {r : Fin n} (h : y r = .nan) (ts : List (ATree K p)) : posteriorBeta b X y ts = .nan := by
  unfold posteriorBeta
  dsimp only
  rw [flSum_nan (List.mem_map.2 ⟨r, List.mem_finRange r, by rw [h, nan_sub', nan_mul']⟩), mul_nan', add_nan']

/-- What all states are like after the first sweep. -/
def NanState (c : Settings K) (s : List Bool × AState K n p) : Prop := s.1 = List.replicate c.nTrees false ∧ s.2.trees = List.replicate c.nTrees (only .nan) ∧ s.2.sigma = .nan

theorem sweep_nan {c : Settings K} {X : Fin n → Fin p → Fl K} {y : Fin n → Fl K} {r : Fin n} (h : y r = .nan) {s s' : AState K n p} {q q' : Rand K} {bs : List Bool}
    (hs : ∀ t ∈ s.trees, ∃ v, t = only v) (hl : s.trees.length = c.nTrees) (e : sweep c X y s q = .ok (bs, s', q')) : NanState c (bs, s') := by
  unfold sweep at e
  split at e
  · cases e
  · next bs1 ts pred r1 e1 =>
    obtain ⟨rfl, rfl⟩ := sweepTrees_nan h hs e1
    rw [posteriorBeta_nan h] at e
    unfold sigmaValue at e
    split at e
    · cases e
    · next v gs e2 =>
      split at e2
      · cases e2
      · split at e2
        · cases e2
        · cases e2; cases e
          exact ⟨by rw [hl], by rw [hl], rfl⟩

theorem NanState.only {c : Settings K} {s : List Bool × AState K n p} (h : NanState c s) : (∀ t ∈ s.2.trees, ∃ v, t = only v) ∧ s.2.trees.length = c.nTrees := by
  rw [h.2.1]
  exact ⟨fun t ht => ⟨_, List.eq_of_mem_replicate ht⟩, List.length_replicate⟩

theorem sweeps_nan {c : Settings K} {X : Fin n → Fin p → Fl K} {y : Fin n → Fl K} {r : Fin n} (h : y r = .nan) : ∀ (k : Nat) {s : AState K n p} {q : Rand K} {l : List (List Bool × AState K n p)},
    (∀ t ∈ s.trees, ∃ v, t = AnyTarget.only v) → s.trees.length = c.nTrees → sweeps c X y k s q = .ok l → ∀ s' ∈ l, NanState c s'
  | 0, s, q, l, _, _, e => by cases e; simp
  | k + 1, s, q, l, hs, hl, e => by
    unfold sweeps at e
    split at e
    · cases e
    · next bs s1 r1 e1 =>
      have h1 := sweep_nan h hs hl e1
      split at e
      · cases e
      · next l' e2 =>
        cases e
        intro s' hs'
        rcases List.mem_cons.1 hs' with rfl | hs'
        · exact h1
        · exact sweeps_nan h k h1.only.1 h1.only.2 e2 s' hs'

theorem chains_nan {c : Config K} {X : Fin n → Fin p → Fl K} {y : Fin n → Fl K} {r : Fin n} (h : y r = .nan) {rs : List (Rand K)} :
    ∀ {l : List (List Bool × AState K n p)}, chains c X y rs = .ok l → ∀ s ∈ l, NanState c.toSettings s := by
  induction rs with
  | nil => intro l e; cases e; simp
  | cons q rs ih =>
    intro l e
    unfold chains chain at e
    split at e
    · cases e
    · next l1 e1 =>
      split at e1
      · cases e1
      · next l0 e0 =>
        cases e1
        split at e
        · cases e
        · next ls e2 =>
          cases e
          intro s hs
          rcases List.mem_append.1 hs with hs | hs
          · obtain ⟨t, -, ht⟩ := List.mem_filterMap.1 hs
            refine sweeps_nan h _ ?_ ?_ e0 s (List.mem_of_getElem? ht)
            · intro t ht; exact ⟨_, List.eq_of_mem_replicate ht⟩
            · exact List.length_replicate
          · exact ih e2 s hs

end Bart.AnyTarget
