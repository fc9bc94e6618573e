import Verif.Spec.TreeHistory
import Verif.Proofs.LikLemmas

/-! Every reachable tree satisfies the tree invariant. -/

set_option linter.unusedSectionVars false

namespace Bart
open Spec
variable {K : Type} [Field K] [LinearOrder K] {n p : Nat}

theorem TreeInv.target {X : Fin n → Fin p → Fl K} {y : Option (Fin n → K)} {t : Tree K n p} {s : Shape} (hI : TreeInv X y t s) {y' : Fin n → K}
    (h : HasTarget t y') : y = some y' := by
  have hr := hI.perm.mem_iff.2 s.root_mem
  obtain ⟨q, hk⟩ := hI.repr.nodeOk _ s.root_mem
  rw [← hk.y, h _ hr]

theorem TreeInv.hasTarget {X : Fin n → Fin p → Fl K} {y : Fin n → K} {t : Tree K n p} {s : Shape} (hI : TreeInv X (some y) t s) : HasTarget t y := by
  intro i hi
  obtain ⟨q, hk⟩ := hI.repr.nodeOk i (hI.perm.mem_iff.1 hi)
  exact hk.y

namespace Sampler

section
variable [MathFns K]

/-- What the tree sampler does to a tree. -/
inductive TreeStepSpec (X : Fin n → Fin p → Fl K) (y : Fin n → K) (t : Tree K n p) : Option TreeMutation → Tree K n p → Prop where
  | reject {t1} : TreeExt t t1 → TreeStepSpec X y t none t1
  | accept {t1 t2 mu} : TreeExt t t1 → (∀ s, TreeInv X (some y) t s → IsProposal X (some y) t s t1.heap mu) → t1.mutate mu = .ok t2 →
      TreeStepSpec X y t (some mu) t2

theorem treeStep_core {X : Fin n → Fin p → Fl K} (hX : NoNan X) {y : Fin n → K} {t : Tree K n p} {s : Shape} (hI : TreeInv X (some y) t s)
    (m : Params K) {pGrow pPrune : K} (hp1 : pGrow ≠ 0) (hp2 : pPrune ≠ 0) (r : Rand K) :
    match treeStep m pGrow pPrune t r with
    | .error e => e = .outOfDraws
    | .ok (mu, t', _) => TreeStepSpec X y t mu t' := by
  have hpr := propose_spec hX r.methods hI r.picks
  unfold treeStep treeSample
  cases h1 : t.propose r.picks r.methods with
  | error e => rw [h1] at hpr; simpa using hpr
  | ok q =>
    obtain ⟨mu, t1, us, ms⟩ := q
    rw [h1] at hpr
    obtain ⟨x1, hm⟩ := hpr
    obtain ⟨v, t2, e2, x2⟩ := Lik.ratio_ok hX m hI x1 hm hp1 hp2
    simp only [e2]
    cases hu : r.uniforms with
    | nil => rfl
    | cons u rest =>
      simp only
      by_cases hlt : Fl.lt (.fin u) v = true
      · simp only [hlt, if_true]
        obtain ⟨t', s', e3, -⟩ := (hm.ext x2.heap).mutate hI (x1.trans x2)
        rw [e3]
        refine TreeStepSpec.accept (x1.trans x2) (fun s' hs' => ?_) e3
        have hpr := propose_spec hX r.methods hs' r.picks
        rw [h1] at hpr
        exact hpr.2.ext x2.heap
      · simp only [hlt, if_false, Bool.false_eq_true]
        exact TreeStepSpec.reject (x1.trans x2)

theorem TreeStepSpec.inv {X : Fin n → Fin p → Fl K} {y : Fin n → K} {t t' : Tree K n p} {s : Shape} (hI : TreeInv X (some y) t s)
    {mu : Option TreeMutation} (h : TreeStepSpec X y t mu t') : ∃ s', TreeInv X (some y) t' s' := by
  cases h with
  | reject he => exact ⟨s, hI.ext he⟩
  | accept he hp hm =>
    obtain ⟨t2, s', e, hI', -⟩ := (hp s hI).mutate hI he
    rw [hm] at e; injection e with e; subst e
    exact ⟨s', hI'⟩

theorem leafStep_core {X : Fin n → Fin p → Fl K} {y : Option (Fin n → K)} {t t' : Tree K n p} {s : Shape} (hI : TreeInv X y t s)
    (m : Params K) {i : NodeId} (hi : i ∈ t.leafNodes) {r r' : Rand K} (h : leafStep m t i r = .ok (t', r')) :
    ∃ h' v, HeapExt t.heap h' ∧ t' = { t with heap := h'.setValue i v } := by
  have hin := (List.mem_filter.1 hi).1
  obtain ⟨q, hk⟩ := hI.repr.nodeOk i (hI.perm.mem_iff.1 hin)
  unfold leafStep at h
  simp only at h
  cases y with
  | none =>
    have hs := Data.sumY_spec hk.inv
    unfold Heap.sumYOf at h
    rw [show t.heap.data (t.heap.node i).split.data = t.heap.dataOf i from rfl] at h
    cases e : (t.heap.dataOf i).sumY with
    | error er => rw [e] at h; cases h
    | ok q =>
      rw [e] at hs
      obtain ⟨y2, hy2, -⟩ := hs
      rw [hk.y] at hy2; cases hy2
  | some y =>
    obtain ⟨h', e1, x1⟩ := Lik.sumYOf_spec hk
    simp only [e1] at h
    split at h
    · cases h
    · split at h
      · cases h
      · injection h with h; injection h with h1 h2
        exact ⟨h', _, x1, h1.symm⟩

end
end Sampler

theorem deepCopyNode_ext (h : Heap K n p) (i : NodeId) : HeapExt h (h.deepCopyNode i).2 := by
  unfold Heap.deepCopyNode
  simp only
  split
  · exact HeapExt.allocNode _ _
  · exact HeapExt.allocNode _ _

theorem copyNodes_ext : ∀ (is : List NodeId) (h : Heap K n p), HeapExt h (Tree.copyNodes is h).2 := by
  intro is
  induction is with
  | nil => intro h; exact HeapExt.refl h
  | cons i is ih => intro h; exact (deepCopyNode_ext h i).trans (ih _)

/-- A copy for storage does not change the tree. -/
theorem deepCopy_ext (t : Tree K n p) : TreeExt t t.deepCopy.2 := TreeExt.withHeap (copyNodes_ext _ _)

theorem reachable_tree_inv {X : Fin n → Fin p → Fl K} (hX : NoNan X) {t : Tree K n p} (h : ReachableTree X t) :
    ∃ y s, TreeInv X y t s := by
  induction h with
  | fresh h =>
    obtain ⟨⟨y', h0⟩, -⟩ := fresh_tree_inv h
    exact ⟨_, _, h0⟩
  | op _ h1 h2 ih =>
    obtain ⟨y, s, hI⟩ := ih
    obtain ⟨s', h'⟩ := step_inv hX hI h1 h2
    exact ⟨_, s', h'⟩
  | @propose _ us ms _ _ _ _ _ h1 ih =>
    obtain ⟨y, s, hI⟩ := ih
    have := propose_spec hX ms hI us
    rw [h1] at this
    exact ⟨y, s, hI.ext this.1⟩
  | @apply _ us ms _ _ _ _ _ _ h1 h2 ih =>
    obtain ⟨y, s, hI⟩ := ih
    have := propose_spec hX ms hI us
    rw [h1] at this
    obtain ⟨t2, s', e, hI', -⟩ := this.2.mutate hI this.1
    rw [h2] at e; injection e with e; subst e
    exact ⟨y, s', hI'⟩
  | @treeStep _ _ F m _ _ r _ _ _ hy hp1 hp2 h1 ih =>
    obtain ⟨y, s, hI⟩ := ih
    obtain ⟨y', hy⟩ := hy
    have := hI.target hy; subst this
    have h2 := Sampler.treeStep_core hX hI m hp1 hp2 r
    rw [h1] at h2
    obtain ⟨s', hI'⟩ := h2.inv hI
    exact ⟨_, s', hI'⟩
  | leafStep F m _ hi h1 ih =>
    obtain ⟨y, s, hI⟩ := ih
    obtain ⟨h', v, x, rfl⟩ := Sampler.leafStep_core hI m hi h1
    exact ⟨y, s, setValue_inv (hI.ext (TreeExt.withHeap x)) _ v⟩
  | copy _ ih =>
    obtain ⟨y, s, hI⟩ := ih
    exact ⟨y, s, hI.ext (deepCopy_ext _)⟩

end Bart
