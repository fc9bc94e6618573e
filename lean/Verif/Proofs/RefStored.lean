import Verif.Spec.StoredTrees
import Verif.Proofs.RefSweep

/-! The nodes of stored trees and the nodes of the reference implementation. -/

set_option linter.unusedSectionVars false

namespace Bart
open Spec Reference
variable {K : Type} [Field K] [LinearOrder K] {n p : Nat} {X : Fin n → Fin p → Fl K}

theorem look_shown {y : Option (Fin n → K)} {t : Tree K n p} {s : Shape} (hI : TreeInv X y t s) : (look t).map referenceNode = t.nodes.map (fun i => shownNode (nodeView t.heap i)) := by
  unfold look
  rw [List.map_map]
  apply List.map_congr_left
  intro i hi
  have h1 := hI.isLeaf_eq hi
  have h2 := hI.depth_eq hi
  obtain ⟨q, hk⟩ := hI.repr.nodeOk i (hI.perm.mem_iff.1 hi)
  have h3 : (pathOf t.heap i).getLast?.map Cond.column = (t.heap.node i).split.combined.splittingVariable := by
    unfold pathOf
    rw [hk.combined, List.getLast?_map, Option.map_map]
    rfl
  simp only [Function.comp, referenceNode, shownNode, nodeView, lookNode, h2, h3]
  refine congr (congr rfl rfl) ?_
  · simp only [RNode.isLeaf, lookNode] at h1
    cases hk : (t.heap.node i).kind with
    | leaf => simp [contentOf, hk]
    | decision =>
      rw [hk] at h1
      cases hc : contentOf t.heap i with
      | leaf v => rw [hc] at h1; simp at h1
      | split j v => simp

theorem shown_sim {t t' : Tree K n p} (h : Sim.TRelE (Cols.refl p) t t') :
    t'.nodes.map (fun i => shownNode (nodeView t'.heap i)) = t.nodes.map (fun i => shownNode (nodeView t.heap i)) := by
  obtain ⟨R, H⟩ := h
  have hn := H.nodes
  have hnode := fun {i j} (hr : R i j) => H.heap.node hr
  clear H
  generalize t.nodes = l, t'.nodes = l' at hn
  induction hn with
  | nil => rfl
  | cons hr _ ih =>
    rw [List.map_cons, List.map_cons, ih]
    congr 1
    have hN := hnode hr
    obtain ⟨-, l, e1, e2⟩ := hN.split
    simp only [shownNode, nodeView, hN.kind, hN.depth, hN.value, e1, e2, CombinedCondition.init]
    congr 1
    · rw [List.map_map]
      apply List.map_congr_left
      intro c _
      rfl
    · rw [List.getLast?_map, Option.map_map]
      rfl

theorem shown_sim_all {ts ts' : List (Tree K n p)} (h : List.Forall₂ (Sim.TRelE (Cols.refl p)) ts ts') :
    ts'.map (fun t => t.nodes.map (fun i => shownNode (nodeView t.heap i))) = ts.map (fun t => t.nodes.map (fun i => shownNode (nodeView t.heap i))) := by
  induction h with
  | nil => rfl
  | cons h _ ih => rw [List.map_cons, List.map_cons, ih, shown_sim h]

variable [IsStrictOrderedRing K] [MathFns K] [FloorRing K] {y : Fin n → K} {m m1 : BModel K n p}

/-- What `samples` stores at time `t` shows the trees after the sweeps alone. -/
theorem stored_trees (hX : NoNan X) {y0 : Fin n → K} (hf : FreshModel X y0 m) {c : SampleParams K} (hp1 : c.pGrow ≠ 0) (hp2 : c.pPrune ≠ 0) (H : Sim.MRel (Cols.refl p) m m)
    (hI : ModelInv False X y m) {nS nB : Nat} {r r' : Rand K} {ch : Chain K n} (h : m.samples c nS nB r = .ok (ch, m1, r'))
    {j t : Nat} (hj : (storedTimes nS c.thin)[j]? = some t) {s : StoredModel K} (hs : ch.model[j]? = some s) {P : BModel K n p} {r0 : Rand K} (hP : Sim.sweeps c.pGrow c.pPrune (nB + t) m r = .ok (P, r0))
    {mus : List (Option TreeMutation)} {M : BModel K n p} {rM : Rand K} (hM : P.sweep c.pGrow c.pPrune r0 = .ok (mus, M, rM)) :
    (storedContent m1 s).map (List.map shownNode) = referenceTrees (lookModel M) := by
  have hm : ReachableModel X m := ⟨y0, c.pGrow, c.pPrune, m, 0, hp1, hp2, hf, .nil m⟩
  obtain ⟨-, -, -, -, h5⟩ := C44_samples hX hm hp1 hp2 h
  obtain ⟨s', m0, r0', mus', M', rM', g1, g2, g3, g4, -⟩ := h5 j t hj
  rw [hs] at g1
  cases g1
  obtain ⟨P', e1, H1, hI1⟩ := Sim.drawRun_sweeps hX hp1 hp2 H hI g2
  simp only at e1 H1
  rw [hP] at e1
  cases e1
  have h2 := H1.sweep hX hI1 hp1 hp2 r0
  rw [g3, hM] at h2
  cases h2
  next h2 =>
  obtain ⟨-, H2, -⟩ := h2
  simp only at H2
  have hI2 := Sim.inv_sweep hX hI1 hp1 hp2 hM
  rw [g4]
  unfold liveContent referenceTrees lookModel
  rw [List.map_map, List.map_map]
  have e := shown_sim_all H2.trees
  simp only [Function.comp_def, List.map_map]
  rw [e]
  apply List.map_congr_left
  intro t ht
  obtain ⟨y', s', hT⟩ := (hI2.fitted t ht).inv
  rw [look_shown hT]

end Bart
