import Verif.Proofs.RefPropose
import Verif.Proofs.ForestLemmas

/-! A tree step and the leaf steps of the model are those of the reference implementation, for the same draws. -/

set_option linter.unusedSectionVars false

namespace Bart
open Spec Reference
variable {K : Type} [Field K] [LinearOrder K] {n p : Nat} {N : Prop}

section apply
variable {X : Fin n → Fin p → Fl K} {y : Option (Fin n → K)} {t t1 t' : Tree K n p} {s : Shape}

theorem filter_eq_erase {l : List NodeId} (hl : l.Nodup) (i : NodeId) : l.erase i = l.filter (fun k => decide (k ≠ i)) := by
  rw [hl.erase_eq_filter]
  apply List.filter_congr
  intro k _
  by_cases h : k = i <;> simp [h]

/-- The node looks the same after relinking, if the node put in has the conditions of the one taken out. -/
theorem lookNode_relink {m : TreeMutation} {h h' : Heap K n p}
    (hsame : ∀ i, (h'.node i).value = (h.node i).value ∧ (h'.node i).kind = (h.node i).kind ∧ (h'.node i).depth = (h.node i).depth ∧ (h'.node i).split = (h.node i).split)
    (hu : (h.node m.updated).split = (h.node m.existing).split) {k : NodeId} (hk : h'.node k = relinkRec m (h.node k)) : lookNode h' k = lookNode h k := by
  have hr : rule h' k = rule h k := by
    unfold Spec.rule
    rw [hk]
    unfold relinkRec
    simp only
    by_cases hl : (h.node k).left = some m.existing
    · rw [hl]; simp [(hsame m.updated).2.2.2, hu]
    · simp only [hl, if_false]
      cases (h.node k).left with
      | none => rfl
      | some l => simp [(hsame l).2.2.2]
  unfold lookNode pathOf contentOf
  rw [hr, (hsame k).2.1, (hsame k).1, (hsame k).2.2.2]

/-- Applying a proposal. -/
theorem IsMove.apply (hI : TreeInv X y t s) (he : TreeExt t t1) {mu : TreeMutation} {mv : Move K p} (hm : IsMove X y t s t1.heap mu mv) (hmut : t1.mutate mu = .ok t') :
    look t' = (look t).apply mv := by
  have hI1 := hI.ext he
  have hle := look_ext hI he
  rcases hm with ⟨i, D, L, R, j, v, rfl, hg, rfl⟩ | ⟨i, l, r, U, j, v, rfl, hg, hrule, rfl⟩
  · obtain ⟨t2, f1, f2, f3, f4, f5, f6, f7, f8, f9, f10⟩ := mutate_grow hI1 (by rw [he.leafNodes hI]; exact hg.leaf) hg.ready hg.nodup
      (by rw [he.nodes]; exact hg.fresh) hg.lt
    rw [hmut] at f1; injection f1 with f1; subst f1
    have hin : i ∈ t.nodes := (List.mem_filter.1 hg.leaf).1
    have hin1 : i ∈ t1.nodes := by rw [he.nodes]; exact hin
    have hpath : pathOf t1.heap i = pathOf t.heap i := congrArg RNode.path (lookNode_ext hI he.heap hin)
    have hlook : ∀ k ∈ t'.nodes, lookNode t'.heap k = lookNode t1.heap k := fun k hk => lookNode_relink f9 hg.split (f10 k hk)
    obtain ⟨q, d, h1, h2⟩ := hg.ready
    obtain ⟨cl, cr, hp, e, hl, hr, el, er⟩ := h2.rule_eq
    have hjv : some (cl.splittingVariable, cl.splittingValue) = some (j, v) := by rw [← e]; exact hg.rule
    simp only [Option.some.injEq, Prod.mk.injEq] at hjv
    have pi : pathOf t1.heap i = q.map condOf := by
      unfold pathOf; rw [show (t1.heap.node i).split.combined.conditions = q from h1.root_path.1]
    have pD : pathOf t1.heap D = q.map condOf := by
      unfold pathOf; rw [show (t1.heap.node D).split.combined.conditions = q from h2.root_path.1]
    have pL : pathOf t1.heap L = q.map condOf ++ [⟨j, v, true⟩] := by
      unfold pathOf
      rw [show (t1.heap.node L).split.combined.conditions = q ++ [cl] from hl.root_path.1, List.map_append, List.map_singleton, el, hjv.1, hjv.2]
    have pR : pathOf t1.heap R = q.map condOf ++ [⟨j, v, false⟩] := by
      unfold pathOf
      rw [show (t1.heap.node R).split.combined.conditions = q ++ [cr] from hr.root_path.1, List.map_append, List.map_singleton, er, hjv.1, hjv.2]
    obtain ⟨-, -, -, -, -, -, kD, kL, kR⟩ := hg.children
    have lD : lookNode t1.heap D = ⟨q.map condOf, .split j v⟩ := by
      have := hg.rule
      unfold lookNode contentOf
      rw [pD, kD, this]
    have lL : lookNode t1.heap L = ⟨q.map condOf ++ [⟨j, v, true⟩], .leaf 0⟩ := by
      unfold lookNode contentOf
      rw [pL, kL, hg.valL]
    have lR : lookNode t1.heap R = ⟨q.map condOf ++ [⟨j, v, false⟩], .leaf 0⟩ := by
      unfold lookNode contentOf
      rw [pR, kR, hg.valR]
    have hmain : t'.nodes.map (lookNode t'.heap) = t'.nodes.map (lookNode t1.heap) := List.map_congr_left hlook
    unfold look at hle ⊢
    rw [hmain, f3, ← hle]
    unfold RTree.apply
    simp only [List.append_assoc, List.cons_append, List.nil_append, List.map_append, List.map_cons, List.map_nil, lD, lL, lR]
    rw [← hpath, pi]
    congr 1
    rw [filter_eq_erase hI1.nodes_nodup, List.filter_map]
    congr 1
    apply List.filter_congr
    intro k hk
    simp only [Function.comp, decide_eq_decide]
    rw [← pi]
    constructor
    · intro hne hpe; exact hne (hI1.path_inj hk hin1 hpe)
    · intro hpe hne; subst hne; exact hpe rfl
  · obtain ⟨t2, f1, f2, f3, f4, f5, f6, f7, f8, f9, f10⟩ := mutate_prune hI1 hg.sub hg.ready (by rw [he.nodes]; exact hg.fresh) hg.lt
    rw [hmut] at f1; injection f1 with f1; subst f1
    have hmem : ∀ k ∈ [i, l, r], k ∈ t1.nodes := fun k hk => hI1.perm.mem_iff.2 (hg.sub.ids_subset k (by simpa [Shape.ids] using hk))
    have hin : i ∈ t.nodes := by rw [← he.nodes]; exact hmem i (by simp)
    have hpath : pathOf t1.heap i = pathOf t.heap i := congrArg RNode.path (lookNode_ext hI he.heap hin)
    have hsplit : (t1.heap.node U).split = (t1.heap.node i).split := by rw [hg.leaf]; rfl
    have hlook : ∀ k ∈ t'.nodes, lookNode t'.heap k = lookNode t1.heap k := fun k hk => lookNode_relink f9 hsplit (f10 k hk)
    obtain ⟨q, d, h2, h1⟩ := hg.ready
    obtain ⟨cl, cr, hp, e, hl, hr, el, er⟩ := h2.rule_eq
    have hrule1 : rule t1.heap i = rule t.heap i := by
      obtain ⟨a, b, e1, e2⟩ := hI.look_decision hin (by simpa using (List.mem_filter.1 (List.mem_filter.1 hg.prunable).1).2)
      have := lookNode_ext hI he.heap hin
      rw [e2] at this
      unfold lookNode contentOf at this
      rw [e] at this
      have hk : (t1.heap.node i).kind = .decision := h2.1
      rw [hk] at this
      simp only [RNode.mk.injEq, Content.split.injEq] at this
      rw [e, e1, this.2.1, this.2.2]
    have hjv : some (cl.splittingVariable, cl.splittingValue) = some (j, v) := by rw [← e, hrule1]; exact hrule
    simp only [Option.some.injEq, Prod.mk.injEq] at hjv
    have pi : pathOf t1.heap i = q.map condOf := by
      unfold pathOf; rw [show (t1.heap.node i).split.combined.conditions = q from h2.root_path.1]
    have pU : pathOf t1.heap U = q.map condOf := by
      unfold pathOf; rw [show (t1.heap.node U).split.combined.conditions = q from h1.root_path.1]
    have pL : pathOf t1.heap l = q.map condOf ++ [⟨j, v, true⟩] := by
      unfold pathOf
      rw [show (t1.heap.node l).split.combined.conditions = q ++ [cl] from hl.root_path.1, List.map_append, List.map_singleton, el, hjv.1, hjv.2]
    have pR : pathOf t1.heap r = q.map condOf ++ [⟨j, v, false⟩] := by
      unfold pathOf
      rw [show (t1.heap.node r).split.combined.conditions = q ++ [cr] from hr.root_path.1, List.map_append, List.map_singleton, er, hjv.1, hjv.2]
    have lU : lookNode t1.heap U = ⟨q.map condOf, .leaf 0⟩ := by
      unfold lookNode contentOf
      rw [pU, hg.leaf]
      rfl
    have hmain : t'.nodes.map (lookNode t'.heap) = t'.nodes.map (lookNode t1.heap) := List.map_congr_left hlook
    unfold look at hle ⊢
    rw [hmain, f3, ← hle]
    unfold RTree.apply
    simp only [List.map_append, List.map_cons, List.map_nil, lU]
    rw [← hpath, pi]
    congr 1
    have nd := hI1.nodes_nodup
    rw [filter_eq_erase ((nd.erase i).erase l), filter_eq_erase (nd.erase i), filter_eq_erase nd, List.filter_filter, List.filter_filter, List.filter_map]
    congr 1
    apply List.filter_congr
    intro k hk
    simp only [Function.comp]
    have inj : ∀ a ∈ [i, l, r], ∀ P, pathOf t1.heap a = P → decide (k ≠ a) = decide ((lookNode t1.heap k).path ≠ P) := by
      intro a ha P hP
      rw [decide_eq_decide]
      constructor
      · intro hne hpe; exact hne (hI1.path_inj hk (hmem a ha) (by rw [hP]; exact hpe))
      · intro hpe hne; subst hne; exact hpe hP
    rw [inj i (by simp) _ pi, inj l (by simp) _ pL, inj r (by simp) _ pR]
    cases decide ((lookNode t1.heap k).path ≠ q.map condOf) <;> cases decide ((lookNode t1.heap k).path ≠ q.map condOf ++ [⟨j, v, true⟩]) <;>
      cases decide ((lookNode t1.heap k).path ≠ q.map condOf ++ [⟨j, v, false⟩]) <;> rfl

end apply

variable [MathFns K]

section ratio
variable {X : Fin n → Fin p → Fl K} {y : Fin n → K} {t t1 : Tree K n p} {s : Shape}

theorem withinNode_eq (hX : NoNan X) (rows : Fin n → Bool) (j : Fin p) (v : Fl K) : Lik.withinNode X rows j v = cutProbability X rows j v := by
  unfold Lik.withinNode cutProbability negLog colsOf frequency freqOf
  rw [columns_eq hX]
  split <;> rfl

/-- The log acceptance ratio. -/
theorem IsMove.ratio (hX : NoNan X) (m : Params K) (hI : TreeInv X (some y) t s) (he : TreeExt t t1) {mu : TreeMutation} {mv : Move K p}
    (hm : IsMove X (some y) t s t1.heap mu mv) {pGrow pPrune : K} (hp1 : pGrow ≠ 0) (hp2 : pPrune ≠ 0) :
    ∃ t2, Lik.logProbabilityRatio m pGrow pPrune t1 mu = .ok (Reference.ratio m pGrow pPrune X y (look t) mv, t2) ∧ TreeExt t1 t2 := by
  have hs : ((look t).splittable X).length = (splitLeavesOf X t).length := by rw [look_splittable hX hI, List.length_map]
  have hpn : (look t).prunable.length = t.prunableDecisionNodes.length := by rw [look_prunable hI, List.length_map]
  rcases hm with ⟨i, D, L, R, j, v, rfl, hg, rfl⟩ | ⟨i, l, r, U, j, v, rfl, hg, hrule, rfl⟩
  · have hin : i ∈ t.nodes := (List.mem_filter.1 hg.leaf).1
    obtain ⟨t2, e, x⟩ := Lik.ratio_grow m hI he hg (pPrune := pPrune) hp1
    refine ⟨t2, ?_, x⟩
    rw [e]
    congr 2
    have hrows : RNode.rows X ⟨pathOf t.heap i, .leaf 0⟩ = rowsOf (t1.heap.dataOf i) := by
      rw [he.rows hI hin, ← hI.rows_eq hX hin]; rfl
    have hd : (t1.heap.node i).depth = (pathOf t.heap i).length := by rw [he.heap.node i (hI.mem_lt hin)]; exact hI.depth_eq hin
    unfold Reference.ratio
    simp only [hrows, hs, hpn]
    rw [← withinNode_eq hX, ← hd]
    rfl
  · have hin : i ∈ t.nodes := (List.mem_filter.1 (List.mem_filter.1 hg.prunable).1).1
    have hrule1 : rule t1.heap i = some (j, v) := by
      obtain ⟨a, b, e1, e2⟩ := hI.look_decision hin (by simpa using (List.mem_filter.1 (List.mem_filter.1 hg.prunable).1).2)
      obtain ⟨a', b', e1', e2'⟩ := (hI.ext he).look_decision (i := i) (by rw [he.nodes]; exact hin) (by
        rw [he.heap.node i (hI.mem_lt hin)]; simpa using (List.mem_filter.1 (List.mem_filter.1 hg.prunable).1).2)
      have := lookNode_ext hI he.heap hin
      rw [e2, e2'] at this
      simp only [RNode.mk.injEq, Content.split.injEq] at this
      rw [e1', this.2.1, this.2.2, ← e1, hrule]
    obtain ⟨t2, e, x⟩ := Lik.ratio_prune hX m hI he hg hrule1 (pGrow := pGrow) hp2
    refine ⟨t2, ?_, x⟩
    rw [e]
    congr 2
    have hrows : RNode.rows X ⟨pathOf t.heap i, .leaf 0⟩ = rowsOf (t1.heap.dataOf i) := by
      rw [he.rows hI hin, ← hI.rows_eq hX hin]; rfl
    have hd : (t1.heap.node i).depth = (pathOf t.heap i).length := by rw [he.heap.node i (hI.mem_lt hin)]; exact hI.depth_eq hin
    unfold Reference.ratio
    simp only [hrows, hs, hpn]
    rw [← withinNode_eq hX, ← hd]
    rfl

/-- The Metropolis-Hastings step. -/
theorem treeStep_ref (hX : NoNan X) (m : Params K) (hI : TreeInv X (some y) t s) {pGrow pPrune : K} (hp1 : pGrow ≠ 0) (hp2 : pPrune ≠ 0) (r : Rand K) :
    match Sampler.treeStep m pGrow pPrune t r with
    | .error e => Reference.treeStep m pGrow pPrune X y (look t) r = .error e
    | .ok (mu, t', r') => Reference.treeStep m pGrow pPrune X y (look t) r = .ok (mu.isSome, look t', r') := by
  have hpr := propose_ref hX r.methods hI r.picks
  unfold Sampler.treeStep Sampler.treeSample Reference.treeStep
  cases h1 : t.propose r.picks r.methods with
  | error e => rw [h1] at hpr; simp only at hpr; rw [hpr]
  | ok q =>
    obtain ⟨mu, t1, us, ms⟩ := q
    rw [h1] at hpr
    obtain ⟨x1, mv, hm, e⟩ := hpr
    rw [e]
    obtain ⟨t2, e2, x2⟩ := hm.ratio hX m hI x1 hp1 hp2
    simp only [e2]
    cases hu : r.uniforms with
    | nil => rfl
    | cons u rest =>
      simp only
      by_cases hlt : Fl.lt (.fin u) (Reference.ratio m pGrow pPrune X y (look t) mv) = true
      · simp only [hlt, if_true]
        obtain ⟨t', s', e3, -⟩ := (hm.ext x2.heap).isProposal.mutate hI (x1.trans x2)
        rw [e3]
        simp only [Option.isSome_some]
        rw [(hm.ext x2.heap).apply hI (x1.trans x2) e3]
      · simp only [hlt, if_false, Bool.false_eq_true, Option.isSome_none]
        rw [look_ext hI (x1.trans x2)]

end ratio

section leaves
variable {X : Fin n → Fin p → Fl K} {y : Fin n → K}

theorem setValue_split (h : Heap K n p) (i k : NodeId) (v : K) : ((h.setValue i v).node k).split = (h.node k).split ∧ ((h.setValue i v).node k).kind = (h.node k).kind ∧
    ((h.setValue i v).node k).left = (h.node k).left := by
  by_cases hk : k = i
  · subst hk; simp [Heap.setValue, Heap.setNode]
  · simp [Heap.setValue, Heap.setNode, hk]

theorem rule_setValue (h : Heap K n p) (i k : NodeId) (v : K) : rule (h.setValue i v) k = rule h k := by
  unfold Spec.rule
  rw [(setValue_split h i k v).2.2]
  cases (h.node k).left with
  | none => rfl
  | some l => simp only; rw [(setValue_split h i l v).1]

theorem lookNode_setValue_ne {h : Heap K n p} {i k : NodeId} {v : K} (hk : k ≠ i) : lookNode (h.setValue i v) k = lookNode h k := by
  have : (h.setValue i v).node k = h.node k := by simp [Heap.setValue, Heap.setNode, hk]
  unfold lookNode pathOf contentOf
  rw [rule_setValue, this]

theorem lookNode_setValue_self {h : Heap K n p} {i : NodeId} {v : K} (hk : (h.node i).kind = .leaf) : lookNode (h.setValue i v) i = ⟨pathOf h i, .leaf v⟩ := by
  have e := setValue_split h i i v
  unfold lookNode pathOf contentOf
  rw [e.1, e.2.1, hk]
  simp [Heap.setValue, Heap.setNode]

/-- The leaf steps over a part of the nodes. -/
theorem leafSteps_ref (hX : NoNan X) (m : Params K) {fl : CacheFlags} (hf : fl.fresh = false) (ns : List NodeId) :
    ∀ {t : Tree K n p} (_ : Good N X (some y) t fl) (_ : ∀ i ∈ ns, i ∈ t.nodes) (_ : ns.Nodup) (r : Rand K),
    match Sampler.leafSteps m (ns.filter (fun i => decide ((t.heap.node i).kind = .leaf))) t r with
    | .error e => leafValues m X y (ns.map (lookNode t.heap)) r.normals = .error e
    | .ok (t', r') => leafValues m X y (ns.map (lookNode t.heap)) r.normals = .ok (ns.map (lookNode t'.heap), r'.normals) ∧ r' = { r with normals := r'.normals } ∧
        t'.nodes = t.nodes ∧ ∀ k ∈ t.nodes, k ∉ ns → lookNode t'.heap k = lookNode t.heap k := by
  induction ns with
  | nil => intro t _ _ _ r; exact ⟨rfl, rfl, rfl, fun k _ _ => rfl⟩
  | cons i ns ih =>
    intro t hG hmem hnd r
    obtain ⟨s, hI⟩ := hG.inv
    have hin := hmem i (by simp)
    rw [List.nodup_cons] at hnd
    by_cases hk : (t.heap.node i).kind = .leaf
    · have hi : i ∈ t.leafNodes := List.mem_filter.2 ⟨hin, by simpa using hk⟩
      obtain ⟨q, hok⟩ := hI.repr.nodeOk i (hI.perm.mem_iff.1 hin)
      obtain ⟨h', e1, x1⟩ := Lik.sumYOf_spec hok
      have hrows : RNode.rows X ⟨pathOf t.heap i, .leaf (t.heap.node i).value⟩ = rowsOf (t.heap.dataOf i) := by
        rw [← hI.rows_eq hX hin]; rfl
      rw [List.filter_cons_of_pos (by simpa using hk), List.map_cons, TreeInv.look_leaf hk]
      have hst := Sampler.leafStep_spec hX hG m hi r
      unfold Sampler.leafSteps
      unfold Sampler.leafStep at hst ⊢
      simp only [e1, Lik.nObsv_spec hok] at hst ⊢
      cases hz : r.normals with
      | nil => rfl
      | cons z zs =>
        rw [hz] at hst
        simp only [leafValues, hrows] at hst ⊢
        cases hv : (Sampler.leafValue m (Fl.ofInt (count (rowsOf (t.heap.dataOf i)))) (.fin (total y (rowsOf (t.heap.dataOf i)))) (.fin z)).toFinite with
        | error e => rfl
        | ok v =>
          rw [hv] at hst
          simp only at hst ⊢
          obtain ⟨h2, v2, -, -, -, hG1⟩ := hst
          have hfl : ({ fl with stale := fl.stale || fl.fresh } : CacheFlags) = fl := by cases fl; simp_all
          rw [hfl] at hG1
          have hx : TreeExt t { t with heap := h' } := TreeExt.withHeap x1
          have hlk : ∀ k ∈ t.nodes, lookNode h' k = lookNode t.heap k := fun k hk => lookNode_ext (t' := { t with heap := h' }) hI hx.heap hk
          have hki : (h'.node i).kind = .leaf := by rw [x1.node i (hI.mem_lt hin)]; exact hk
          have hpi : pathOf h' i = pathOf t.heap i := congrArg RNode.path (hlk i hin)
          have hfilt : ns.filter (fun i => decide ((t.heap.node i).kind = .leaf)) =
              ns.filter (fun k => decide ((({ t with heap := h'.setValue i v } : Tree K n p).heap.node k).kind = .leaf)) := by
            apply List.filter_congr
            intro k hkn
            simp only
            rw [(setValue_split h' i k v).2.1, x1.node k (hI.mem_lt (hmem k (by simp [hkn])))]
          have hmap : ns.map (lookNode t.heap) = ns.map (lookNode ({ t with heap := h'.setValue i v } : Tree K n p).heap) := by
            apply List.map_congr_left
            intro k hkn
            simp only
            rw [lookNode_setValue_ne (by rintro rfl; exact hnd.1 hkn), hlk k (hmem k (by simp [hkn]))]
          have hrec := ih hG1 (fun k hk => hmem k (by simp [hk])) hnd.2 { r with normals := zs }
          rw [hfilt, hmap]
          generalize Sampler.leafSteps m _ ({ t with heap := h'.setValue i v } : Tree K n p) { r with normals := zs } = res at hrec
          cases res with
          | error e => simp only at hrec ⊢; rw [hrec]
          | ok res =>
            obtain ⟨t2, r2⟩ := res
            obtain ⟨a1, a2, a3, a4⟩ := hrec
            simp only at a1 a2 a3 a4 ⊢
            rw [a1]
            refine ⟨?_, by rw [a2], a3, fun k hk hkn => ?_⟩
            · simp only
              have := a4 i hin hnd.1
              rw [lookNode_setValue_self hki, hpi] at this
              rw [List.map_cons, this]
            · simp only [List.mem_cons, not_or] at hkn
              rw [a4 k hk hkn.2, lookNode_setValue_ne hkn.1, hlk k hk]
    · rw [List.filter_cons_of_neg (by simpa using hk), List.map_cons]
      have hkd : (t.heap.node i).kind = .decision := by cases h : (t.heap.node i).kind <;> simp_all
      obtain ⟨j, v, -, hl⟩ := hI.look_decision hin hkd
      have hrec := ih hG (fun k hk => hmem k (by simp [hk])) hnd.2 r
      rw [hl]
      simp only [leafValues]
      generalize Sampler.leafSteps m _ t r = res at hrec
      cases res with
      | error e => simp only at hrec ⊢; rw [hrec]
      | ok res =>
        obtain ⟨t2, r2⟩ := res
        obtain ⟨a1, a2, a3, a4⟩ := hrec
        simp only at a1 a2 a3 a4 ⊢
        rw [a1]
        refine ⟨?_, a2, a3, fun k hk hkn => ?_⟩
        · simp only
          rw [List.map_cons, a4 i hin hnd.1, hl]
        · simp only [List.mem_cons, not_or] at hkn
          exact a4 k hk hkn.2

/-- One tree in a sweep. -/
theorem treeBody_ref (hX : NoNan X) (m : Params K) {pGrow pPrune : K} (hp1 : pGrow ≠ 0) (hp2 : pPrune ≠ 0) {t : Tree K n p} (h : Handed N X y t) (r : Rand K) :
    match BModel.treeBody m pGrow pPrune t r with
    | .error e => Reference.treeBody m pGrow pPrune X y (look t) r = .error e
    | .ok (mu, t', r') => Reference.treeBody m pGrow pPrune X y (look t) r = .ok (mu.isSome, look t', r') := by
  obtain ⟨fl, hG, hp, hf, hst⟩ := h
  obtain ⟨s, hI⟩ := hG.inv
  have h1 := Sampler.treeStep_spec hX hG m hp1 hp2 r
  have hr := treeStep_ref hX m hI hp1 hp2 r
  unfold BModel.treeBody Reference.treeBody
  cases e : Sampler.treeStep m pGrow pPrune t r with
  | error er => rw [e] at hr; simp only at hr; rw [hr]
  | ok q =>
    obtain ⟨mu, t1, r1⟩ := q
    rw [e] at h1 hr
    simp only at hr
    rw [hr]
    obtain ⟨-, hG1⟩ := h1
    simp only
    generalize hfl : (if mu.isSome then { fl with changed := true, fresh := false, stale := false } else fl : CacheFlags) = fl1 at hG1
    have hf1 : fl1.fresh = false := by rw [← hfl]; split <;> first | rfl | exact hf
    obtain ⟨s1, hI1⟩ := hG1.inv
    have h2 := leafSteps_ref hX m hf1 t1.nodes hG1 (fun _ h => h) hI1.nodes_nodup r1
    rw [show t1.nodes.filter (fun i => decide ((t1.heap.node i).kind = .leaf)) = t1.leafNodes from rfl, show t1.nodes.map (lookNode t1.heap) = look t1 from rfl] at h2
    generalize Sampler.leafSteps m t1.leafNodes t1 r1 = q at h2
    cases q with
    | error er => simp only at h2 ⊢; rw [h2]
    | ok q =>
      obtain ⟨t2, r2⟩ := q
      obtain ⟨a1, a2, a3, -⟩ := h2
      simp only
      rw [a1]
      simp only [look, a3]
      rw [← a2]

end leaves
end Bart
