import Verif.Proofs.Draws
import Verif.Proofs.RefStep
import Verif.Props.RatioProps

/-! Property theorem C110: the probabilities of the proposals, and the transition ratio that the sampler uses. -/

set_option linter.unusedSectionVars false
set_option linter.unusedVariables false

namespace Bart
open Spec Reference
open scoped ENNReal

section
variable {K : Type} [Field K] [LinearOrder K] {n p : Nat} {X : Fin n → Fin p → Fl K} {t : Tree K n p} {s : Shape} {y : Fin n → K} {N : Nat}

/-! ### The proposals of the tree and those of the reference sampler -/

theorem proposesGrow_iff (hX : NoNan X) (hI : TreeInv X (some y) t s) {i : NodeId} (hi : i ∈ t.nodes) {j : Fin p} {v : Fl K} (us : List Nat) (ms : List Method) :
    ProposesGrow t i j v us ms ↔ Reference.propose X (look t) us ms = .ok (.grow (pathOf t.heap i) j v, [], []) := by
  have h := propose_ref hX ms hI us
  constructor
  · rintro ⟨mu, t1, e, hk, rfl, hr⟩
    rw [e] at h
    obtain ⟨-, mv, hm, h⟩ := h
    rw [h]
    rcases hm with ⟨i', D, L, R, j', v', rfl, hg, rfl⟩ | ⟨i', l, r, U, j', v', rfl, -⟩
    · have := hg.rule
      simp only at hr
      rw [hr] at this
      simp only [Option.some.injEq, Prod.mk.injEq] at this
      rw [this.1, this.2]
    · cases hk
  · intro h'
    cases e : t.propose us ms with
    | error e' => rw [e] at h; simp only at h; rw [h] at h'; cases h'
    | ok q =>
      obtain ⟨mu, t1, us1, ms1⟩ := q
      rw [e] at h
      obtain ⟨-, mv, hm, h⟩ := h
      rw [h] at h'
      injection h' with h'; injection h' with h1 h2; injection h2 with h2 h3; subst h1 h2 h3
      rcases hm with ⟨i', D, L, R, j', v', rfl, hg, hmv⟩ | ⟨i', l, r, U, j', v', rfl, -, -, hmv⟩
      · injection hmv with a b c
        subst b c
        have := hI.path_inj hi (List.mem_filter.1 hg.leaf).1 a
        exact ⟨_, _, e, rfl, this.symm, hg.rule⟩
      · cases hmv

theorem proposesPrune_iff (hX : NoNan X) (hI : TreeInv X (some y) t s) {i : NodeId} (hi : i ∈ t.nodes) {j : Fin p} {v : Fl K} (hr : rule t.heap i = some (j, v)) (us : List Nat) (ms : List Method) :
    ProposesPrune t i us ms ↔ Reference.propose X (look t) us ms = .ok (.prune (pathOf t.heap i) j v, [], []) := by
  have h := propose_ref hX ms hI us
  constructor
  · rintro ⟨mu, t1, e, hk, rfl⟩
    rw [e] at h
    obtain ⟨-, mv, hm, h⟩ := h
    rw [h]
    rcases hm with ⟨i', D, L, R, j', v', rfl, hg, rfl⟩ | ⟨i', l, r, U, j', v', rfl, -, hr', rfl⟩
    · cases hk
    · simp only at hr
      rw [hr] at hr'
      simp only [Option.some.injEq, Prod.mk.injEq] at hr'
      rw [hr'.1, hr'.2]
  · intro h'
    cases e : t.propose us ms with
    | error e' => rw [e] at h; simp only at h; rw [h] at h'; cases h'
    | ok q =>
      obtain ⟨mu, t1, us1, ms1⟩ := q
      rw [e] at h
      obtain ⟨-, mv, hm, h⟩ := h
      rw [h] at h'
      injection h' with h'; injection h' with h1 h2; injection h2 with h2 h3; subst h1 h2 h3
      rcases hm with ⟨i', D, L, R, j', v', rfl, hg, hmv⟩ | ⟨i', l, r, U, j', v', rfl, hg, -, hmv⟩
      · cases hmv
      · injection hmv with a b c
        have := hI.path_inj hi (List.mem_filter.1 (List.mem_filter.1 hg.prunable).1).1 a
        exact ⟨_, _, e, rfl, this.symm⟩

theorem proposes_iff (hX : NoNan X) (hI : TreeInv X (some y) t s) (us : List Nat) (ms : List Method) :
    Proposes t us ms ↔ ∃ mv, Reference.propose X (look t) us ms = .ok (mv, [], []) := by
  have h := propose_ref hX ms hI us
  constructor
  · rintro ⟨mu, t1, e⟩
    rw [e] at h
    obtain ⟨-, mv, -, h⟩ := h
    exact ⟨mv, h⟩
  · rintro ⟨mv', h'⟩
    cases e : t.propose us ms with
    | error e' => rw [e] at h; simp only at h; rw [h] at h'; cases h'
    | ok q =>
      obtain ⟨mu, t1, us1, ms1⟩ := q
      rw [e] at h
      obtain ⟨-, mv, hm, h⟩ := h
      rw [h] at h'
      injection h' with h'; injection h' with h1 h2; injection h2 with h2 h3; subst h1 h2 h3
      exact ⟨_, _, e⟩

theorem drawsProb_congr {a b : ℝ≥0∞} {E E' : List Nat → List Method → Prop} (h : ∀ us ms, E us ms ↔ E' us ms) : drawsProb N a b E = drawsProb N a b E' := by
  rw [show E = E' from funext fun us => funext fun ms => propext (h us ms)]

/-- In a list of different nodes of the tree exactly one has the path of `i`. -/
theorem countP_path (hI : TreeInv X (some y) t s) {l : List NodeId} (hl : l.Nodup) (hsub : ∀ k ∈ l, k ∈ t.nodes) {i : NodeId} (hi : i ∈ l) :
    (l.map (lookNode t.heap)).countP (fun a => decide (a.path = pathOf t.heap i)) = 1 := by
  rw [List.countP_map]
  have := List.count_eq_one_of_mem hl hi
  rw [List.count] at this
  rw [← this]
  refine List.countP_congr fun k hk => ?_
  simp only [Function.comp, decide_eq_true_eq, beq_iff_eq]
  exact ⟨fun h => hI.path_inj (hsub k hk) (hsub i hi) h, by rintro rfl; rfl⟩

theorem nodes_nodup (hI : TreeInv X (some y) t s) : t.nodes.Nodup := hI.perm.nodup_iff.2 hI.nodup

theorem splitLeaves_sub {k : NodeId} (hk : k ∈ splitLeavesOf X t) : k ∈ t.nodes := (List.mem_filter.1 (List.mem_filter.1 hk).1).1

theorem prunables_sub {k : NodeId} (hk : k ∈ t.prunableDecisionNodes) : k ∈ t.nodes := (List.mem_filter.1 (List.mem_filter.1 hk).1).1

theorem splitLeaves_le : (splitLeavesOf X t).length ≤ t.nodes.length := (List.length_filter_le _ _).trans (List.length_filter_le _ _)

theorem prunables_le : t.prunableDecisionNodes.length ≤ t.nodes.length := (List.length_filter_le _ _).trans (List.length_filter_le _ _)

theorem column_countP (rows : Fin n → Bool) (j : Fin p) (P : Fl K → Bool) : (column X rows j).countP P = count (fun r => rows r && P (X r j)) := by
  unfold column count
  rw [List.countP_map, List.countP_filter, List.countP_eq_length_filter, ← List.toFinset_card_of_nodup ((List.nodup_finRange n).filter _)]
  congr 1
  ext r
  simp [and_comm]

theorem columns_le (rows : Fin n → Bool) : (columns X rows).length ≤ p := (List.length_filter_le _ _).trans (by simp)

theorem rows_le (rows : Fin n → Bool) : count rows ≤ n := (Finset.card_filter_le _ _).trans (by simp)

theorem isMax_eq_false {col : List (Fl K)} {x : Fl K} : isMax col x = false ↔ ∃ m ∈ col, Fl.lt x m = true := by
  unfold isMax
  rw [Bool.not_eq_false', List.any_eq_true]

theorem isMax_rows (rows : Fin n → Bool) (j : Fin p) (x : Fl K) : isMax (column X rows j) x = decide (∀ r', rows r' = true → Fl.lt x (X r' j) = false) := by
  rw [Bool.eq_iff_iff, decide_eq_true_eq, ← Bool.not_eq_false, isMax_eq_false]
  constructor
  · intro h r hr
    cases e : Fl.lt x (X r j) with
    | false => rfl
    | true => exact absurd ⟨_, mem_column.2 ⟨r, hr, rfl⟩, e⟩ h
  · rintro h ⟨m, hm, e⟩
    obtain ⟨r, hr, rfl⟩ := mem_column.1 hm
    rw [h r hr] at e; cases e

/-- A value that is not the largest is drawn with its frequency divided by that of all values that are not the largest. -/
theorem cutProb_real {rows : Fin n → Bool} {j : Fin p} {v : Fl K} (hv : v ∈ column X rows j) (hlt : ∃ m ∈ column X rows j, Fl.lt v m = true) :
    (cutProb (column X rows j) (fun x => decide (x = v))).toReal = shareOf X rows j v / (1 - shareOfLargest X rows j) ∧ 0 ≤ shareOfLargest X rows j ∧ shareOfLargest X rows j < 1 := by
  have hm : isMax (column X rows j) v = false := isMax_eq_false.2 hlt
  have hpos : 0 < count rows := by rw [← column_length X rows j]; exact List.length_pos_of_mem hv
  have e1 : (column X rows j).countP (fun x => decide (x = v) && !isMax (column X rows j) x) = count (fun r => rows r && decide (X r j = v)) := by
    rw [← column_countP rows j (fun x => decide (x = v))]
    refine List.countP_congr fun x _ => ?_
    simp only [Bool.and_eq_true, decide_eq_true_eq, Bool.not_eq_true']
    exact ⟨fun h => h.1, by rintro rfl; exact ⟨rfl, hm⟩⟩
  have e2 : (column X rows j).countP (isMax (column X rows j)) = count (fun r => rows r && decide (∀ r', rows r' = true → Fl.lt (X r j) (X r' j) = false)) := by
    rw [column_countP]
    congr 1
    funext r
    rw [isMax_rows]
  have hltc : count (fun r => rows r && decide (∀ r', rows r' = true → Fl.lt (X r j) (X r' j) = false)) < count rows := by
    rw [← e2, ← column_length X rows j]
    refine lt_of_le_of_ne List.countP_le_length fun h => ?_
    rw [List.countP_eq_length] at h
    have := h v hv
    rw [hm] at this; cases this
  have hR : (0 : ℝ) < count rows := by exact_mod_cast hpos
  unfold cutProb shareOf shareOfLargest
  rw [e1, e2, column_length]
  refine ⟨?_, by positivity, ?_⟩
  · rw [ENNReal.toReal_mul, ENNReal.toReal_inv, ENNReal.toReal_div, ENNReal.toReal_sub_of_le ?_ ENNReal.one_ne_top, ENNReal.toReal_div]
    · simp only [ENNReal.toReal_natCast, ENNReal.toReal_one]
      rw [div_eq_mul_inv _ (1 - _)]
    · exact ENNReal.div_le_of_le_mul (by rw [one_mul]; exact_mod_cast hltc.le)
  · rw [div_lt_one hR]; exact_mod_cast hltc

theorem canMove_grow (hX : NoNan X) (hI : TreeInv X (some y) t s) : canMove X (look t) .grow = !(splitLeavesOf X t).isEmpty := by
  unfold canMove
  rw [look_splittable hX hI, List.isEmpty_map]

theorem canMove_prune (hI : TreeInv X (some y) t s) : canMove X (look t) .prune = !t.prunableDecisionNodes.isEmpty := by
  unfold canMove
  rw [look_prunable hI, List.isEmpty_map]

theorem methods_real {pGrow pPrune : ℝ} (hg : 0 < pGrow) (hp : 0 < pPrune) (h1 : pGrow + pPrune = 1) :
    ENNReal.ofReal pGrow + ENNReal.ofReal pPrune = 1 ∧ ∀ m, methodProb (ENNReal.ofReal pGrow) (ENNReal.ofReal pPrune) m ≠ 0 := by
  refine ⟨by rw [← ENNReal.ofReal_add hg.le hp.le, h1, ENNReal.ofReal_one], fun m => ?_⟩
  cases m <;> simp [methodProb, hg, hp]

/-- The probability of the split of a leaf. -/
theorem grow_probability (hX : NoNan X) (hI : TreeInv X (some y) t s) (hN : Divides N t) {pGrow pPrune : ℝ} (hg : 0 < pGrow) (hp : 0 < pPrune) (h1 : pGrow + pPrune = 1)
    {i : NodeId} (hi : i ∈ splitLeavesOf X t) {j : Fin p} (hj : j ∈ columns X (rowsOf (t.heap.dataOf i))) {v : Fl K} (hv : v ∈ column X (rowsOf (t.heap.dataOf i)) j)
    (hlt : ∃ m ∈ column X (rowsOf (t.heap.dataOf i)) j, Fl.lt v m = true) :
    proposalProb N pGrow pPrune (ProposesGrow t i j v) =
      (if t.prunableDecisionNodes = [] then 1 else pGrow) * (1 / (splitLeavesOf X t).length) * (1 / (columns X (rowsOf (t.heap.dataOf i))).length) *
        (shareOf X (rowsOf (t.heap.dataOf i)) j v / (1 - shareOfLargest X (rowsOf (t.heap.dataOf i)) j)) := by
  have hin := splitLeaves_sub hi
  have hrw := hI.rows_eq hX hin
  have hne : splitLeavesOf X t ≠ [] := List.ne_nil_of_mem hi
  obtain ⟨hw, hpos⟩ := methods_real hg hp h1
  have hposs : canMove X (look t) .grow = true := by rw [canMove_grow hX hI]; cases h : splitLeavesOf X t with | nil => exact absurd h hne | cons a l => rfl
  unfold proposalProb
  rw [drawsProb_congr (E' := fun us ms => ∃ mv, mv = .grow (pathOf t.heap i) j v ∧ Reference.propose X (look t) us ms = .ok (mv, [], []))
    (fun us ms => by rw [proposesGrow_iff hX hI hin]; exact ⟨fun h => ⟨_, rfl, h⟩, by rintro ⟨mv, rfl, h⟩; exact h⟩),
    drawsProb_kind hw hposs (hpos _) (by
      rintro us mv us' m' rfl h
      cases m' with
      | grow => rfl
      | prune =>
        exfalso
        simp only [proposeBy, proposePrune] at h
        split at h
        · cases h
        · split at h <;> cases h)]
  have hsl := look_splittable hX hI
  have hlen : ((look t).splittable X).length = (splitLeavesOf X t).length := by rw [hsl, List.length_map]
  have hpath : (lookNode t.heap i).path = pathOf t.heap i := rfl
  have e := prob_proposeGrow (X := X) (t := look t) (nd := lookNode t.heap i) (N := N) hN.1 (by rw [hsl]; exact List.mem_map_of_mem hi)
    (by rw [hsl]; exact countP_path hI ((nodes_nodup hI).filter _ |>.filter _) (fun k hk => splitLeaves_sub hk) hi) (j := j) (by rw [hrw]; exact hj)
    (hN.2 _ (by rw [hlen]; exact List.length_pos_of_mem hi) (Or.inr (Or.inr (by rw [hlen]; exact splitLeaves_le))))
    (hN.2 _ (List.length_pos_of_mem (a := j) (by rw [hrw]; exact hj)) (Or.inr (Or.inl (columns_le _))))
    (hN.2 _ (List.length_pos_of_mem (a := v) (by rw [hrw]; exact hv)) (Or.inl (by rw [column_length]; exact rows_le _)))
    (List.ne_nil_of_mem (a := v) (by rw [hrw]; exact hv)) (fun x => decide (x = v))
  rw [prob_congr (E' := fun us => ∃ v', decide (v' = v) = true ∧ proposeGrow X (look t) (us.map Fin.val) = .ok (.grow (lookNode t.heap i).path j v', []))
    (fun us => by
      simp only [decide_eq_true_eq, hpath, proposeBy]
      exact ⟨by rintro ⟨mv, rfl, h⟩; exact ⟨v, rfl, h⟩, by rintro ⟨v', rfl, h⟩; exact ⟨_, rfl, h⟩⟩), e, hrw, hlen, hposs, canMove_prune hI]
  rw [ENNReal.toReal_mul, ENNReal.toReal_mul, ENNReal.toReal_mul, (cutProb_real hv hlt).1]
  have em : (if (true && !t.prunableDecisionNodes.isEmpty) = true then methodProb (ENNReal.ofReal pGrow) (ENNReal.ofReal pPrune) .grow else 1).toReal =
      if t.prunableDecisionNodes = [] then 1 else pGrow := by
    cases t.prunableDecisionNodes with
    | nil => simp
    | cons a l => simp [methodProb, hg.le]
  rw [em, ENNReal.toReal_div, ENNReal.toReal_div]
  simp only [ENNReal.toReal_natCast, ENNReal.toReal_one]
  ring

/-- The probability of the removal of a split. -/
theorem prune_probability (hX : NoNan X) (hI : TreeInv X (some y) t s) (hN : Divides N t) {pGrow pPrune : ℝ} (hg : 0 < pGrow) (hp : 0 < pPrune) (h1 : pGrow + pPrune = 1)
    {i : NodeId} (hi : i ∈ t.prunableDecisionNodes) :
    proposalProb N pGrow pPrune (ProposesPrune t i) = (if splitLeavesOf X t = [] then 1 else pPrune) * (1 / t.prunableDecisionNodes.length) := by
  have hin := prunables_sub hi
  have hne : t.prunableDecisionNodes ≠ [] := List.ne_nil_of_mem hi
  have hkd : (t.heap.node i).kind = .decision := by simpa using (List.mem_filter.1 (List.mem_filter.1 hi).1).2
  obtain ⟨j, v, hr, hl⟩ := hI.look_decision hin hkd
  obtain ⟨hw, hpos⟩ := methods_real hg hp h1
  have hposs : canMove X (look t) .prune = true := by rw [canMove_prune hI]; cases h : t.prunableDecisionNodes with | nil => exact absurd h hne | cons a l => rfl
  unfold proposalProb
  rw [drawsProb_congr (E' := fun us ms => ∃ mv, mv = .prune (pathOf t.heap i) j v ∧ Reference.propose X (look t) us ms = .ok (mv, [], []))
    (fun us ms => by rw [proposesPrune_iff hX hI hin hr]; exact ⟨fun h => ⟨_, rfl, h⟩, by rintro ⟨mv, rfl, h⟩; exact h⟩),
    drawsProb_kind hw hposs (hpos _) (by
      rintro us mv us' m' rfl h
      cases m' with
      | prune => rfl
      | grow =>
        exfalso
        simp only [proposeBy, proposeGrow] at h
        split at h
        · split at h
          · cases h
          · split at h
            · cases h
            · split at h <;> cases h
        · cases h)]
  have hsl := look_prunable hI
  have hlen : (look t).prunable.length = t.prunableDecisionNodes.length := by rw [hsl, List.length_map]
  have e := prob_proposePrune (t := look t) (N := N) hN.1 (path := pathOf t.heap i) (j := j) (v := v) (by rw [hsl]; rw [← hl]; exact List.mem_map_of_mem hi)
    (by rw [hsl]; exact countP_path hI ((nodes_nodup hI).filter _ |>.filter _) (fun k hk => prunables_sub hk) hi)
    (hN.2 _ (by rw [hlen]; exact List.length_pos_of_mem hi) (Or.inr (Or.inr (by rw [hlen]; exact prunables_le))))
  rw [prob_congr (E' := fun us => proposePrune (look t) (us.map Fin.val) = .ok (.prune (pathOf t.heap i) j v, []))
    (fun us => by simp only [proposeBy]; exact ⟨by rintro ⟨mv, rfl, h⟩; exact h, fun h => ⟨_, rfl, h⟩⟩), e, hlen, hposs, canMove_grow hX hI]
  rw [ENNReal.toReal_mul]
  have em : (if (!(splitLeavesOf X t).isEmpty && true) = true then methodProb (ENNReal.ofReal pGrow) (ENNReal.ofReal pPrune) .prune else 1).toReal =
      if splitLeavesOf X t = [] then 1 else pPrune := by
    cases splitLeavesOf X t with
    | nil => simp
    | cons a l => simp [methodProb, hp.le]
  rw [em, ENNReal.toReal_div]
  simp only [ENNReal.toReal_natCast, ENNReal.toReal_one]

theorem columns_two {rows : Fin n → Bool} {j : Fin p} (hj : j ∈ columns X rows) : ∃ a ∈ column X rows j, ∃ b ∈ column X rows j, a ≠ b := by
  have h := (List.mem_filter.1 hj).2
  obtain ⟨a, ha, h⟩ := List.any_eq_true.1 h
  obtain ⟨b, hb, h⟩ := List.any_eq_true.1 h
  exact ⟨a, List.mem_of_mem_tail ha, b, List.mem_of_mem_tail hb, by simpa using h⟩

theorem not_lt_of_le {a b : Fl K} (h : Fl.le a b = true) : Fl.lt b a = false := by
  cases e : Fl.lt b a with
  | false => rfl
  | true => have := Fl.lt_of_le_of_lt h e; rw [Fl.lt_irrefl] at this; cases this

/-- Some proposal is made with probability 1, if one is possible. -/
theorem total_probability (hX : NoNan X) (hI : TreeInv X (some y) t s) (hN : Divides N t) {pGrow pPrune : ℝ} (hg : 0 < pGrow) (hp : 0 < pPrune) (h1 : pGrow + pPrune = 1)
    (hne : splitLeavesOf X t ≠ [] ∨ t.prunableDecisionNodes ≠ []) : proposalProb N pGrow pPrune (Proposes t) = 1 := by
  classical
  obtain ⟨hw, hpos⟩ := methods_real hg hp h1
  set w := methodProb (ENNReal.ofReal pGrow) (ENNReal.ofReal pPrune) with hwd
  have hsl := look_splittable hX hI
  have hpl := look_prunable hI
  have htop : ∀ a, w a ≠ ⊤ := by intro a; cases a <;> simp [hwd, methodProb]
  have hgrow : splitLeavesOf X t ≠ [] → prob (uniform N) (fun us => ∃ mv, proposeBy X (look t) (us.map Fin.val) .grow = .ok (mv, [])) = 1 := by
    intro h
    have hlen : ((look t).splittable X).length = (splitLeavesOf X t).length := by rw [hsl, List.length_map]
    refine prob_proposeGrow_any hN.1 (by rw [hsl]; simpa using h) (hN.2 _ ?_ (Or.inr (Or.inr (by rw [hlen]; exact splitLeaves_le)))) ?_ ?_ ?_
    · rw [hlen]; exact List.length_pos_iff.2 h
    · intro nd hnd
      rw [hsl] at hnd
      obtain ⟨i, hi, rfl⟩ := List.mem_map.1 hnd
      obtain ⟨-, j, hj⟩ := mem_splitLeavesOf.1 hi
      rw [hI.rows_eq hX (splitLeaves_sub hi)]
      refine hN.2 _ ?_ (Or.inr (Or.inl (columns_le _)))
      rw [columns_eq hX]
      exact List.length_pos_of_mem (List.mem_filter.2 ⟨List.mem_finRange j, hj⟩)
    · intro nd hnd j
      rw [hsl] at hnd
      obtain ⟨i, hi, rfl⟩ := List.mem_map.1 hnd
      obtain ⟨-, j', hj⟩ := mem_splitLeavesOf.1 hi
      rw [hI.rows_eq hX (splitLeaves_sub hi), column_length]
      refine hN.2 _ ?_ (Or.inl (rows_le _))
      rw [← column_length X _ j']
      cases h : column X (rowsOf (t.heap.dataOf i)) j' with
      | nil => rw [h] at hj; simp [isNotConstant] at hj
      | cons a l => simp
    · intro nd hnd j hj
      obtain ⟨a, ha, b, hb, hab⟩ := columns_two hj
      have hna : a ≠ .nan := by obtain ⟨r, -, rfl⟩ := mem_column.1 ha; exact hX r j
      have hnb : b ≠ .nan := by obtain ⟨r, -, rfl⟩ := mem_column.1 hb; exact hX r j
      cases h' : Fl.lt a b with
      | true => exact ⟨a, ha, isMax_eq_false.2 ⟨b, hb, h'⟩⟩
      | false => exact ⟨b, hb, isMax_eq_false.2 ⟨a, ha, Fl.lt_of_le_of_ne (Fl.le_of_not_lt hna hnb h') hab.symm⟩⟩
  have hprune : t.prunableDecisionNodes ≠ [] → prob (uniform N) (fun us => ∃ mv, proposeBy X (look t) (us.map Fin.val) .prune = .ok (mv, [])) = 1 := by
    intro h
    have hlen : (look t).prunable.length = t.prunableDecisionNodes.length := by rw [hpl, List.length_map]
    exact prob_proposePrune_any hN.1 (by rw [hpl]; simpa using h) (hN.2 _ (by rw [hlen]; exact List.length_pos_iff.2 h) (Or.inr (Or.inr (by rw [hlen]; exact prunables_le))))
  have hboth : ∀ m, canMove X (look t) m = true → prob (uniform N) (fun us => ∃ mv, proposeBy X (look t) (us.map Fin.val) m = .ok (mv, [])) = 1 := by
    intro m hm
    cases m with
    | grow => exact hgrow (by rintro h; rw [canMove_grow hX hI, h] at hm; cases hm)
    | prune => exact hprune (by rintro h; rw [canMove_prune hI, h] at hm; cases hm)
  have hfirst : ∀ {m ms}, first (canMove X (look t)) m ms → canMove X (look t) m = true := by
    intro m ms
    induction ms with
    | nil => intro h; exact h.elim
    | cons a ms ih =>
      intro h
      simp only [first] at h
      split at h
      · next ho => rw [← h.1]; exact ho
      · exact ih h
  have hkey : drawsProb N (ENNReal.ofReal pGrow) (ENNReal.ofReal pPrune) (Proposes t) = prob w (fun ms => ∃ m, first (canMove X (look t)) m ms) := by
    unfold drawsProb
    rw [prob]
    refine tsum_congr fun ms => ?_
    by_cases hf : ∃ m, first (canMove X (look t)) m ms
    · rw [if_pos hf]
      obtain ⟨m, hm⟩ := hf
      rw [prob_congr (E' := fun us => ∃ mv, proposeBy X (look t) (us.map Fin.val) m = .ok (mv, [])), hboth m (hfirst hm), mul_one]
      intro us
      rw [proposes_iff hX hI]
      refine exists_congr fun mv => ?_
      rw [propose_first]
      exact ⟨fun ⟨m', h, h'⟩ => by rw [first_unique hm h]; exact h', fun h => ⟨m, hm, h⟩⟩
    · rw [if_neg hf, prob_eq_zero, mul_zero]
      intro us h
      rw [proposes_iff hX hI] at h
      obtain ⟨mv, h⟩ := h
      obtain ⟨m, h1, -⟩ := (propose_first _ _ _).1 h
      exact hf ⟨m, h1⟩
  unfold proposalProb
  rw [hkey, prob_loop (B := fun a => canMove X (look t) a = false) (G := fun a => canMove X (look t) a = true) (by rintro ⟨m, h⟩; exact h)
    (fun a l h => by simp [first, h]) (fun a l h => by simp [first, h]) (fun a h h' => by rw [h] at h'; cases h') (fun a l h h' => absurd (by simpa using h) h')]
  have hs : ∑ a with canMove X (look t) a = true, w a + ∑ a with canMove X (look t) a = false, w a = 1 := by
    rw [← hw]
    have := Finset.sum_filter_add_sum_filter_not Finset.univ (fun a => canMove X (look t) a = true) w
    simp only [Bool.not_eq_true] at this
    rw [this, show (Finset.univ : Finset Method) = {.grow, .prune} from rfl, Finset.sum_pair (by decide)]
    rfl
  have hfin : ∀ q : Method → Prop, ∀ [DecidablePred q], ∑ a with q a, w a ≠ ⊤ := fun q _ => ENNReal.sum_ne_top.2 fun a _ => htop a
  have hnz : ∑ a with canMove X (look t) a = true, w a ≠ 0 := by
    have : ∃ m, canMove X (look t) m = true := by
      rcases hne with h | h
      · exact ⟨.grow, by rw [canMove_grow hX hI]; cases h' : splitLeavesOf X t with | nil => exact absurd h' h | cons a l => rfl⟩
      · exact ⟨.prune, by rw [canMove_prune hI]; cases h' : t.prunableDecisionNodes with | nil => exact absurd h' h | cons a l => rfl⟩
    obtain ⟨m, hm⟩ := this
    intro h0
    rw [Finset.sum_eq_zero_iff] at h0
    exact hpos m (h0 m (by simp [hm]))
  rw [show (1 : ℝ≥0∞) - ∑ a with canMove X (look t) a = false, w a = ∑ a with canMove X (look t) a = true, w a from by
    rw [← hs]; exact ENNReal.add_sub_cancel_right (hfin _), ENNReal.mul_inv_cancel hnz (hfin _), ENNReal.toReal_one]

/-! ### C110, the probabilities -/

/-- C110, the proposals: on every reachable tree, with kinds of move drawn with probabilities `p_grow` and `p_prune` and choices that are uniform, a proposal is made with probability 1 if one is possible; -/
theorem C110_total (hX : NoNan X) (ht : ReachableTree X t) (hy : HasTarget t y) (hN : Divides N t) {pGrow pPrune : ℝ} (hg : 0 < pGrow) (hp : 0 < pPrune) (h1 : pGrow + pPrune = 1)
    (hne : t.splittableLeafNodes.1 ≠ [] ∨ t.prunableDecisionNodes ≠ []) : proposalProb N pGrow pPrune (Proposes t) = 1 := by
  obtain ⟨y0, s, hI⟩ := reachable_tree_inv hX ht
  have := hI.target hy; subst this
  rw [(splittableLeaves_spec hI).2] at hne
  exact total_probability hX hI hN hg hp h1 hne

/-- a split of a leaf that can be split, at a value of one of its columns that is not the largest, is proposed with the probability of the kind (1 if no split can be removed), divided by the number of
leaves that can be split and by the number of columns of the leaf that can be split, times the share of the value among the rows of the leaf whose value is not the largest; -/
theorem C110_grow (hX : NoNan X) (ht : ReachableTree X t) (hy : HasTarget t y) (hN : Divides N t) {pGrow pPrune : ℝ} (hg : 0 < pGrow) (hp : 0 < pPrune) (h1 : pGrow + pPrune = 1)
    {i : NodeId} (hi : i ∈ t.splittableLeafNodes.1) {j : Fin p} (hj : j ∈ columns X (rowsOf (t.heap.dataOf i))) {r r' : Fin n} (hr : rowsOf (t.heap.dataOf i) r = true)
    (hr' : rowsOf (t.heap.dataOf i) r' = true) (hlt : Fl.lt (X r j) (X r' j) = true) :
    proposalProb N pGrow pPrune (ProposesGrow t i j (X r j)) =
      (if t.prunableDecisionNodes = [] then 1 else pGrow) * (1 / t.splittableLeafNodes.1.length) * (1 / (columns X (rowsOf (t.heap.dataOf i))).length) *
        (shareOf X (rowsOf (t.heap.dataOf i)) j (X r j) / (1 - shareOfLargest X (rowsOf (t.heap.dataOf i)) j)) := by
  obtain ⟨y0, s, hI⟩ := reachable_tree_inv hX ht
  have := hI.target hy; subst this
  have hs : t.splittableLeafNodes.1 = splitLeavesOf X t := (splittableLeaves_spec hI).2
  rw [hs] at hi ⊢
  exact grow_probability hX hI hN hg hp h1 hi hj (mem_column.2 ⟨r, hr, rfl⟩) ⟨_, mem_column.2 ⟨r', hr', rfl⟩, hlt⟩

/-- the removal of a split is proposed with the probability of the kind (1 if no leaf can be split), divided by the number of splits that can be removed. -/
theorem C110_prune (hX : NoNan X) (ht : ReachableTree X t) (hy : HasTarget t y) (hN : Divides N t) {pGrow pPrune : ℝ} (hg : 0 < pGrow) (hp : 0 < pPrune) (h1 : pGrow + pPrune = 1)
    {i : NodeId} (hi : i ∈ t.prunableDecisionNodes) :
    proposalProb N pGrow pPrune (ProposesPrune t i) = (if t.splittableLeafNodes.1 = [] then 1 else pPrune) * (1 / t.prunableDecisionNodes.length) := by
  obtain ⟨y0, s, hI⟩ := reachable_tree_inv hX ht
  have := hI.target hy; subst this
  have hs : t.splittableLeafNodes.1 = splitLeavesOf X t := (splittableLeaves_spec hI).2
  rw [hs]
  exact prune_probability hX hI hN hg hp h1 hi

/-- There are such numbers `N`. -/
theorem exists_divides (t : Tree K n p) : ∃ N, Divides N t :=
  ⟨(n + p + t.nodes.length).factorial, Nat.factorial_pos _, fun L h1 h2 => Nat.dvd_factorial h1 (by omega)⟩

end

/-! ### C110, the transition ratio

Full statement: the transition ratio of a proposal is the probability of the proposal that undoes it divided by the probability of the proposal. It is false (`C110_refuted`). -/

section
variable {n p : Nat} {X : Fin n → Fin p → Fl ℝ} {N N2 : Nat}
open Lik

/-- The value of the prior of a cut. -/
theorem withinNode_value (hX : NoNan X) {rows : Fin n → Bool} {j : Fin p} (hj : isNotConstant (column X rows j) = true) {v : Fl ℝ} (hv : v ∈ column X rows j) :
    withinNode X rows j v = .fin (-Real.log (columns X rows).length + Real.log (shareOf X rows j v)) ∧ 0 < (columns X rows).length ∧ 0 < shareOf X rows j v := by
  have hc := colsOf_pos hj
  have hcols : (columns X rows).length = colsOf X rows := by rw [columns_eq hX]; rfl
  have hn : 0 < count rows := by rw [← column_length X rows j]; exact List.length_pos_of_mem hv
  have hcv : (column X rows j).countP (fun x => Fl.eq x v) = count (fun r => rows r && decide (X r j = v)) := by
    rw [column_countP]
    congr 1
    funext r
    congr 1
    rw [Bool.eq_iff_iff, Fl.eq_iff, decide_eq_true_eq]
    exact ⟨fun h => h.2, fun h => ⟨hX r j, h⟩⟩
  have hcp : 0 < count (fun r => rows r && decide (X r j = v)) := by
    obtain ⟨r, hr, hrv⟩ := mem_column.1 hv
    exact Finset.card_pos.2 ⟨r, by simp [hr, hrv]⟩
  have hf : (freqOf X rows j v).1 = (count (fun r => rows r && decide (X r j = v)) : Int) ∧ (freqOf X rows j v).2 = (count rows : Int) := by
    unfold freqOf
    split
    · next hnd =>
      refine ⟨?_, rfl⟩
      have := List.count_eq_one_of_mem hnd hv
      have h2 : (column X rows j).countP (fun x => decide (x = v)) = 1 := by
        rw [← this, List.count]
        exact List.countP_congr fun a _ => by simp
      rw [column_countP] at h2
      show (1 : Int) = _
      rw [h2]; rfl
    · exact ⟨by rw [← hcv], rfl⟩
  have p1 : (0 : ℝ) < count (fun r => rows r && decide (X r j = v)) := by exact_mod_cast hcp
  have p2 : (0 : ℝ) < count rows := by exact_mod_cast hn
  have p3 : (0 : ℝ) < colsOf X rows := by exact_mod_cast hc
  refine ⟨?_, by rw [hcols]; exact hc, by unfold shareOf; positivity⟩
  unfold withinNode Fl.ofInt shareOf
  rw [hf.1, hf.2, hcols]
  simp only [Int.cast_natCast]
  rw [Fl.log_fin p3, Fl.div_fin _ p2.ne', Fl.log_fin (by positivity)]
  simp

/-- C110, what holds: the true ratio of the probabilities of a grow and of the prune that undoes it is the exponential of the transition ratio of the grow times `1 - q`, times `(P + 1) / P'`, times
`p_grow` if `P = 0`, divided by `p_prune` if no leaf can be split after the grow. (`q` the share of rows of the leaf with the largest value of the column, `P` and `P'` the numbers of splits that can be
removed before and after the grow.) -/
theorem C110_transition_grow_partial (hX : NoNan X) {y : Fin n → ℝ} {t t1 t1' t2 t3 : Tree ℝ n p} {mu mu' : TreeMutation} (h : RoundTrip X y t t1 t1' t2 t3 mu mu')
    (hN : Divides N t) (hN2 : Divides N2 t2) {pGrow pPrune : ℝ} (hg : 0 < pGrow) (hp : 0 < pPrune) (h1 : pGrow + pPrune = 1) :
    ∃ a ta j v, logTransitionRatio pGrow pPrune t1 mu = .ok (.fin a, ta) ∧ rule t1.heap mu.updated = some (j, v) ∧
      0 < proposalProb N pGrow pPrune (ProposesGrow t mu.existing j v) ∧
      0 < shareOfLargest X (rowsOf (t.heap.dataOf mu.existing)) j ∧ shareOfLargest X (rowsOf (t.heap.dataOf mu.existing)) j < 1 ∧
      proposalProb N2 pGrow pPrune (ProposesPrune t2 mu.updated) / proposalProb N pGrow pPrune (ProposesGrow t mu.existing j v) =
        Real.exp a * (1 - shareOfLargest X (rowsOf (t.heap.dataOf mu.existing)) j) * ((t.prunableDecisionNodes.length + 1) / t2.prunableDecisionNodes.length) *
          (if t.prunableDecisionNodes = [] then pGrow else 1) / (if t2.splittableLeafNodes.1 = [] then pPrune else 1) := by
  obtain ⟨s, s', i, D, L, R, l, r, U, j, v, hI, x1, rfl, hgp, hI2, x3, rfl, hg2, c1, c2, c3, c4⟩ := h.unfold hX
  have hin : i ∈ t.nodes := (List.mem_filter.1 hgp.leaf).1
  have hrows := x1.rows hI hin
  obtain ⟨hw, hC, hsh⟩ := withinNode_value hX hgp.splittable hgp.vcol
  have hS := GrowProp.nsl_pos hI x1 hgp
  have hP2 : 0 < t2.prunableDecisionNodes.length := List.length_pos_of_mem c4
  obtain ⟨ta, e1, -⟩ := transition_grow hI x1 hgp (pPrune := pPrune) hg.ne'
  rw [hw, transGrow_fin (by positivity) _ hS] at e1
  have hv := hgp.vcol
  have hvm := hgp.vmax
  have hns := hgp.splittable
  rw [hrows] at hv hvm hns e1 hC hsh
  have hil : i ∈ splitLeavesOf X t := mem_splitLeavesOf.2 ⟨hgp.leaf, j, hns⟩
  have hjc : j ∈ columns X (rowsOf (t.heap.dataOf i)) := by rw [columns_eq hX]; exact List.mem_filter.2 ⟨List.mem_finRange j, hns⟩
  have eg := grow_probability hX hI hN hg hp h1 hil hjc hv hvm
  have ep := prune_probability hX hI2 hN2 hg hp h1 c4
  obtain ⟨-, hq0, hq1⟩ := cutProb_real hv hvm
  have hs2 : t2.splittableLeafNodes.1 = splitLeavesOf X t2 := (splittableLeaves_spec hI2).2
  have hqpos : 0 < shareOfLargest X (rowsOf (t.heap.dataOf i)) j := by
    unfold shareOfLargest
    have hne : column X (rowsOf (t.heap.dataOf i)) j ≠ [] := List.ne_nil_of_mem hv
    obtain ⟨m, hm⟩ := npMaxList_ok hne
    obtain ⟨mm, ml⟩ := npMaxList_spec (fun x hx => by obtain ⟨r, -, rfl⟩ := mem_column.1 hx; exact hX r j) hm
    obtain ⟨r, hr, hrm⟩ := mem_column.1 mm
    have h1 : 0 < count (fun r => rowsOf (t.heap.dataOf i) r && decide (∀ r', rowsOf (t.heap.dataOf i) r' = true → Fl.lt (X r j) (X r' j) = false)) := by
      refine Finset.card_pos.2 ⟨r, ?_⟩
      simp only [Finset.mem_filter, Finset.mem_univ, true_and, Bool.and_eq_true, decide_eq_true_eq]
      refine ⟨hr, fun r' hr' => ?_⟩
      rw [hrm]
      exact not_lt_of_le (ml _ (mem_column.2 ⟨r', hr', rfl⟩))
    have h2 : 0 < count (rowsOf (t.heap.dataOf i)) := Finset.card_pos.2 ⟨r, by simpa using hr⟩
    have h1' : (0 : ℝ) < count (fun r => rowsOf (t.heap.dataOf i) r && decide (∀ r', rowsOf (t.heap.dataOf i) r' = true → Fl.lt (X r j) (X r' j) = false)) := by exact_mod_cast h1
    have h2' : (0 : ℝ) < count (rowsOf (t.heap.dataOf i)) := by exact_mod_cast h2
    positivity
  have b1 : (0 : ℝ) < (splitLeavesOf X t).length := by exact_mod_cast hS
  have b2 : (0 : ℝ) < (columns X (rowsOf (t.heap.dataOf i))).length := by exact_mod_cast hC
  have b3 : (0 : ℝ) < t2.prunableDecisionNodes.length := by exact_mod_cast hP2
  have b4 : (0 : ℝ) < (t.prunableDecisionNodes.length : ℝ) + 1 := by positivity
  have b5 : 0 < 1 - shareOfLargest X (rowsOf (t.heap.dataOf i)) j := by linarith
  have hexp : Real.exp (Real.log (pPrune / pGrow) - Real.log (t.prunableDecisionNodes.length + 1) + Real.log (splitLeavesOf X t).length -
      (-Real.log (columns X (rowsOf (t.heap.dataOf i))).length + Real.log (shareOf X (rowsOf (t.heap.dataOf i)) j v))) =
      (pPrune / pGrow) / (t.prunableDecisionNodes.length + 1) * (splitLeavesOf X t).length * (columns X (rowsOf (t.heap.dataOf i))).length / shareOf X (rowsOf (t.heap.dataOf i)) j v := by
    rw [Real.exp_sub, Real.exp_add, Real.exp_sub, Real.exp_add, Real.exp_neg, Real.exp_log (by positivity), Real.exp_log b4, Real.exp_log b1, Real.exp_log b2, Real.exp_log hsh]
    field_simp
  have hgpos : 0 < proposalProb N pGrow pPrune (ProposesGrow t i j v) := by
    rw [eg]
    have : (0 : ℝ) < if t.prunableDecisionNodes = [] then 1 else pGrow := by split <;> [exact one_pos; exact hg]
    positivity
  refine ⟨_, ta, j, v, e1, hgp.rule, hgpos, hqpos, hq1, ?_⟩
  simp only at eg ep ⊢
  rw [ep, eg, hexp, hs2]
  split <;> split <;> field_simp

/-- C110, what holds for the prune that undoes a grow: if two or more leaves can be split after the grow, the true ratio of the probabilities is the exponential of the transition ratio of the prune times
`(S' - 1) / S`, divided by `1 - q`, and by `p_grow` if `P = 0` (`S` and `S'` the numbers of leaves that can be split before and after the grow). If exactly one leaf can be split the transition ratio is
`-inf`, if none can it is NaN, although both moves have positive probabilities. -/
theorem C110_transition_prune_partial (hX : NoNan X) {y : Fin n → ℝ} {t t1 t1' t2 t3 : Tree ℝ n p} {mu mu' : TreeMutation} (h : RoundTrip X y t t1 t1' t2 t3 mu mu')
    (hN : Divides N t) (hN2 : Divides N2 t2) {pGrow pPrune : ℝ} (hg : 0 < pGrow) (hp : 0 < pPrune) (h1 : pGrow + pPrune = 1) :
    ∃ b tb j v, logTransitionRatio pGrow pPrune t3 mu' = .ok (b, tb) ∧ rule t1.heap mu.updated = some (j, v) ∧
      0 < proposalProb N pGrow pPrune (ProposesGrow t mu.existing j v) ∧ 0 < proposalProb N2 pGrow pPrune (ProposesPrune t2 mu'.existing) ∧
      (1 < t2.splittableLeafNodes.1.length → ∃ b', b = .fin b' ∧
        proposalProb N pGrow pPrune (ProposesGrow t mu.existing j v) / proposalProb N2 pGrow pPrune (ProposesPrune t2 mu'.existing) =
          Real.exp b' * ((t2.splittableLeafNodes.1.length - 1) / t.splittableLeafNodes.1.length) / (1 - shareOfLargest X (rowsOf (t.heap.dataOf mu.existing)) j) /
            (if t.prunableDecisionNodes = [] then pGrow else 1)) ∧
      (t2.splittableLeafNodes.1.length = 1 → b = .ninf) ∧ (t2.splittableLeafNodes.1.length = 0 → b = .nan) := by
  obtain ⟨a, ta, j, v, e1, hr, hpos, hq0, hq1, e2⟩ := C110_transition_grow_partial hX h hN hN2 hg hp h1
  obtain ⟨a', b, ta', tb, f1, f2, hS, f3, f4, f5⟩ := C31_transition_partial hX h hg hp
  rw [e1] at f1
  injection f1 with f1; injection f1 with f1 f1'; injection f1 with f1; subst f1
  have hun : mu'.existing = mu.updated := h.undo
  have hP2 : 0 < t2.prunableDecisionNodes.length := by
    obtain ⟨-, -, i, D, -, -, -, -, -, -, -, -, -, rfl, -, -, -, -, -, -, -, -, c4⟩ := h.unfold hX
    exact List.length_pos_of_mem c4
  have b1 : (0 : ℝ) < t.splittableLeafNodes.1.length := by exact_mod_cast hS
  have b2 : (0 : ℝ) < t2.prunableDecisionNodes.length := by exact_mod_cast hP2
  have b3 : (0 : ℝ) < (t.prunableDecisionNodes.length : ℝ) + 1 := by positivity
  have b4 : 0 < 1 - shareOfLargest X (rowsOf (t.heap.dataOf mu.existing)) j := by linarith
  have c1 : (0 : ℝ) < if t.prunableDecisionNodes = [] then pGrow else 1 := by split <;> [exact hg; exact one_pos]
  have c2 : (0 : ℝ) < if t2.splittableLeafNodes.1 = [] then pPrune else 1 := by split <;> [exact hp; exact one_pos]
  have hpp : 0 < proposalProb N2 pGrow pPrune (ProposesPrune t2 mu.updated) := by
    have : 0 < proposalProb N2 pGrow pPrune (ProposesPrune t2 mu.updated) / proposalProb N pGrow pPrune (ProposesGrow t mu.existing j v) := by
      rw [e2]
      have := Real.exp_pos a
      positivity
    exact (div_pos_iff_of_pos_right hpos).1 this
  refine ⟨b, tb, j, v, f2, hr, hpos, by rw [hun]; exact hpp, fun hS2 => ?_, f4, f5⟩
  obtain ⟨b', hb, f6, -⟩ := f3 hS2
  refine ⟨b', hb, ?_⟩
  have b5 : (0 : ℝ) < (t2.splittableLeafNodes.1.length : ℝ) - 1 := by
    have : (1 : ℝ) < t2.splittableLeafNodes.1.length := by exact_mod_cast hS2
    linarith
  have hne : t2.splittableLeafNodes.1 ≠ [] := by intro h0; rw [h0] at hS2; simp at hS2
  rw [if_neg hne, div_one] at e2
  have hexp : Real.exp b' = t2.prunableDecisionNodes.length * t.splittableLeafNodes.1.length / ((t.prunableDecisionNodes.length + 1) * (t2.splittableLeafNodes.1.length - 1)) / Real.exp a := by
    rw [show b' = Real.log (t2.prunableDecisionNodes.length * t.splittableLeafNodes.1.length / ((t.prunableDecisionNodes.length + 1) * (t2.splittableLeafNodes.1.length - 1))) - a by linarith,
      Real.exp_sub, Real.exp_log (by positivity)]
  have ha := Real.exp_pos a
  rw [hun, hexp, ← inv_div, e2]
  field_simp

/-- If leaves can be split after the grow, and no split ceases to be removable, the transition ratio of a grow is too large, for all settings. -/
theorem C110_too_large_partial (hX : NoNan X) {y : Fin n → ℝ} {t t1 t1' t2 t3 : Tree ℝ n p} {mu mu' : TreeMutation} (h : RoundTrip X y t t1 t1' t2 t3 mu mu')
    (hN : Divides N t) (hN2 : Divides N2 t2) {pGrow pPrune : ℝ} (hg : 0 < pGrow) (hp : 0 < pPrune) (h1 : pGrow + pPrune = 1)
    (hS2 : t2.splittableLeafNodes.1 ≠ []) (hP2 : t2.prunableDecisionNodes.length = t.prunableDecisionNodes.length + 1) :
    ∃ a ta j v, logTransitionRatio pGrow pPrune t1 mu = .ok (.fin a, ta) ∧ rule t1.heap mu.updated = some (j, v) ∧
      proposalProb N2 pGrow pPrune (ProposesPrune t2 mu.updated) / proposalProb N pGrow pPrune (ProposesGrow t mu.existing j v) < Real.exp a := by
  obtain ⟨a, ta, j, v, e1, hr, hpos, hq0, hq1, e2⟩ := C110_transition_grow_partial hX h hN hN2 hg hp h1
  refine ⟨a, ta, j, v, e1, hr, ?_⟩
  rw [e2, if_neg hS2, hP2, Nat.cast_add, Nat.cast_one, div_self (by positivity), mul_one, div_one]
  have := Real.exp_pos a
  have c : (if t.prunableDecisionNodes = [] then pGrow else 1) ≤ 1 ∧ 0 < if t.prunableDecisionNodes = [] then pGrow else 1 := by
    split
    · exact ⟨by linarith, hg⟩
    · exact ⟨le_refl _, one_pos⟩
  calc Real.exp a * (1 - shareOfLargest X (rowsOf (t.heap.dataOf mu.existing)) j) * (if t.prunableDecisionNodes = [] then pGrow else 1)
      ≤ Real.exp a * (1 - shareOfLargest X (rowsOf (t.heap.dataOf mu.existing)) j) * 1 := by
        apply mul_le_mul_of_nonneg_left c.1
        have : 0 < 1 - shareOfLargest X (rowsOf (t.heap.dataOf mu.existing)) j := by linarith
        positivity
    _ < Real.exp a := by nlinarith

/-- C110 is false, for all `p_grow`: for the first split of a tree over the rows 0, ..., 5 (at the value 2) the true ratio is the exponential of the transition ratio times `5/6 * p_grow`. -/
theorem C110_refuted (y : Fin 6 → ℝ) {pGrow pPrune : ℝ} (hg : 0 < pGrow) (hp : 0 < pPrune) (h1 : pGrow + pPrune = 1) :
    ∃ t t1 t2 t3 mu mu' N N2 a ta j v, RoundTrip (rampX 6) y t t1 t1 t2 t3 mu mu' ∧ Divides N t ∧ Divides N2 t2 ∧ t2.splittableLeafNodes.1 ≠ [] ∧ t2.prunableDecisionNodes.length = t.prunableDecisionNodes.length + 1 ∧
      logTransitionRatio pGrow pPrune t1 mu = .ok (.fin a, ta) ∧ rule t1.heap mu.updated = some (j, v) ∧
      proposalProb N2 pGrow pPrune (ProposesPrune t2 mu.updated) / proposalProb N pGrow pPrune (ProposesGrow t mu.existing j v) = Real.exp a * (5 / 6 * pGrow) ∧
      proposalProb N2 pGrow pPrune (ProposesPrune t2 mu.updated) / proposalProb N pGrow pPrune (ProposesGrow t mu.existing j v) < Real.exp a := by
  obtain ⟨t, hf, ht, hy, hl, hr⟩ := exists_fresh (rampX 6) y
  have hrow : rowsOf (t.heap.dataOf 0) = fun _ => true := funext hr
  have hc : isNotConstant (column (rampX 6) (rowsOf (t.heap.dataOf 0)) 0) = true := by
    apply ramp_splittable; rw [hrow]; decide
  obtain ⟨t1, t2, t3, mu, mu', L, R, hrt, h2, h3, hne, h4, h5, h6, h7⟩ := exists_roundTrip (rampX_noNan 6) ht hy (i := 0) (by rw [hl]; simp) hc
    (a := 2) (b := 3) (hr _) (hr _) (by rw [ramp_lt]; decide)
  obtain ⟨N, hN⟩ := exists_divides t
  obtain ⟨N2, hN2⟩ := exists_divides t2
  obtain ⟨a, ta, j, v, e1, e2, hpos, hq0, hq1, e3⟩ := C110_transition_grow_partial (rampX_noNan 6) hrt hN hN2 hg hp h1
  have hP : t.prunableDecisionNodes = [] := by
    rw [List.eq_nil_iff_forall_not_mem]
    intro k hk
    have hkd : (t.heap.node k).kind = .decision := by simpa using (List.mem_filter.1 (List.mem_filter.1 hk).1).2
    have hk0 := prunables_sub hk
    rw [(fresh_tree_inv hf).2.1] at hk0
    simp only [List.mem_singleton] at hk0
    subst hk0
    have h0 : 0 ∈ t.leafNodes := by rw [hl]; simp
    have : (t.heap.node 0).kind = .leaf := by simpa using (List.mem_filter.1 h0).2
    rw [this] at hkd; cases hkd
  have hex : mu.existing = 0 := by
    obtain ⟨_, _, i, D, _, _, _, _, _, _, _, _, _, rfl, hgp, _⟩ := hrt.unfold (rampX_noNan 6)
    have := hgp.leaf
    rw [hl] at this
    simpa using this
  have hP2 : t2.prunableDecisionNodes.length = 1 := by
    have := hrt.prunable_le (rampX_noNan 6)
    rw [hP] at this
    obtain ⟨-, -, i, D, -, -, -, -, -, -, -, -, -, rfl, -, -, -, -, -, -, -, -, c4⟩ := hrt.unfold (rampX_noNan 6)
    have := List.length_pos_of_mem c4
    simp at *
    omega
  obtain ⟨y2, s2, hI2⟩ := reachable_tree_inv (rampX_noNan 6) h2
  have hS2 : t2.splittableLeafNodes.1 ≠ [] := by
    have hL : rowsOf (t2.heap.dataOf L) = fun r : Fin 6 => decide (r ≤ 2) := by
      rw [h6, hrow]; funext r; rw [ramp_le]; simp
    have sL : isNotConstant (column (rampX 6) (rowsOf (t2.heap.dataOf L)) 0) = true := by
      apply ramp_splittable; rw [hL]; decide
    exact List.ne_nil_of_mem ((mem_splittableLeaves hI2).2 ⟨(h4 L).2 (by simp), 0, sL⟩)
  have hq : shareOfLargest (rampX 6) (rowsOf (t.heap.dataOf mu.existing)) j = 1 / 6 := by
    have hj : j = 0 := Subsingleton.elim _ _
    subst hj
    rw [hex, hrow]
    unfold shareOfLargest
    simp only [ramp_lt]
    rw [show count (fun r : Fin 6 => true && decide (∀ r' : Fin 6, True → decide (r < r') = false)) = 1 by decide, show count (fun _ : Fin 6 => true) = 6 by decide]
    norm_num
  rw [hq, hP, hP2, if_pos rfl, if_neg hS2] at e3
  have e4 : Real.exp a * (1 - 1 / 6) * ((([] : List NodeId).length + 1) / ((1 : Nat) : ℝ)) * pGrow / 1 = Real.exp a * (5 / 6 * pGrow) := by
    simp; ring
  rw [e4] at e3
  refine ⟨t, t1, t2, t3, mu, mu', N, N2, a, ta, j, v, hrt, hN, hN2, hS2, by rw [hP, hP2]; rfl, e1, e2, e3, ?_⟩
  rw [e3]
  have := Real.exp_pos a
  nlinarith

/-- The hypotheses of `C110_total`, `C110_grow` and `C110_prune` are met: a new tree over the rows 0, ..., 5 and the tree after its first split. -/
example (y : Fin 6 → ℝ) : ∃ (t t2 : Tree ℝ 6 1) (N N2 : Nat) (D : NodeId), ReachableTree (rampX 6) t ∧ HasTarget t y ∧ Divides N t ∧ proposalProb N (1 / 2) (1 / 2) (Proposes t) = 1 ∧
    0 ∈ t.splittableLeafNodes.1 ∧ 0 ∈ columns (rampX 6) (rowsOf (t.heap.dataOf 0)) ∧ Fl.lt (rampX 6 2 0) (rampX 6 3 0) = true ∧
    ReachableTree (rampX 6) t2 ∧ HasTarget t2 y ∧ Divides N2 t2 ∧ D ∈ t2.prunableDecisionNodes ∧ t2.splittableLeafNodes.1 ≠ [] := by
  obtain ⟨t, hf, ht, hy, hl, hr⟩ := exists_fresh (rampX 6) y
  have hrow : rowsOf (t.heap.dataOf 0) = fun _ => true := funext hr
  have hc : isNotConstant (column (rampX 6) (rowsOf (t.heap.dataOf 0)) 0) = true := by
    apply ramp_splittable; rw [hrow]; decide
  obtain ⟨us, D, L, R, t1, t2, hp, hg, hm, hr2, hy2, hD, hne, h4, h5, h6, h7⟩ := exists_grow (rampX_noNan 6) ht hy (i := 0) (by rw [hl]; simp) hc
    (a := 2) (b := 3) (hr _) (hr _) (by rw [ramp_lt]; decide)
  obtain ⟨y1, s1, hI⟩ := reachable_tree_inv (rampX_noNan 6) ht
  obtain ⟨y2, s2, hI2⟩ := reachable_tree_inv (rampX_noNan 6) hr2
  obtain ⟨N, hN⟩ := exists_divides t
  obtain ⟨N2, hN2⟩ := exists_divides t2
  have h0 : 0 ∈ t.splittableLeafNodes.1 := (mem_splittableLeaves hI).2 ⟨by rw [hl]; simp, 0, hc⟩
  have hL : rowsOf (t2.heap.dataOf L) = fun r : Fin 6 => decide (r ≤ 2) := by
    rw [h6, hrow]; funext r; rw [ramp_le]; simp
  have sL : isNotConstant (column (rampX 6) (rowsOf (t2.heap.dataOf L)) 0) = true := by
    apply ramp_splittable; rw [hL]; decide
  exact ⟨t, t2, N, N2, D, ht, hy, hN, C110_total (rampX_noNan 6) ht hy hN (by norm_num) (by norm_num) (by norm_num) (Or.inl (List.ne_nil_of_mem h0)), h0,
    by rw [columns_eq (rampX_noNan 6)]; exact List.mem_filter.2 ⟨List.mem_finRange _, hc⟩, by rw [ramp_lt]; decide, hr2, hy2, hN2, hD,
    List.ne_nil_of_mem ((mem_splittableLeaves hI2).2 ⟨(h4 L).2 (by simp), 0, sL⟩)⟩

end

end Bart
