import Verif.Spec.Layers
import Verif.Spec.DecisionTree
import Verif.Proofs.LayerNodes
import Verif.Proofs.NoReturn
import Verif.Props.ForestProps

/-! A tree of the reference implementation with the oblivious tree sampler has the values of a decision tree, although leaves are doubled. -/

set_option linter.unusedSectionVars false

namespace Bart.LayerForest
open Bart Spec Reference Oblivious
variable {K : Type} [Field K] [LinearOrder K] {n p : Nat} {X : Fin n → Fin p → Fl K}

/-- The trees at the leaves before a growth, from those at the leaves after it. -/
def merge : List (Layers.Rule K p) → List (DecTree K p) → List (DecTree K p)
  | none :: rules, _ :: b :: Ds => b :: merge rules Ds
  | some (j, v) :: rules, a :: b :: Ds => .node j v a b :: merge rules Ds
  | _, _ => []

theorem merge_length : ∀ (rules : List (Layers.Rule K p)) (Ds : List (DecTree K p)), Ds.length = 2 * rules.length → (merge rules Ds).length = rules.length := by
  intro rules
  induction rules with
  | nil => intro Ds _; simp [merge]
  | cons r rules ih =>
    intro Ds h
    rcases Ds with _ | ⟨a, _ | ⟨b, Ds⟩⟩
    · simp at h
    · simp at h; omega
    · have h' : Ds.length = 2 * rules.length := by simp at h; omega
      rcases r with _ | ⟨j, v⟩ <;> simp [merge, ih Ds h']

theorem merge_cuts {C : Fin p × Fl K → Prop} : ∀ (rules : List (Layers.Rule K p)) (Ds : List (DecTree K p)), (∀ q, some q ∈ rules → C q) → (∀ D ∈ Ds, ∀ c ∈ D.cuts, C c) → ∀ D ∈ merge rules Ds, ∀ c ∈ D.cuts, C c := by
  intro rules
  induction rules with
  | nil => intro Ds _ _ D hD; simp [merge] at hD
  | cons r rules ih =>
    intro Ds hr hD
    rcases Ds with _ | ⟨a, _ | ⟨b, Ds⟩⟩
    · intro D h; rcases r with _ | ⟨j, v⟩ <;> simp [merge] at h
    · intro D h; rcases r with _ | ⟨j, v⟩ <;> simp [merge] at h
    · have i := ih Ds (fun q hq => hr q (List.mem_cons_of_mem _ hq)) (fun D h => hD D (by simp [h]))
      intro D h
      rcases r with _ | ⟨j, v⟩
      · simp only [merge, List.mem_cons] at h
        rcases h with rfl | h
        · exact hD D (by simp)
        · exact i D h
      · simp only [merge, List.mem_cons] at h
        rcases h with rfl | h
        · intro c hc
          simp only [DecTree.cuts, List.mem_cons, List.mem_append] at hc
          rcases hc with rfl | hc | hc
          · exact hr (j, v) (by simp)
          · exact hD a (by simp) c hc
          · exact hD b (by simp) c hc
        · exact i D h

/-- The value of the last tree whose comparisons a row satisfies. -/
def valueAt (ps : List (List (Cond K p))) (Ds : List (DecTree K p)) (x : Fin p → Fl K) : Option K := (((ps.zip Ds).filter (fun q => Layers.meets q.1 x)).getLast?).map (fun q => q.2.eval x)

theorem valueAt_merge (x : Fin p → Fl K) : ∀ (ps : List (List (Cond K p))) (rules : List (Layers.Rule K p)) (Ds : List (DecTree K p)), ps.length = rules.length → Ds.length = 2 * rules.length →
    valueAt (List.zipWith Layers.expand ps rules).flatten Ds x = valueAt ps (merge rules Ds) x := by
  intro ps
  induction ps with
  | nil => intro rules Ds _ _; simp [valueAt]
  | cons q ps ih =>
    intro rules Ds h1 h2
    rcases rules with _ | ⟨r, rules⟩
    · simp at h1
    rcases Ds with _ | ⟨a, _ | ⟨b, Ds⟩⟩
    · simp at h2
    · simp at h2; omega
    have i := ih rules Ds (by simpa using h1) (by simp at h2; omega)
    unfold valueAt at i ⊢
    have split : ∀ (l l' : List (List (Cond K p) × DecTree K p)), (((l ++ l').filter (fun q => Layers.meets q.1 x)).getLast?).map (fun q => q.2.eval x) =
        (((l'.filter (fun q => Layers.meets q.1 x)).getLast?).map (fun q => q.2.eval x)).or (((l.filter (fun q => Layers.meets q.1 x)).getLast?).map (fun q => q.2.eval x)) := by
      intro l l'
      rw [List.filter_append, List.getLast?_append]
      cases (l'.filter (fun q => Layers.meets q.1 x)).getLast? <;> rfl
    rcases r with _ | ⟨j, v⟩
    · rw [List.zipWith_cons_cons, List.flatten_cons, merge, List.zip_cons_cons]
      simp only [Layers.expand, List.cons_append, List.nil_append, List.zip_cons_cons]
      rw [show ∀ l : List (List (Cond K p) × DecTree K p), (q, a) :: (q, b) :: l = [(q, a), (q, b)] ++ l from fun _ => rfl, split,
        show (q, b) :: ps.zip (merge rules Ds) = [(q, b)] ++ ps.zip (merge rules Ds) from rfl, split, i]
      congr 1
      cases hm : Layers.meets q x <;> simp [hm]
    · rw [List.zipWith_cons_cons, List.flatten_cons, merge, List.zip_cons_cons]
      simp only [Layers.expand, List.cons_append, List.nil_append, List.zip_cons_cons]
      rw [show ∀ l : List (List (Cond K p) × DecTree K p), (q ++ [⟨j, v, true⟩], a) :: (q ++ [⟨j, v, false⟩], b) :: l = [(q ++ [⟨j, v, true⟩], a), (q ++ [⟨j, v, false⟩], b)] ++ l from fun _ => rfl, split,
        show ∀ l : List (List (Cond K p) × DecTree K p), (q, .node j v a b) :: l = [(q, .node j v a b)] ++ l from fun _ => rfl, split, i]
      congr 1
      have m1 : ∀ lo : Bool, Layers.meets (q ++ [⟨j, v, lo⟩]) x = (Layers.meets q x && (if lo then Fl.le (x j) v else !Fl.le (x j) v)) := by
        intro lo; simp [Layers.meets, Cond.holds]
      cases hm : Layers.meets q x <;> cases hl : Fl.le (x j) v <;> simp [m1, hm, hl, DecTree.eval]

theorem layers_decTree {C : Fin p × Fl K → Prop} : ∀ (layers : List (List (Layers.Rule K p))) (_ : Full layers) (_ : ∀ rules ∈ layers, ∀ q, some q ∈ rules → C q) (Ds : List (DecTree K p)),
    Ds.length = 2 ^ layers.length → (∀ D ∈ Ds, ∀ c ∈ D.cuts, C c) → ∃ D : DecTree K p, (∀ c ∈ D.cuts, C c) ∧ ∀ x, valueAt (Layers.paths layers) Ds x = some (D.eval x) := by
  intro layers
  induction layers with
  | nil =>
    intro _ _ Ds hl hD
    obtain ⟨D, rfl⟩ := List.length_eq_one_iff.1 hl
    exact ⟨D, hD D (by simp), fun x => by simp [valueAt, Layers.paths, Layers.meets]⟩
  | cons rules rest ih =>
    intro hf hr Ds hl hD
    have hl' : Ds.length = 2 * rules.length := by rw [hl, hf.2, List.length_cons, pow_succ]; omega
    obtain ⟨D, d1, d2⟩ := ih hf.1 (fun r h => hr r (List.mem_cons_of_mem _ h)) (merge rules Ds) (by rw [merge_length _ _ hl', hf.2])
      (merge_cuts _ _ (hr rules (List.mem_cons_self ..)) hD)
    refine ⟨D, d1, fun x => ?_⟩
    rw [← d2, show Layers.paths (rules :: rest) = (List.zipWith Layers.expand (Layers.paths rest) rules).flatten from rfl,
      valueAt_merge x _ _ _ (hf.1.paths_length.trans hf.2.symm) hl']

/-- Every growth has an entry for each leaf, every leaf has a value, every cut is an entry of the training data that is not the largest in its column. -/
structure Sound (X : Fin n → Fin p → Fl K) (t : Layers.LTree K p) : Prop where
  full : Full t.layers
  values : t.values.length = 2 ^ t.layers.length
  cuts : ∀ rules ∈ t.layers, ∀ q, some q ∈ rules → TrainingCut X q

theorem Sound.decTree {t : Layers.LTree K p} (h : Sound X t) : ∃ D : DecTree K p, (∀ c ∈ D.cuts, TrainingCut X c) ∧ ∀ x, t.value x = D.eval x := by
  obtain ⟨D, d1, d2⟩ := layers_decTree t.layers h.full h.cuts (t.values.map .leaf) (by rw [List.length_map, h.values]) (by
    intro D hD c hc
    obtain ⟨v, -, rfl⟩ := List.mem_map.1 hD
    simp [DecTree.cuts] at hc)
  refine ⟨D, d1, fun x => ?_⟩
  have e := d2 x
  have key : valueAt (Layers.paths t.layers) (t.values.map .leaf) x = ((((Layers.paths t.layers).zip t.values).filter (fun q => Layers.meets q.1 x)).getLast?).map (fun q => q.2) := by
    unfold valueAt
    rw [List.zip_map_right, List.filter_map, List.getLast?_map, Option.map_map]
    rfl
  rw [key] at e
  unfold Layers.LTree.value
  cases hq : (((Layers.paths t.layers).zip t.values).filter (fun q => Layers.meets q.1 x)).getLast? with
  | none => rw [hq] at e; cases e
  | some q => rw [hq] at e; simpa using e

theorem sound_root : Sound X (Layers.LTree.root : Layers.LTree K p) := ⟨trivial, rfl, by simp [Layers.LTree.root]⟩

theorem growRules_sound : ∀ {ps : List (List (Cond K p))} {us us' : List Nat} {l : List (Layers.Rule K p)}, Layers.growRules X ps us = .ok (l, us') → l.length = ps.length ∧ ∀ q, some q ∈ l → TrainingCut X q := by
  intro ps
  induction ps with
  | nil => intro us us' l h; cases h; simp
  | cons q ps ih =>
    intro us us' l h
    unfold Layers.growRules at h
    split at h
    · cases h
    · next rule us1 e1 =>
      split at h
      · cases h
      · next l2 us2 e2 =>
        cases h
        obtain ⟨i1, i2⟩ := ih e2
        refine ⟨by simp [i1], ?_⟩
        intro c hc
        rcases List.mem_cons.1 hc with rfl | hc
        · unfold Layers.growRule at e1
          split at e1
          · cases e1
          · split at e1
            · cases e1
            · split at e1
              · cases e1
              · next j ej =>
                split at e1
                · cases e1
                · next v us3 ev =>
                  cases e1
                  obtain ⟨h1, m, h2, h3⟩ := drawCut_mem ev
                  unfold column at h1 h2
                  obtain ⟨r, -, hr⟩ := List.mem_map.1 h1
                  obtain ⟨r', -, hr'⟩ := List.mem_map.1 h2
                  exact ⟨r, r', hr, by rw [hr']; exact h3⟩
        · exact i2 c hc

variable [MathFns K]

theorem treeStep_sound {P : Params K} {pG pP : K} {y : Fin n → K} {L L' : List (List (Layers.Rule K p))} {r r' : Rand K} {b : Bool} (hf : Full L) (hc : ∀ rules ∈ L, ∀ q, some q ∈ rules → TrainingCut X q)
    (h : Layers.treeStep P pG pP X y L r = .ok (b, L', r')) : Full L' ∧ ∀ rules ∈ L', ∀ q, some q ∈ rules → TrainingCut X q := by
  unfold Layers.treeStep at h
  split at h
  · cases h
  · next me ms hm =>
    split at h
    · cases h
    · next proposed ratio us e =>
      split at h
      · cases h
      · dsimp only at h
        simp only [Except.ok.injEq, Prod.mk.injEq] at h
        obtain ⟨-, h, -⟩ := h
        split at h
        · subst h
          cases me with
          | grow =>
            unfold Layers.propose at e
            dsimp only at e
            split at e
            · cases e
            · next eg =>
              split at e
              · cases e
              · cases e
                obtain ⟨g1, g2⟩ := growRules_sound eg
                refine ⟨⟨hf, by rw [g1, hf.paths_length]⟩, ?_⟩
                intro rules hr
                rcases List.mem_cons.1 hr with rfl | hr
                · exact g2
                · exact hc rules hr
          | prune =>
            unfold Layers.propose at e
            dsimp only at e
            split at e
            · cases e; exact ⟨hf, hc⟩
            · split at e
              · cases e
              · cases e; exact ⟨hf.1, fun rules hr => hc rules (List.mem_cons_of_mem _ hr)⟩
        · subst h; exact ⟨hf, hc⟩

theorem leafValues_length {P : Params K} {y : Fin n → K} : ∀ {ps : List (List (Cond K p))} {zs zs' vs : List K}, Layers.leafValues P X y ps zs = .ok (vs, zs') → vs.length = ps.length := by
  intro ps
  induction ps with
  | nil => intro zs zs' vs h; rw [Layers.leafValues] at h; cases h; rfl
  | cons q ps ih =>
    intro zs zs' vs h
    cases zs with
    | nil => cases h
    | cons z zs =>
      unfold Layers.leafValues at h
      split at h
      · cases h
      · split at h
        · cases h
        · next e2 => cases h; simp [ih e2]

theorem treeBody_sound {P : Params K} {pG pP : K} {y : Fin n → K} {t t' : Layers.LTree K p} {r r' : Rand K} {b : Bool} (ht : Sound X t) (h : Layers.treeBody P pG pP X y t r = .ok (b, t', r')) : Sound X t' := by
  unfold Layers.treeBody at h
  split at h
  · cases h
  · next e1 =>
    split at h
    · cases h
    · next e2 =>
      cases h
      obtain ⟨h1, h2⟩ := treeStep_sound ht.full ht.cuts e1
      exact ⟨h1, by rw [leafValues_length e2, h1.paths_length], h2⟩

theorem sweepTrees_sound {P : Params K} {pG pP : K} {y : Fin n → K} (ts : List (Layers.LTree K p)) : ∀ {done all : List (Layers.LTree K p)} {r r' : Rand K} {bs : List Bool}, (∀ t ∈ done, Sound X t) → (∀ t ∈ ts, Sound X t) →
    Layers.sweepTrees P pG pP X y done ts r = .ok (bs, all, r') → (∀ t ∈ all, Sound X t) ∧ all.length = done.length + ts.length := by
  induction ts with
  | nil => intro done all r r' bs hd _ h; cases h; exact ⟨hd, by simp⟩
  | cons t ts ih =>
    intro done all r r' bs hd ht h
    unfold Layers.sweepTrees at h
    split at h
    · cases h
    · next e1 =>
      split at h
      · cases h
      · next e2 =>
        cases h
        have := treeBody_sound (ht t (List.mem_cons_self ..)) e1
        obtain ⟨i1, i2⟩ := ih (by
          intro u hu
          rcases List.mem_append.1 hu with hu | hu
          · exact hd u hu
          · rw [List.mem_singleton.1 hu]; exact this) (fun u hu => ht u (List.mem_cons_of_mem _ hu)) e2
        refine ⟨i1, ?_⟩
        rw [i2]; simp; omega

theorem sweep_sound {c : Reference.Settings K} {y : Fin n → K} {s s' : Layers.State K p} {r r' : Rand K} {bs : List Bool} (hs : ∀ t ∈ s.trees, Sound X t) (h : Layers.sweep c X y s r = .ok (bs, s', r')) :
    (∀ t ∈ s'.trees, Sound X t) ∧ s'.trees.length = s.trees.length := by
  unfold Layers.sweep at h
  split at h
  · cases h
  · next e1 =>
    split at h
    · cases h
    · cases h
      simpa using sweepTrees_sound s.trees (done := []) (by simp) hs e1

theorem sweeps_sound {c : Reference.Settings K} {y : Fin n → K} (k : Nat) : ∀ {s s' : Layers.State K p} {r r' : Rand K} {l : List (List Bool × Layers.State K p)}, (∀ t ∈ s.trees, Sound X t) →
    Layers.sweeps c X y k s r = .ok (l, s', r') → ∀ q ∈ l, (∀ t ∈ q.2.trees, Sound X t) ∧ q.2.trees.length = s.trees.length := by
  induction k with
  | zero => intro s s' r r' l _ h; cases h; simp
  | succ k ih =>
    intro s s' r r' l hs h
    unfold Layers.sweeps at h
    split at h
    · cases h
    · next e1 =>
      split at h
      · cases h
      · next e2 =>
        cases h
        obtain ⟨h1, h2⟩ := sweep_sound hs e1
        intro q hq
        rcases List.mem_cons.1 hq with rfl | hq
        · exact ⟨h1, h2⟩
        · obtain ⟨i1, i2⟩ := ih h1 e2 q hq
          exact ⟨i1, i2.trans h2⟩

variable [IsStrictOrderedRing K] [FloorRing K]

theorem chain_sound {c : Reference.Config K} {y : Fin n → K} {r : Rand K} {l : List (List Bool × Layers.State K p)} (h : Layers.chain c X y r = .ok l) :
    ∀ q ∈ l, (∀ t ∈ q.2.trees, Sound X t) ∧ q.2.trees.length = c.nTrees := by
  unfold Layers.chain at h
  split at h
  · cases h
  · next e =>
    cases h
    intro q hq
    obtain ⟨t, -, ht⟩ := List.mem_filterMap.1 hq
    obtain ⟨h1, h2⟩ := sweeps_sound _ (by
      intro t ht
      rw [List.eq_of_mem_replicate ht]
      exact sound_root) e q (List.mem_of_getElem? ht)
    exact ⟨h1, by rw [h2]; simp [Layers.start]⟩

/-- The trees of a state are decision trees. -/
theorem forest_decTrees {ts : List (Layers.LTree K p)} (h : ∀ t ∈ ts, Sound X t) :
    ∃ F : List (DecTree K p), F.length = ts.length ∧ (∀ D ∈ F, ∀ c ∈ D.cuts, TrainingCut X c) ∧ ∀ x, Layers.forest ts x = (F.map (fun D => D.eval x)).sum := by
  induction ts with
  | nil => exact ⟨[], rfl, by simp, fun x => rfl⟩
  | cons t ts ih =>
    obtain ⟨F, f1, f2, f3⟩ := ih (fun u hu => h u (List.mem_cons_of_mem _ hu))
    obtain ⟨D, d1, d2⟩ := (h t (List.mem_cons_self ..)).decTree
    refine ⟨D :: F, by simp [f1], ?_, fun x => ?_⟩
    · intro E hE
      rcases List.mem_cons.1 hE with rfl | hE
      · exact d1
      · exact f2 E hE
    · have := f3 x
      unfold Layers.forest at this ⊢
      simp only [List.map_cons, List.sum_cons, d2, this]

end Bart.LayerForest
