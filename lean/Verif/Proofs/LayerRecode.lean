import Verif.Spec.Layers
import Verif.Proofs.RefPropose
import Verif.Proofs.Sim

/-! The reference implementation of the oblivious tree sampler on a table whose columns have been recoded by increasing functions and which has further, constant columns. -/

set_option linter.unusedSectionVars false

namespace Bart.Oblivious
open Bart Spec Reference
variable {K : Type} [Field K] [LinearOrder K] {n p p' : Nat}

/-- The columns of the first table among those of the second, and what became of their entries. -/
structure Recode (K : Type) [LinearOrder K] (p p' : Nat) where
  at' : Fin p → Fin p'
  mono : StrictMono at'
  f : Fin p → Fl K → Fl K
  le : ∀ j a b, Fl.le (f j a) (f j b) = Fl.le a b
  lt : ∀ j a b, Fl.lt (f j a) (f j b) = Fl.lt a b
  eq : ∀ j a b, Fl.eq (f j a) (f j b) = Fl.eq a b
  inj : ∀ j, Function.Injective (f j)

namespace Recode
variable (g : Recode K p p')

/-- The row with recoded entries. -/
def Row (x : Fin p → Fl K) (x' : Fin p' → Fl K) : Prop := ∀ j, x' (g.at' j) = g.f j (x j)

def cond (c : Cond K p) : Cond K p' := ⟨g.at' c.column, g.f c.column c.value, c.low⟩
def path (l : List (Cond K p)) : List (Cond K p') := l.map g.cond
def rule (r : Layers.Rule K p) : Layers.Rule K p' := r.map (fun q => (g.at' q.1, g.f q.1 q.2))
def layers (L : List (List (Layers.Rule K p))) : List (List (Layers.Rule K p')) := L.map (List.map g.rule)
def tree (T : Layers.LTree K p) : Layers.LTree K p' := ⟨g.layers T.layers, T.values⟩
def state (s : Layers.State K p) : Layers.State K p' := ⟨s.trees.map g.tree, s.sigma⟩
def sample (s : List Bool × Layers.State K p) : List Bool × Layers.State K p' := (s.1, g.state s.2)

theorem expand (q : List (Cond K p)) (r : Layers.Rule K p) : Layers.expand (g.path q) (g.rule r) = (Layers.expand q r).map g.path := by
  cases r with
  | none => rfl
  | some a => simp [Layers.expand, rule, path, cond]

theorem zip_expand : ∀ (ps : List (List (Cond K p))) (rs : List (Layers.Rule K p)),
    (List.zipWith Layers.expand (ps.map g.path) (rs.map g.rule)).flatten = (List.zipWith Layers.expand ps rs).flatten.map g.path := by
  intro ps
  induction ps with
  | nil => intro rs; rfl
  | cons a ps ih =>
    intro rs
    cases rs with
    | nil => rfl
    | cons b rs =>
      simp only [List.map_cons, List.zipWith_cons_cons, List.flatten_cons, List.map_append]
      rw [ih, g.expand]

theorem paths : ∀ L : List (List (Layers.Rule K p)), Layers.paths (g.layers L) = (Layers.paths L).map g.path := by
  intro L
  induction L with
  | nil => rfl
  | cons rs rest ih =>
    show (List.zipWith Layers.expand (Layers.paths (g.layers rest)) (rs.map g.rule)).flatten = _
    rw [ih, g.zip_expand]
    rfl

theorem holds (c : Cond K p) {x : Fin p → Fl K} {x' : Fin p' → Fl K} (h : g.Row x x') : (g.cond c).holds x' = c.holds x := by
  unfold Cond.holds cond
  simp only
  rw [h c.column, g.le]

theorem meets (q : List (Cond K p)) {x : Fin p → Fl K} {x' : Fin p' → Fl K} (h : g.Row x x') : Layers.meets (g.path q) x' = Layers.meets q x := by
  unfold Layers.meets path
  rw [List.all_map]
  congr 1
  funext c
  exact g.holds c h

theorem value (T : Layers.LTree K p) {x : Fin p → Fl K} {x' : Fin p' → Fl K} (h : g.Row x x') : (g.tree T).value x' = T.value x := by
  unfold Layers.LTree.value tree
  simp only
  rw [g.paths, List.zip_map_left, List.filter_map]
  have : ((fun q : List (Cond K p') × K => Layers.meets q.1 x') ∘ Prod.map g.path id) = fun q => Layers.meets q.1 x := by
    funext q
    exact g.meets q.1 h
  rw [this, List.getLast?_map]
  cases (((Layers.paths T.layers).zip T.values).filter (fun q => Layers.meets q.1 x)).getLast? <;> rfl

theorem forest (ts : List (Layers.LTree K p)) {x : Fin p → Fl K} {x' : Fin p' → Fl K} (h : g.Row x x') : Layers.forest (ts.map g.tree) x' = Layers.forest ts x := by
  unfold Layers.forest
  rw [List.map_map]
  congr 1
  apply List.map_congr_left
  intro T _
  exact g.value T h

/-- The second table: recoded columns and constant columns. -/
structure Table (X : Fin n → Fin p → Fl K) (X' : Fin n → Fin p' → Fl K) : Prop where
  common : ∀ r, g.Row (X r) (X' r)
  extra : ∀ j, (∀ v, g.at' v ≠ j) → ∃ a, ∀ r, X' r j = a

variable {g} {X : Fin n → Fin p → Fl K} {X' : Fin n → Fin p' → Fl K} (hT : g.Table X X')
include hT

namespace Table

theorem rowsOn (q : List (Cond K p)) : Layers.rowsOn X' (g.path q) = Layers.rowsOn X q := by
  funext r
  exact g.meets q (hT.common r)

theorem column (rows : Fin n → Bool) (j : Fin p) : Spec.column X' rows (g.at' j) = (Spec.column X rows j).map (g.f j) := by
  unfold Spec.column
  rw [List.map_map]
  apply List.map_congr_left
  intro r _
  exact hT.common r j

theorem columns (rows : Fin n → Bool) : Reference.columns X' rows = (Reference.columns X rows).map g.at' := by
  classical
  unfold Reference.columns
  have hext : (List.finRange p').filter (fun j => (Spec.column X' rows j).tail.any (fun a => (Spec.column X' rows j).tail.any (fun b => decide (a ≠ b)))) =
      ((List.finRange p').filter (fun j => decide (∃ v, g.at' v = j))).filter (fun j => (Spec.column X' rows j).tail.any (fun a => (Spec.column X' rows j).tail.any (fun b => decide (a ≠ b)))) := by
    rw [List.filter_filter]
    apply List.filter_congr
    intro j _
    by_cases hj : ∃ v, g.at' v = j
    · simp [hj]
    · obtain ⟨a, ha⟩ := hT.extra j (fun v e => hj ⟨v, e⟩)
      have h0 : decide (∃ v, g.at' v = j) = false := by simpa using hj
      rw [h0, Bool.and_false, Bool.eq_false_iff]
      have hc : ∀ b ∈ (Spec.column X' rows j).tail, b = a := by
        intro b hb
        have := List.mem_of_mem_tail hb
        unfold Spec.column at this
        obtain ⟨r, -, rfl⟩ := List.mem_map.1 this
        exact ha r
      intro h
      obtain ⟨b, hb, h⟩ := List.any_eq_true.1 h
      obtain ⟨c, hc', h⟩ := List.any_eq_true.1 h
      rw [hc b hb, hc c hc'] at h
      simp at h
  rw [hext, (⟨g.at', g.mono⟩ : Cols p p').finRange_filter, List.filter_map]
  congr 1
  apply List.filter_congr
  intro j _
  simp only [Function.comp]
  rw [hT.column, ← List.map_tail, Bool.eq_iff_iff]
  simp only [List.any_map, List.any_eq_true, Function.comp, decide_eq_true_eq, ne_eq, (g.inj j).eq_iff]

omit hT in
theorem drawCut (j : Fin p) (col : List (Fl K)) : ∀ us : List Nat, Reference.drawCut (col.map (g.f j)) us = (Reference.drawCut col us).map (fun q => (g.f j q.1, q.2)) := by
  intro us
  induction us with
  | nil => rfl
  | cons u us ih =>
    unfold Reference.drawCut
    rw [choice_map_look]
    cases choice col u with
    | error e => rfl
    | ok v =>
      simp only [Except.map]
      have : (col.map (g.f j)).any (fun m => Fl.lt (g.f j v) m) = col.any (fun m => Fl.lt v m) := by
        rw [List.any_map]
        congr 1
        funext m
        exact g.lt j v m
      rw [this]
      split
      · rfl
      · exact ih

theorem growRule (q : List (Cond K p)) (us : List Nat) : Layers.growRule X' (g.path q) us = (Layers.growRule X q us).map (fun a => (g.rule a.1, a.2)) := by
  unfold Layers.growRule
  rw [hT.rowsOn, hT.columns]
  by_cases h0 : Reference.columns X (Layers.rowsOn X q) = []
  · rw [if_pos h0, if_pos (by rw [h0]; rfl)]; rfl
  · rw [if_neg h0, if_neg (by simpa using h0)]
    cases us with
    | nil => rfl
    | cons u us =>
      simp only
      rw [choice_map_look]
      cases choice (Reference.columns X (Layers.rowsOn X q)) u with
      | error e => rfl
      | ok j =>
        simp only [Except.map]
        rw [hT.column, drawCut]
        cases Reference.drawCut (Spec.column X (Layers.rowsOn X q) j) us with
        | error e => rfl
        | ok v => rfl

theorem growRules : ∀ (ps : List (List (Cond K p))) (us : List Nat), Layers.growRules X' (ps.map g.path) us = (Layers.growRules X ps us).map (fun a => (a.1.map g.rule, a.2)) := by
  intro ps
  induction ps with
  | nil => intro us; rfl
  | cons q ps ih =>
    intro us
    simp only [List.map_cons, Layers.growRules]
    rw [hT.growRule]
    cases Layers.growRule X q us with
    | error e => rfl
    | ok a =>
      simp only [Except.map]
      rw [ih]
      cases Layers.growRules X ps a.2 with
      | error e => rfl
      | ok b => rfl

omit hT in
theorem counted (q : List (Cond K p)) (r : Layers.Rule K p) : Layers.counted (g.path q) (g.rule r) = (Layers.counted q r).map (fun a => (g.at' a.1, g.f a.1 a.2)) := by
  cases r with
  | some a => rfl
  | none =>
    simp only [Layers.counted, Recode.rule, Option.map_none, Recode.path, List.getLast?_map, Option.map_map]
    rfl

theorem frequency (rows : Fin n → Bool) (j : Fin p) (v : Fl K) : Reference.frequency X' rows (g.at' j) (g.f j v) = Reference.frequency X rows j v := by
  unfold Reference.frequency
  rw [hT.column, List.countP_map]
  simp only [List.nodup_map_iff (g.inj j)]
  have : ((fun x => Fl.eq x (g.f j v)) ∘ g.f j) = fun x => Fl.eq x v := by
    funext x
    exact g.eq j x v
  rw [this]

variable [MathFns K]

theorem likelihoodOf (P : Params K) (y : Fin n → K) (q : List (Cond K p)) (r : Layers.Rule K p) : Layers.likelihoodOf P X' y (g.path q) (g.rule r) = Layers.likelihoodOf P X y q r := by
  cases r with
  | none =>
    simp only [Recode.rule, Option.map_none, Layers.likelihoodOf]
    rw [hT.rowsOn]
  | some a =>
    obtain ⟨j, v⟩ := a
    simp only [Recode.rule, Option.map_some, Layers.likelihoodOf, Reference.likelihood]
    rw [hT.rowsOn]
    have : ∀ r, Fl.le (X' r (g.at' j)) (g.f j v) = Fl.le (X r j) v := by
      intro r
      rw [hT.common r j, g.le]
    simp only [this]

theorem growTerm (P : Params K) (pG pP : K) (y : Fin n → K) (d : Nat) (q : List (Cond K p)) (r : Layers.Rule K p) :
    Layers.growTerm P pG pP X' y d (g.path q) (g.rule r) = Layers.growTerm P pG pP X y d q r := by
  unfold Layers.growTerm
  rw [counted]
  cases Layers.counted q r with
  | none => rfl
  | some a =>
    obtain ⟨j, v⟩ := a
    simp only [Option.map_some]
    rw [hT.rowsOn, hT.frequency, hT.likelihoodOf]

theorem pruneTerm (P : Params K) (pG pP : K) (y : Fin n → K) (d : Nat) (q : List (Cond K p)) (r : Layers.Rule K p) :
    Layers.pruneTerm P pG pP X' y d (g.path q) (g.rule r) = Layers.pruneTerm P pG pP X y d q r := by
  unfold Layers.pruneTerm
  rw [counted]
  cases Layers.counted q r with
  | none => rfl
  | some a =>
    obtain ⟨j, v⟩ := a
    simp only [Option.map_some]
    rw [hT.rowsOn, hT.frequency, hT.likelihoodOf]

omit hT in
theorem zip_terms {β : Type} {f : List (Cond K p) → Layers.Rule K p → β} {f' : List (Cond K p') → Layers.Rule K p' → β} (h : ∀ q r, f' (g.path q) (g.rule r) = f q r) (ps : List (List (Cond K p)))
    (rs : List (Layers.Rule K p)) : List.zipWith f' (ps.map g.path) (rs.map g.rule) = List.zipWith f ps rs := by
  rw [List.zipWith_map]
  congr 1
  funext q r
  exact h q r

theorem propose (P : Params K) (pG pP : K) (y : Fin n → K) (L : List (List (Layers.Rule K p))) (me : Method) (us : List Nat) :
    Layers.propose P pG pP X' y (g.layers L) me us = (Layers.propose P pG pP X y L me us).map (fun a => (g.layers a.1, a.2)) := by
  cases me with
  | grow =>
    simp only [Layers.propose]
    rw [g.paths, hT.growRules]
    cases Layers.growRules X (Layers.paths L) us with
    | error e => rfl
    | ok a =>
      simp only [Except.map]
      rw [zip_terms (hT.growTerm P pG pP y (g.layers L).length), show (g.layers L).length = L.length by simp [Recode.layers]]
      cases Layers.sumTerms (List.zipWith (Layers.growTerm P pG pP X y L.length) (Layers.paths L) a.1) with
      | error e => rfl
      | ok b => rfl
  | prune =>
    cases L with
    | nil => rfl
    | cons rs rest =>
      simp only [Layers.propose, Recode.layers, List.map_cons]
      have h1 := g.paths rest
      unfold Recode.layers at h1
      rw [h1, zip_terms (hT.pruneTerm P pG pP y _), List.length_map]
      cases Layers.sumTerms (List.zipWith (Layers.pruneTerm P pG pP X y rest.length) (Layers.paths rest) rs) with
      | error e => rfl
      | ok b => rfl

theorem treeStep (P : Params K) (pG pP : K) (y : Fin n → K) (L : List (List (Layers.Rule K p))) (r : Rand K) :
    Layers.treeStep P pG pP X' y (g.layers L) r = (Layers.treeStep P pG pP X y L r).map (fun a => (a.1, g.layers a.2.1, a.2.2)) := by
  unfold Layers.treeStep
  cases r.methods with
  | nil => rfl
  | cons me ms =>
    simp only
    rw [hT.propose]
    cases Layers.propose P pG pP X y L me r.picks with
    | error e => rfl
    | ok a =>
      obtain ⟨L1, ratio, us⟩ := a
      simp only [Except.map]
      cases r.uniforms with
      | nil => rfl
      | cons u uniforms =>
        simp only
        congr 2
        split <;> rfl

theorem leafValues (P : Params K) (y : Fin n → K) : ∀ (ps : List (List (Cond K p))) (zs : List K), Layers.leafValues P X' y (ps.map g.path) zs = Layers.leafValues P X y ps zs := by
  intro ps
  induction ps with
  | nil => intro zs; rfl
  | cons q ps ih =>
    intro zs
    cases zs with
    | nil => rfl
    | cons z zs =>
      simp only [List.map_cons, Layers.leafValues]
      rw [hT.rowsOn, ih]

theorem treeBody (P : Params K) (pG pP : K) (y : Fin n → K) (T : Layers.LTree K p) (r : Rand K) :
    Layers.treeBody P pG pP X' y (g.tree T) r = (Layers.treeBody P pG pP X y T r).map (fun a => (a.1, g.tree a.2.1, a.2.2)) := by
  unfold Layers.treeBody
  rw [show (g.tree T).layers = g.layers T.layers from rfl, hT.treeStep]
  cases Layers.treeStep P pG pP X y T.layers r with
  | error e => rfl
  | ok a =>
    obtain ⟨b, L, r1⟩ := a
    simp only [Except.map]
    rw [g.paths, hT.leafValues]
    cases Layers.leafValues P X y (Layers.paths L) r1.normals with
    | error e => rfl
    | ok q => rfl

theorem sweepTrees (P : Params K) (pG pP : K) (y : Fin n → K) : ∀ (ts done : List (Layers.LTree K p)) (r : Rand K),
    Layers.sweepTrees P pG pP X' y (done.map g.tree) (ts.map g.tree) r = (Layers.sweepTrees P pG pP X y done ts r).map (fun a => (a.1, a.2.1.map g.tree, a.2.2)) := by
  intro ts
  induction ts with
  | nil => intro done r; rfl
  | cons T ts ih =>
    intro done r
    simp only [List.map_cons, Layers.sweepTrees]
    have hy : (fun i => y i - Layers.forest (done.map g.tree ++ ts.map g.tree) (X' i)) = fun i => y i - Layers.forest (done ++ ts) (X i) := by
      funext i
      rw [← List.map_append, g.forest _ (hT.common i)]
    rw [hy, hT.treeBody]
    cases Layers.treeBody P pG pP X (fun i => y i - Layers.forest (done ++ ts) (X i)) T r with
    | error e => rfl
    | ok a =>
      obtain ⟨b, T1, r1⟩ := a
      simp only [Except.map]
      have h1 := ih (done ++ [T1]) r1
      rw [List.map_append] at h1
      rw [show List.map g.tree done ++ [g.tree T1] = List.map g.tree done ++ List.map g.tree [T1] from rfl, h1]
      cases Layers.sweepTrees P pG pP X y (done ++ [T1]) ts r1 with
      | error e => rfl
      | ok q => rfl

theorem sigmaStep (c : Settings K) (y : Fin n → K) (ts : List (Layers.LTree K p)) (gs : List K) : Layers.sigmaStep c X' y (ts.map g.tree) gs = Layers.sigmaStep c X y ts gs := by
  unfold Layers.sigmaStep
  have hy : ∀ i, Layers.forest (ts.map g.tree) (X' i) = Layers.forest ts (X i) := fun i => g.forest _ (hT.common i)
  simp only [hy]

theorem sweep (c : Settings K) (y : Fin n → K) (s : Layers.State K p) (r : Rand K) :
    Layers.sweep c X' y (g.state s) r = (Layers.sweep c X y s r).map (fun a => (a.1, g.state a.2.1, a.2.2)) := by
  unfold Layers.sweep
  have h1 := hT.sweepTrees (c.params s.sigma) c.pGrow c.pPrune y s.trees [] r
  rw [List.map_nil] at h1
  rw [show (g.state s).sigma = s.sigma from rfl, show (g.state s).trees = s.trees.map g.tree from rfl, h1]
  cases Layers.sweepTrees (c.params s.sigma) c.pGrow c.pPrune X y [] s.trees r with
  | error e => rfl
  | ok a =>
    obtain ⟨bs, ts, r1⟩ := a
    simp only [Except.map]
    rw [hT.sigmaStep]
    cases Layers.sigmaStep c X y ts r1.gammas with
    | error e => rfl
    | ok q => rfl

theorem sweeps (c : Settings K) (y : Fin n → K) : ∀ (k : Nat) (s : Layers.State K p) (r : Rand K),
    Layers.sweeps c X' y k (g.state s) r = (Layers.sweeps c X y k s r).map (fun a => (a.1.map g.sample, g.state a.2.1, a.2.2)) := by
  intro k
  induction k with
  | zero => intro s r; rfl
  | succ k ih =>
    intro s r
    simp only [Layers.sweeps]
    rw [hT.sweep]
    cases Layers.sweep c X y s r with
    | error e => rfl
    | ok a =>
      obtain ⟨bs, s1, r1⟩ := a
      simp only [Except.map]
      rw [ih]
      cases Layers.sweeps c X y k s1 r1 with
      | error e => rfl
      | ok q => rfl

theorem chain (c : Config K) (y : Fin n → K) (r : Rand K) : Layers.chain c X' y r = (Layers.chain c X y r).map (List.map g.sample) := by
  unfold Layers.chain
  have h0 : (Layers.start c.toSettings : Layers.State K p') = g.state (Layers.start c.toSettings) := by
    unfold Layers.start Recode.state
    simp only [List.map_replicate]
    rfl
  rw [h0, hT.sweeps]
  cases Layers.sweeps c.toSettings X y (c.nBurn + c.nSamples) (Layers.start c.toSettings) r with
  | error e => rfl
  | ok a =>
    obtain ⟨l, s, r1⟩ := a
    simp only [Except.map]
    congr 1
    rw [List.map_filterMap]
    apply List.filterMap_congr
    intro t _
    rw [List.getElem?_map]

theorem chains (c : Config K) (y : Fin n → K) : ∀ rs : List (Rand K), Layers.chains c X' y rs = (Layers.chains c X y rs).map (List.map g.sample) := by
  intro rs
  induction rs with
  | nil => rfl
  | cons r rs ih =>
    simp only [Layers.chains]
    rw [hT.chain]
    cases Layers.chain c X y r with
    | error e => rfl
    | ok l =>
      simp only [Except.map]
      rw [ih]
      cases Layers.chains c X y rs with
      | error e => rfl
      | ok ls => simp only [Except.map, List.map_append]

theorem fit (c : Config K) (lo hi : K) (y : Fin n → K) (rs : Nat → Rand K) : Layers.fit c X' lo hi y rs = (Layers.fit c X lo hi y rs).map (List.map g.sample) := hT.chains c _ _

end Table
end Recode
end Bart.Oblivious
