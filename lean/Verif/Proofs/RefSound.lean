import Verif.Proofs.NoReturn

/-! Every row reaches exactly one leaf of a tree of the reference sampler. -/

set_option linter.unusedSectionVars false

namespace Bart.Reference
open Spec
variable {K : Type} [Field K] [LinearOrder K] {n p : Nat}

/-- The leaves partition all rows: no node is below a leaf, below a split are only its two sides, and every row reaches one leaf and no other. -/
structure Sound (t : RTree K p) : Prop where
  nodup : (t.map RNode.path).Nodup
  noneBelow : ∀ a ∈ t, ∀ b ∈ t, a.isLeaf = true → a.path <+: b.path → a.path = b.path
  below : ∀ path j v, (⟨path, .split j v⟩ : RNode K p) ∈ t → ∀ b ∈ t, path <+: b.path → b.path = path ∨ ∃ s, path ++ [⟨j, v, s⟩] <+: b.path
  some : ∀ x, ∃ nd ∈ t, nd.isLeaf = true ∧ nd.reaches x = true
  only : ∀ x, ∀ a ∈ t, ∀ b ∈ t, a.isLeaf = true → b.isLeaf = true → a.reaches x = true → b.reaches x = true → a.path = b.path

section
variable {t : RTree K p}

theorem Sound.inj (h : Sound t) {a b : RNode K p} (ha : a ∈ t) (hb : b ∈ t) (e : a.path = b.path) : a = b := List.inj_on_of_nodup_map h.nodup ha hb e

theorem Sound.free (h : Sound t) (a : RNode K p) (ha : a ∈ t) (b : RNode K p) (hb : b ∈ t) (hl : a.isLeaf = true) (hp : a.path <+: b.path) : a = b := h.inj ha hb (h.noneBelow a ha b hb hl hp)

theorem Sound.unique (h : Sound t) (x : Fin p → Fl K) (a : RNode K p) (ha : a ∈ t) (b : RNode K p) (hb : b ∈ t) (hal : a.isLeaf = true) (hbl : b.isLeaf = true) (hax : a.reaches x = true)
    (hbx : b.reaches x = true) : a = b := h.inj ha hb (h.only x a ha b hb hal hbl hax hbx)

theorem sound_root : Sound (RTree.root : RTree K p) := by
  refine ⟨by simp [RTree.root], ?_, ?_, ?_, ?_⟩
  · intro a ha b hb _ _
    simp only [RTree.root, List.mem_singleton] at ha hb
    rw [ha, hb]
  · intro path j v h
    simp [RTree.root] at h
  · intro x
    exact ⟨_, List.mem_singleton.2 rfl, rfl, rfl⟩
  · intro x a ha b hb _ _ _ _
    simp only [RTree.root, List.mem_singleton] at ha hb
    rw [ha, hb]

theorem reaches_append (path : List (Cond K p)) (c : Cond K p) (a b : Content K p) (x : Fin p → Fl K) :
    RNode.reaches ⟨path ++ [c], a⟩ x = (RNode.reaches ⟨path, b⟩ x && c.holds x) := by
  simp [RNode.reaches, List.all_append]

theorem holds_false (j : Fin p) (v : Fl K) (x : Fin p → Fl K) : Cond.holds ⟨j, v, false⟩ x = !Cond.holds ⟨j, v, true⟩ x := by simp [Cond.holds]

theorem prefix_snoc {α : Type} {a b : List α} {c : α} (h : a <+: b ++ [c]) : a <+: b ∨ a = b ++ [c] := by
  rcases List.prefix_concat_iff.1 h with h | h
  · exact Or.inr h
  · exact Or.inl h

theorem snoc_inj_low {path q : List (Cond K p)} {j j' : Fin p} {v v' : Fl K} {s s' : Bool} (h : path ++ [(⟨j, v, s⟩ : Cond K p)] = q ++ [⟨j', v', s'⟩]) : path = q ∧ j = j' ∧ v = v' ∧ s = s' := by
  have h1 := List.append_inj' h rfl
  refine ⟨h1.1, ?_⟩
  simpa using h1.2

theorem mem_grow {path : List (Cond K p)} {j : Fin p} {v : Fl K} {a : RNode K p} : a ∈ t.apply (.grow path j v) ↔
    (a ∈ t ∧ a.path ≠ path) ∨ (∃ s, a = ⟨path ++ [⟨j, v, s⟩], .leaf 0⟩) ∨ a = ⟨path, .split j v⟩ := by
  simp only [RTree.apply, List.mem_append, List.mem_filter, List.mem_cons, List.not_mem_nil, or_false, decide_eq_true_eq, Bool.exists_bool]
  tauto

theorem mem_prune {path : List (Cond K p)} {j : Fin p} {v : Fl K} {a : RNode K p} : a ∈ t.apply (.prune path j v) ↔
    (a ∈ t ∧ a.path ≠ path ∧ ∀ s, a.path ≠ path ++ [⟨j, v, s⟩]) ∨ a = ⟨path, .leaf 0⟩ := by
  simp only [RTree.apply, List.mem_append, List.mem_filter, List.mem_cons, List.not_mem_nil, or_false, decide_eq_true_eq, Bool.forall_bool, Bool.and_eq_true]
  tauto

theorem sound_grow (h : Sound t) {path : List (Cond K p)} {w : K} (hin : (⟨path, .leaf w⟩ : RNode K p) ∈ t) (j : Fin p) (v : Fl K) : Sound (t.apply (.grow path j v)) := by
  have hbelow : ∀ b ∈ t, path <+: b.path → b.path = path := fun b hb hp => by
    have := h.free _ hin b hb rfl hp
    rw [← this]
  refine ⟨?_, ?_, ?_, ?_, ?_⟩
  · simp only [RTree.apply, List.map_append, List.map_cons, List.map_nil]
    rw [List.nodup_append]
    refine ⟨h.nodup.sublist (List.filter_sublist.map _), by simp, ?_⟩
    intro q hq q' hq' e
    subst e
    obtain ⟨b, hb, rfl⟩ := List.mem_map.1 hq
    obtain ⟨hb1, hb2⟩ := List.mem_filter.1 hb
    have hb2 := of_decide_eq_true hb2
    apply hb2
    apply hbelow b hb1
    simp only [List.mem_cons, List.not_mem_nil, or_false] at hq'
    rcases hq' with e | e | e
    · rw [e]; exact List.prefix_append _ _
    · rw [e]; exact List.prefix_append _ _
    · exact absurd e hb2
  · intro a ha b hb hl hpre
    rcases mem_grow.1 ha with ⟨ha1, ha2⟩ | ⟨s, rfl⟩ | rfl
    · rcases mem_grow.1 hb with ⟨hb1, hb2⟩ | ⟨s, rfl⟩ | rfl
      · exact h.noneBelow a ha1 b hb1 hl hpre
      · rcases prefix_snoc hpre with h1 | h1
        · have := h.free a ha1 _ hin hl h1
          rw [this] at ha2
          exact absurd rfl ha2
        · exact absurd (hbelow a ha1 (by rw [h1]; exact List.prefix_append _ _)) ha2
      · have := h.free a ha1 _ hin hl hpre
        rw [this] at ha2
        exact absurd rfl ha2
    · rcases mem_grow.1 hb with ⟨hb1, hb2⟩ | ⟨s', rfl⟩ | rfl
      · exact absurd (hbelow b hb1 ((List.prefix_append _ _).trans hpre)) hb2
      · have := List.IsPrefix.eq_of_length hpre (by simp)
        simp only at this
        obtain ⟨-, -, -, rfl⟩ := snoc_inj_low this
        rfl
      · have := hpre.length_le
        simp at this
    · simp [RNode.isLeaf] at hl
  · intro q j' v' hq b hb hpre
    rcases mem_grow.1 hq with ⟨hq1, hq2⟩ | ⟨s, hs⟩ | hs
    · rcases mem_grow.1 hb with ⟨hb1, hb2⟩ | ⟨s, rfl⟩ | rfl
      · exact h.below q j' v' hq1 b hb1 hpre
      · rcases prefix_snoc hpre with h1 | h1
        · rcases h.below q j' v' hq1 _ hin h1 with h2 | ⟨s', h2⟩
          · exact absurd h2.symm hq2
          · exact Or.inr ⟨s', h2.trans (List.prefix_append _ _)⟩
        · exact absurd (hbelow _ hq1 (by simp only; rw [h1]; exact List.prefix_append _ _)) hq2
      · exact h.below q j' v' hq1 ⟨path, .leaf w⟩ hin hpre
    · cases hs
    · injection hs with e1 e2; injection e2 with e2 e3; subst e1 e2 e3
      rcases mem_grow.1 hb with ⟨hb1, hb2⟩ | ⟨s, rfl⟩ | rfl
      · exact absurd (hbelow b hb1 hpre) hb2
      · exact Or.inr ⟨s, List.prefix_rfl⟩
      · exact Or.inl rfl
  · intro x
    obtain ⟨nd, h1, h2, h3⟩ := h.some x
    by_cases hq : nd.path = path
    · have h4 : RNode.reaches ⟨path, .leaf w⟩ x = true := by rw [← hq]; exact h3
      refine ⟨⟨path ++ [⟨j, v, Cond.holds ⟨j, v, true⟩ x⟩], .leaf 0⟩, mem_grow.2 (Or.inr (Or.inl ⟨_, rfl⟩)), rfl, ?_⟩
      rw [reaches_append path _ _ (.leaf w), h4, Bool.true_and]
      cases h5 : Cond.holds ⟨j, v, true⟩ x
      · rw [holds_false, h5]; rfl
      · exact h5
    · exact ⟨nd, mem_grow.2 (Or.inl ⟨h1, hq⟩), h2, h3⟩
  · have hnew : ∀ x s, RNode.reaches (⟨path ++ [⟨j, v, s⟩], .leaf 0⟩ : RNode K p) x = true → ∀ b ∈ t, b.isLeaf = true → b.reaches x = true → b.path = path := by
      intro x s h1 b hb hbl hbx
      rw [reaches_append path _ _ (.leaf w), Bool.and_eq_true] at h1
      have := h.unique x _ hin b hb rfl hbl h1.1 hbx
      rw [← this]
    intro x a ha b hb hal hbl hax hbx
    rcases mem_grow.1 ha with ⟨ha1, ha2⟩ | ⟨s, rfl⟩ | rfl
    · rcases mem_grow.1 hb with ⟨hb1, hb2⟩ | ⟨s, rfl⟩ | rfl
      · exact h.only x a ha1 b hb1 hal hbl hax hbx
      · exact absurd (hnew x s hbx a ha1 hal hax) ha2
      · simp [RNode.isLeaf] at hbl
    · rcases mem_grow.1 hb with ⟨hb1, hb2⟩ | ⟨s', rfl⟩ | rfl
      · exact absurd (hnew x s hax b hb1 hbl hbx) hb2
      · rw [reaches_append path _ _ (.leaf w), Bool.and_eq_true] at hax hbx
        have h1 := hax.2
        have h2 := hbx.2
        cases s <;> cases s' <;> first | rfl | (rw [holds_false] at *; simp_all)
      · simp [RNode.isLeaf] at hbl
    · simp [RNode.isLeaf] at hal

theorem sound_prune (h : Sound t) {path : List (Cond K p)} {j : Fin p} {v : Fl K} (hin : (⟨path, .split j v⟩ : RNode K p) ∈ t.prunable) : Sound (t.apply (.prune path j v)) := by
  obtain ⟨q, j', v', e, hmem, hleaf⟩ := mem_prunable.1 hin
  injection e with e1 e2; injection e2 with e2 e3; subst e1 e2 e3
  have hch : ∀ s, ∃ w, (⟨path ++ [⟨j, v, s⟩], .leaf w⟩ : RNode K p) ∈ t := fun s => mem_hasLeaf.1 (hleaf s)
  have hbelow : ∀ b ∈ t, path <+: b.path → b.path = path ∨ ∃ s, b.path = path ++ [⟨j, v, s⟩] := by
    intro b hb hp
    rcases h.below path j v hmem b hb hp with h1 | ⟨s, h1⟩
    · exact Or.inl h1
    · obtain ⟨w, hw⟩ := hch s
      have := h.free _ hw b hb rfl h1
      exact Or.inr ⟨s, by rw [← this]⟩
  have hno : ∀ b ∈ t, path <+: b.path → ¬ (b.path ≠ path ∧ ∀ s, b.path ≠ path ++ [⟨j, v, s⟩]) := by
    rintro b hb hp ⟨h1, h2⟩
    rcases hbelow b hb hp with h3 | ⟨s, h3⟩
    · exact h1 h3
    · exact h2 s h3
  refine ⟨?_, ?_, ?_, ?_, ?_⟩
  · simp only [RTree.apply, List.map_append, List.map_cons, List.map_nil]
    rw [List.nodup_append]
    refine ⟨h.nodup.sublist (List.filter_sublist.map _), by simp, ?_⟩
    intro q hq q' hq' e
    subst e
    obtain ⟨b, hb, rfl⟩ := List.mem_map.1 hq
    obtain ⟨hb1, hb2⟩ := List.mem_filter.1 hb
    simp only [Bool.and_eq_true, decide_eq_true_eq] at hb2
    simp only [List.mem_cons, List.not_mem_nil, or_false] at hq'
    exact hb2.1.1 hq'
  · intro a ha b hb hl hpre
    rcases mem_prune.1 ha with ⟨ha1, ha2⟩ | rfl
    · rcases mem_prune.1 hb with ⟨hb1, hb2⟩ | rfl
      · exact h.noneBelow a ha1 b hb1 hl hpre
      · have := h.free a ha1 _ hmem hl hpre
        rw [this] at ha2
        exact absurd rfl ha2.1
    · rcases mem_prune.1 hb with ⟨hb1, hb2⟩ | rfl
      · exact absurd hb2 (hno b hb1 hpre)
      · rfl
  · intro q j' v' hq b hb hpre
    rcases mem_prune.1 hq with ⟨hq1, hq2⟩ | hs
    · rcases mem_prune.1 hb with ⟨hb1, hb2⟩ | rfl
      · exact h.below q j' v' hq1 b hb1 hpre
      · exact h.below q j' v' hq1 ⟨path, .split j v⟩ hmem hpre
    · cases hs
  · intro x
    obtain ⟨nd, h1, h2, h3⟩ := h.some x
    by_cases hq : nd.path ≠ path ∧ ∀ s, nd.path ≠ path ++ [⟨j, v, s⟩]
    · exact ⟨nd, mem_prune.2 (Or.inl ⟨h1, hq⟩), h2, h3⟩
    · refine ⟨⟨path, .leaf 0⟩, mem_prune.2 (Or.inr rfl), rfl, ?_⟩
      by_cases h4 : nd.path = path
      · rw [← h4]; exact h3
      · have h5 : ∃ s, nd.path = path ++ [⟨j, v, s⟩] := by
          by_contra hc
          exact hq ⟨h4, fun s hs => hc ⟨s, hs⟩⟩
        obtain ⟨s, hs⟩ := h5
        have h6 : RNode.reaches (⟨path ++ [⟨j, v, s⟩], .leaf 0⟩ : RNode K p) x = true := by rw [← hs]; exact h3
        rw [reaches_append path _ _ (.leaf 0), Bool.and_eq_true] at h6
        exact h6.1
  · have hnew : ∀ x, RNode.reaches (⟨path, .leaf 0⟩ : RNode K p) x = true → ∀ b ∈ t, b.isLeaf = true → b.reaches x = true → ∃ s, b.path = path ++ [⟨j, v, s⟩] := by
      intro x h1 b hb hbl hbx
      obtain ⟨w, hw⟩ := hch (Cond.holds ⟨j, v, true⟩ x)
      have h2 : RNode.reaches (⟨path ++ [⟨j, v, Cond.holds ⟨j, v, true⟩ x⟩], .leaf w⟩ : RNode K p) x = true := by
        rw [reaches_append path _ _ (.leaf 0), h1, Bool.true_and]
        cases h5 : Cond.holds ⟨j, v, true⟩ x
        · rw [holds_false, h5]; rfl
        · exact h5
      have := h.unique x _ hw b hb rfl hbl h2 hbx
      exact ⟨_, by rw [← this]⟩
    intro x a ha b hb hal hbl hax hbx
    rcases mem_prune.1 ha with ⟨ha1, ha2⟩ | rfl
    · rcases mem_prune.1 hb with ⟨hb1, hb2⟩ | rfl
      · exact h.only x a ha1 b hb1 hal hbl hax hbx
      · obtain ⟨s, hs⟩ := hnew x hbx a ha1 hal hax
        exact absurd hs (ha2.2 s)
    · rcases mem_prune.1 hb with ⟨hb1, hb2⟩ | rfl
      · obtain ⟨s, hs⟩ := hnew x hax b hb1 hbl hbx
        exact absurd hs (hb2.2 s)
      · rfl

variable [MathFns K] {X : Fin n → Fin p → Fl K}

theorem sound_treeStep (h : Sound t) {P : Params K} {pGrow pPrune : K} {y : Fin n → K} {r r' : Rand K} {b : Bool} {t' : RTree K p}
    (hs : treeStep P pGrow pPrune X y t r = .ok (b, t', r')) : Sound t' := by
  unfold treeStep at hs
  split at hs
  · cases hs
  · next mv us ms hmv =>
    have hm := propose_mem hmv
    split at hs
    · cases hs
    · next u rest hu =>
      injection hs with hs; injection hs with h3 h4; injection h4 with h4 h5
      subst h4
      split
      · cases mv with
        | grow path j v =>
          obtain ⟨w, hin, -⟩ := hm
          exact sound_grow h (List.mem_filter.1 hin).1 j v
        | prune path j v => exact sound_prune h hm
      · exact h

/-- Nodes that differ in the leaf value only. -/
def SameKind (a b : RNode K p) : Prop := b.path = a.path ∧ ((∃ v w, a.content = .leaf v ∧ b.content = .leaf w) ∨ (∃ j v, a.content = .split j v ∧ b.content = .split j v))

theorem leafValues_same (P : Params K) (y : Fin n → K) : ∀ {t t' : RTree K p} {zs zs' : List K}, leafValues P X y t zs = .ok (t', zs') → List.Forall₂ SameKind t t'
  | [], t', zs, zs', h => by
    simp only [leafValues, Except.ok.injEq, Prod.mk.injEq] at h
    rw [← h.1]; exact List.Forall₂.nil
  | ⟨path, .split j v⟩ :: t, t', zs, zs', h => by
    simp only [leafValues] at h
    rcases e : leafValues P X y t zs with er | ⟨t1, zs1⟩
    · rw [e] at h; cases h
    · rw [e] at h
      simp only [Except.ok.injEq, Prod.mk.injEq] at h
      rw [← h.1]
      exact List.Forall₂.cons ⟨rfl, Or.inr ⟨j, v, rfl, rfl⟩⟩ (leafValues_same P y e)
  | ⟨path, .leaf v⟩ :: t, t', [], zs', h => by simp [leafValues] at h
  | ⟨path, .leaf v⟩ :: t, t', z :: zs, zs', h => by
    simp only [leafValues] at h
    split at h
    · cases h
    · rcases e : leafValues P X y t zs with er | ⟨t1, zs1⟩
      · rw [e] at h; cases h
      · rw [e] at h
        simp only [Except.ok.injEq, Prod.mk.injEq] at h
        rw [← h.1]
        exact List.Forall₂.cons ⟨rfl, Or.inl ⟨_, _, rfl, rfl⟩⟩ (leafValues_same P y e)

theorem SameKind.isLeaf {a b : RNode K p} (h : SameKind a b) : b.isLeaf = a.isLeaf := by
  rcases a with ⟨q, c⟩
  rcases b with ⟨q', c'⟩
  obtain ⟨-, ⟨v, w, h1, h2⟩ | ⟨j, v, h1, h2⟩⟩ := h <;> simp only at h1 h2 <;> subst h1 h2 <;> rfl

theorem SameKind.reaches {a b : RNode K p} (h : SameKind a b) (x : Fin p → Fl K) : b.reaches x = a.reaches x := by unfold RNode.reaches; rw [h.1]

theorem sound_same {t' : RTree K p} (h : Sound t) (hs : List.Forall₂ SameKind t t') : Sound t' := by
  have hpath : t'.map RNode.path = t.map RNode.path := by
    clear h
    induction hs with
    | nil => rfl
    | cons h1 _ ih => rw [List.map_cons, List.map_cons, h1.1, ih]
  have hback : ∀ b ∈ t', ∃ a ∈ t, SameKind a b := by
    intro b hb
    obtain ⟨i, hi, rfl⟩ := List.mem_iff_getElem.1 hb
    have hlen := hs.length_eq
    exact ⟨t[i], List.getElem_mem _, hs.get _ _⟩
  have hforth : ∀ a ∈ t, ∃ b ∈ t', SameKind a b := by
    intro b hb
    obtain ⟨i, hi, rfl⟩ := List.mem_iff_getElem.1 hb
    have hlen := hs.length_eq
    exact ⟨t'[i], List.getElem_mem _, hs.get _ _⟩
  refine ⟨by rw [hpath]; exact h.nodup, ?_, ?_, ?_, ?_⟩
  · intro a ha b hb hl hp
    obtain ⟨a0, ha0, ka⟩ := hback a ha
    obtain ⟨b0, hb0, kb⟩ := hback b hb
    rw [ka.1, kb.1] at *
    exact h.noneBelow a0 ha0 b0 hb0 (by rw [← ka.isLeaf]; exact hl) hp
  · intro path j v hin b hb hp
    obtain ⟨a0, ha0, ka⟩ := hback _ hin
    obtain ⟨b0, hb0, kb⟩ := hback b hb
    rw [kb.1] at *
    obtain ⟨k1, ⟨_, _, _, k2⟩ | ⟨j', v', k2, k3⟩⟩ := ka
    · cases k2
    · injection k3 with e1 e2
      subst e1 e2
      rcases a0 with ⟨q, c⟩
      simp only at k1 k2
      subst k1 k2
      exact h.below path j v ha0 b0 hb0 hp
  · intro x
    obtain ⟨nd, h1, h2, h3⟩ := h.some x
    obtain ⟨b, hb, kb⟩ := hforth nd h1
    exact ⟨b, hb, by rw [kb.isLeaf]; exact h2, by rw [kb.reaches]; exact h3⟩
  · intro x a ha b hb hal hbl hax hbx
    obtain ⟨a0, ha0, ka⟩ := hback a ha
    obtain ⟨b0, hb0, kb⟩ := hback b hb
    rw [ka.isLeaf] at hal
    rw [kb.isLeaf] at hbl
    rw [ka.reaches] at hax
    rw [kb.reaches] at hbx
    rw [ka.1, kb.1]
    exact h.only x a0 ha0 b0 hb0 hal hbl hax hbx

theorem sound_treeBody (h : Sound t) {P : Params K} {pGrow pPrune : K} {y : Fin n → K} {r r' : Rand K} {b : Bool} {t' : RTree K p}
    (hs : treeBody P pGrow pPrune X y t r = .ok (b, t', r')) : Sound t' := by
  unfold treeBody at hs
  rcases e1 : treeStep P pGrow pPrune X y t r with er | ⟨b1, t1, r1⟩
  · rw [e1] at hs; cases hs
  · rw [e1] at hs
    simp only at hs
    rcases e2 : leafValues P X y t1 r1.normals with er | ⟨t2, zs⟩
    · rw [e2] at hs; cases hs
    · rw [e2] at hs
      simp only [Except.ok.injEq, Prod.mk.injEq] at hs
      rw [← hs.2.1]
      exact sound_same (sound_treeStep h e1) (leafValues_same P y e2)

end
end Bart.Reference
