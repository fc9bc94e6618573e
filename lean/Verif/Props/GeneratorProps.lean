import Verif.Model.Generator
import Verif.Props.ScalarProps

/-! Where the draws come from: seeding (C84), chains (C85). -/

namespace Bart
open ScalarSampler

namespace Spec
variable {σ α : Type}

/-- A process in which draws have been made since bartpy was imported, with any seeding in between. -/
inductive ProcRun (np : NumPy σ α) : Proc σ α → Prop
  | imported (g : σ) : ProcRun np (.new g)
  | seeded {P : Proc σ α} (s : Nat) : ProcRun np P → ProcRun np (P.seed np s)
  | drawn {P P' : Proc σ α} {r : Request} {a : α} : ProcRun np P → P.serve np r = .ok (a, P') → ProcRun np P'

/-- numpy returns as many draws as asked for. -/
def GoodNumPy (np : NumPy σ α) : Prop := ∀ k n g, (np.batch k n g).1.length = n

/-- What the sampler object of a kind holds from earlier batches, in the order in which it is going to be used. -/
def leftover (P : Proc σ α) (k : Kind) : List α := (P.sampler k).cache.reverse

end Spec
open Spec

variable {σ α : Type} {np : NumPy σ α}

theorem serve_cached {P : Proc σ α} {k : Kind} {a : α} {l : List α} (h : leftover P k = a :: l) :
    ∃ P', P.serve np (.cached k) = .ok (a, P') ∧ P'.gen = P.gen ∧ leftover P' k = l ∧ ∀ k', k' ≠ k → P'.sampler k' = P.sampler k' := by
  have h1 : (P.sampler k).cache = l.reverse ++ [a] := by
    have := congrArg List.reverse h
    simpa [leftover] using this
  refine ⟨{ gen := P.gen, sampler := Function.update P.sampler k { P.sampler k with cache := l.reverse } }, ?_, rfl, ?_, ?_⟩
  · unfold Proc.serve
    simp only [sample_cached h1]
    rfl
  · simp [leftover]
  · intro k' hk; exact Function.update_of_ne hk _ _

/-- As long as the sampler object holds draws, they are what it returns, in order, and the generator is not used. -/
theorem serveAll_leftover (k : Kind) (m : Nat) (P : Proc σ α) (hm : m ≤ (leftover P k).length) :
    ∃ P', P.serveAll np (List.replicate m (.cached k)) = .ok ((leftover P k).take m, P') ∧ P'.gen = P.gen := by
  induction m generalizing P with
  | zero => exact ⟨P, by simp [Proc.serveAll], rfl⟩
  | succ m ih =>
    cases e : leftover P k with
    | nil => rw [e] at hm; simp at hm
    | cons a l =>
      obtain ⟨P1, e1, e2, e3, -⟩ := serve_cached (np := np) e
      obtain ⟨P2, e4, e5⟩ := ih P1 (by rw [e3]; rw [e] at hm; simpa using hm)
      refine ⟨P2, ?_, by rw [e5, e2]⟩
      simp only [List.replicate_succ, Proc.serveAll, e1, e4, e3, List.take_succ_cons]

/-- C84 fails: what a sampler object holds from before is used first, whatever seed is set: two different seeds give the same draws. -/
theorem C84_refuted (P : Proc σ α) (k : Kind) (m : Nat) (hm : m ≤ (leftover P k).length) (s s' : Nat) :
    ∃ P1 P2, (P.seed np s).serveAll np (List.replicate m (.cached k)) = .ok ((leftover P k).take m, P1) ∧
      (P.seed np s').serveAll np (List.replicate m (.cached k)) = .ok ((leftover P k).take m, P2) := by
  obtain ⟨P1, e1, -⟩ := serveAll_leftover (np := np) k m (P.seed np s) hm
  obtain ⟨P2, e2, -⟩ := serveAll_leftover (np := np) k m (P.seed np s') hm
  exact ⟨P1, P2, e1, e2⟩

/-- C84 (partial): after `np.random.seed(s)` all the draws are determined by the seed and by what the sampler objects hold; so they are determined by the seed if no draw of the cached kinds was
made before. Missing: the general case, where leftover draws are used. -/
theorem C84_seed_partial (P P' : Proc σ α) (h : P.sampler = P'.sampler) (s : Nat) (rs : List Request) :
    (P.seed np s).serveAll np rs = (P'.seed np s).serveAll np rs := by
  have e : P.seed np s = P'.seed np s := by simp only [Proc.seed, h]
  rw [e]

/-- Direct draws leave the sampler objects alone. -/
theorem serve_direct (P : Proc σ α) : ∃ a P', P.serve np .direct = .ok (a, P') ∧ P'.sampler = P.sampler := ⟨_, _, rfl, rfl⟩

/-- C84 (partial): in particular, for a process in which only direct draws were made since the import. -/
theorem C84_fresh_partial (g g' : σ) (m : Nat) {as : List α} {P : Proc σ α} (h : (Proc.new g).serveAll np (List.replicate m .direct) = .ok (as, P)) (s : Nat) (rs : List Request) :
    (P.seed np s).serveAll np rs = ((Proc.new g').seed np s).serveAll np rs := by
  apply C84_seed_partial
  have key : ∀ (m : Nat) (Q : Proc σ α) (as : List α) (P : Proc σ α), Q.serveAll np (List.replicate m .direct) = .ok (as, P) → P.sampler = Q.sampler := by
    intro m
    induction m with
    | zero => intro Q as P h; simp only [List.replicate_zero, Proc.serveAll] at h; injection h with h; injection h with _ h; rw [h]
    | succ m ih =>
      intro Q as P h
      obtain ⟨a, Q1, e1, e2⟩ := serve_direct (np := np) Q
      simp only [List.replicate_succ, Proc.serveAll, e1] at h
      cases e3 : Q1.serveAll np (List.replicate m .direct) with
      | error e => rw [e3] at h; cases h
      | ok q =>
        obtain ⟨as1, P1⟩ := q
        rw [e3] at h
        injection h with h; injection h with _ h
        rw [← h, ih Q1 as1 P1 e3, e2]
  exact key m (.new g) _ _ h

/-- C84 (partial): the direct draws after `np.random.seed(s)`, whatever the sampler objects hold: the `i`-th is what the generator returns after `i` draws from the seeded state.
Missing: the draws that go through the sampler objects, see above. -/
theorem C84_direct_partial (P : Proc σ α) (s m : Nat) :
    ∃ P', (P.seed np s).serveAll np (List.replicate m .direct) = .ok ((List.range m).map (fun i => (np.single ((fun g => (np.single g).2)^[i] (np.seeded s))).1), P') ∧
      P'.gen = (fun g => (np.single g).2)^[m] (np.seeded s) ∧ P'.sampler = P.sampler := by
  have key : ∀ (m : Nat) (Q : Proc σ α), ∃ P', Q.serveAll np (List.replicate m .direct) = .ok ((List.range m).map (fun i => (np.single ((fun g => (np.single g).2)^[i] Q.gen)).1), P') ∧
      P'.gen = (fun g => (np.single g).2)^[m] Q.gen ∧ P'.sampler = Q.sampler := by
    intro m
    induction m with
    | zero => intro Q; exact ⟨Q, rfl, rfl, rfl⟩
    | succ m ih =>
      intro Q
      obtain ⟨P', e1, e2, e3⟩ := ih { Q with gen := (np.single Q.gen).2 }
      refine ⟨P', ?_, by rw [e2, Function.iterate_succ_apply], e3⟩
      rw [List.replicate_succ, Proc.serveAll]
      have h : Q.serve np .direct = .ok ((np.single Q.gen).1, { Q with gen := (np.single Q.gen).2 }) := rfl
      simp only [h, e1]
      rw [List.range_succ_eq_map, List.map_cons, List.map_map]
      rfl
  exact key m (P.seed np s)

/-- C85 fails: workers started from a process whose sampler object holds draws all begin with these draws, whatever the states of their generators. -/
theorem C85_refuted (P : Proc σ α) (k : Kind) (m : Nat) (hm : m ≤ (leftover P k).length) (g g' : σ) :
    ∃ P1 P2, (P.worker g).serveAll np (List.replicate m (.cached k)) = .ok ((leftover P k).take m, P1) ∧
      (P.worker g').serveAll np (List.replicate m (.cached k)) = .ok ((leftover P k).take m, P2) := by
  obtain ⟨P1, e1, -⟩ := serveAll_leftover (np := np) k m (P.worker g) hm
  obtain ⟨P2, e2, -⟩ := serveAll_leftover (np := np) k m (P.worker g') hm
  exact ⟨P1, P2, e1, e2⟩

/-- C85 (partial): if the sampler object of a kind holds nothing, the draws of this kind in a worker are those of the worker's own generator: the first batch, from its end.
Missing: the case that it holds draws. -/
theorem C85_own_draws_partial (hnp : GoodNumPy np) (P : Proc σ α) (k : Kind) (hk : leftover P k = []) (g : σ) (m : Nat) (hm : m ≤ (P.sampler k).cacheSize) (h0 : 0 < m) :
    ∃ P1, (P.worker g).serveAll np (List.replicate m (.cached k)) = .ok ((np.batch k (P.sampler k).cacheSize g).1.reverse.take m, P1) ∧
      P1.gen = (np.batch k (P.sampler k).cacheSize g).2 := by
  have hc : (P.sampler k).cache = [] := by simpa [leftover] using hk
  set b := np.batch k (P.sampler k).cacheSize g with hb
  have hl : b.1.length = (P.sampler k).cacheSize := hnp k _ g
  rcases List.eq_nil_or_concat b.1 with e | ⟨l, a, e⟩
  · rw [e] at hl; simp at hl; omega
  rw [List.concat_eq_append] at e
  obtain ⟨m, rfl⟩ : ∃ m', m = m' + 1 := ⟨m - 1, by omega⟩
  let P1 : Proc σ α := { gen := b.2, sampler := Function.update P.sampler k { P.sampler k with cache := l } }
  have e1 : (P.worker g).serve np (.cached k) = .ok (a, P1) := by
    unfold Proc.serve
    have h1 : (P.worker g).sampler k = P.sampler k := rfl
    have h2 : (P.worker g).gen = g := rfl
    simp only [h1, h2, ← hb]
    have h3 := sample_empty (s := P.sampler k) hc (l := l) (a := a) []
    rw [← e] at h3
    rw [h3]
    rfl
  have hlo : leftover P1 k = l.reverse := by simp [leftover, P1]
  obtain ⟨P2, e2, e3⟩ := serveAll_leftover (np := np) k m P1 (by rw [hlo, List.length_reverse]; rw [e] at hl; simp at hl; omega)
  refine ⟨P2, ?_, e3⟩
  simp only [List.replicate_succ, Proc.serveAll, e1, e2, hlo, e, List.reverse_append, List.reverse_cons, List.reverse_nil, List.nil_append, List.cons_append, List.take_succ_cons]

/-! ### examples -/

/-- A stand-in for numpy: the state is a counter, a batch is an interval. -/
def exNumPy : NumPy Nat Nat := ⟨fun _ n g => ((List.range n).map (fun i => g + i), g + n), fun g => (g, g + 1), fun s => 1000000 * (s + 1)⟩

/-- A new process with small caches. -/
def exProc : Proc Nat Nat := ⟨0, fun _ => .new 3⟩

example : GoodNumPy exNumPy := by intro k n g; simp [exNumPy]

/-- C84, C85, the example: one normal draw leaves two in the sampler object; after seeding with 1 and with 2 the next two draws are the same, the third depends on the seed. -/
example : ∃ a P, exProc.serve exNumPy (.cached .normal) = .ok (a, P) ∧ leftover P .normal = [1, 0] ∧
    (∃ P1, (P.seed exNumPy 1).serveAll exNumPy (List.replicate 3 (.cached .normal)) = .ok ([1, 0, 2000002], P1)) ∧
    (∃ P2, (P.seed exNumPy 2).serveAll exNumPy (List.replicate 3 (.cached .normal)) = .ok ([1, 0, 3000002], P2)) :=
  ⟨_, _, rfl, rfl, ⟨_, rfl⟩, ⟨_, rfl⟩⟩

/-- C84, the example: a process after two direct draws. -/
example : ∃ as P, (Proc.new 0 : Proc Nat Nat).serveAll exNumPy (List.replicate 2 .direct) = .ok (as, P) ∧ as = [0, 1] ∧ P.gen = 2 := ⟨_, _, rfl, rfl, rfl⟩

end Bart
