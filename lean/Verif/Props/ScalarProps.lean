import Verif.Model.Scalar
import Mathlib.Tactic.Linarith
import Mathlib.Algebra.BigOperators.Group.List.Basic

/-! Property theorem C37: the scalar samplers. -/

namespace Bart
variable {α : Type}

namespace ScalarSampler

theorem pop_concat (l : List α) (a : α) : pop (l ++ [a]) = .ok (a, l) := by
  simp [pop]

theorem sample_cached {s : ScalarSampler α} {l : List α} {a : α} (h : s.cache = l ++ [a]) (bs : List (List α)) :
    s.sample bs = .ok (a, { s with cache := l }, bs) := by
  unfold sample
  have : ¬ s.cache.length = 0 := by rw [h]; simp
  rw [if_neg this]
  simp only [h, pop_concat]

theorem sample_empty {s : ScalarSampler α} (h : s.cache = []) {l : List α} {a : α} (bs : List (List α)) :
    s.sample ((l ++ [a]) :: bs) = .ok (a, { s with cache := l }, bs) := by
  unfold sample
  rw [if_pos (by rw [h]; rfl)]
  simp [refreshCache, pop_concat]

end ScalarSampler

open ScalarSampler

/-- C37. Numpy generates the batches `bs`, each with `cache_size >= 1` numbers; the sampler may already hold a cache (samplers are shared between
models through default arguments). Then as long as the batches last, `k` calls return without an error, and what they return followed by what is
left (in the cache and in the batches that were not used) is exactly what there was, each number once: what was in the
cache, then the batches one after the other, each from its end. -/
theorem C37_each_draw_once (k : Nat) (s : ScalarSampler α) (bs : List (List α)) (h1 : 1 ≤ s.cacheSize) (hb : ∀ b ∈ bs, b.length = s.cacheSize)
    (hk : k ≤ s.cache.length + bs.length * s.cacheSize) :
    ∃ out s' bs', sampleMany k s bs = .ok (out, s', bs') ∧ out.length = k ∧ s'.cacheSize = s.cacheSize ∧ (∃ used, bs = used ++ bs') ∧
      out ++ (s'.cache.reverse ++ bs'.flatMap List.reverse) = s.cache.reverse ++ bs.flatMap List.reverse := by
  induction k generalizing s bs with
  | zero => exact ⟨[], s, bs, rfl, rfl, rfl, ⟨[], rfl⟩, rfl⟩
  | succ k ih =>
    rcases List.eq_nil_or_concat s.cache with hc | ⟨l, a, hc⟩
    · cases bs with
      | nil => rw [hc] at hk; simp at hk
      | cons b bs =>
        have hbl := hb b (by simp)
        rcases List.eq_nil_or_concat b with hb0 | ⟨l, a, hb0⟩
        · rw [hb0] at hbl; simp at hbl; omega
        · rw [List.concat_eq_append] at hb0
          subst hb0
          simp at hbl
          obtain ⟨out, s', bs', e, e1, e2, ⟨used, e3⟩, e4⟩ := ih { s with cache := l } bs h1 (fun b hb' => hb b (by simp [hb'])) (by
            rw [hc] at hk
            simp [Nat.add_mul] at hk ⊢
            omega)
          refine ⟨a :: out, s', bs', ?_, by simp [e1], e2, ⟨(l ++ [a]) :: used, by rw [e3]; rfl⟩, ?_⟩
          · unfold sampleMany
            rw [sample_empty hc]
            simp only [e]
          · simp only [List.cons_append, e4, hc]
            simp
    · rw [List.concat_eq_append] at hc
      obtain ⟨out, s', bs', e, e1, e2, e3, e4⟩ := ih { s with cache := l } bs h1 hb (by rw [hc] at hk; simp at hk ⊢; omega)
      refine ⟨a :: out, s', bs', ?_, by simp [e1], e2, e3, ?_⟩
      · unfold sampleMany
        rw [sample_cached hc]
        simp only [e]
      · simp only [List.cons_append, e4, hc]
        simp

/-- The same for a new sampler: `k` calls give the first `k` numbers of the reversed batches. -/
theorem C37_new_sampler (k c : Nat) (bs : List (List α)) (h1 : 1 ≤ c) (hb : ∀ b ∈ bs, b.length = c) (hk : k ≤ bs.length * c) :
    ∃ s' bs', sampleMany k (.new c) bs = .ok ((bs.flatMap List.reverse).take k, s', bs') := by
  obtain ⟨out, s', bs', e, e1, -, -, e2⟩ := C37_each_draw_once k (ScalarSampler.new c) bs h1 hb (by simp [ScalarSampler.new]; exact hk)
  refine ⟨s', bs', ?_⟩
  have : (bs.flatMap List.reverse).take k = out := by
    simp [ScalarSampler.new] at e2
    rw [← e2, ← e1]; simp
  rw [this, e]

/-- Five calls with batches of three. -/
example : sampleMany 5 (.new 3) [[1, 2, 3], [4, 5, 6]] = .ok ([3, 2, 1, 6, 5], ⟨3, [4]⟩, []) := rfl

end Bart
