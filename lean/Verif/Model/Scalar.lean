import Verif.Model.Base
import Mathlib.Data.List.Basic

/-! Model of bartpy/samplers/scalar.py. The three classes differ only in the numpy call that produces a batch. -/

namespace Bart

/-- bartpy/samplers/scalar.py:6-11, 22-27, 38-49: the state of a sampler. -/
structure ScalarSampler (α : Type) where
  cacheSize : Nat
  cache : List α

namespace ScalarSampler
variable {α : Type}

/-- bartpy/samplers/scalar.py:10-11, 26-27, 45-49: a new sampler has an empty cache. -/
def new (cacheSize : Nat) : ScalarSampler α := { cacheSize := cacheSize, cache := [] }

/-- bartpy/samplers/scalar.py:18-19, 34-35, 56-57 `refresh_cache`: the next batch that numpy generates replaces the cache. `batches` are the batches numpy will generate
(`outOfDraws` when they are used up); numpy gives `cache_size` numbers per batch. -/
def refreshCache (s : ScalarSampler α) (batches : List (List α)) : Except PyErr (ScalarSampler α × List (List α)) :=
  match batches with
  | [] => .error .outOfDraws
  | b :: bs => .ok ({ s with cache := b }, bs)

/-- `list.pop()`: the last element; IndexError on an empty list. -/
def pop (l : List α) : Except PyErr (α × List α) :=
  match l.getLast? with
  | none => .error .indexError
  | some a => .ok (a, l.dropLast)

/-- bartpy/samplers/scalar.py:13-16, 29-32, 51-54 `sample`. -/
def sample (s : ScalarSampler α) (batches : List (List α)) : Except PyErr (α × ScalarSampler α × List (List α)) :=
  match (if s.cache.length = 0 then s.refreshCache batches else .ok (s, batches)) with
  | .error e => .error e
  | .ok (s1, bs) =>
    match pop s1.cache with
    | .error e => .error e
    | .ok (a, c) => .ok (a, { s1 with cache := c }, bs)

/-- `k` calls of `sample`. -/
def sampleMany : Nat → ScalarSampler α → List (List α) → Except PyErr (List α × ScalarSampler α × List (List α))
  | 0, s, bs => .ok ([], s, bs)
  | k + 1, s, bs =>
    match s.sample bs with
    | .error e => .error e
    | .ok (a, s1, bs1) =>
      match sampleMany k s1 bs1 with
      | .error e => .error e
      | .ok (as, s2, bs2) => .ok (a :: as, s2, bs2)

end ScalarSampler
end Bart
