import Verif.Model.Data
import Mathlib.Data.List.Dedup
import Mathlib.Data.List.Basic

namespace Bart
namespace Fl
variable {K : Type} [LinearOrder K]

theorem eq_iff {a b : Fl K} : Fl.eq a b = true ↔ a ≠ .nan ∧ a = b := by
  cases a <;> cases b <;> simp [Fl.eq]

theorem ne_iff {a b : Fl K} : Fl.ne a b = true ↔ (a = .nan ∨ a ≠ b) := by
  unfold Fl.ne
  cases h : Fl.eq a b with
  | true => have := eq_iff.1 h; simp [this.1]; exact this.2
  | false =>
    have : ¬ (a ≠ .nan ∧ a = b) := fun hh => by rw [eq_iff.2 hh] at h; cases h
    simp; tauto

theorem gt_eq_not_le {a b : Fl K} (ha : a ≠ .nan) (hb : b ≠ .nan) : Fl.gt a b = !(Fl.le a b) := by
  cases a <;> cases b <;> simp_all [Fl.gt, Fl.lt, Fl.le]
  rw [← decide_not, decide_eq_decide, not_le]

theorem le_eq_not_gt {a b : Fl K} (ha : a ≠ .nan) (hb : b ≠ .nan) : Fl.le a b = !(Fl.gt a b) := by
  rw [gt_eq_not_le ha hb]; simp

theorem not_gt_and_le {a b : Fl K} : ¬ (Fl.gt a b = true ∧ Fl.le a b = true) := by
  cases a <;> cases b <;> simp [Fl.gt, Fl.lt, Fl.le]

theorem lt_irrefl (a : Fl K) : Fl.lt a a = false := by cases a <;> simp [Fl.lt]

theorem lt_trans {a b c : Fl K} (h1 : Fl.lt a b = true) (h2 : Fl.lt b c = true) : Fl.lt a c = true := by
  cases a <;> cases b <;> cases c <;> simp_all [Fl.lt]
  exact _root_.lt_trans h1 h2

theorem lt_of_le_of_lt {a b c : Fl K} (h1 : Fl.le a b = true) (h2 : Fl.lt b c = true) : Fl.lt a c = true := by
  cases a <;> cases b <;> cases c <;> simp_all [Fl.lt, Fl.le]
  exact _root_.lt_of_le_of_lt h1 h2

theorem lt_of_lt_of_le {a b c : Fl K} (h1 : Fl.lt a b = true) (h2 : Fl.le b c = true) : Fl.lt a c = true := by
  cases a <;> cases b <;> cases c <;> simp_all [Fl.lt, Fl.le]
  exact _root_.lt_of_lt_of_le h1 h2

theorem le_trans {a b c : Fl K} (h1 : Fl.le a b = true) (h2 : Fl.le b c = true) : Fl.le a c = true := by
  cases a <;> cases b <;> cases c <;> simp_all [Fl.le]
  exact _root_.le_trans h1 h2

theorem le_refl {a : Fl K} (h : a ≠ .nan) : Fl.le a a = true := by cases a <;> simp_all [Fl.le]

theorem le_of_lt {a b : Fl K} (h : Fl.lt a b = true) : Fl.le a b = true := by
  cases a <;> cases b <;> simp_all [Fl.lt, Fl.le]
  exact _root_.le_of_lt h

theorem lt_of_le_of_ne {a b : Fl K} (h : Fl.le a b = true) (hne : a ≠ b) : Fl.lt a b = true := by
  cases a <;> cases b <;> simp_all [Fl.lt, Fl.le]
  exact _root_.lt_of_le_of_ne h hne

theorem le_of_not_lt {a b : Fl K} (ha : a ≠ .nan) (hb : b ≠ .nan) (h : Fl.lt a b = false) : Fl.le b a = true := by
  cases a <;> cases b <;> simp_all [Fl.lt, Fl.le]

end Fl

section choice
variable {α : Type}

theorem choice_ok_mem {l : List α} {u : Nat} {a : α} (h : choice l u = .ok a) : a ∈ l := by
  unfold choice at h
  split at h
  · next x hx => cases h; exact List.mem_of_getElem? hx
  · cases h

theorem choice_ok_of_ne_nil {l : List α} (h : l ≠ []) (u : Nat) : ∃ a ∈ l, choice l u = .ok a := by
  have hlen : 0 < l.length := List.length_pos_iff.2 h
  have hlt : u % l.length < l.length := Nat.mod_lt _ hlen
  refine ⟨l[u % l.length], List.getElem_mem hlt, ?_⟩
  unfold choice
  rw [List.getElem?_eq_getElem hlt]

theorem exists_choice_eq {l : List α} {a : α} (h : a ∈ l) : ∃ u, choice l u = .ok a := by
  obtain ⟨i, hi, rfl⟩ := List.getElem_of_mem h
  refine ⟨i, ?_⟩
  unfold choice
  rw [Nat.mod_eq_of_lt hi, List.getElem?_eq_getElem hi]

theorem choice_nil (u : Nat) : choice ([] : List α) u = .error .valueError := by
  simp [choice]
end choice
end Bart
