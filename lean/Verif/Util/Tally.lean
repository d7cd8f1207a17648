/-! Sums of weights over lists, used by invariants that count threads. -/
namespace Verif.Util

variable {α : Type}

/-- Sum of a weight over a list. -/
def tally (w : α → Nat) (l : List α) : Nat := (l.map w).sum

theorem tally_nil (w : α → Nat) : tally w [] = 0 := rfl

theorem tally_cons (w : α → Nat) (a : α) (l : List α) : tally w (a :: l) = w a + tally w l := by
  simp [tally]

theorem tally_append (w : α → Nat) (l l' : List α) :
    tally w (l ++ l') = tally w l + tally w l' := by simp [tally]

theorem tally_set {w : α → Nat} {l : List α} {i : Nat} {p q : α} (h : l[i]? = some p) :
    tally w (l.set i q) + w p = tally w l + w q := by
  induction l generalizing i with
  | nil => simp at h
  | cons a l ih =>
    cases i with
    | zero => simp at h; subst h; simp [tally]; omega
    | succ i =>
      simp at h
      have := ih h
      simp [tally] at this ⊢; omega

theorem tally_le {w : α → Nat} {l : List α} {i : Nat} {p : α} (h : l[i]? = some p) :
    w p ≤ tally w l := by
  induction l generalizing i with
  | nil => simp at h
  | cons a l ih =>
    cases i with
    | zero => simp at h; subst h; simp [tally]
    | succ i =>
      simp at h
      have := ih h
      simp [tally] at this ⊢; omega

/-- Two different elements. -/
theorem tally_le2 {w : α → Nat} {l : List α} {i j : Nat} {p q : α} (hne : i ≠ j)
    (h : l[i]? = some p) (h' : l[j]? = some q) : w p + w q ≤ tally w l := by
  induction l generalizing i j with
  | nil => simp at h
  | cons a l ih =>
    rw [tally_cons]
    cases i with
    | zero =>
      cases j with
      | zero => exact absurd rfl hne
      | succ j =>
        simp at h h'; subst h
        have := tally_le (w := w) h'
        omega
    | succ i =>
      cases j with
      | zero =>
        simp at h h'; subst h'
        have := tally_le (w := w) h
        omega
      | succ j =>
        simp at h h'
        have := ih (by omega) h h'
        omega

theorem tally_map {w : α → Nat} {f : α → α} (h : ∀ t, w (f t) = w t) (l : List α) :
    tally w (l.map f) = tally w l := by
  simp only [tally, List.map_map]
  congr 1
  apply List.map_congr_left
  intro t _; exact h t

theorem tally_pos {w : α → Nat} {l : List α} (h : tally w l ≠ 0) :
    ∃ (i : Nat) (t : α), l[i]? = some t ∧ w t ≠ 0 := by
  induction l with
  | nil => exact absurd rfl h
  | cons a l ih =>
    by_cases ha : w a = 0
    · obtain ⟨i, t, hi, ht⟩ := ih (by rw [tally_cons] at h; omega)
      exact ⟨i + 1, t, by simpa using hi, ht⟩
    · exact ⟨0, a, rfl, ha⟩

theorem tally_bound {w : α → Nat} {l : List α} {b : Nat} (h : ∀ t ∈ l, w t ≤ b) :
    tally w l ≤ l.length * b := by
  induction l with
  | nil => exact Nat.zero_le _
  | cons a l ih =>
    have h1 := h a (by simp)
    have h2 := ih (fun t ht => h t (by simp [ht]))
    rw [tally_cons, List.length_cons, Nat.succ_mul]
    omega

theorem tally_replicate (w : α → Nat) (a : α) (n : Nat) :
    tally w (List.replicate n a) = n * w a := by
  induction n with
  | zero => simp [tally]
  | succ n ih => rw [List.replicate_succ, tally_cons, ih, Nat.succ_mul]; omega

/-- What is at an index after `set`. -/
theorem get_set {l : List α} {i j : Nat} {t u : α} (h : (l.set i t)[j]? = some u) :
    (j = i ∧ u = t) ∨ (j ≠ i ∧ l[j]? = some u) := by
  rw [List.getElem?_set] at h
  split at h
  · split at h
    · cases h; left; exact ⟨by omega, rfl⟩
    · cases h
  · right; exact ⟨by omega, h⟩

theorem get_set_self {l : List α} {i : Nat} {t u : α} (h : l[i]? = some u) :
    (l.set i t)[i]? = some t := by
  rw [List.getElem?_set_self]
  rw [List.getElem?_eq_some_iff] at h
  exact h.1

end Verif.Util
