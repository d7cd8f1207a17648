import Verif.Make.Spec
import Verif.Make.Model

namespace Verif.Make

theorem found_iff {c : Char} : found c = true ↔ c ∈ escapable ∨ c = '\x00' := by
  simp [found, escapable, or_assoc]

/-- What can come after a written path. -/
def After (x : List Char) : Prop := x = [] ∨ x = ['\\'] ∨ x.head? = some ' ' ∨ x.head? = some ':'

theorem scan_after {x : List Char} (h : After x) : scan x = ([], x) := by
  rcases h with rfl | rfl | h | h
  · rfl
  · simp [scan]
  · cases x with
    | nil => cases h
    | cons c x =>
      simp at h; subst h
      cases x <;> simp [scan]
  · cases x with
    | nil => cases h
    | cons c x =>
      simp at h; subst h
      cases x <;> simp [scan]

theorem scan_written {w l : List Char} (h : Written w l) (x : List Char) (hx : After x) :
    scan (w ++ x) = (l, x) := by
  induction h with
  | nil => exact scan_after hx
  | @plain c w l hc _ ih =>
    simp at hc
    rw [List.cons_append]
    cases hwx : w ++ x with
    | nil =>
      rw [hwx] at ih
      simp [scan] at ih
      simp [scan, hc, ih]
    | cons d r =>
      rw [hwx] at ih
      rw [scan]
      simp [hc, ih]
  | @escaped c w l hc _ ih =>
    rw [List.cons_append, List.cons_append, scan, if_neg (by decide), if_pos rfl,
      if_pos (found_iff.2 (Or.inl hc)), ih]
  | @dollars w l _ ih =>
    rw [List.cons_append, List.cons_append, scan, if_neg (by decide), if_neg (by decide), if_pos rfl,
      if_pos rfl, ih]
  | @dollar w l hw _ ih =>
    rw [List.cons_append]
    cases hwx : w ++ x with
    | nil =>
      rw [hwx] at ih
      simp [scan] at ih
      simp [scan, ih]
    | cons d r =>
      have hd : d ≠ '$' := by
        rintro rfl
        cases w with
        | nil =>
          simp at hwx
          rcases hx with h | h | h | h <;> rw [hwx] at h <;> simp at h
        | cons a w => simp at hwx; apply hw; simp [hwx.1]
      rw [hwx] at ih
      rw [scan, if_neg (by decide), if_neg (by decide), if_pos rfl, if_neg hd, ih]
  | @backslash d w l hd hz _ ih =>
    have : found d = false := by
      cases h : found d with
      | false => rfl
      | true =>
        rcases found_iff.1 h with h | h
        · exact absurd h hd
        · exact absurd h hz
    rw [List.cons_append, List.cons_append, scan, if_neg (by decide), if_pos rfl, if_neg (by simp [this])]
    rw [List.cons_append] at ih
    rw [ih]

theorem skip_spaces (k : Nat) (x : List Char) : skip (List.replicate k ' ' ++ x) = skip x := by
  induction k with
  | zero => simp
  | succ k ih => rw [List.replicate_succ, List.cons_append, skip, if_pos rfl, ih]

theorem skip_of_head {x : List Char} (h : x.head? ≠ some ' ') : skip x = x := by
  cases x with
  | nil => rfl
  | cons c x => simp at h; simp [skip, h]

theorem written_head {w l : List Char} (h : Written w l) : w.head? ≠ some ' ' ∧ w.head? ≠ some ':' ∧
    (w.head? = some '\\' → ∃ d r, w = '\\' :: d :: r) ∧ (l ≠ [] → w ≠ []) := by
  cases h with
  | nil => simp
  | plain hc => simp at hc; simp [hc]
  | escaped hc => simp
  | dollars => simp
  | dollar => simp
  | backslash => simp

/-- What can come after the spaces that follow a path: the end, a continuation, a colon or another
path. -/
def Follow (y : List Char) : Prop :=
  y = [] ∨ y = ['\\'] ∨ (y.head? = some ':') ∨
    ∃ w l x, y = w ++ x ∧ Written w l ∧ l ≠ [] ∧ After x

theorem follow_head {y : List Char} (h : Follow y) : y.head? ≠ some ' ' := by
  rcases h with rfl | rfl | h | ⟨w, l, x, rfl, hw, hl, -⟩
  · simp
  · simp
  · rw [h]; decide
  · obtain ⟨h1, -, -, h4⟩ := written_head hw
    cases w with
    | nil => exact absurd rfl (h4 hl)
    | cons c w => exact h1

/-- What `lowNext` leaves of what follows. -/
def leave (y : List Char) : Bool × List Char :=
  if y = [] then (true, []) else if y = ['\\'] then (false, []) else (false, y)

theorem lowNext_path {w l : List Char} (h : Written w l) (j k : Nat) (y : List Char)
    (hy : Follow y) (hk : k = 0 → After y) (hl : l ≠ []) :
    lowNext (List.replicate j ' ' ++ (w ++ List.replicate k ' ' ++ y)) =
      (l, (leave y).1, (leave y).2) := by
  obtain ⟨h1, h2, h3, h4⟩ := written_head h
  have hwn := h4 hl
  have ha : After (List.replicate k ' ' ++ y) := by
    cases k with
    | zero => simpa using hk rfl
    | succ k => right; right; left; simp [List.replicate_succ]
  have hh : (w ++ List.replicate k ' ' ++ y).head? ≠ some ' ' := by
    cases w with
    | nil => exact absurd rfl hwn
    | cons c w => simpa using h1
  unfold lowNext
  rw [skip_spaces, skip_of_head hh, List.append_assoc, scan_written h _ ha]
  simp only []
  rw [skip_spaces, skip_of_head (follow_head hy)]
  unfold leave
  cases y with
  | nil => rfl
  | cons c y =>
    cases y with
    | nil => by_cases hc : c = '\\' <;> simp [hc]
    | cons d y => simp

theorem lowNext_none (j : Nat) (y : List Char) (hy : After y) (hs : y.head? ≠ some ' ') :
    lowNext (List.replicate j ' ' ++ y) = ([], (leave y).1, (leave y).2) := by
  unfold lowNext
  rw [skip_spaces, skip_of_head hs, scan_after hy]
  simp only []
  rw [skip_of_head hs]
  unfold leave
  cases y with
  | nil => rfl
  | cons c y =>
    cases y with
    | nil => by_cases hc : c = '\\' <;> simp [hc]
    | cons d y => simp

end Verif.Make
