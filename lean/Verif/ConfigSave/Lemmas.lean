import Verif.ConfigSave.Model

/-!
# Saving the configuration: lemmas
-/

namespace Verif.ConfigSave

open Verif.Lookup (Val)

variable {α : Type}

/-! ## The first that is there -/

theorem nearest_some {β : Type} {l : List (Option β)} {i : Nat} {x : β} :
    nearest l = some (i, x) ↔ l[i]? = some (some x) ∧ ∀ j, j < i → l[j]? = some none := by
  induction l generalizing i with
  | nil => simp [nearest]
  | cons o l ih =>
    cases o with
    | some y =>
      simp only [nearest, Option.some.injEq, Prod.mk.injEq]
      constructor
      · rintro ⟨rfl, rfl⟩; exact ⟨rfl, fun j hj => absurd hj (Nat.not_lt_zero j)⟩
      · rintro ⟨h1, h2⟩
        cases i with
        | zero => simp at h1; exact ⟨rfl, h1⟩
        | succ i =>
          have := h2 0 (Nat.succ_pos i)
          simp at this
    | none =>
      simp only [nearest, Option.map_eq_some_iff, Prod.exists, Prod.mk.injEq]
      constructor
      · rintro ⟨a, b, h, rfl, rfl⟩
        obtain ⟨h1, h2⟩ := ih.mp h
        refine ⟨by simpa using h1, ?_⟩
        intro j hj
        cases j with
        | zero => rfl
        | succ j => simpa using h2 j (by omega)
      · rintro ⟨h1, h2⟩
        cases i with
        | zero => simp at h1
        | succ i =>
          refine ⟨i, x, ih.mpr ⟨by simpa using h1, ?_⟩, rfl, rfl⟩
          intro j hj
          simpa using h2 (j + 1) (by omega)

theorem nearest_none {β : Type} {l : List (Option β)} :
    nearest l = none ↔ ∀ (j : Nat) o, l[j]? = some o → o = none := by
  induction l with
  | nil => simp [nearest]
  | cons o l ih =>
    cases o with
    | some y =>
      simp only [nearest, reduceCtorEq, false_iff]
      intro h
      exact absurd (h 0 (some y) rfl) (by simp)
    | none =>
      simp only [nearest, Option.map_eq_none_iff, ih]
      constructor
      · intro h j o ho
        cases j with
        | zero => simp at ho; exact ho.symm
        | succ j => exact h j o (by simpa using ho)
      · intro h j o ho
        exact h (j + 1) o (by simpa using ho)

/-! ## Loading -/

theorem loadAll_length (ps : List (Proj α)) : (loadAll ps).length = ps.length := by
  induction ps with
  | nil => rfl
  | cons p ps ih => simp [loadAll, ih]

theorem loadAll_get (ps : List (Proj α)) (i : Nat) :
    (loadAll ps)[i]? = (ps[i]?).map (fun p => own p ((loadAll ps).drop (i + 1))) := by
  induction ps generalizing i with
  | nil => simp [loadAll]
  | cons p ps ih =>
    cases i with
    | zero => simp [loadAll]
    | succ i => simp [loadAll, ih]

/-- What is in the scope itself. -/
theorem own_file {p : Proj α} {outer : List (Option (Val α × Bool))} {v : Val α}
    (h : p.file = some v) : own p outer = some (v, false) := by
  simp [own, h]

theorem own_none {p : Proj α} {outer : List (Option (Val α × Bool))}
    (h : own p outer = none) : p.file = none := by
  cases hf : p.file with
  | none => rfl
  | some v => rw [own_file hf] at h; cases h

theorem own_not_default {p : Proj α} {outer : List (Option (Val α × Bool))} {v : Val α}
    (h : own p outer = some (v, false)) : p.file = some v := by
  unfold own at h
  cases hf : p.file with
  | some w => rw [hf] at h; simp at h; rw [h]
  | none =>
    rw [hf] at h
    simp only at h
    split at h
    · cases h
    · split at h
      · cases h
      · split at h <;> simp at h

theorem own_default {p : Proj α} {outer : List (Option (Val α × Bool))} {v : Val α}
    (h : own p outer = some (v, true)) :
    p.file = none ∧ ∃ u, p.use = some u ∧ u.dflt = some v ∧
      (nearest outer = none ∨ u.defOvr = true) := by
  unfold own at h
  cases hf : p.file with
  | some w => rw [hf] at h; simp at h
  | none =>
    rw [hf] at h
    refine ⟨rfl, ?_⟩
    simp only at h
    split at h
    · cases h
    · rename_i u hu
      split at h
      · cases h
      · rename_i d hd
        split at h
        · rename_i hc
          simp only [Option.some.injEq, Prod.mk.injEq, and_true] at h
          subst h
          refine ⟨u, hu, hd, ?_⟩
          simpa using hc
        · cases h

/-! ## Looking for the inherited value -/

theorem findLoop_true {S : Setup α} {p sname : Nat} {l : Look α} {rs : List (Proj α × Nat)}
    (h : S.findLoop p sname l rs = some true) :
    ∃ r i, (r, i) ∈ rs ∧ S.saves sname i r = true ∧ (l.loc = S.n ∨ l.loc = i) ∧
      ((l.loc = S.n ∨ l.over = true) → S.done p i = true) := by
  induction rs with
  | nil =>
    rw [Setup.findLoop] at h
    split at h <;> cases h
  | cons a rs ih =>
    obtain ⟨r, i⟩ := a
    rw [Setup.findLoop] at h
    split at h
    · rename_i hc
      simp only at h
      split at h
      · cases h
      · rename_i hd
        split at h
        · have hs : S.saves sname i r = true := by simpa using h
          refine ⟨r, i, List.mem_cons_self, hs, hc, ?_⟩
          intro ho
          have : (decide (l.loc = S.n) || l.over) = true := by simpa using ho
          simp only [hs, this, Bool.true_and, Bool.not_eq_true', Bool.not_eq_false] at hd
          exact hd
        · obtain ⟨r', i', h1, h2⟩ := ih h
          exact ⟨r', i', List.mem_cons_of_mem _ h1, h2⟩
    · obtain ⟨r', i', h1, h2⟩ := ih h
      exact ⟨r', i', List.mem_cons_of_mem _ h1, h2⟩

theorem findLoop_none {S : Setup α} {p sname : Nat} {l : Look α} {rs : List (Proj α × Nat)}
    (h : S.findLoop p sname l rs = none) :
    l.loc ≠ S.n ∧ ∀ r i, (r, i) ∈ rs → l.loc ≠ i := by
  induction rs with
  | nil =>
    rw [Setup.findLoop] at h
    split at h
    · cases h
    · rename_i hn
      exact ⟨hn, fun r i hm => by cases hm⟩
  | cons a rs ih =>
    obtain ⟨r, i⟩ := a
    rw [Setup.findLoop] at h
    split at h
    · rename_i hc
      simp only at h
      split at h
      · cases h
      · split at h
        · cases h
        · rename_i hf
          simp only [Bool.or_eq_true, decide_eq_true_eq, not_or, Classical.not_not] at hf
          exact absurd hf.2 (ih h).1
    · rename_i hc
      simp only [not_or] at hc
      refine ⟨hc.1, ?_⟩
      intro r' i' hm
      rcases List.mem_cons.mp hm with he | hm
      · rw [Prod.mk.injEq] at he
        rw [he.2]; exact hc.2
      · exact (ih h).2 r' i' hm

theorem mem_zipIdx_drop {β : Type} {l : List β} {k i : Nat} {x : β} :
    (x, i) ∈ l.zipIdx.drop k ↔ k ≤ i ∧ l[i]? = some x := by
  rw [List.mem_iff_getElem?]
  constructor
  · rintro ⟨j, hj⟩
    rw [List.getElem?_drop, List.getElem?_zipIdx, Option.map_eq_some_iff] at hj
    obtain ⟨y, hy, he⟩ := hj
    simp only [Nat.zero_add, Prod.mk.injEq] at he
    obtain ⟨rfl, rfl⟩ := he
    exact ⟨Nat.le_add_right _ _, hy⟩
  · rintro ⟨hk, hx⟩
    refine ⟨i - k, ?_⟩
    rw [List.getElem?_drop, List.getElem?_zipIdx, show k + (i - k) = i by omega, hx]
    simp

theorem findInherited_true {S : Setup α} {p sname : Nat} {l : Look α}
    (h : S.findInherited p sname l = some true) :
    ∃ r i, p < i ∧ S.projs[i]? = some r ∧ S.saves sname i r = true ∧
      (l.loc = S.n ∨ l.loc = i) ∧ ((l.loc = S.n ∨ l.over = true) → S.done p i = true) := by
  obtain ⟨r, i, h1, h2⟩ := findLoop_true h
  obtain ⟨h3, h4⟩ := mem_zipIdx_drop.mp h1
  exact ⟨r, i, h3, h4, h2⟩

theorem findInherited_some {S : Setup α} {p sname : Nat} {l : Look α} (h1 : p < l.loc)
    (h2 : l.loc ≤ S.n) : S.findInherited p sname l ≠ none := by
  intro h
  obtain ⟨h3, h4⟩ := findLoop_none h
  have hlt : l.loc < S.projs.length := by
    have : S.n = S.projs.length := rfl
    omega
  have := h4 _ _ (mem_zipIdx_drop.mpr ⟨h1, List.getElem?_eq_getElem hlt⟩)
  exact this rfl

/-! ## What is written -/

theorem saveLine_val {S : Setup α} {inh : Bool} {p : Nat} {r : Proj α} {m : Mod} {v : Val α}
    (h : S.saveLine inh p r m = .line v) : ∃ l, S.look p = .found l ∧ l.val = v := by
  unfold Setup.saveLine at h
  split at h
  · cases h
  · cases h
  · split at h
    · cases h
    · cases h
    · rename_i l hl
      split at h
      · cases h
      · split at h
        · cases h
        · cases h
        · split at h
          · cases h
          · refine ⟨l, hl, ?_⟩
            injection h

theorem reloaded_get (S : Setup α) (i : Nat) :
    S.reloaded[i]? = (S.projs[i]?).map (fun r => { r with file := S.newFile i r }) := by
  unfold Setup.reloaded
  rw [List.getElem?_map, List.getElem?_zipIdx]
  cases S.projs[i]? with
  | none => rfl
  | some r => simp

end Verif.ConfigSave
