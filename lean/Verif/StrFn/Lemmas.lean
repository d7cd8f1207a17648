import Verif.StrFn.Model

/-! # String functions: lemmas -/

namespace Verif.StrFn

variable {lower : Char → Char}

theorem same_iff {ic x y} : same lower ic x y = true ↔ Same lower ic x y := by
  unfold same Same; cases ic <;> simp

theorem Same.length {ic x y} (h : Same lower ic x y) : x.length = y.length := by
  unfold Same at h
  cases ic
  · simp at h; rw [h]
  · have := congrArg List.length (by simpa using h : x.map lower = y.map lower)
    simpa using this

theorem Same.of_same {ic x y} (h : same lower ic x y = true) : x.length = y.length := (same_iff.1 h).length

theorem occurs_iff {ic x y p} (hp : p ≤ x.length) :
    Occurs lower ic x y p ↔ same lower ic ((x.drop p).take y.length) y = true := by
  rw [same_iff]
  constructor
  · rintro ⟨pre, mid, post, rfl, rfl, h⟩
    rw [List.append_assoc, List.drop_left, List.take_left' h.length]
    exact h
  · intro h
    refine ⟨x.take p, (x.drop p).take y.length, (x.drop p).drop y.length, ?_, ?_, h⟩
    · rw [List.append_assoc, List.take_append_drop, List.take_append_drop]
    · simp; omega

theorem occurs_le {ic x y p} (h : Occurs lower ic x y p) : p + y.length ≤ x.length := by
  obtain ⟨pre, mid, post, rfl, rfl, h⟩ := h
  have := h.length
  simp
  omega

theorem findLoop_spec {ic y} (hy : y ≠ []) : ∀ {x : Str} {p : Nat},
    (∀ q, findLoop lower ic y x p = some q → ∃ k, q = p + k ∧ Occurs lower ic x y k ∧
      ∀ j, j < k → ¬ Occurs lower ic x y j) ∧
    (findLoop lower ic y x p = none → ∀ k, ¬ Occurs lower ic x y k)
  | [], p => by
    refine ⟨nofun, fun _ k h => ?_⟩
    have h1 := occurs_le h
    have h2 := List.length_pos_iff.2 hy
    rw [List.length_nil] at h1
    omega
  | c :: x, p => by
    have ih := findLoop_spec (ic := ic) hy (x := x) (p := p + 1)
    have h0 : (y.length ≤ (c :: x).length ∧ same lower ic ((c :: x).take y.length) y = true) ↔
        Occurs lower ic (c :: x) y 0 := by
      rw [occurs_iff (Nat.zero_le _)]
      constructor
      · exact fun h => h.2
      · intro h
        have := Same.of_same h
        simp only [List.drop_zero, List.length_take] at this
        exact ⟨by omega, h⟩
    have hs : ∀ k, Occurs lower ic (c :: x) y (k + 1) ↔ Occurs lower ic x y k := by
      intro k
      by_cases hk : k ≤ x.length
      · rw [occurs_iff (by simpa using hk), occurs_iff hk]; rfl
      · constructor
        · intro h; have := occurs_le h; simp at this; omega
        · intro h; have := occurs_le h; omega
    simp only [findLoop]
    split
    · rename_i h
      refine ⟨?_, nofun⟩
      rintro q ⟨⟩
      exact ⟨0, rfl, h0.1 h, fun j hj => absurd hj (Nat.not_lt_zero _)⟩
    · rename_i h
      have h : ¬ Occurs lower ic (c :: x) y 0 := fun k => h (h0.2 k)
      refine ⟨fun q hq => ?_, fun hq k => ?_⟩
      · obtain ⟨k, rfl, h1, h2⟩ := ih.1 q hq
        refine ⟨k + 1, by omega, (hs k).2 h1, fun j hj => ?_⟩
        cases j with
        | zero => exact h
        | succ j => exact fun h' => h2 j (by omega) ((hs j).1 h')
      · cases k with
        | zero => exact h
        | succ k => exact fun h' => ih.2 hq k ((hs k).1 h')

/-- What `find` gives. -/
theorem find_spec {ic x y} (hy : y ≠ []) :
    (∀ q, find lower x 0 y ic = some q → Occurs lower ic x y q ∧ ∀ j, j < q → ¬ Occurs lower ic x y j) ∧
    (find lower x 0 y ic = none → ∀ k, ¬ Occurs lower ic x y k) := by
  have h := findLoop_spec (lower := lower) (ic := ic) hy (x := x) (p := 0)
  unfold find
  rw [List.drop_zero]
  refine ⟨fun q hq => ?_, h.2⟩
  obtain ⟨k, rfl, h1, h2⟩ := h.1 q hq
  rw [Nat.zero_add]
  exact ⟨h1, h2⟩

theorem rfindLoop_spec {ic x y} : ∀ {p : Nat}, p ≤ x.length →
    (∀ q, rfindLoop lower ic x y p = some q → Occurs lower ic x y q ∧
      ∀ j, q < j → j ≤ p → ¬ Occurs lower ic x y j) ∧
    (rfindLoop lower ic x y p = none → ∀ k, k ≤ p → ¬ Occurs lower ic x y k)
  | 0, hp => by
    have h0 := occurs_iff (lower := lower) (ic := ic) (y := y) hp
    rw [List.drop_zero] at h0
    simp only [rfindLoop]
    split
    · rename_i h
      refine ⟨?_, nofun⟩
      rintro q ⟨⟩
      exact ⟨h0.2 h, fun j h1 h2 => by omega⟩
    · rename_i h
      refine ⟨nofun, fun _ k hk => ?_⟩
      have : k = 0 := by omega
      subst this
      exact fun h' => h (h0.1 h')
  | p + 1, hp => by
    have ih := rfindLoop_spec (ic := ic) (x := x) (y := y) (p := p) (by omega)
    have h0 := occurs_iff (lower := lower) (ic := ic) (y := y) hp
    simp only [rfindLoop]
    split
    · rename_i h
      refine ⟨?_, nofun⟩
      rintro q ⟨⟩
      exact ⟨h0.2 h, fun j h1 h2 => by omega⟩
    · rename_i h
      refine ⟨fun q hq => ⟨(ih.1 q hq).1, fun j h1 h2 => ?_⟩, fun hq k hk => ?_⟩
      · by_cases e : j = p + 1
        · subst e; exact fun h' => h (h0.1 h')
        · exact (ih.1 q hq).2 j h1 (by omega)
      · by_cases e : k = p + 1
        · subst e; exact fun h' => h (h0.1 h')
        · exact ih.2 hq k (by omega)

/-- What `rfind` gives. -/
theorem rfind_spec {ic x y} :
    (∀ q, rfind lower x x.length y ic = some q → Occurs lower ic x y q ∧
      ∀ j, q < j → ¬ Occurs lower ic x y j) ∧
    (rfind lower x x.length y ic = none → ∀ k, ¬ Occurs lower ic x y k) := by
  unfold rfind
  split
  · rename_i h
    have hs := rfindLoop_spec (lower := lower) (ic := ic) (x := x) (y := y) (p := x.length - y.length) (by omega)
    refine ⟨fun q hq => ⟨(hs.1 q hq).1, fun j hj ho => ?_⟩, fun hq k ho => ?_⟩
    · have := occurs_le ho
      exact (hs.1 q hq).2 j hj (by omega) ho
    · have := occurs_le ho
      exact hs.2 hq k (by omega) ho
  · rename_i h
    refine ⟨nofun, fun _ k ho => ?_⟩
    have := occurs_le ho
    omega

theorem find_some {ic x y} (hy : y ≠ []) : (find lower x 0 y ic).isSome = true ↔ ∃ p, Occurs lower ic x y p := by
  have h := find_spec (lower := lower) (ic := ic) (x := x) hy
  cases e : find lower x 0 y ic with
  | none => simp; exact h.2 e
  | some q => simp; exact ⟨q, (h.1 q e).1⟩

theorem find_zero {ic x y} (hy : y ≠ []) : find lower x 0 y ic = some 0 ↔ Occurs lower ic x y 0 := by
  have h := find_spec (lower := lower) (ic := ic) (x := x) hy
  constructor
  · exact fun e => (h.1 0 e).1
  · intro ho
    cases e : find lower x 0 y ic with
    | none => exact absurd ho (h.2 e 0)
    | some q =>
      by_cases hq : q = 0
      · rw [hq]
      · exact absurd ho ((h.1 q e).2 0 (by omega))

theorem find_eq_rfind {ic x y} (hy : y ≠ []) : find lower x 0 y ic = rfind lower x x.length y ic ↔
    ∀ p q, Occurs lower ic x y p → Occurs lower ic x y q → p = q := by
  have h := find_spec (lower := lower) (ic := ic) (x := x) hy
  have k := rfind_spec (lower := lower) (ic := ic) (x := x) (y := y)
  cases e : find lower x 0 y ic with
  | none =>
    cases e' : rfind lower x x.length y ic with
    | none => simp; exact fun p q ho => absurd ho (h.2 e p)
    | some r => exact absurd (k.1 r e').1 (h.2 e r)
  | some l =>
    cases e' : rfind lower x x.length y ic with
    | none => exact absurd (h.1 l e).1 (k.2 e' l)
    | some r =>
      obtain ⟨h1, h2⟩ := h.1 l e
      obtain ⟨k1, k2⟩ := k.1 r e'
      constructor
      · intro hlr p q hp hq
        have hlr : l = r := by simpa using hlr
        subst hlr
        have a1 : ¬ p < l := fun hh => h2 p hh hp
        have a2 : ¬ l < p := fun hh => k2 p hh hp
        have a3 : ¬ q < l := fun hh => h2 q hh hq
        have a4 : ¬ l < q := fun hh => k2 q hh hq
        omega
      · intro hh; rw [hh l r h1 k1]

theorem rfind_end {ic x y} : (match rfind lower x x.length y ic with
      | none => false | some p => p + y.length == x.length) = true ↔
    ∃ p, Occurs lower ic x y p ∧ p + y.length = x.length := by
  have k := rfind_spec (lower := lower) (ic := ic) (x := x) (y := y)
  cases e : rfind lower x x.length y ic with
  | none =>
    constructor
    · exact nofun
    · rintro ⟨p, h, _⟩; exact absurd h (k.2 e p)
  | some r =>
    obtain ⟨k1, k2⟩ := k.1 r e
    constructor
    · intro h; exact ⟨r, k1, by simpa using h⟩
    · rintro ⟨p, h, hp⟩
      have a1 : ¬ r < p := fun hh => k2 p hh h
      have a2 := occurs_le k1
      simp
      omega

theorem badFlag_none {known fs} : badFlag known fs = none ↔ ∀ f ∈ fs, f ∈ known := by
  unfold badFlag
  rw [List.find?_eq_none]
  simp

theorem occurs_zero {ic x y} : Occurs lower ic x y 0 ↔ ∃ mid post, x = mid ++ post ∧ Same lower ic mid y := by
  constructor
  · rintro ⟨pre, mid, post, h, hp, hs⟩
    rw [List.length_eq_zero_iff.1 hp] at h
    exact ⟨mid, post, h, hs⟩
  · rintro ⟨mid, post, h, hs⟩
    exact ⟨[], mid, post, h, rfl, hs⟩

theorem occurs_end {ic x y} : (∃ p, Occurs lower ic x y p ∧ p + y.length = x.length) ↔
    ∃ pre mid, x = pre ++ mid ∧ Same lower ic mid y := by
  constructor
  · rintro ⟨p, ⟨pre, mid, post, rfl, rfl, hs⟩, he⟩
    have := hs.length
    have hp : post = [] := List.length_eq_zero_iff.1 (by simp at he; omega)
    exact ⟨pre, mid, by simp [hp], hs⟩
  · rintro ⟨pre, mid, rfl, hs⟩
    exact ⟨pre.length, ⟨pre, mid, [], by simp, rfl, hs⟩, by simp [hs.length]⟩

theorem replacedAt {ic x y t p} (h : Occurs lower ic x y p) :
    ReplacedAt lower ic x y t p (x.take p ++ t ++ x.drop (p + y.length)) := by
  obtain ⟨pre, mid, post, rfl, rfl, hs⟩ := h
  refine ⟨pre, mid, post, rfl, rfl, hs, ?_⟩
  rw [List.append_assoc pre mid post, List.take_left, ← hs.length, ← List.append_assoc pre mid post,
    ← List.length_append, List.drop_left]

theorem replaceLoop_spec {ic y t} (hy : y ≠ []) : ∀ {k : Nat} {rest done : Str}, rest.length < k →
    ∃ r, replaceLoop lower ic y t k (done ++ rest) done.length = some (done ++ r) ∧
      Replaced lower ic y t rest r
  | 0, _, _, h => absurd h (Nat.not_lt_zero _)
  | k + 1, rest, done, hk => by
    have h := findLoop_spec (lower := lower) (ic := ic) hy (x := rest) (p := done.length)
    simp only [replaceLoop, find, List.drop_left]
    cases e : findLoop lower ic y rest done.length with
    | none => exact ⟨rest, rfl, .none (h.2 e)⟩
    | some q =>
      obtain ⟨j, rfl, ho, hf⟩ := h.1 q e
      obtain ⟨pre, mid, post, rfl, rfl, hs⟩ := ho
      have hl := hs.length
      have hpos := List.length_pos_iff.2 hy
      have e1 : (done ++ (pre ++ mid ++ post)).take (done.length + pre.length) = done ++ pre := by
        rw [← List.length_append, List.append_assoc pre, ← List.append_assoc done, List.take_left]
      have e2 : (done ++ (pre ++ mid ++ post)).drop (done.length + pre.length + y.length) = post := by
        rw [← hl, ← List.length_append, ← List.length_append, ← List.append_assoc, ← List.append_assoc,
          List.drop_left]
      have e3 : done.length + pre.length + t.length = (done ++ pre ++ t).length := by simp; omega
      simp only []
      rw [e1, e2, e3]
      obtain ⟨r, h1, h2⟩ := replaceLoop_spec hy (k := k) (rest := post) (done := done ++ pre ++ t) (by
        simp at hk; omega)
      exact ⟨pre ++ t ++ r, by rw [h1]; simp, .one hs hf h2⟩

theorem Replaced.unique {ic y t x r} (h : Replaced lower ic y t x r) :
    ∀ {r'}, Replaced lower ic y t x r' → r = r' := by
  induction h with
  | none h =>
    intro r' h'
    cases h' with
    | none => rfl
    | one hs _ _ => exact absurd ⟨_, _, _, rfl, rfl, hs⟩ (h _)
  | @one pre mid post r hs hf _ ih =>
    intro r' h'
    generalize hx : pre ++ mid ++ post = x at h'
    cases h' with
    | none h => exact absurd ⟨pre, mid, post, hx.symm, rfl, hs⟩ (h _)
    | @one pre' mid' post' r' hs' hf' h' =>
      have hlen : pre.length = pre'.length := by
        have a1 : ¬ pre'.length < pre.length := fun h => hf _ h ⟨pre', mid', post', hx, rfl, hs'⟩
        have a2 : ¬ pre.length < pre'.length := fun h => hf' _ h ⟨pre, mid, post, hx.symm, rfl, hs⟩
        omega
      rw [List.append_assoc, List.append_assoc] at hx
      obtain ⟨rfl, hx2⟩ := List.append_inj hx hlen
      obtain ⟨rfl, rfl⟩ := List.append_inj hx2 (hs.length.trans hs'.length.symm)
      rw [ih h']

end Verif.StrFn
