import Verif.StrFn.Lemmas

/-! # String functions: properties -/

namespace Verif.StrFn

variable (lower : Char → Char)

/-- `$contains()`: whether there is an occurrence, and with `once` whether there is no other one. An error
exactly if a flag is unknown or the substring is empty. -/
theorem contains_iff (x y : Str) (fs : List String) (hf : ∀ f ∈ fs, f ∈ ["icase", "once"]) (hy : y ≠ []) :
    ∃ b, contains lower x y fs = .ok b ∧
      (b = true ↔ (∃ p, Occurs lower (fs.contains "icase") x y p) ∧
        ("once" ∈ fs → ∀ p q, Occurs lower (fs.contains "icase") x y p →
          Occurs lower (fs.contains "icase") x y q → p = q)) := by
  unfold contains
  rw [badFlag_none.2 hf]
  simp only [if_neg hy]
  have h1 := find_some (lower := lower) (ic := fs.contains "icase") (x := x) hy
  have h2 := find_eq_rfind (lower := lower) (ic := fs.contains "icase") (x := x) hy
  split
  · rename_i h
    refine ⟨false, rfl, ⟨nofun, fun hh => ?_⟩⟩
    exact absurd (h2.2 (hh.2 (by simpa using h.1))) h.2.2
  · rename_i h
    refine ⟨_, rfl, ?_⟩
    rw [h1]
    constructor
    · intro hp
      refine ⟨hp, fun ho => h2.1 (Decidable.byContradiction fun hn => h ⟨by simpa using ho, h1.2 hp, hn⟩)⟩
    · exact fun hh => hh.1

/-- `$starts_with()`. -/
theorem startsWith_iff (x y : Str) (fs : List String) (hf : ∀ f ∈ fs, f = "icase") (hy : y ≠ []) :
    ∃ b, startsWith lower x y fs = .ok b ∧
      (b = true ↔ ∃ mid post, x = mid ++ post ∧ Same lower (fs.contains "icase") mid y) := by
  unfold startsWith
  rw [badFlag_none.2 (fun f h => by simp [hf f h])]
  simp only [if_neg hy]
  refine ⟨_, rfl, ?_⟩
  rw [decide_eq_true_iff, find_zero hy, occurs_zero]

/-- `$ends_with()`. -/
theorem endsWith_iff (x y : Str) (fs : List String) (hf : ∀ f ∈ fs, f = "icase") (hy : y ≠ []) :
    ∃ b, endsWith lower x y fs = .ok b ∧
      (b = true ↔ ∃ pre mid, x = pre ++ mid ∧ Same lower (fs.contains "icase") mid y) := by
  have h := (rfind_end (lower := lower) (ic := fs.contains "icase") (x := x) (y := y)).trans occurs_end
  unfold endsWith
  rw [badFlag_none.2 (fun f h => by simp [hf f h])]
  simp only [if_neg hy]
  cases e : rfind lower x x.length y (fs.contains "icase") with
  | none => rw [e] at h; exact ⟨false, rfl, h⟩
  | some p =>
    rw [e] at h
    refine ⟨_, rfl, ?_⟩
    rw [← h]
    simp

/-- `$compare()` is 0 exactly if all that the flags say is so. -/
theorem compare_iff (x y : Str) (fs : List String) (hy : y ≠ []) :
    ∃ b, compareIs0 lower x y fs = .ok b ∧ (b = true ↔ Matches lower x y fs) := by
  have h1 := find_some (lower := lower) (ic := fs.contains "icase") (x := x) hy
  have h2 := find_eq_rfind (lower := lower) (ic := fs.contains "icase") (x := x) hy
  have h3 := (find_zero (lower := lower) (ic := fs.contains "icase") (x := x) hy).trans occurs_zero
  have h4 := (rfind_end (lower := lower) (ic := fs.contains "icase") (x := x) (y := y)).trans occurs_end
  have h5 := same_iff (lower := lower) (ic := fs.contains "icase") (x := x) (y := y)
  unfold compareIs0 Matches
  rw [← h1, ← h2, ← h3, ← h4, ← h5, if_neg hy]
  unfold matchFlags
  simp only [← List.contains_iff_mem]
  cases fs.contains "contains" <;> cases fs.contains "contains_once" <;> cases fs.contains "starts_with" <;>
    cases fs.contains "ends_with" <;> simp <;> grind

/-- Without a flag that says otherwise any two strings are compared as a whole, also with an empty one. -/
theorem compare_whole (x y : Str) (fs : List String) (hf : ∀ f ∈ fs, f = "icase") :
    ∃ b, compareIs0 lower x y fs = .ok b ∧ (b = true ↔ Same lower (fs.contains "icase") x y) := by
  have hn : ∀ f, f ≠ "icase" → fs.contains f = false := fun f h =>
    Bool.eq_false_iff.2 fun h' => h (hf f (List.contains_iff_mem.1 h'))
  unfold compareIs0
  rw [hn "contains" (by decide), hn "contains_once" (by decide), hn "starts_with" (by decide),
    hn "ends_with" (by decide)]
  exact ⟨_, rfl, same_iff⟩

/-- With such a flag an empty string to look for is an error. -/
theorem compare_empty (x : Str) (fs : List String)
    (hf : ∃ f ∈ fs, f ∈ ["contains", "contains_once", "starts_with", "ends_with"]) :
    compareIs0 lower x [] fs = .error .empty := by
  unfold compareIs0
  rw [if_neg, if_pos rfl]
  obtain ⟨f, h1, h2⟩ := hf
  simp only [List.mem_cons, List.not_mem_nil, or_false] at h2
  rcases h2 with rfl | rfl | rfl | rfl <;> simp [h1]

/-- `$replace()`: the loop ends, and what results is `x` with the occurrences from left to right replaced;
what has been put in is not looked at again. -/
theorem replace_all (x y t : Str) (fs : List String) (hf : ∀ f ∈ fs, f = "icase") (hy : y ≠ []) :
    ∃ r, replace lower x y t fs = .ok (some r) ∧ Replaced lower (fs.contains "icase") y t x r ∧
      ∀ r', Replaced lower (fs.contains "icase") y t x r' → r = r' := by
  have hfo : fs.contains "first_only" = false := by
    refine Bool.eq_false_iff.2 fun h => ?_
    have := hf _ (List.contains_iff_mem.1 h)
    simp at this
  have hlo : fs.contains "last_only" = false := by
    refine Bool.eq_false_iff.2 fun h => ?_
    have := hf _ (List.contains_iff_mem.1 h)
    simp at this
  unfold replace
  rw [badFlag_none.2 (fun f h => by simp [hf f h])]
  simp only [if_neg hy, hfo, hlo]
  by_cases hx : x = []
  · subst hx
    have h : Replaced lower (fs.contains "icase") y t [] [] := by
      refine .none fun p h => ?_
      have h1 := occurs_le h
      have h2 := List.length_pos_iff.2 hy
      rw [List.length_nil] at h1
      omega
    exact ⟨[], rfl, h, fun r' h' => h.unique h'⟩
  · obtain ⟨r, h1, h2⟩ := replaceLoop_spec (lower := lower) (ic := fs.contains "icase") (t := t) hy
      (k := x.length + 1) (rest := x) (done := []) (by omega)
    refine ⟨r, ?_, h2, fun r' h' => h2.unique h'⟩
    simp only [List.nil_append, List.length_nil] at h1
    rw [if_neg hx, h1]
    rfl

/-- `$replace()` with `first_only`, `last_only` or both: the first occurrence is replaced, the last one, or
the only one. -/
theorem replace_one (x y t : Str) (fs : List String)
    (hf : ∀ f ∈ fs, f ∈ ["icase", "first_only", "last_only"]) (hy : y ≠ [])
    (ho : "first_only" ∈ fs ∨ "last_only" ∈ fs) :
    ∃ r, replace lower x y t fs = .ok (some r) ∧
      ((∃ p, ReplacedAt lower (fs.contains "icase") x y t p r ∧
        ("first_only" ∈ fs → ∀ q, Occurs lower (fs.contains "icase") x y q → p ≤ q) ∧
        ("last_only" ∈ fs → ∀ q, Occurs lower (fs.contains "icase") x y q → q ≤ p)) ∨
      (r = x ∧ ¬ ∃ p, Occurs lower (fs.contains "icase") x y p ∧
        ("first_only" ∈ fs → ∀ q, Occurs lower (fs.contains "icase") x y q → p ≤ q) ∧
        ("last_only" ∈ fs → ∀ q, Occurs lower (fs.contains "icase") x y q → q ≤ p))) := by
  have h1 := find_spec (lower := lower) (ic := fs.contains "icase") (x := x) hy
  have h2 := rfind_spec (lower := lower) (ic := fs.contains "icase") (x := x) (y := y)
  unfold replace
  rw [badFlag_none.2 hf]
  simp only [if_neg hy]
  by_cases hx : x = []
  · subst hx
    refine ⟨[], rfl, .inr ⟨rfl, ?_⟩⟩
    rintro ⟨p, h, _⟩
    have h1 := occurs_le h
    have h2 := List.length_pos_iff.2 hy
    rw [List.length_nil] at h1
    omega
  · rw [if_neg hx]
    simp only [← List.contains_iff_mem] at ho ⊢
    generalize fs.contains "icase" = ic at *
    generalize fs.contains "first_only" = fo at *
    generalize fs.contains "last_only" = lo at *
    rw [if_pos (by cases fo <;> cases lo <;> simp at ho ⊢)]
    cases e1 : find lower x 0 y ic with
    | none =>
      have hn := h1.2 e1
      cases e2 : rfind lower x x.length y ic with
      | some r => exact absurd (h2.1 r e2).1 (hn r)
      | none =>
        refine ⟨x, by cases fo <;> cases lo <;> simp, .inr ⟨rfl, ?_⟩⟩
        rintro ⟨p, h, _⟩
        exact hn p h
    | some l =>
      obtain ⟨a1, a2⟩ := h1.1 l e1
      cases e2 : rfind lower x x.length y ic with
      | none => exact absurd a1 (h2.2 e2 l)
      | some r =>
        obtain ⟨b1, b2⟩ := h2.1 r e2
        have a2 : ∀ q, Occurs lower ic x y q → l ≤ q :=
          fun q h => Nat.le_of_not_lt fun hh => a2 q hh h
        have b2 : ∀ q, Occurs lower ic x y q → q ≤ r :=
          fun q h => Nat.le_of_not_lt fun hh => b2 q hh h
        cases fo <;> cases lo
        · simp at ho
        · exact ⟨_, by simp, .inl ⟨r, replacedAt b1, nofun, fun _ => b2⟩⟩
        · exact ⟨_, by simp, .inl ⟨l, replacedAt a1, fun _ => a2, nofun⟩⟩
        · by_cases hlr : r = l
          · subst hlr
            exact ⟨_, by simp, .inl ⟨r, replacedAt b1, fun _ => a2, fun _ => b2⟩⟩
          · refine ⟨x, by simp [hlr], .inr ⟨rfl, ?_⟩⟩
            rintro ⟨p, _, c1, c2⟩
            have d1 := c1 rfl l a1
            have d2 := c2 rfl r b1
            have d3 := a2 r b1
            omega

/-- `$find_index()`: the position of the first element that matches, or the number of elements. -/
theorem findIndex_spec (xs : List Str) (y : Str) (fs : List String)
    (hf : ∀ f ∈ fs, f ∈ ["icase", "contains", "contains_once", "starts_with", "ends_with"])
    (hy : y ≠ []) : ∃ n, findIndex lower xs y fs = .ok n ∧ n ≤ xs.length ∧
      (∀ i (h : i < xs.length), i < n → ¬ Matches lower xs[i] y fs) ∧
      (∀ h : n < xs.length, Matches lower xs[n] y fs) := by
  unfold findIndex
  rw [badFlag_none (known := compareFlags).2 hf]
  simp only
  induction xs with
  | nil => exact ⟨0, rfl, Nat.le_refl _, nofun, nofun⟩
  | cons x xs ih =>
    obtain ⟨b, h1, h2⟩ := compare_iff lower x y fs hy
    simp only [findIndexLoop, h1]
    cases b with
    | true => exact ⟨0, rfl, Nat.zero_le _, fun i _ h => absurd h (Nat.not_lt_zero _), fun _ => h2.1 rfl⟩
    | false =>
      obtain ⟨n, k1, k2, k3, k4⟩ := ih
      rw [k1]
      refine ⟨n + 1, rfl, by simpa using k2, fun i h hi => ?_, fun h => ?_⟩
      · cases i with
        | zero => exact fun hm => nomatch h2.2 hm
        | succ i => exact k3 i (by simpa using h) (by omega)
      · exact k4 (by simpa using h)

/-- `$filter()` keeps exactly the elements that match, in order, and `$filter_out()` the others. -/
theorem filter_spec (xs : List Str) (y : Str) (fs : List String) (out : Bool)
    (hf : ∀ f ∈ fs, f ∈ ["icase", "contains", "contains_once", "starts_with", "ends_with"]) (hy : y ≠ []) :
    ∃ p : Str → Bool, (∀ x, p x = true ↔ Matches lower x y fs) ∧
      filter lower xs y fs out = .ok (xs.filter fun x => p x != out) := by
  refine ⟨fun x => match compareIs0 lower x y fs with | .ok b => b | .error _ => false, fun x => ?_, ?_⟩
  · obtain ⟨b, h1, h2⟩ := compare_iff lower x y fs hy
    simp only [h1]; exact h2
  · unfold filter
    rw [badFlag_none (known := compareFlags).2 hf]
    simp only
    induction xs with
    | nil => rfl
    | cons x xs ih =>
      obtain ⟨b, h1, h2⟩ := compare_iff lower x y fs hy
      simp only [filterLoop, h1, ih]
      rw [List.filter_cons]
      simp only [h1]

/-- An unknown flag or an empty substring is an error. -/
theorem errors (x y t : Str) (fs : List String) :
    (∀ e, contains lower x y fs = .error e → y = [] ∨ ∃ f ∈ fs, f ∉ ["icase", "once"]) ∧
    ((y = [] ∨ ∃ f ∈ fs, f ∉ ["icase", "once"]) → ∃ e, contains lower x y fs = .error e) ∧
    ((y = [] ∨ ∃ f ∈ fs, f ∉ ["icase", "first_only", "last_only"]) →
      ∃ e, replace lower x y t fs = .error e) := by
  refine ⟨fun e h => ?_, fun h => ?_, fun h => ?_⟩
  · refine Classical.byContradiction fun hn => ?_
    obtain ⟨b, hb, _⟩ := contains_iff lower x y fs
      (fun f hf => Classical.byContradiction fun h' => hn (.inr ⟨f, hf, h'⟩)) (fun h' => hn (.inl h'))
    rw [hb] at h
    cases h
  · unfold contains
    cases e : badFlag ["icase", "once"] fs with
    | some f => exact ⟨_, rfl⟩
    | none =>
      rcases h with h | ⟨f, h1, h2⟩
      · simp only [if_pos h]; exact ⟨_, rfl⟩
      · exact absurd (badFlag_none.1 e f h1) h2
  · unfold replace
    cases e : badFlag ["icase", "first_only", "last_only"] fs with
    | some f => exact ⟨_, rfl⟩
    | none =>
      rcases h with h | ⟨f, h1, h2⟩
      · simp only [if_pos h]; exact ⟨_, rfl⟩
      · exact absurd (badFlag_none.1 e f h1) h2

/-- So it is for lists, whatever is in them. -/
theorem errors_list (xs : List Str) (y : Str) (fs : List String) (out : Bool)
    (hf : ∃ f ∈ fs, f ∉ ["icase", "contains", "contains_once", "starts_with", "ends_with"]) :
    (∃ e, filter lower xs y fs out = .error e) ∧ ∃ e, findIndex lower xs y fs = .error e := by
  unfold filter findIndex
  cases e : badFlag compareFlags fs with
  | some f => exact ⟨⟨_, rfl⟩, _, rfl⟩
  | none =>
    obtain ⟨f, h1, h2⟩ := hf
    exact absurd (badFlag_none.1 e f h1) h2

/-- In an empty list nothing is compared, so that an empty substring isn't an error. -/
theorem filter_empty_list (y : Str) (out : Bool) :
    filter lower [] y ["contains"] out = .ok [] ∧ findIndex lower [] y ["contains"] = .ok 0 := ⟨rfl, rfl⟩

/-! Cases that meet the hypotheses. -/

example : (contains Char.toLower "fooFOO".toList "foo".toList ["icase", "once"]).toOption = some false ∧
    (contains Char.toLower "fooFOO".toList "foo".toList ["once"]).toOption = some true := by decide +kernel

example : (endsWith Char.toLower "aaa".toList "aa".toList []).toOption = some true ∧
    (startsWith Char.toLower "baa".toList "aa".toList []).toOption = some false := by decide +kernel

example : (replace Char.toLower "aaXaAb".toList "aa".toList "aaa".toList ["icase"]).toOption =
    some (some "aaaXaaab".toList) := by decide +kernel

example : (replace Char.toLower "aabb".toList "ab".toList [] []).toOption = some (some "ab".toList) := by
  decide +kernel

example : (replace Char.toLower "aaa".toList "aa".toList "b".toList ["first_only", "last_only"]).toOption =
    some (some "aaa".toList) := by decide +kernel

example : (filter Char.toLower ["foo.c".toList, "bar.h".toList] ".c".toList ["ends_with"] true).toOption =
    some ["bar.h".toList] ∧
    (findIndex Char.toLower ["a".toList, "ab".toList, "b".toList] "B".toList ["icase", "starts_with"]).toOption =
    some 2 := by decide +kernel

end Verif.StrFn
