/-!
# Script flow control: the names of the files of the standard streams

Models std_path() of run_pipe() (libbuild2/script/run.cxx:2074-2113). A name is the list of its
characters; the directory (the temporary directory of the script) is left out.
-/

namespace Verif.ScriptFlow

/-- script/run.cxx:2080, 2089, 2098, 2110: to_string(). -/
def dec (n : Nat) : List Char := Nat.toDigits 10 n

/-- script/run.cxx:2074-2113 std_path(): the name of the stream, the iteration indexes from the
outermost to the innermost (ii is the innermost first, every index is inserted at the same
place), the line index unless 0 and the command index unless 0. -/
def stdPath (nm : List Char) (ii : List Nat) (li ci : Nat) : List Char :=
  nm ++ (ii.foldl (fun s i => '-' :: 'i' :: dec i ++ s) []
    ++ ((if li ≠ 0 then '-' :: 'n' :: dec li else [])
      ++ (if ci ≠ 0 then '-' :: 'c' :: dec ci else [])))

/-- The items of a name. -/
def item (x : Char × Nat) : List Char := '-' :: x.1 :: dec x.2

/-- The items of the indexes. -/
def items (ii : List Nat) (li ci : Nat) : List (Char × Nat) :=
  ii.reverse.map (fun i => ('i', i))
    ++ ((if li ≠ 0 then [('n', li)] else []) ++ (if ci ≠ 0 then [('c', ci)] else []))

theorem foldl_items (ii : List Nat) (acc : List Char) :
    ii.foldl (fun s i => '-' :: 'i' :: dec i ++ s) acc =
      (ii.reverse.map (fun i => ('i', i))).flatMap item ++ acc := by
  induction ii generalizing acc with
  | nil => rfl
  | cons i ii ih =>
    rw [List.foldl_cons, ih]
    simp [item, List.flatMap_append]

theorem stdPath_items (nm : List Char) (ii : List Nat) (li ci : Nat) :
    stdPath nm ii li ci = nm ++ (items ii li ci).flatMap item := by
  unfold stdPath items
  rw [foldl_items, List.flatMap_append, List.flatMap_append, List.append_nil]
  congr 2
  congr 1
  · split <;> simp [item]
  · split <;> simp [item]

theorem dec_digit {n : Nat} {c : Char} (h : c ∈ dec n) : c.isDigit = true :=
  Nat.isDigit_of_mem_toDigits (by omega) (by omega) h

theorem dec_inj {m n : Nat} (h : dec m = dec n) : m = n := by
  have h1 := Nat.ofDigitChars_ten_toDigits (n := m)
  have h2 := Nat.ofDigitChars_ten_toDigits (n := n)
  unfold dec at h
  rw [h] at h1
  omega

/-- A list that does not continue the given one with the kind of its elements. -/
def Stop (P : Char → Bool) : List Char → Prop
  | [] => True
  | c :: _ => P c = false

theorem split_unique {P : Char → Bool} :
    ∀ {a b x y : List Char}, (∀ c ∈ a, P c = true) → (∀ c ∈ b, P c = true) → Stop P x → Stop P y →
      a ++ x = b ++ y → a = b ∧ x = y
  | [], [], _, _, _, _, _, _, h => ⟨rfl, h⟩
  | [], c :: b, x, y, _, hb, hx, _, h => by
    simp only [List.nil_append, List.cons_append] at h
    subst h
    have := hb c (List.mem_cons_self ..)
    simp only [Stop] at hx
    rw [this] at hx
    cases hx
  | c :: a, [], x, y, ha, _, _, hy, h => by
    simp only [List.nil_append, List.cons_append] at h
    subst h
    have := ha c (List.mem_cons_self ..)
    simp only [Stop] at hy
    rw [this] at hy
    cases hy
  | c :: a, d :: b, x, y, ha, hb, hx, hy, h => by
    simp only [List.cons_append, List.cons.injEq] at h
    obtain ⟨rfl, h⟩ := h
    obtain ⟨rfl, h'⟩ := split_unique (fun c hc => ha c (List.mem_cons_of_mem _ hc))
      (fun c hc => hb c (List.mem_cons_of_mem _ hc)) hx hy h
    exact ⟨rfl, h'⟩

theorem stop_items {P : Char → Bool} (hP : P '-' = false) (l : List (Char × Nat)) :
    Stop P (l.flatMap item) := by
  cases l with
  | nil => trivial
  | cons x l => exact hP

theorem flatMap_item_inj : ∀ {a b : List (Char × Nat)}, a.flatMap item = b.flatMap item → a = b
  | [], [], _ => rfl
  | [], x :: b, h => by simp [item] at h
  | x :: a, [], h => by simp [item] at h
  | x :: a, y :: b, h => by
    simp only [List.flatMap_cons, item, List.cons_append, List.cons.injEq, true_and] at h
    obtain ⟨h1, h⟩ := h
    obtain ⟨h2, h⟩ := split_unique (P := Char.isDigit) (fun c hc => dec_digit hc)
      (fun c hc => dec_digit hc) (stop_items rfl a) (stop_items rfl b) h
    rw [flatMap_item_inj h, Prod.ext h1 (dec_inj h2)]

theorem items_inj {ii ii' : List Nat} {li li' ci ci' : Nat} (h : items ii li ci = items ii' li' ci') :
    ii = ii' ∧ li = li' ∧ ci = ci' := by
  have hi : ∀ (ii : List Nat) (li ci : Nat),
      ((items ii li ci).filter (fun x => x.1 == 'i')).map Prod.snd = ii.reverse := by
    intro ii li ci
    unfold items
    rw [List.filter_append, List.filter_append]
    have h1 : List.filter (fun x : Char × Nat => x.1 == 'i') (if li ≠ 0 then [('n', li)] else []) = [] := by
      split <;> rfl
    have h2 : List.filter (fun x : Char × Nat => x.1 == 'i') (if ci ≠ 0 then [('c', ci)] else []) = [] := by
      split <;> rfl
    rw [h1, h2]
    simp [List.filter_map, Function.comp_def]
  have hn : ∀ (t : Char) (ii : List Nat) (li ci : Nat), t ≠ 'i' →
      ((items ii li ci).filter (fun x => x.1 == t)).map Prod.snd =
        (if li ≠ 0 ∧ t = 'n' then [li] else []) ++ (if ci ≠ 0 ∧ t = 'c' then [ci] else []) := by
    intro t ii li ci ht
    unfold items
    rw [List.filter_append, List.filter_append]
    have h0 : List.filter (fun x : Char × Nat => x.1 == t) (ii.reverse.map (fun i => ('i', i))) = [] := by
      simp [List.filter_eq_nil_iff]
      intro _ _ h
      exact ht h.symm
    rw [h0, List.nil_append, List.map_append]
    congr 1
    · by_cases h : li = 0
      · simp [h]
      · by_cases h' : t = 'n'
        · subst h'; simp [h]
        · simp [h, h', Ne.symm h']
    · by_cases h : ci = 0
      · simp [h]
      · by_cases h' : t = 'c'
        · subst h'; simp [h]
        · simp [h, h', Ne.symm h']
  refine ⟨?_, ?_, ?_⟩
  · have := hi ii li ci
    rw [h, hi] at this
    simpa using this.symm
  · have := hn 'n' ii li ci (by decide)
    rw [h, hn _ _ _ _ (by decide)] at this
    by_cases h1 : li = 0 <;> by_cases h2 : li' = 0 <;> simp_all
  · have := hn 'c' ii li ci (by decide)
    rw [h, hn _ _ _ _ (by decide)] at this
    by_cases h1 : ci = 0 <;> by_cases h2 : ci' = 0 <;> simp_all

/-- Names without `-` do not get confused. -/
theorem stdPath_inj {nm nm' : List Char} (hn : '-' ∉ nm) (hn' : '-' ∉ nm') {ii ii' : List Nat}
    {li li' ci ci' : Nat} (h : stdPath nm ii li ci = stdPath nm' ii' li' ci') :
    nm = nm' ∧ ii = ii' ∧ li = li' ∧ ci = ci' := by
  rw [stdPath_items, stdPath_items] at h
  obtain ⟨h1, h2⟩ := split_unique (P := fun c => c != '-')
    (fun c hc => by simp; rintro rfl; exact hn hc) (fun c hc => by simp; rintro rfl; exact hn' hc)
    (stop_items (by decide) _) (stop_items (by decide) _) h
  exact ⟨h1, items_inj (flatMap_item_inj h2)⟩

end Verif.ScriptFlow
