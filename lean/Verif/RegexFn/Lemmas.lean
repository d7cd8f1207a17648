import Verif.RegexFn.Model

/-! # Replacement in lines and lists: lemmas -/

namespace Verif.RegexFn

theorem getLines_spec : ∀ (s cur : Str), '\n' ∉ cur → IsLines (cur ++ s) (getLines cur s) := by
  intro s
  induction s with
  | nil =>
    intro cur h
    rw [getLines, List.append_nil]
    split
    · rename_i hc; subst hc; exact .nil
    · rename_i hc; exact .last h hc
  | cons c s ih =>
    intro cur h
    rw [getLines]
    split
    · rename_i hc
      subst hc
      exact .line h (by simpa using ih [] (by simp))
    · rename_i hc
      have := ih (cur ++ [c]) (by
        rw [List.mem_append, List.mem_singleton]
        rintro (h' | h')
        · exact h h'
        · exact hc h'.symm)
      simpa using this

/-- A text with a newline is split before it in one way. -/
theorem split_unique : ∀ {l l' s s' : Str}, '\n' ∉ l → '\n' ∉ l' → l ++ '\n' :: s = l' ++ '\n' :: s' →
    l = l' ∧ s = s' := by
  intro l
  induction l with
  | nil =>
    intro l' s s' _ h' e
    cases l' with
    | nil => simpa using e
    | cons c l' =>
      simp only [List.nil_append, List.cons_append, List.cons.injEq] at e
      exact absurd (by rw [← e.1]; simp) h'
  | cons c l ih =>
    intro l' s s' h h' e
    cases l' with
    | nil =>
      simp only [List.nil_append, List.cons_append, List.cons.injEq] at e
      exact absurd (by rw [e.1]; simp) h
    | cons c' l' =>
      simp only [List.cons_append, List.cons.injEq] at e
      obtain ⟨rfl, e⟩ := e
      obtain ⟨rfl, rfl⟩ := ih (fun hh => h (List.mem_cons_of_mem _ hh))
        (fun hh => h' (List.mem_cons_of_mem _ hh)) e
      exact ⟨rfl, rfl⟩

theorem IsLines.join_eq {s : Str} {ls : List Line} (h : IsLines s ls) : join ls = s := by
  induction h with
  | nil => rfl
  | last _ _ => simp [join]
  | line _ _ ih => simpa [join] using ih

theorem IsLines.unique {s : Str} {ls : List Line} (h : IsLines s ls) : ∀ {ls'}, IsLines s ls' → ls = ls' := by
  induction h with
  | nil =>
    intro ls' h'
    generalize hs : ([] : Str) = s at h'
    cases h' with
    | nil => rfl
    | last _ h => exact absurd hs.symm h
    | line _ _ => simp at hs
  | @last l h1 h2 =>
    intro ls' h'
    generalize hs : l = s at h'
    cases h' with
    | nil => exact absurd hs h2
    | last _ _ => rfl
    | line _ _ => exact absurd (by rw [hs]; simp) h1
  | @line l s ls h1 _ ih =>
    intro ls' h'
    generalize hs : l ++ '\n' :: s = s' at h'
    cases h' with
    | nil => simp at hs
    | last h _ => exact absurd (by rw [← hs]; simp) h
    | line h3 h4 =>
      obtain ⟨rfl, rfl⟩ := split_unique h1 h3 hs
      rw [ih h4]

theorem linesLoop_spec (rep : Str → Str × Bool) (noFmt noCopy : Bool) : ∀ ls : List Line,
    ∃ out, Out rep noFmt noCopy ls out ∧
      (∀ r t, linesLoop rep noFmt noCopy false ls r t = (r ++ out.map (·.1), t)) ∧
      ∀ r t, linesLoop rep noFmt noCopy true ls r t = (r, t ++ join out) := by
  intro ls
  induction ls with
  | nil => exact ⟨[], .nil, fun r t => by simp [linesLoop], fun r t => by simp [linesLoop, join]⟩
  | cons l ls ih =>
    obtain ⟨out, h1, h2, h3⟩ := ih
    obtain ⟨l, e⟩ := l
    have ht : ∀ t x : Str, (if (t == []) = true then x else t ++ x) = t ++ x := by
      intro t x
      cases t <;> simp
    cases hr : rep l with
    | mk x m =>
      by_cases hd : (if m then noFmt && x == [] else noCopy) = true
      · refine ⟨out, ?_, fun r t => ?_, fun r t => ?_⟩
        · cases m with
          | true =>
            simp at hd
            exact .empty (by rw [hr, hd.2]) hd.1 h1
          | false => exact .omitted hr (by simpa using hd) h1
        · rw [linesLoop, hr, if_pos hd, h2]
        · rw [linesLoop, hr, if_pos hd, h3]
      · refine ⟨(x, e) :: out, ?_, fun r t => ?_, fun r t => ?_⟩
        · cases m with
          | true => exact .matched hr (by simpa using hd) h1
          | false => exact .copied hr (by simpa using hd) h1
        · rw [linesLoop, hr, if_neg hd, if_pos (by rfl), h2]
          simp
        · rw [linesLoop, hr, if_neg hd, if_neg (by simp), h3, ht]
          simp [join]

theorem applyLoop_spec (rep : Str → Str × Bool) (ce : Bool) : ∀ ns r, applyLoop rep ce ns r =
    r ++ (ns.map fun n => (rep n).1).filter fun s => ce || s != [] := by
  intro ns
  induction ns with
  | nil => intro r; simp [applyLoop]
  | cons n ns ih =>
    intro r
    rw [applyLoop, List.map_cons, List.filter_cons]
    split
    · rw [ih]; simp
    · rw [ih]

theorem intercalate_eq (d x : Str) : ∀ xs : List Str, d.intercalate (x :: xs) = x ++ xs.flatMap (d ++ ·) := by
  intro xs
  induction xs generalizing x with
  | nil => simp [List.intercalate]
  | cons y xs ih =>
    have := ih y
    simp only [List.intercalate, List.intersperse] at this ⊢
    simp [this]

theorem mergeLoop_rest (rep : Str → Str × Bool) (ce : Bool) (d : Str) : ∀ ns rs,
    mergeLoop rep ce (some d) ns false rs =
      rs ++ ((ns.map fun n => (rep n).1).filter fun s => ce || s != []).flatMap (d ++ ·) := by
  intro ns
  induction ns with
  | nil => intro rs; simp [mergeLoop]
  | cons n ns ih =>
    intro rs
    rw [mergeLoop, List.map_cons, List.filter_cons]
    split
    · simp only [if_neg Bool.false_ne_true]
      rw [ih]; simp
    · rw [ih]

theorem mergeLoop_first (rep : Str → Str × Bool) (ce : Bool) (d : Str) : ∀ ns,
    mergeLoop rep ce (some d) ns true [] =
      d.intercalate ((ns.map fun n => (rep n).1).filter fun s => ce || s != []) := by
  intro ns
  induction ns with
  | nil => simp [mergeLoop, List.intercalate]
  | cons n ns ih =>
    rw [mergeLoop, List.map_cons, List.filter_cons]
    split
    · simp only [if_true]
      rw [mergeLoop_rest, intercalate_eq]; simp
    · exact ih

theorem mergeLoop_none (rep : Str → Str × Bool) (ce : Bool) : ∀ ns first rs,
    mergeLoop rep ce none ns first rs = rs ++ (ns.map fun n => (rep n).1).flatten := by
  intro ns
  induction ns with
  | nil => intro first rs; simp [mergeLoop]
  | cons n ns ih =>
    intro first rs
    rw [mergeLoop]
    split
    · rw [ih]; simp
    · rename_i h
      have : (rep n).1 = [] := by simp at h; exact h.2
      rw [ih]; simp [this]

theorem badFlag_none {first empty : Bool} {fs : List String} : badFlag first empty fs = none ↔
    ∀ f ∈ fs, f = "icase" ∨ (first = true ∧ f = "format_first_only") ∨ f = "format_no_copy" ∨
      (empty = true ∧ f = "format_copy_empty") := by
  unfold badFlag
  rw [List.find?_eq_none]
  refine forall_congr' fun f => imp_congr_right fun _ => ?_
  simp only [Bool.not_eq_true', Bool.not_eq_false, Bool.or_eq_true, Bool.and_eq_true, beq_iff_eq, or_assoc]

end Verif.RegexFn
