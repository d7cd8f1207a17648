import Verif.RegexFn.Lemmas

/-! # Replacement in lines and lists: properties -/

namespace Verif.RegexFn

variable (rep : Bool → Bool → Bool → Str → Str × Bool)

/-- The flags of `$regex.replace_lines()`. -/
theorem replaceLines_error (s : Str) (noFmt : Bool) (fs : List String) :
    (∃ f, replaceLines rep s noFmt fs = .error f) ↔
      ∃ f ∈ fs, f ∉ ["return_lines", "icase", "format_first_only", "format_no_copy"] := by
  have hb := badFlag_none (first := true) (empty := false) (fs := fs.filter (· != "return_lines"))
  unfold replaceLines
  simp only
  cases e : badFlag true false (fs.filter (· != "return_lines")) with
  | none =>
    have h := hb.1 e
    constructor
    · rintro ⟨f, h⟩; cases h
    · rintro ⟨f, h1, h2⟩
      simp only [List.mem_cons, List.not_mem_nil, or_false, not_or] at h2
      rcases h f (by simp [h1, h2.1]) with h | ⟨_, h⟩ | h | ⟨h, _⟩
      · exact absurd h h2.2.1
      · exact absurd h h2.2.2.1
      · exact absurd h h2.2.2.2
      · cases h
  | some f =>
    refine ⟨fun _ => ?_, fun _ => ⟨f, rfl⟩⟩
    refine Classical.byContradiction fun hn => ?_
    rw [hb.2] at e
    · cases e
    · intro g hg
      simp only [List.mem_filter, bne_iff_ne] at hg
      have := Classical.byContradiction fun h' => hn ⟨g, hg.1, h'⟩
      simp only [List.mem_cons, List.not_mem_nil, or_false] at this
      rcases this with h | h | h | h
      · exact absurd h hg.2
      · exact .inl h
      · exact .inr (.inl ⟨rfl, h⟩)
      · exact .inr (.inr (.inl h))

/-- `$regex.replace_lines()`: the lines of the text, in which way it is split there is no choice, each with its
replacement or dropped; as a list, or with `return_lines` as one text in which every line that is left ends
as it did. -/
theorem replaceLines_spec (s : Str) (noFmt : Bool) (fs : List String)
    (hf : ∀ f ∈ fs, f ∈ ["return_lines", "icase", "format_first_only", "format_no_copy"]) :
    ∃ ls out, IsLines s ls ∧ (∀ ls', IsLines s ls' → ls' = ls) ∧ join ls = s ∧
      Out (rep (fs.contains "icase") (fs.contains "format_first_only") (fs.contains "format_no_copy")) noFmt
        (fs.contains "format_no_copy") ls out ∧
      ("return_lines" ∉ fs → replaceLines rep s noFmt fs = .ok (out.map (·.1))) ∧
      ("return_lines" ∈ fs → replaceLines rep s noFmt fs = .ok [join out]) := by
  have hl : IsLines s (getLines [] s) := getLines_spec s [] (by simp)
  have hc : ∀ f, f ≠ "return_lines" → (fs.filter (· != "return_lines")).contains f = fs.contains f := by
    intro f h
    rw [Bool.eq_iff_iff, List.contains_iff_mem, List.contains_iff_mem, List.mem_filter]
    simp [h]
  have hbad : badFlag true false (fs.filter (· != "return_lines")) = none := by
    refine badFlag_none.2 fun f h => ?_
    simp only [List.mem_filter, bne_iff_ne] at h
    have := hf f h.1
    simp only [List.mem_cons, List.not_mem_nil, or_false] at this
    rcases this with h' | h' | h' | h'
    · exact absurd h' h.2
    · exact .inl h'
    · exact .inr (.inl ⟨rfl, h'⟩)
    · exact .inr (.inr (.inl h'))
  obtain ⟨out, h1, h2, h3⟩ := linesLoop_spec
    (rep (fs.contains "icase") (fs.contains "format_first_only") (fs.contains "format_no_copy")) noFmt
    (fs.contains "format_no_copy") (getLines [] s)
  refine ⟨_, out, hl, fun ls' h => h.unique hl, hl.join_eq, h1, fun hr => ?_, fun hr => ?_⟩
  · have hr : fs.contains "return_lines" = false :=
      Bool.eq_false_iff.2 fun h => hr (List.contains_iff_mem.1 h)
    unfold replaceLines
    simp only [hbad, hc _ (show "format_no_copy" ≠ "return_lines" by decide),
      hc _ (show "icase" ≠ "return_lines" by decide),
      hc _ (show "format_first_only" ≠ "return_lines" by decide), hr, h2]
    simp
  · have hr := List.contains_iff_mem.2 hr
    unfold replaceLines
    simp only [hbad, hc _ (show "format_no_copy" ≠ "return_lines" by decide),
      hc _ (show "icase" ≠ "return_lines" by decide),
      hc _ (show "format_first_only" ≠ "return_lines" by decide), hr, h3]
    simp

/-- If nothing matches, the text is given back as it is, whether or not it ends with a newline. -/
theorem replaceLines_same (s : Str) (noFmt : Bool)
    (hr : ∀ l, rep false false false l = (l, false)) : replaceLines rep s noFmt ["return_lines"] = .ok [s] := by
  obtain ⟨ls, out, _, _, h1, h2, _, h3⟩ := replaceLines_spec rep s noFmt ["return_lines"] (by simp)
  rw [h3 (by simp)]
  have ho : ∀ ls out, Out (rep false false false) noFmt false ls out → out = ls := by
    intro ls out h
    induction h with
    | nil => rfl
    | matched h _ _ _ => rw [hr] at h; cases h
    | copied h _ _ ih => rw [hr] at h; cases h; rw [ih]
    | empty h _ _ _ => rw [hr] at h; cases h
    | omitted _ h _ _ => cases h
  have : out = ls := ho ls out h2
  rw [this, h1]

/-- `$regex.apply()`: the replacements of all elements in order, except for empty ones unless they are to be
copied. -/
theorem apply_spec (ns : List Str) (fs : List String)
    (hf : ∀ f ∈ fs, f ∈ ["icase", "format_first_only", "format_no_copy", "format_copy_empty"]) :
    apply rep ns fs = .ok ((ns.map fun n => (rep (fs.contains "icase") (fs.contains "format_first_only")
      (fs.contains "format_no_copy") n).1).filter fun s => decide ("format_copy_empty" ∈ fs ∨ s ≠ [])) := by
  unfold apply
  rw [badFlag_none.2 (fun f h => by simpa using hf f h)]
  simp only [applyLoop_spec, List.nil_append]
  congr 2
  funext s
  rw [Bool.eq_iff_iff]
  simp

/-- `$regex.merge()`: what `$regex.apply()` gives, concatenated with the delimiter between any two. -/
theorem merge_spec (ns : List Str) (delim : Option Str) (fs : List String) (r : List Str)
    (h : apply rep ns fs = .ok r) : merge rep ns delim fs = .ok ((delim.getD []).intercalate r) := by
  unfold apply at h
  unfold merge
  cases e : badFlag true true fs with
  | some f => rw [e] at h; cases h
  | none =>
    rw [e] at h
    simp only at h ⊢
    rw [← Except.ok.inj h, applyLoop_spec, List.nil_append]
    cases delim with
    | some d => rw [mergeLoop_first]; rfl
    | none =>
      rw [mergeLoop_none, List.nil_append, Option.getD_none]
      congr 1
      generalize (ns.map fun n => _) = xs
      have hj : ∀ ys : List Str, ([] : Str).intercalate ys = ys.flatten := by
        intro ys
        cases ys with
        | nil => simp [List.intercalate]
        | cons y ys => rw [intercalate_eq]; simp [List.flatMap_def]
      rw [hj]
      induction xs with
      | nil => rfl
      | cons x xs ih =>
        rw [List.filter_cons, List.flatten_cons, ih]
        split
        · rfl
        · rename_i hx
          simp at hx
          rw [hx.2]; rfl

/-- And it fails if that does, for a flag that isn't one of these. -/
theorem merge_error (ns : List Str) (delim : Option Str) (fs : List String)
    (hf : ∃ f ∈ fs, f ∉ ["icase", "format_first_only", "format_no_copy", "format_copy_empty"]) :
    (∃ f, apply rep ns fs = .error f) ∧ ∃ f, merge rep ns delim fs = .error f := by
  unfold apply merge
  cases e : badFlag true true fs with
  | some f => exact ⟨⟨f, rfl⟩, f, rfl⟩
  | none =>
    obtain ⟨f, h1, h2⟩ := hf
    exact absurd (by simpa using badFlag_none.1 e f h1) h2

/-! Cases that meet the hypotheses. -/

/-- For examples: a line that starts with `#` matches and is replaced by what follows. -/
def sample (_ _ noCopy : Bool) : Str → Str × Bool
  | '#' :: l => (l, true)
  | l => (if noCopy then [] else l, false)

example : (replaceLines sample "a\n#b\n\n#\nc".toList true ["return_lines"]).toOption =
    some ["a\nb\n\nc".toList] := by decide +kernel

example : (replaceLines sample "a\n#b\n\n#\nc\n".toList false ["format_no_copy"]).toOption =
    some ["b".toList, []] := by decide +kernel

example : (merge sample ["#".toList, "a".toList, "#".toList, "#b".toList] (some ", ".toList) []).toOption =
    some "a, b".toList ∧
    (merge sample ["#".toList, "a".toList] (some ", ".toList) ["format_copy_empty"]).toOption =
    some ", a".toList := by decide +kernel

end Verif.RegexFn
