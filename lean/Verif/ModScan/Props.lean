import Verif.CcLex.Props
import Verif.ModScan.Bodies

/-!
# Modules of a translation unit
-/

namespace Verif.ModScan

open CcLex (Tok Kind Str)

/-! ## What is found -/

/-- A unit is accepted exactly if its declarations, as they are written outside of braces, make
one, and what is returned is what they make. -/
theorem parse_iff {c : Compiler} {ts : List Tok} {u : Info} (hw : Words ts) :
    parse c ts = some u ↔ ∃ ds, Scan c 0 ts ds ∧ Makes ds u := by
  have key : parse c ts = some u ↔ ∃ st, loop c (ts.length + 1) 0 {} ts = some st ∧
      st.info = u ∧ ¬ (st.marker = true ∧ st.info.name = []) := by
    unfold parse
    cases loop c (ts.length + 1) 0 {} ts with
    | none => simp
    | some st =>
      by_cases h : st.marker = true ∧ st.info.name = []
      · simp only [if_pos h]
        constructor
        · intro h; cases h
        · rintro ⟨_, h1, _, h2⟩; cases h1; exact absurd h h2
      · simp only [if_neg h]
        constructor
        · intro h1; cases h1; exact ⟨st, rfl, rfl, h⟩
        · rintro ⟨_, h1, rfl, _⟩; cases h1; rfl
  rw [key]
  constructor
  · rintro ⟨st, h, hu, hm⟩
    obtain ⟨ds, h1, h2⟩ := (loop_iff c _ 0 {} ts st (Nat.lt_succ_self _)).1 h
    exact ⟨ds, h1, (makes_iff _ (fun d hd => (scan_nice h1 hw d hd).good) _).2 ⟨st, h2, hu, hm⟩⟩
  · rintro ⟨ds, h1, h2⟩
    obtain ⟨st, h3, h4⟩ := (makes_iff _ (fun d hd => (scan_nice h1 hw d hd).good) _).1 h2
    exact ⟨st, (loop_iff c _ 0 {} ts st (Nat.lt_succ_self _)).2 ⟨ds, h1, h3⟩, h4⟩

theorem lexeme_word {s v r : Str} {k : Kind} (h : CcLex.Lexeme s k v r) (hk : k = .identifier) :
    v ≠ [] ∧ ∀ c ∈ v, CcLex.isWord c = true := by
  cases h with
  | punct h =>
    subst hk
    exfalso
    have : ∀ x ∈ CcLex.puncts, x.2 ≠ .identifier := by decide
    exact this _ h rfl
  | word h1 h2 => exact ⟨h1, h2⟩
  | _ => cases hk

theorem source_words {pre v : Bool} {l : UInt64} {f : CcLex.File} {s : Str}
    {is : List CcLex.Item} (h : CcLex.Source pre v l f s is) : Words (CcLex.toks is) := by
  induction h with
  | eos => intro t ht; cases ht
  | tok _ _ _ h _ ih =>
    intro t ht
    rcases List.mem_cons.1 ht with rfl | ht
    · exact fun hk => lexeme_word h hk
    · exact ih t ht
  | directive _ h _ ih =>
    intro t ht
    have e : ∀ n is js, CcLex.toks (CcLex.Item.hash n :: (is ++ js)) =
        CcLex.toks is ++ CcLex.toks js := fun n is js => by
      rw [← CcLex.toks_append]; rfl
    rw [e, CcLex.toks_directive h, List.nil_append] at ht
    exact ih t ht

/-- The same for the text of a preprocessed unit, with the specification of the lexer saying
what its tokens are. -/
theorem source_iff {c : Compiler} {f : CcLex.File} {s : Str} {u : Info} :
    parseSource c f s = some u ↔
      ∃ is ds, CcLex.Source true true 1 f s is ∧
        Scan c 0 (is.filterMap fun i => match i with
          | .tok l v k t => some ⟨k, v, l, t⟩
          | _ => none) ds ∧ Makes ds u := by
  unfold parseSource
  cases h : CcLex.lex true f s with
  | error e =>
    simp only [reduceCtorEq, false_iff]
    rintro ⟨is, ds, h1, _⟩
    have := CcLex.lex_iff.2 ⟨is, h1, rfl, rfl⟩
    rw [h] at this; cases this
  | ok x =>
    obtain ⟨ts, cs⟩ := x
    simp only
    constructor
    · intro hp
      obtain ⟨is, h1, rfl, -⟩ := CcLex.lex_iff.1 h
      obtain ⟨ds, h2, h3⟩ := (parse_iff (source_words h1)).1 hp
      exact ⟨is, ds, h1, h2, h3⟩
    · rintro ⟨is, ds, h1, h2, h3⟩
      have := CcLex.lex_iff.2 ⟨is, h1, rfl, rfl⟩
      rw [h] at this
      cases this
      exact (parse_iff (source_words h1)).2 ⟨ds, h2, h3⟩

/-- An interface partition: with a global module fragment, a body that mentions an import, an
attribute, a partition, a header, and an import that is first not re-exported and then is. -/
example : parseSource .gcc (.name []) ("module;\nint f () {\nimport z;\n}\nexport module a.b:c [[x]];\n" ++
    "import :d;\nimport m;\nimport <h>;\nexport import m;\nint import;\n").toList =
    some ⟨.intfPart, "a.b:c".toList,
      [⟨true, "a.b:d".toList, false⟩, ⟨false, "m".toList, true⟩]⟩ := by decide +kernel

/-- Without a module declaration there can be no partitions. -/
example : parseSource .gcc (.name []) "import :d;\n".toList = none := by decide +kernel

/-- Nor can there be `module;`. -/
example : parseSource .gcc (.name []) "module;\nimport m;\n".toList = none := by decide +kernel

/-- Keywords as spelled by the preprocessor. -/
example : (parseSource .clang (.name []) "__preprocessed_module m;\n__preprocessed_import n;\n".toList,
      parseSource .msvc (.name []) "__preprocessed_module m;\n__preprocessed_import n;\n".toList) =
    (some ⟨.impl, ['m'], [⟨false, ['n'], false⟩]⟩, some ⟨.impl, ['m'], []⟩) := by decide +kernel

/-! ## Bodies -/

/-- What is between the braces of a function or anything else does not take part, whatever it
is, as long as braces in it are balanced. The line with the opening one does not begin with a
keyword of a declaration (nor do other lines, if any, from there on). -/
theorem body_ignored {c : Compiler} {a l b b' r : List Tok} {o e : Tok}
    (hl : ∀ t ∈ l, ¬ (t.first = true ∧ Keyword c t))
    (hh : ∀ t, (l ++ [o]).head? = some t → t.first = true ∧ t.kind ≠ .greater)
    (ho : o.kind = .lcbrace) (hb : Balanced b) (hb' : Balanced b')
    (hw : Words (a ++ (l ++ o :: (b ++ e :: r)))) (hw' : Words (a ++ (l ++ o :: (b' ++ e :: r)))) :
    parse c (a ++ (l ++ o :: (b ++ e :: r))) = parse c (a ++ (l ++ o :: (b' ++ e :: r))) := by
  apply Option.ext
  intro u
  rw [parse_iff hw, parse_iff hw']
  constructor
  · rintro ⟨ds, h1, h2⟩; exact ⟨ds, body_scan hl hh ho hb hb' h1, h2⟩
  · rintro ⟨ds, h1, h2⟩; exact ⟨ds, body_scan hl hh ho hb' hb h1, h2⟩

/-- Tokens for the example. -/
def sampleTok (k : Kind) (f : Bool) (v : String) : Tok := ⟨k, f, 1, v.toList⟩

/-- A body with an import in it and an empty one. -/
example (r : List Tok) (hr : Words r) :
    parse .gcc ([] ++ ([sampleTok .identifier true "x"] ++ sampleTok .lcbrace false "{" ::
        ([sampleTok .identifier true "import", sampleTok .identifier false "z",
          sampleTok .semi false ";"] ++ sampleTok .rcbrace true "}" :: r))) =
      parse .gcc ([] ++ ([sampleTok .identifier true "x"] ++ sampleTok .lcbrace false "{" ::
        ([] ++ sampleTok .rcbrace true "}" :: r))) := by
  refine body_ignored ?_ ?_ rfl ?_ .nil ?_ ?_
  · intro t ht
    simp only [List.mem_singleton] at ht
    subst ht
    rintro ⟨_, _, h | ⟨w, h⟩⟩
    · exact absurd h (by decide)
    · generalize hv : (sampleTok .identifier true "x").value = v at h
      cases h <;> exact absurd hv (by decide)
  · intro t ht; cases ht; exact ⟨rfl, by decide⟩
  · exact .other (by decide) (by decide) (.other (by decide) (by decide)
      (.other (by decide) (by decide) .nil))
  · intro t ht hk
    simp only [List.nil_append, List.cons_append, List.mem_cons] at ht
    rcases ht with rfl | rfl | rfl | rfl | rfl | rfl | ht
    · exact ⟨by decide, by decide⟩
    · cases hk
    · exact ⟨by decide, by decide⟩
    · exact ⟨by decide, by decide⟩
    · cases hk
    · cases hk
    · exact hr t ht hk
  · intro t ht hk
    simp only [List.nil_append, List.cons_append, List.mem_cons] at ht
    rcases ht with rfl | rfl | rfl | ht
    · exact ⟨by decide, by decide⟩
    · cases hk
    · cases hk
    · exact hr t ht hk

/-! ## The dependency database -/

/-- What is known about a unit is read back the way it was written. -/
theorem text_roundtrip {u : Info} (h : u.Proper) : ofText (toText u) = u := text_round h

/-- In particular, what was found in a unit is. -/
theorem parsed_roundtrip {c : Compiler} {f : CcLex.File} {s : Str} {u : Info}
    (h : parseSource c f s = some u) : ofText (toText u) = u := by
  obtain ⟨is, ds, h1, h2, h3⟩ := source_iff.1 h
  exact text_round (makes_proper (scan_nice h2 (source_words h1)) h3)

/-- Different units are written differently. -/
theorem text_injective {u u' : Info} (h : u.Proper) (h' : u'.Proper) (he : toText u = toText u') :
    u = u' := by
  rw [← text_round h, ← text_round h', he]

example : toText ⟨.intfPart, "a.b:c".toList, [⟨true, "a.b:d".toList, false⟩, ⟨false, "m".toList, true⟩]⟩ =
    "a.b:c! a.b:d m*".toList := by decide +kernel

example : Info.Proper ⟨.header, "/usr/my dir/h".toList, [⟨false, "m".toList, true⟩]⟩ := by
  refine ⟨⟨by decide, by decide⟩, ?_⟩
  intro i hi
  simp only [List.mem_singleton] at hi
  subst hi
  exact ⟨by decide, by decide, by decide⟩

/-- A name with a quote in it would not be. -/
theorem quote_missed : ofText (toText ⟨.header, "a\"b".toList, []⟩) ≠ ⟨.header, "a\"b".toList, []⟩ := by
  decide +kernel

end Verif.ModScan
