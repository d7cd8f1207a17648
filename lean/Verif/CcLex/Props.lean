import Verif.CcLex.Bytes
import Verif.CcLex.Steps

/-!
# C and C++ tokens: the checksum of a source
-/

namespace Verif.CcLex

/-! ## What is lexed -/

/-- The lexer accepts exactly the sources that can be read according to the specification, and returns the
tokens of this reading and the checksum of all that is in it, including the directives. -/
theorem lex_iff {pre : Bool} {f : File} {s : Str} {ts : List Tok} {cs : List Hashed} :
    lex pre f s = .ok (ts, cs) ↔
      ∃ is, Source pre true 1 f s is ∧
        ts = (is.filterMap fun i => match i with
          | .tok l v k t => some ⟨k, v, l, t⟩
          | _ => none) ∧
        cs = is.flatMap Item.hashed := by
  have := run_iff (pre := pre) (s.length + 1) true ⟨s, 1, f, []⟩ ts cs (Nat.lt_succ_self _)
  simp only [List.nil_append] at this
  refine Iff.trans ?_ this
  unfold lex
  cases run pre (s.length + 1) true ⟨s, 1, f, []⟩ with
  | error e => simp
  | ok x =>
    obtain ⟨us, s'⟩ := x
    constructor
    · intro h
      cases h
      exact ⟨s', rfl, rfl⟩
    · rintro ⟨s'', h, rfl⟩
      cases h
      rfl

example : lex false (.path "f".toList false) "int /* x\n */ a=1;".toList = .ok
    ([⟨.identifier, true, 1, "int".toList⟩, ⟨.identifier, false, 2, ['a']⟩, ⟨.punctuation, false, 2, ['=']⟩,
      ⟨.number, false, 2, ['1']⟩, ⟨.semi, false, 2, [';']⟩],
     [.line 1, .char 'i', .char 'n', .char 't', .line 2, .char 'a', .line 2, .char '=', .line 2, .char '1',
      .line 2, .char ';']) := by rfl

example : lex false (.path "f".toList false) "# 7 \"g\"\nx # d".toList = .ok
    ([⟨.identifier, true, 7, ['x']⟩],
     [.line 1, .char '#', .file ['g'], .line 7, .char 'x', .line 7, .char '#', .line 7, .char 'd']) := by rfl

/-- The lexer comes to an end on every source: the model does not run out of steps. -/
theorem lex_ends (pre : Bool) (f : File) (s : Str) : lex pre f s ≠ .error .steps := by
  unfold lex
  intro h
  cases hr : run pre (s.length + 1) true ⟨s, 1, f, []⟩ with
  | error e =>
    rw [hr] at h
    injection h with h
    exact run_steps pre _ true ⟨s, 1, f, []⟩ (Nat.lt_succ_self _) (h ▸ hr)
  | ok x =>
    rw [hr] at h
    cases h

theorem entries_hashes (is : List Item) : hashes is = (is.map Item.entry).flatMap fun e => match e with
    | .text l t => .line l :: t.map .char
    | .file s => [.file s] := by
  induction is with
  | nil => rfl
  | cons i is ih =>
    rw [hashes_cons, ih, List.map_cons, List.flatMap_cons]
    cases i <;> rfl

/-- The bytes that are hashed are the same for two sources exactly if they consist of the same texts on the
same lines of the same files: no token, directive, line or file change is missed, and none is found where
there is none. Lines are below 2^24 and there are no zero bytes in the sources. -/
theorem checksum_iff {pre pre' : Bool} {f f' : File} {s s' : Str} {is is' : List Item}
    (h : Source pre true 1 f s is) (h' : Source pre' true 1 f' s' is')
    (hs : ∀ c ∈ s, c.toNat ≠ 0) (hs' : ∀ c ∈ s', c.toNat ≠ 0)
    (hl : ∀ l t, .text l t ∈ is.map Item.entry → l.toNat < 2 ^ 24)
    (hl' : ∀ l t, .text l t ∈ is'.map Item.entry → l.toNat < 2 ^ 24) :
    (is.flatMap Item.hashed).flatMap Hashed.bytes = (is'.flatMap Item.hashed).flatMap Hashed.bytes ↔
      is.map Item.entry = is'.map Item.entry := by
  have e1 : (is.flatMap Item.hashed).flatMap Hashed.bytes = _ := stream_items is
  have e2 : (is'.flatMap Item.hashed).flatMap Hashed.bytes = _ := stream_items is'
  rw [e1, e2]
  exact ⟨(grouped_source h hs hl).inj (grouped_source h' hs' hl'), fun e => by rw [e]⟩

/-- The same of the lexer: if the hashed bytes are the same then so are the texts and the lines of the
tokens. -/
theorem checksum_tokens {pre pre' : Bool} {f f' : File} {s s' : Str} {ts ts' : List Tok} {cs cs' : List Hashed}
    (h : lex pre f s = .ok (ts, cs)) (h' : lex pre' f' s' = .ok (ts', cs'))
    (hs : ∀ c ∈ s, c.toNat ≠ 0) (hs' : ∀ c ∈ s', c.toNat ≠ 0)
    (hl : ∀ l, .line l ∈ cs → l.toNat < 2 ^ 24) (hl' : ∀ l, .line l ∈ cs' → l.toNat < 2 ^ 24)
    (he : cs.flatMap Hashed.bytes = cs'.flatMap Hashed.bytes) : cs = cs' := by
  obtain ⟨is, h1, -, rfl⟩ := lex_iff.1 h
  obtain ⟨is', h1', -, rfl⟩ := lex_iff.1 h'
  have key : ∀ (is : List Item) (l : UInt64) (t : Str), Entry.text l t ∈ is.map Item.entry →
      Hashed.line l ∈ is.flatMap Item.hashed := by
    intro is l t hm
    obtain ⟨i, hi, e⟩ := List.mem_map.1 hm
    refine List.mem_flatMap.2 ⟨i, hi, ?_⟩
    cases i <;> simp only [Item.entry, Entry.text.injEq, reduceCtorEq] at e <;> simp [Item.hashed, e.1]
  have := (checksum_iff h1 h1' hs hs' (fun l t hm => hl l (key _ _ _ hm))
    (fun l t hm => hl' l (key _ _ _ hm))).1 he
  show hashes is = hashes is'
  rw [entries_hashes, entries_hashes, this]

/-! ## Spacing -/

/-- A text that is one token and is neither a space, a comment nor a `#`. -/
def Token (t : Str) : Prop := Stop true t ∧ t.head? ≠ some '#' ∧ ∃ k, Lexeme t k t []

/-- A layout of tokens: between them is spacing that starts with a space or newline, and each is on its
line. -/
inductive Layout : UInt64 → List (UInt64 × Str) → Str → Prop
  | nil {l : UInt64} {s : Str} {k : Nat} {b : Bool} : Gap true s [] k b → Layout l [] s
  | cons {l : UInt64} {s r t : Str} {k : Nat} {b : Bool} {ts : List (UInt64 × Str)} :
      Gap true s (t ++ r) k b → Token t → (∀ c, r.head? = some c → isSpace c = true ∨ c = '\n') →
      Layout (plus l (k + newlines t)) ts r → Layout l ((plus l k, t) :: ts) s

theorem layout_source {pre v : Bool} {f : File} {l : UInt64} {ts : List (UInt64 × Str)} {s : Str}
    (h : Layout l ts s) : ∃ is, Source pre v l f s is ∧ (is.map Item.entry = ts.map fun x => .text x.1 x.2) ∧
      (toks is).map (fun t => (t.line, t.value)) = ts := by
  induction h generalizing v with
  | nil hg => exact ⟨[], .eos hg, rfl, rfl⟩
  | @cons l s r t k b ts hg ht hb _ ih =>
    obtain ⟨is, h1, h2, h3⟩ := ih (v := false)
    obtain ⟨hs, hh, d, hl⟩ := ht
    have hne := hl.split.2
    refine ⟨.tok (plus l k) (v || b) d t :: is, .tok hg (stop_blank hs hne hb) ?_ (lexeme_blank hl rfl hb) h1, ?_, ?_⟩
    · cases t with
      | nil => exact absurd rfl hne
      | cons c t => exact hh
    · rw [List.map_cons, List.map_cons, h2]
      rfl
    · show (plus l k, t) :: (toks is).map (fun t => (t.line, t.value)) = _
      rw [h3]

/-- Tokens that are set apart are exactly the tokens that are found, whatever the spacing and comments are,
and on their lines. -/
theorem layout_lexed {pre : Bool} {f : File} {ts : List (UInt64 × Str)} {s : Str} (h : Layout 1 ts s) :
    ∃ us, lex pre f s = .ok (us, ts.flatMap fun x => .line x.1 :: x.2.map .char) ∧
      us.map (fun t => (t.line, t.value)) = ts := by
  obtain ⟨is, h1, h2, h3⟩ := layout_source (pre := pre) (v := true) (f := f) h
  refine ⟨_, lex_iff.2 ⟨is, h1, rfl, ?_⟩, h3⟩
  have e : hashes is = _ := entries_hashes is
  rw [show is.flatMap Item.hashed = hashes is from rfl, e, h2, List.flatMap_map]

/-- Changes of spacing and comments that keep the tokens on their lines do not change the checksum. -/
theorem spacing_checksum {pre : Bool} {f f' : File} {ts : List (UInt64 × Str)} {s s' : Str}
    (h : Layout 1 ts s) (h' : Layout 1 ts s') :
    (lex pre f s).map Prod.snd = (lex pre f' s').map Prod.snd := by
  obtain ⟨us, h1, -⟩ := layout_lexed (pre := pre) (f := f) h
  obtain ⟨us', h1', -⟩ := layout_lexed (pre := pre) (f := f') h'
  rw [h1, h1']
  rfl

theorem word_token (c : Char) (hc : c.isAlpha = true) (hd : c.isDigit = false) : Token [c] := by
  have hw : isWord c = true := by simp [isWord, Char.isAlphanum, hc]
  have hn : ∀ d : Char, d.isAlpha = false → c ≠ d := fun d h e => by rw [e, h] at hc; cases hc
  have hsp : isSpace c = false := by
    cases h : isSpace c with
    | false => rfl
    | true =>
      have h' : c ∈ [' ', '\t', '\r', '\x0c', '\x0b'] := by simpa [isSpace] using h
      exact absurd (List.all_eq_true.1 (show ([' ', '\t', '\r', '\x0c', '\x0b'].all fun c => !c.isAlpha) = true by decide)
        c h') (by simp [hc])
  refine ⟨⟨fun d e => ?_, fun t e => ?_, fun t e => ?_⟩, ?_, .identifier, ?_⟩
  · cases e; exact ⟨hsp, fun _ => hn _ (by decide)⟩
  · exact hn '/' (by decide) (List.cons.inj e).1
  · exact hn '/' (by decide) (List.cons.inj e).1
  · intro e; exact hn '#' (by decide) (Option.some.inj e)
  · exact .word (t := [c]) (r := []) (by simp) (by simpa using hw) (by simpa using hd) (by simp) (by simp) (by simp)

/-- Two layouts of `a b` with `b` on the second line. -/
example : Layout 1 [(1, ['a']), (2, ['b'])] "a /* x\n */ b".toList ∧ Layout 1 [(1, ['a']), (2, ['b'])] " a // y\nb\n".toList := by
  have ha := word_token 'a' (by decide) (by decide)
  have hb := word_token 'b' (by decide) (by decide)
  have hc : Closes " x\n ".toList := by
    show Closes [' ', 'x', '\n', ' ']
    simp [Closes.cons, Closes.nil]
  constructor
  · refine .cons (k := 0) (b := false) (t := ['a']) (r := " /* x\n */ b".toList) .nil ha (by decide) ?_
    refine .cons (k := 1) (b := false) (t := ['b']) (r := []) ?_ hb (by decide) (.nil .nil)
    exact .space (by decide) (.block (t := " x\n ".toList) (s := " b".toList) (k := 0) hc (.space (by decide) .nil))
  · refine .cons (k := 0) (b := false) (t := ['a']) (r := " // y\nb\n".toList) (.space (by decide) .nil) ha (by decide) ?_
    refine .cons (k := 1) (b := true) (t := ['b']) (r := ['\n']) ?_ hb (by decide) (.nil (.newline rfl .nil))
    exact .space (by decide) (.line (t := " y".toList) (s := "\nb\n".toList) (by decide) (.inr rfl) (.newline rfl .nil))

/-! ## What is not seen -/

/-- The space that makes a macro with arguments one without is not seen. -/
theorem define_missed : (lex false (.name []) "#define f(x) x".toList).map Prod.snd =
    (lex false (.name []) "#define f (x) x".toList).map Prod.snd := by rfl

/-- A three way comparison is two tokens, so that setting them apart is not seen. -/
theorem spaceship_missed : (lex false (.name []) "a<=>b".toList).map Prod.snd =
    (lex false (.name []) "a<= >b".toList).map Prod.snd := by rfl

/-- An identifier with bytes that are not ASCII is several tokens, so that splitting it is not seen. -/
theorem identifier_missed : (lex false (.name []) ['a', Char.ofNat 0xC3, Char.ofNat 0xA9]).map Prod.snd =
    (lex false (.name []) ['a', ' ', Char.ofNat 0xC3, Char.ofNat 0xA9]).map Prod.snd := by rfl

/-- Whether a token is the first on its line, and so may start the import of a module, is not seen. -/
theorem first_missed : (lex false (.name []) "x;\nimport m;".toList).map Prod.snd =
      (lex false (.name []) "x;/*\n*/import m;".toList).map Prod.snd ∧
    (lex false (.name []) "x;\nimport m;".toList).map (fun x => x.1.map fun t => t.first) ≠
      (lex false (.name []) "x;/*\n*/import m;".toList).map (fun x => x.1.map fun t => t.first) := by
  constructor
  · rfl
  · intro h
    have : (Except.ok [true, false, true, false, false] : Except Err (List Bool)) =
      Except.ok [true, false, false, false, false] := h
    injection this with this
    exact absurd this (by decide)

/-- A line directive with the name of a directory is not seen. -/
theorem directory_missed : (lex false (.name []) "# 1 \"a/\"\nx".toList).map Prod.snd =
    (lex false (.name []) "# 1 \"b/\"\nx".toList).map Prod.snd :=
  Eq.trans (b := .ok [.line 1, .char '#', .line 1, .char 'x']) (by rfl) (by rfl)

end Verif.CcLex
