import Verif.CcLex.Lexeme

/-!
# C and C++ tokens: directives and sources
-/

namespace Verif.CcLex

/-- What is hashed for the items. -/
def hashes (is : List Item) : List Hashed := is.flatMap Item.hashed

theorem hashes_cons (i : Item) (is : List Item) : hashes (i :: is) = i.hashed ++ hashes is := rfl

theorem hashes_append (is js : List Item) : hashes (is ++ js) = hashes is ++ hashes js := List.flatMap_append

/-- The tokens among the items. -/
def toks (is : List Item) : List Tok :=
  is.filterMap fun i => match i with
    | .tok l f k t => some ⟨k, f, l, t⟩
    | _ => none

theorem toks_append (is js : List Item) : toks (is ++ js) = toks is ++ toks js := List.filterMap_append

theorem stop_of {nl : Bool} {c : Char} {r : Str} (h1 : isSpace c = false) (h2 : c ≠ '/')
    (h3 : nl = true → c ≠ '\n') : Stop nl (c :: r) := by
  refine ⟨fun d hd => ?_, fun t e => ?_, fun t e => ?_⟩
  · simp at hd; subst hd; exact ⟨h1, h3⟩
  · exact h2 (List.cons.inj e).1
  · exact h2 (List.cons.inj e).1

theorem digit_ne {c d : Char} (h : c.isDigit = true) (hd : d.isDigit = false) : c ≠ d := by
  rintro rfl; rw [h] at hd; cases hd

theorem digit_space {c : Char} (h : c.isDigit = true) : isSpace c = false := by
  cases hx : isSpace c with
  | false => rfl
  | true =>
    unfold isSpace at hx
    have hm : c ∈ [' ', '\t', '\r', '\x0c', '\x0b'] := by simpa using hx
    simp only [List.mem_cons, List.not_mem_nil, or_false] at hm
    rcases hm with rfl | rfl | rfl | rfl | rfl <;> exact absurd h (by decide)

theorem stop_digit {nl : Bool} {c : Char} {r : Str} (h : c.isDigit = true) : Stop nl (c :: r) :=
  stop_of (digit_space h) (digit_ne h (by decide)) (fun _ => digit_ne h (by decide))

/-- What `skip` does is determined by the gap. -/
theorem skip_of {nl f : Bool} {l : UInt64} {s r : Str} {k : Nat} {b : Bool} (h : Gap nl s r k b) (hs : Stop nl r) :
    skip nl .code f l s = .ok (f || b, plus l k, r) :=
  skip_iff.2 ⟨k, b, h, hs, rfl, rfl⟩

theorem nested_iff {s : St} {c : Char} {r : Str} {t : Lexed} {s' : St} :
    nested s c r = .ok (t, s') ↔ Lexeme (c :: r) t.kind t.text t.rest ∧
      s' = { s with inp := t.rest, line := plus s.line (newlines t.text),
                    cs := s.cs ++ [.line s.line] ++ t.text.map .char } := by
  unfold nested
  constructor
  · intro h
    split at h
    · cases h
    · rename_i t' e
      simp at h
      obtain ⟨rfl, rfl⟩ := h
      exact ⟨lexeme_iff.1 e, by simp⟩
  · rintro ⟨h, rfl⟩
    rw [show lexeme c r = .ok t from lexeme_iff.2 h]

theorem args_iff (n : Nat) : ∀ (s s' : St), s.inp.length < n →
    (args n s = .ok s' ↔ ∃ is l r, Args s.line s.inp is l r ∧
      s' = { s with inp := r, line := l, cs := s.cs ++ hashes is }) := by
  induction n with
  | zero => intro s s' h; exact absurd h (Nat.not_lt_zero _)
  | succ n ih =>
    intro s s' hn
    rw [args]
    constructor
    · intro h
      split at h
      · cases h
      · rename_i f l e
        obtain ⟨k, b, hg, -, rfl, -⟩ := skip_iff.1 e
        injection h with h
        subst h
        exact ⟨[], _, _, .eos hg, by simp [hashes]⟩
      · rename_i f l c r e
        obtain ⟨k, b, hg, hs, rfl, -⟩ := skip_iff.1 e
        have hlen := gap_length hg
        by_cases hc : c = '\n'
        · rw [if_pos hc] at h
          subst hc
          injection h with h
          subst h
          exact ⟨[], _, _, .newline hg, by simp [hashes, plus_plus]⟩
        · rw [if_neg hc] at h
          split at h
          · cases h
          · rename_i t s1 e1
            obtain ⟨hl, rfl⟩ := nested_iff.1 e1
            have hsp := hl.split
            have hlt : t.rest.length < n := by
              have := congrArg List.length hsp.1
              have h0 := List.length_pos_iff.2 hsp.2
              simp at this hlen
              omega
            obtain ⟨is, l, r', ha, rfl⟩ := (ih _ _ hlt).1 h
            refine ⟨.arg (plus s.line k) t.text :: is, l, r', ?_, ?_⟩
            · refine .tok hg hs (by simpa using hc) hl ?_
              rw [← plus_plus]
              exact ha
            · simp [hashes_cons, Item.hashed]
    · rintro ⟨is, l, r, ha, rfl⟩
      generalize hx : s.inp = x at ha
      generalize hy : s.line = y at ha
      cases ha with
      | newline hg =>
        rw [skip_of hg (stop_newline r)]
        simp [hashes, plus_plus]
      | eos hg =>
        rw [skip_of hg (stop_nil _)]
        simp [hashes]
      | @tok _ _ _ r1 r2 _ t k b d is hg hs hc hl ha =>
        obtain ⟨hsp, hne⟩ := hl.split
        cases r1 with
        | nil => exact absurd hsp.symm (by simp [hne])
        | cons c r1 =>
          rw [skip_of hg hs]
          simp only
          rw [if_neg (by simpa using hc)]
          have := nested_iff (s := { s with inp := x, line := plus y k }) (c := c) (r := r1) (t := ⟨d, t, r2⟩) |>.2 ⟨hl, rfl⟩
          rw [this]
          simp only
          have hlt : r2.length < n := by
            have h0 := List.length_pos_iff.2 hne
            have h1 := congrArg List.length hsp
            have h2 := gap_length hg
            simp at h1 h2
            rw [hx] at hn
            omega
          refine (ih _ _ hlt).2 ⟨is, l, r, ?_, ?_⟩
          · simp only
            rw [plus_plus]
            exact ha
          · simp [hashes_cons, Item.hashed]

theorem args_ok {s s' : St} : args (s.inp.length + 1) s = .ok s' ↔ ∃ is l r, Args s.line s.inp is l r ∧
      s' = { s with inp := r, line := l, cs := s.cs ++ hashes is } := args_iff _ _ _ (Nat.lt_succ_self _)

/-! ## Line directives -/

theorem fileName_iff (s : Str) : ∀ n r, (fileName false s = .ok (n, r) ↔ ∃ q, s = q ++ '"' :: r ∧ Quoted q n) ∧
    (fileName true s = .ok (n, r) ↔
      ∃ c q n', s = c :: (q ++ '"' :: r) ∧ n = c :: n' ∧ (c = '\\' ∨ c = '\'' ∨ c = '"') ∧ Quoted q n') := by
  induction s with
  | nil =>
    intro n r
    constructor
    · constructor
      · intro h; cases h
      · rintro ⟨q, e, -⟩; simp at e
    · constructor
      · intro h; cases h
      · rintro ⟨c, q, n', e, -⟩; simp at e
  | cons c s ih =>
    intro n r
    have hmap : ∀ {P : Prop}, (∀ n', n = c :: n' → (fileName false s = .ok (n', r) ↔ P)) →
        ((fileName false s).map (fun x => (c :: x.1, x.2)) = .ok (n, r) ↔ (∃ n', n = c :: n') ∧ P) := by
      intro P hP
      constructor
      · intro h
        cases hf : fileName false s with
        | error e => rw [hf] at h; cases h
        | ok x =>
          rw [hf] at h
          simp [Except.map] at h
          obtain ⟨rfl, rfl⟩ := h
          exact ⟨⟨_, rfl⟩, (hP _ rfl).1 hf⟩
      · rintro ⟨⟨n', rfl⟩, h⟩
        rw [(hP _ rfl).2 h]
        rfl
    constructor
    · rw [fileName]
      by_cases h1 : c = '\n'
      · rw [if_pos h1]
        constructor
        · intro h; cases h
        · rintro ⟨q, e, hq⟩
          subst h1
          cases hq with
          | nil => exact absurd (List.cons.inj e).1 (by decide)
          | char _ _ h _ => exact absurd (List.cons.inj e).1.symm h
          | escape => exact absurd (List.cons.inj e).1 (by decide)
      rw [if_neg h1, if_neg (by decide)]
      by_cases h2 : c = '\\'
      · rw [if_pos h2, (ih n r).2]
        subst h2
        constructor
        · rintro ⟨d, q, n', rfl, rfl, hd, hq⟩
          exact ⟨_, rfl, .escape hd hq⟩
        · rintro ⟨q, e, hq⟩
          cases hq with
          | nil => exact absurd (List.cons.inj e).1 (by decide)
          | char _ h _ _ => exact absurd (List.cons.inj e).1.symm h
          | escape hd hq =>
            obtain ⟨-, rfl⟩ := List.cons.inj e
            exact ⟨_, _, _, rfl, rfl, hd, hq⟩
      rw [if_neg h2]
      by_cases h3 : c = '"'
      · rw [if_pos h3]
        subst h3
        constructor
        · intro h
          simp at h
          obtain ⟨rfl, rfl⟩ := h
          exact ⟨[], rfl, .nil⟩
        · rintro ⟨q, e, hq⟩
          cases hq with
          | nil => obtain ⟨-, rfl⟩ := List.cons.inj e; rfl
          | char h _ _ _ => exact absurd (List.cons.inj e).1.symm h
          | escape => exact absurd (List.cons.inj e).1 (by decide)
      rw [if_neg h3, hmap (P := ∃ q n', n = c :: n' ∧ s = q ++ '"' :: r ∧ Quoted q n')]
      · constructor
        · rintro ⟨-, q, n', rfl, rfl, hq⟩
          exact ⟨_, rfl, .char h3 h2 h1 hq⟩
        · rintro ⟨q, e, hq⟩
          cases hq with
          | nil => exact absurd (List.cons.inj e).1 h3
          | char _ _ _ hq =>
            obtain ⟨rfl, rfl⟩ := List.cons.inj e
            exact ⟨⟨_, rfl⟩, _, _, rfl, rfl, hq⟩
          | escape => exact absurd (List.cons.inj e).1 h2
      · intro n' hn'
        rw [(ih n' r).1]
        constructor
        · rintro ⟨q, e, hq⟩; exact ⟨q, n', hn', e, hq⟩
        · rintro ⟨q, n'', e', e, hq⟩
          obtain rfl := (List.cons.inj (hn'.symm.trans e')).2
          exact ⟨q, e, hq⟩
    · rw [fileName]
      by_cases h1 : c = '\n'
      · rw [if_pos h1]
        constructor
        · intro h; cases h
        · rintro ⟨d, q, n', e, -, hd, -⟩
          subst h1
          obtain ⟨rfl, -⟩ := List.cons.inj e
          exact absurd hd (by decide)
      rw [if_neg h1, if_pos rfl]
      by_cases h2 : c = '\\' ∨ c = '\'' ∨ c = '"'
      · rw [if_pos h2, hmap (P := ∃ q n', n = c :: n' ∧ s = q ++ '"' :: r ∧ Quoted q n')]
        · constructor
          · rintro ⟨-, q, n', rfl, rfl, hq⟩
            exact ⟨c, q, n', rfl, rfl, h2, hq⟩
          · rintro ⟨d, q, n', e, rfl, hd, hq⟩
            obtain ⟨rfl, rfl⟩ := List.cons.inj e
            exact ⟨⟨_, rfl⟩, _, _, rfl, rfl, hq⟩
        · intro n' hn'
          rw [(ih n' r).1]
          constructor
          · rintro ⟨q, e, hq⟩; exact ⟨q, n', hn', e, hq⟩
          · rintro ⟨q, n'', e', e, hq⟩
            obtain rfl := (List.cons.inj (hn'.symm.trans e')).2
            exact ⟨q, e, hq⟩
      · rw [if_neg h2]
        constructor
        · intro h; cases h
        · rintro ⟨d, q, n', e, -, hd, -⟩
          obtain ⟨rfl, -⟩ := List.cons.inj e
          exact absurd hd h2

theorem dropWhile_slash {s : Str} : ∃ n, s = List.replicate n '/' ++ s.dropWhile (· = '/') ∧
    (s.dropWhile (· = '/')).head? ≠ some '/' := by
  induction s with
  | nil => exact ⟨0, rfl, by simp⟩
  | cons c s ih =>
    by_cases hc : c = '/'
    · obtain ⟨n, h1, h2⟩ := ih
      subst hc
      refine ⟨n + 1, ?_, ?_⟩
      · rw [List.dropWhile_cons_of_pos (by simp), List.replicate_succ, List.cons_append, ← h1]
      · rw [List.dropWhile_cons_of_pos (by simp)]; exact h2
    · refine ⟨0, ?_, ?_⟩
      · rw [List.dropWhile_cons_of_neg (by simpa using hc)]; rfl
      · rw [List.dropWhile_cons_of_neg (by simpa using hc)]; simpa using hc

theorem slash_end {s : Str} (h : s.getLast? = some '/') :
    ∃ n, s = (s.reverse.dropWhile (· = '/')).reverse ++ List.replicate (n + 1) '/' ∧
      (s.reverse.dropWhile (· = '/')).reverse.getLast? ≠ some '/' := by
  obtain ⟨n, h1, h2⟩ := dropWhile_slash (s := s.reverse)
  have h3 := congrArg List.reverse h1
  rw [List.reverse_reverse, List.reverse_append, List.reverse_replicate] at h3
  cases n with
  | zero =>
    rw [List.replicate_zero, List.append_nil] at h3
    rw [h3, List.getLast?_reverse] at h
    exact absurd h h2
  | succ n =>
    exact ⟨n, h3, by rw [List.getLast?_reverse]; exact h2⟩

theorem replicate_end {t u : Str} {m n : Nat} (ht : t.getLast? ≠ some '/') (hu : u.getLast? ≠ some '/')
    (h : t ++ List.replicate m '/' = u ++ List.replicate n '/') : t = u := by
  have h1 := congrArg (fun s => (s.reverse.dropWhile (· = '/')).reverse) h
  have key : ∀ (t : Str) (m : Nat), t.getLast? ≠ some '/' →
      ((t ++ List.replicate m '/').reverse.dropWhile (· = '/')).reverse = t := by
    intro t m ht
    rw [List.reverse_append, List.reverse_replicate,
      List.dropWhile_append_of_pos (by intro a ha; rw [List.eq_of_mem_replicate ha]; rfl)]
    cases hr : t.reverse with
    | nil => rw [List.reverse_eq_nil_iff.1 hr]; rfl
    | cons c r =>
      rw [← List.head?_reverse, hr] at ht
      rw [List.dropWhile_cons_of_neg (by simpa using ht), ← hr, List.reverse_reverse]
  rw [key t m ht, key u n hu] at h1
  exact h1

theorem getLast_slash {t : Str} {n : Nat} : (t ++ List.replicate (n + 1) '/').getLast? = some '/' := by
  rw [List.replicate_succ', ← List.append_assoc, List.getLast?_concat]

theorem names_special {s : Str} (h : Special s) {g : File} : Names s g ↔ g = .name s := by
  constructor
  · intro hn
    cases hn with
    | special _ => rfl
    | file _ h1 _ => exact absurd h h1
    | dir e _ =>
      have := h.2
      rw [e, getLast_slash] at this
      cases this
  · rintro rfl; exact .special h

theorem names_path {s : Str} (h0 : s ≠ []) (h : ¬ Special s) {g : File} : Names s g ↔ g = toPath s := by
  unfold toPath
  by_cases hl : s.getLast? = some '/'
  · rw [if_pos hl]
    obtain ⟨n, e, ht⟩ := slash_end hl
    constructor
    · intro hn
      cases hn with
      | special h1 => exact absurd h1 h
      | file _ _ h1 => exact absurd hl h1
      | dir e' ht' =>
        rw [replicate_end ht' ht (e'.symm.trans e)]
    · rintro rfl
      exact .dir e ht
  · rw [if_neg hl]
    constructor
    · intro hn
      cases hn with
      | special h1 => exact absurd h1 h
      | file => rfl
      | dir e _ => rw [e, getLast_slash] at hl; exact absurd rfl hl
    · rintro rfl
      exact .file h0 h hl

theorem toPath_cases (s : Str) : (∃ t, toPath s = .path t true) ∨ toPath s = .path s false := by
  unfold toPath
  split
  · exact .inl ⟨_, rfl⟩
  · exact .inr rfl

theorem names_nil {g : File} : ¬ Names [] g := by
  intro h
  generalize hs : ([] : Str) = s at h
  cases h with
  | special h => subst hs; exact absurd h.1 (by simp)
  | file h _ _ => exact h hs.symm
  | dir e _ => rw [← hs] at e; simp at e

theorem switch_iff {f g : File} {s : Str} {hs : List Hashed} :
    switch f s = .ok (hs, g) ↔ ∃ js, Switch f s js g ∧ hs = hashes js := by
  have hjs : ∀ {js : List Item} {g : File}, Switch f s js g → ∃ g', Names s g' := by
    intro js g h
    cases h with
    | same h _ => exact ⟨_, h⟩
    | file h _ _ => exact ⟨_, h⟩
    | dir h _ => exact ⟨_, h⟩
  unfold switch
  by_cases h0 : s = []
  · rw [if_pos h0]
    constructor
    · intro h; cases h
    · rintro ⟨js, h, -⟩
      obtain ⟨g', h⟩ := hjs h
      subst h0
      exact absurd h names_nil
  rw [if_neg h0]
  by_cases h1 : Special s
  · rw [if_pos (show s.head? = some '<' ∧ s.getLast? = some '>' from h1)]
    have hI : f.Is s ↔ f = .name s := by simp [File.Is, h1]
    by_cases h2 : f = .name s
    · rw [if_pos h2]
      constructor
      · intro h
        simp at h
        obtain ⟨rfl, rfl⟩ := h
        exact ⟨[], .same ((names_special h1).2 rfl) (hI.2 h2), rfl⟩
      · rintro ⟨js, h, rfl⟩
        cases h with
        | same => rfl
        | file _ h => exact absurd (hI.2 h2) h
        | dir _ h => exact absurd (hI.2 h2) h
    · rw [if_neg h2]
      constructor
      · intro h
        simp at h
        obtain ⟨rfl, rfl⟩ := h
        exact ⟨[.file s], .file ((names_special h1).2 rfl) (fun h => h2 (hI.1 h)) (by simp), rfl⟩
      · rintro ⟨js, h, rfl⟩
        cases h with
        | same _ h => exact absurd (hI.1 h) h2
        | file h _ => rw [(names_special h1).1 h]; rfl
        | dir h _ => cases (names_special h1).1 h
  · rw [if_neg (show ¬ (s.head? = some '<' ∧ s.getLast? = some '>') from h1)]
    have hI : f.Is s ↔ (f = .path s true ∨ f = .path s false) := by
      simp only [File.Is, h1, false_and, not_false_iff, true_and, false_or]
      constructor
      · rintro ⟨d, rfl⟩; cases d <;> simp
      · rintro (h | h) <;> exact ⟨_, h⟩
    by_cases h2 : f = .path s true ∨ f = .path s false
    · rw [if_pos h2]
      constructor
      · intro h
        simp at h
        obtain ⟨rfl, rfl⟩ := h
        exact ⟨[], .same ((names_path h0 h1).2 rfl) (hI.2 h2), rfl⟩
      · rintro ⟨js, h, rfl⟩
        cases h with
        | same => rfl
        | file _ h => exact absurd (hI.2 h2) h
        | dir _ h => exact absurd (hI.2 h2) h
    · rw [if_neg h2]
      rcases toPath_cases s with ⟨t, e⟩ | e
      · rw [e]
        constructor
        · intro h
          simp at h
          obtain ⟨rfl, rfl⟩ := h
          exact ⟨[], .dir ((names_path h0 h1).2 e.symm) (fun h => h2 (hI.1 h)), rfl⟩
        · rintro ⟨js, h, rfl⟩
          cases h with
          | same _ h => exact absurd (hI.1 h) h2
          | file h _ h3 => exact absurd ((names_path h0 h1).1 h |>.trans e) (h3 _)
          | dir h _ => rw [← e, ← (names_path h0 h1).1 h]; rfl
      · rw [e]
        constructor
        · intro h
          simp at h
          obtain ⟨rfl, rfl⟩ := h
          exact ⟨[.file s], .file ((names_path h0 h1).2 e.symm) (fun h => h2 (hI.1 h)) (by simp), rfl⟩
        · rintro ⟨js, h, rfl⟩
          cases h with
          | same _ h => exact absurd (hI.1 h) h2
          | file h _ h3 => rw [(names_path h0 h1).1 h, e]; rfl
          | dir h _ => cases (names_path h0 h1).1 h |>.trans e

/-- A line directive with its tail. -/
def lineArgs (s : St) : Except Err St :=
  match lineDirective s with
  | .error e => .error e
  | .ok s => args (s.inp.length + 1) s

theorem lineArgs_iff {s s' : St} (hd : ∃ c, s.inp.head? = some c ∧ c.isDigit = true) :
    lineArgs s = .ok s' ↔ ∃ is l f r, Line s.file s.inp is l f r ∧
      s' = { s with inp := r, line := l, file := f, cs := s.cs ++ hashes is } := by
  unfold lineArgs lineDirective stoull
  obtain ⟨e0, hin, hout⟩ := (span_iff (p := Char.isDigit) (s := s.inp)).1 ⟨rfl, rfl⟩
  generalize ht : s.inp.takeWhile Char.isDigit = ds at *
  generalize hr : s.inp.dropWhile Char.isDigit = z at *
  have hne : ds ≠ [] := by
    rintro rfl
    obtain ⟨c, h1, h2⟩ := hd
    rw [e0, List.nil_append] at h1
    rw [hout c h1] at h2
    cases h2
  have huniq : ∀ {ds' z' : Str}, s.inp = ds' ++ z' → (∀ d ∈ ds', d.isDigit = true) →
      (∀ d, z'.head? = some d → d.isDigit = false) → ds' = ds ∧ z' = z := by
    intro w' z' e h1 h2
    obtain ⟨a, b⟩ := span_iff.2 ⟨e, h1, h2⟩
    exact ⟨a.symm.trans ht, b.symm.trans hr⟩
  constructor
  · intro h
    by_cases hv : value ds < 2 ^ 64
    · rw [if_pos hv] at h
      simp only at h
      split at h
      · cases h
      · rename_i s1 e1
        split at e1
        · cases e1
        · rename_i f l e2
          injection e1 with e1
          subst e1
          obtain ⟨k, b, hg, hs, rfl, -⟩ := skip_iff.1 e2
          obtain ⟨is, l, r, ha, rfl⟩ := args_ok.1 h
          exact ⟨is, l, _, r, e0 ▸ .number hne hin hout hv hg hs (by simp) ha, rfl⟩
        · rename_i f l c r e2
          obtain ⟨k, b, hg, hs, rfl, -⟩ := skip_iff.1 e2
          by_cases hc : c = '"'
          · rw [if_pos hc] at e1
            subst hc
            split at e1
            · cases e1
            · rename_i n r1 e3
              obtain ⟨q, rfl, hq⟩ := (fileName_iff _ _ _).1.1 e3
              split at e1
              · cases e1
              · rename_i hs f' e4
                obtain ⟨js, hj, rfl⟩ := switch_iff.1 e4
                injection e1 with e1
                subst e1
                obtain ⟨is, l, r, ha, rfl⟩ := args_ok.1 h
                refine ⟨js ++ is, l, f', r, ?_, ?_⟩
                · rw [e0]
                  exact .file hne hin hout hv hg hq hj ha
                · simp [hashes_append]
          · rw [if_neg hc] at e1
            injection e1 with e1
            subst e1
            obtain ⟨is, l, r, ha, rfl⟩ := args_ok.1 h
            exact ⟨is, l, _, r, e0 ▸ .number hne hin hout hv hg hs (by simpa using hc) ha, rfl⟩
    · rw [if_neg hv] at h
      cases h
  · rintro ⟨is, l, f, r, hl, rfl⟩
    generalize hx : s.inp = x at hl
    generalize hf : s.file = f0 at hl
    cases hl with
    | number h1 h2 h3 hv hg hs hc ha =>
      obtain ⟨rfl, rfl⟩ := huniq hx h2 h3
      rw [if_pos hv]
      simp only
      rw [skip_of hg hs]
      rename_i r1 k b
      cases r1 with
      | nil => exact args_ok.2 ⟨is, l, r, ha, by simp⟩
      | cons c r1 =>
        simp only
        rw [if_neg (by simpa using hc)]
        exact args_ok.2 ⟨is, l, r, ha, by simp⟩
    | file h1 h2 h3 hv hg hqt hsw ha =>
      obtain ⟨rfl, rfl⟩ := huniq hx h2 h3
      rw [if_pos hv]
      simp only
      rw [skip_of hg (stop_of (by decide) (by decide) (by decide))]
      simp only
      rw [if_pos trivial, (fileName_iff _ _ _).1.2 ⟨_, rfl, hqt⟩]
      simp only
      rw [switch_iff.2 ⟨_, hsw, rfl⟩]
      simp only
      exact args_ok.2 ⟨_, l, r, ha, by simp [hashes_append]⟩

/-! ## Directives -/

theorem directive_eq (pre : Bool) (s : St) : directive pre s =
    match skip false .code false s.line s.inp with
    | .error e => .error e
    | .ok (_, l, []) => .ok { s with inp := [], line := l }
    | .ok (_, l, c :: r) =>
      if c = '\n' then .ok { s with inp := r, line := plus l 1 }
      else if c.isDigit then lineArgs { s with inp := c :: r, line := l }
      else
        match nested { s with line := l } c r with
        | .error e => .error e
        | .ok (t, s) =>
          if t.kind = .identifier ∧ t.text = "line".toList then
            match skip false .code false s.line s.inp with
            | .error e => .error e
            | .ok (_, l, r) =>
              if (r.head?.map Char.isDigit).getD false then lineArgs { s with inp := r, line := l }
              else .error .lineNumber
          else if pre ∧ t.kind = .identifier ∧ t.text = "include".toList then .error .include
          else args (s.inp.length + 1) s := rfl

theorem head_digit {r : Str} : (r.head?.map Char.isDigit).getD false = true ↔
    ∃ c, r.head? = some c ∧ c.isDigit = true := by
  cases r with
  | nil => simp
  | cons c r => simp

theorem newlines_line : newlines "line".toList = 0 := by decide

theorem digit_lexeme {c : Char} {r t r' : Str} {d : Kind} (hc : c.isDigit = true)
    (h : Lexeme (c :: r) d t r') : d ≠ .identifier := by
  have := lexeme_iff.2 h
  rw [lexeme_other (by intro hm; rw [(starts_not_word hm).2.1] at hc; cases hc), if_pos hc] at this
  injection this with this
  simp only [Lexed.mk.injEq] at this
  rw [← this.1]
  decide

theorem line_lexeme {r r' : Str} (h : Lexeme r .identifier "line".toList r') :
    ∃ r₀, r = 'l' :: r₀ := by
  have := h.split.1
  exact ⟨_, this⟩

theorem directive_iff {pre : Bool} {s s' : St} :
    directive pre s = .ok s' ↔ ∃ is l f r, Directive pre s.line s.file s.inp is l f r ∧
      s' = { s with inp := r, line := l, file := f, cs := s.cs ++ hashes is } := by
  rw [directive_eq]
  constructor
  · intro h
    split at h
    · cases h
    · rename_i f l e
      obtain ⟨k, b, hg, -, rfl, -⟩ := skip_iff.1 e
      injection h with h
      subst h
      exact ⟨[], _, _, _, .eos hg, by simp [hashes]⟩
    · rename_i f l c r e
      obtain ⟨k, b, hg, hs, rfl, -⟩ := skip_iff.1 e
      by_cases hc : c = '\n'
      · rw [if_pos hc] at h
        subst hc
        injection h with h
        subst h
        exact ⟨[], _, _, _, .empty hg, by simp [hashes, plus_plus]⟩
      rw [if_neg hc] at h
      by_cases hd : c.isDigit = true
      · rw [if_pos hd] at h
        obtain ⟨is, l, f, r', hl, rfl⟩ := (lineArgs_iff ⟨c, rfl, hd⟩).1 h
        exact ⟨is, l, f, r', .number hg ⟨c, rfl, hd⟩ hl, rfl⟩
      rw [if_neg hd] at h
      split at h
      · cases h
      · rename_i t s1 e1
        obtain ⟨hl, rfl⟩ := nested_iff.1 e1
        by_cases ht : t.kind = .identifier ∧ t.text = "line".toList
        · rw [if_pos ht] at h
          split at h
          · cases h
          · rename_i f' l' r' e2
            obtain ⟨k', b', hg', hs', rfl, -⟩ := skip_iff.1 e2
            by_cases hd' : (r'.head?.map Char.isDigit).getD false = true
            · rw [if_pos hd'] at h
              obtain ⟨is, l, f, r'', hl', rfl⟩ := (lineArgs_iff (head_digit.1 hd')).1 h
              rw [ht.1, ht.2] at hl
              refine ⟨_, l, f, r'', .line hg hl hg' (head_digit.1 hd') hl', ?_⟩
              simp [hashes_cons, Item.hashed, ht.2]
            · rw [if_neg hd'] at h
              cases h
        · rw [if_neg ht] at h
          by_cases hi : pre = true ∧ t.kind = .identifier ∧ t.text = "include".toList
          · rw [if_pos hi] at h
            cases h
          · rw [if_neg hi] at h
            obtain ⟨is, l, r', ha, rfl⟩ := args_ok.1 h
            refine ⟨_, l, _, r', .other hg hs ?_ hl ht hi (is := is) ?_, ?_⟩
            · intro d hd'
              simp at hd'
              subst hd'
              exact ⟨hc, by simpa using hd⟩
            · rw [← plus_plus]
              exact ha
            · simp [hashes_cons, Item.hashed]
  · rintro ⟨is, l, f, r, hl, rfl⟩
    generalize hx : s.inp = x at hl
    generalize hy : s.line = y at hl
    generalize hf : s.file = f0 at hl
    cases hl with
    | empty hg =>
      rw [skip_of hg (stop_newline r)]
      simp [hashes, plus_plus]
    | eos hg =>
      rw [skip_of hg (stop_nil _)]
      simp [hashes]
    | @number _ _ _ _ r1 _ k b _ hg hd hln =>
      cases r1 with
      | nil => obtain ⟨c, h, -⟩ := hd; cases h
      | cons c r1 =>
        obtain ⟨c', h, hd⟩ := hd
        simp at h
        subst h
        rw [skip_of hg (stop_digit hd)]
        simp only
        rw [if_neg (digit_ne hd (by decide)), if_pos hd]
        exact (lineArgs_iff ⟨c, rfl, hd⟩).2 ⟨is, l, f, r, by simpa [hf] using hln, by simp⟩
    | @line _ _ _ _ r1 r2 r3 _ k k' b b' is hg hlex hg' hd hln =>
      obtain ⟨r₀, rfl⟩ := line_lexeme hlex
      rw [skip_of hg (stop_of (by decide) (by decide) (by decide))]
      simp only
      rw [if_neg (by decide), if_neg (by decide)]
      have := nested_iff (s := ⟨x, plus y k, f0, s.cs⟩) (c := 'l') (r := r₀)
        (t := ⟨.identifier, "line".toList, r2⟩) |>.2 ⟨hlex, rfl⟩
      rw [this]
      simp only
      rw [if_pos ⟨trivial, trivial⟩]
      have hst : Stop false r3 := by
        obtain ⟨c, h, hd⟩ := hd
        rw [head_cons h]
        exact stop_digit hd
      rw [skip_of hg' hst]
      simp only
      rw [if_pos (head_digit.2 hd)]
      refine (lineArgs_iff hd).2 ⟨is, l, f, r, by simpa [hf] using hln, ?_⟩
      simp [hashes_cons, Item.hashed]
    | @other _ _ _ r1 r2 _ t k b d is hg hs hc hlex h1 h2 ha =>
      obtain ⟨hsp, hne⟩ := hlex.split
      cases r1 with
      | nil => exact absurd hsp.symm (by simp [hne])
      | cons c r1 =>
        rw [skip_of hg hs]
        simp only
        rw [if_neg (hc c rfl).1, if_neg (by rw [(hc c rfl).2]; decide)]
        have := nested_iff (s := ⟨x, plus y k, f, s.cs⟩) (c := c) (r := r1)
          (t := ⟨d, t, r2⟩) |>.2 ⟨hlex, rfl⟩
        rw [this]
        simp only
        rw [if_neg h1, if_neg h2]
        refine args_ok.2 ⟨is, l, r, ?_, ?_⟩
        · simp only
          rw [plus_plus]
          exact ha
        · simp [hashes_cons, Item.hashed]

/-! ## Sources -/

theorem args_length {l l' : UInt64} {s r : Str} {is : List Item} (h : Args l s is l' r) : r.length ≤ s.length := by
  induction h with
  | newline hg => have := gap_length hg; simp at this; omega
  | eos hg => simp
  | tok hg _ _ hl _ ih =>
    have h1 := gap_length hg
    have h2 := congrArg List.length hl.split.1
    simp at h2
    omega

theorem line_length {f f' : File} {l : UInt64} {s r : Str} {is : List Item} (h : Line f s is l f' r) :
    r.length ≤ s.length := by
  cases h with
  | number _ _ _ _ hg _ _ ha =>
    have h1 := gap_length hg
    have h2 := args_length ha
    simp
    omega
  | file _ _ _ _ hg _ _ ha =>
    have h1 := gap_length hg
    have h2 := args_length ha
    simp at h1 ⊢
    omega

theorem directive_length {pre : Bool} {f f' : File} {l l' : UInt64} {s r : Str} {is : List Item}
    (h : Directive pre l f s is l' f' r) : r.length ≤ s.length := by
  cases h with
  | empty hg => have := gap_length hg; simp at this; omega
  | eos hg => simp
  | number hg _ hl =>
    have h1 := gap_length hg
    have h2 := line_length hl
    omega
  | line hg hlex hg' _ hl =>
    have h1 := gap_length hg
    have h2 := line_length hl
    have h3 := gap_length hg'
    have h4 := congrArg List.length hlex.split.1
    rw [List.length_append] at h4
    omega
  | other hg _ _ hlex _ _ ha =>
    have h1 := gap_length hg
    have h2 := args_length ha
    have h4 := congrArg List.length hlex.split.1
    rw [List.length_append] at h4
    omega

theorem toks_args {l l' : UInt64} {s r : Str} {is : List Item} (h : Args l s is l' r) : toks is = [] := by
  induction h with
  | newline => rfl
  | eos => rfl
  | tok _ _ _ _ _ ih => exact ih

theorem toks_switch {f f' : File} {n : Str} {js : List Item} (h : Switch f n js f') : toks js = [] := by
  cases h <;> rfl

theorem toks_line {f f' : File} {l' : UInt64} {s r : Str} {is : List Item} (h : Line f s is l' f' r) :
    toks is = [] := by
  cases h with
  | number _ _ _ _ _ _ _ ha => exact toks_args ha
  | file _ _ _ _ _ _ hj ha => rw [toks_append, toks_switch hj, toks_args ha]; rfl

theorem toks_directive {pre : Bool} {f f' : File} {l l' : UInt64} {s r : Str} {is : List Item}
    (h : Directive pre l f s is l' f' r) : toks is = [] := by
  cases h with
  | empty => rfl
  | eos => rfl
  | number _ _ hl => exact toks_line hl
  | line _ _ _ _ hl => exact (toks_line hl :)
  | other _ _ _ _ _ _ ha => exact (toks_args ha :)

theorem run_iff {pre : Bool} (n : Nat) : ∀ (v : Bool) (s : St) (ts : List Tok) (cs : List Hashed),
    s.inp.length < n →
    ((∃ s', run pre n v s = .ok (ts, s') ∧ s'.cs = cs) ↔
      ∃ is, Source pre v s.line s.file s.inp is ∧ ts = toks is ∧ cs = s.cs ++ hashes is) := by
  induction n with
  | zero => intro v s ts cs h; exact absurd h (Nat.not_lt_zero _)
  | succ n ih =>
    intro v s ts cs hn
    rw [run]
    constructor
    · rintro ⟨s', h, rfl⟩
      split at h
      · cases h
      · rename_i f l e
        obtain ⟨k, b, hg, -, rfl, -⟩ := skip_iff.1 e
        simp at h
        obtain ⟨rfl, rfl⟩ := h
        exact ⟨[], .eos hg, rfl, by simp [hashes]⟩
      · rename_i f l c r e
        obtain ⟨k, b, hg, hs, rfl, rfl⟩ := skip_iff.1 e
        have hlen := gap_length hg
        by_cases hc : c = '#'
        · rw [if_pos hc] at h
          subst hc
          split at h
          · cases h
          · rename_i s1 e1
            obtain ⟨is, l, f, r', hd, rfl⟩ := directive_iff.1 e1
            have hdl := directive_length hd
            have hlt : r'.length < n := by simp at hdl hlen; omega
            obtain ⟨js, h1, rfl, h3⟩ := (ih true _ _ _ hlt).1 ⟨s', h, rfl⟩
            refine ⟨_, .directive hg hd h1, ?_, ?_⟩
            · have hnt := toks_directive hd
              rw [show toks (.hash (plus s.line k) :: (is ++ js)) = toks (is ++ js) from rfl, toks_append, hnt]
              rfl
            · rw [h3]
              simp [hashes_cons, Item.hashed, hashes_append]
        · rw [if_neg hc] at h
          split at h
          · cases h
          · rename_i t e1
            have hl := lexeme_iff.1 (show lexeme c r = .ok ⟨t.kind, t.text, t.rest⟩ from e1)
            split at h
            · cases h
            · rename_i ts' s1 e2
              simp at h
              obtain ⟨rfl, rfl⟩ := h
              have hlt : t.rest.length < n := by
                have h0 := List.length_pos_iff.2 hl.split.2
                have h1 := congrArg List.length hl.split.1
                simp at h1 hlen
                omega
              obtain ⟨is, h1, rfl, h3⟩ := (ih false _ _ _ hlt).1 ⟨s1, e2, rfl⟩
              refine ⟨.tok (plus s.line k) (v || b) t.kind t.text :: is,
                .tok hg hs (by simpa using hc) hl ?_, rfl, ?_⟩
              · rw [← plus_plus]
                exact h1
              · rw [h3]
                simp [hashes_cons, Item.hashed]
    · rintro ⟨is, hsrc, rfl, rfl⟩
      generalize hx : s.inp = x at hsrc
      generalize hy : s.line = y at hsrc
      generalize hf : s.file = f0 at hsrc
      rw [hx] at hn
      cases hsrc with
      | eos hg =>
        rw [skip_of hg (stop_nil _)]
        exact ⟨_, rfl, by simp [hashes]⟩
      | @tok _ _ _ _ r1 r2 t k b d is hg hs hc hlex hrest =>
        obtain ⟨hsp, hne⟩ := hlex.split
        cases r1 with
        | nil => exact absurd hsp.symm (by simp [hne])
        | cons c r1 =>
          rw [skip_of hg hs]
          simp only
          rw [if_neg (by simpa using hc), lexeme_iff.2 hlex]
          simp only
          have hlt : r2.length < n := by
            have h0 := List.length_pos_iff.2 hne
            have h1 := congrArg List.length hsp
            have h2 := gap_length hg
            simp at h1 h2
            omega
          rw [← plus_plus] at hrest
          obtain ⟨s', e1, e2⟩ := (ih false ⟨r2, plus (plus y k) (newlines t), f0,
              s.cs ++ [.line (plus y k)] ++ t.map .char⟩ (toks is) _ hlt).2 ⟨is, hrest, rfl, rfl⟩
          rw [e1]
          refine ⟨_, rfl, ?_⟩
          rw [e2]
          simp [hashes_cons, Item.hashed]
      | @directive _ _ l' _ f' _ r r' k b is js hg hd hrest =>
        rw [skip_of hg (stop_of (by decide) (by decide) (by decide))]
        simp only
        rw [if_pos trivial]
        have hd' := directive_iff (s := ⟨r, plus y k, f0, s.cs ++ [.line (plus y k), .char '#']⟩) |>.2
          ⟨is, l', f', r', hd, rfl⟩
        rw [hd']
        simp only
        have hlt : r'.length < n := by
          have h1 := directive_length hd
          have h2 := gap_length hg
          simp at h2
          omega
        obtain ⟨s', e1, e2⟩ := (ih true ⟨r', l', f', s.cs ++ [.line (plus y k), .char '#'] ++ hashes is⟩ (toks js) _
          hlt).2 ⟨js, hrest, rfl, rfl⟩
        refine ⟨s', ?_, ?_⟩
        · rw [e1, show toks (.hash (plus y k) :: (is ++ js)) = toks (is ++ js) from rfl, toks_append,
            toks_directive hd]
          rfl
        · rw [e2]
          simp [hashes_cons, Item.hashed, hashes_append]

end Verif.CcLex
