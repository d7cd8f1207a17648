import Verif.SetRead.Lemmas

/-! # Reading elements from the output of a command: what the substrings are -/

namespace Verif.SetRead

theorem isSep_iff (c : Char) : isSep c = true ↔ Space c := by
  simp only [isSep, Space, Bool.or_eq_true, beq_iff_eq, List.mem_cons, List.not_mem_nil, or_false,
    or_assoc]

theorem isSep_not (c : Char) : (!isSep c) = true ↔ ¬ Space c := by
  rw [← isSep_iff]; cases isSep c <;> simp

/-! ## Lines -/

theorem strip_exists (l : Text) : Strip l (stripCr l) := by
  rw [stripCr]
  have key : ∀ r : Text, (∃ k, r = List.replicate k '\r' ++ r.dropWhile (· == '\r')) ∧
      (r.dropWhile (· == '\r')).head? ≠ some '\r' := by
    intro r
    induction r with
    | nil => exact ⟨⟨0, rfl⟩, by simp⟩
    | cons c r ih =>
      by_cases hc : c = '\r'
      · subst hc
        obtain ⟨⟨k, h1⟩, h2⟩ := ih
        simp only [List.dropWhile, beq_self_eq_true]
        exact ⟨⟨k + 1, by rw [List.replicate_succ, List.cons_append, ← h1]⟩, h2⟩
      · have : (c == '\r') = false := by simp [hc]
        simp only [List.dropWhile, this]
        exact ⟨⟨0, rfl⟩, by simpa using hc⟩
  obtain ⟨⟨k, h1⟩, h2⟩ := key l.reverse
  refine ⟨⟨k, ?_⟩, ?_⟩
  · have := congrArg List.reverse h1
    rw [List.reverse_reverse, List.reverse_append, List.reverse_replicate] at this
    exact this
  · rw [List.getLast?_reverse]
    exact h2

theorem Strip.unique {l a b : Text} (ha : Strip l a) (hb : Strip l b) : a = b := by
  obtain ⟨⟨i, ea⟩, ha⟩ := ha
  obtain ⟨⟨j, eb⟩, hb⟩ := hb
  have key : ∀ (i j : Nat) (a b : Text), a ++ List.replicate i '\r' = b ++ List.replicate j '\r' →
      a.getLast? ≠ some '\r' → b.getLast? ≠ some '\r' → a = b := by
    intro i
    induction i with
    | zero =>
      intro j a b e ha hb
      cases j with
      | zero => simpa using e
      | succ j =>
        exfalso
        apply ha
        rw [List.replicate_zero, List.append_nil] at e
        rw [e, List.replicate_succ', ← List.append_assoc]
        simp
    | succ i ih =>
      intro j a b e ha hb
      cases j with
      | zero =>
        exfalso
        apply hb
        rw [List.replicate_zero, List.append_nil] at e
        rw [← e, List.replicate_succ', ← List.append_assoc]
        simp
      | succ j =>
        rw [List.replicate_succ', List.replicate_succ', ← List.append_assoc,
          ← List.append_assoc] at e
        exact ih j a b (List.append_inj_left' e rfl) ha hb
  exact key i j a b (ea.symm.trans eb) ha hb

theorem scanLines_none {p : Text} : ∀ {ss ss' : Text}, scanLines true ss p = (ss', none) →
    '\n' ∉ p ∧ ss' = ss ++ p := by
  induction p with
  | nil => intro ss ss' h; rw [scanLines] at h; cases h; simp
  | cons c p ih =>
    intro ss ss' h
    rw [scanLines] at h
    by_cases hc : c = '\n'
    · rw [if_pos hc, if_pos rfl] at h
      cases h
    · rw [if_neg hc] at h
      obtain ⟨h1, h2⟩ := ih h
      refine ⟨?_, by rw [h2]; simp⟩
      simp only [List.mem_cons, not_or]
      exact ⟨fun h => hc h.symm, h1⟩

theorem scanLines_some {p : Text} : ∀ {ss ss' c' : Text}, scanLines true ss p = (ss', some c') →
    ∃ l, p = l ++ '\n' :: c' ∧ '\n' ∉ l ∧ ss' = stripCr (ss ++ l) := by
  induction p with
  | nil => intro ss ss' c' h; rw [scanLines] at h; cases h
  | cons c p ih =>
    intro ss ss' c' h
    rw [scanLines] at h
    by_cases hc : c = '\n'
    · rw [if_pos hc, if_pos rfl] at h
      cases h
      exact ⟨[], by simp [hc], by simp, by simp⟩
    · rw [if_neg hc] at h
      obtain ⟨l, h1, h2, h3⟩ := ih h
      refine ⟨c :: l, by rw [h1]; rfl, ?_, by rw [h3]; simp⟩
      simp only [List.mem_cons, not_or]
      exact ⟨fun h => hc h.symm, h2⟩

theorem feed_lines {m : Mode} {ss cur : Text} {evs : List Ev} {es : List Text} {g : Text}
    (h : Feed m ss cur evs es g) (hm : m = .lines) (hs : '\n' ∉ ss) :
    Lines (ss ++ (cur ++ text evs)) es g := by
  induction h with
  | done => simpa [text] using Lines.rest hs
  | block _ ih => exact ih hs
  | data _ ih => exact ih hs
  | @more ss ss' c evs es g hc hsc _ ih =>
    subst hm
    obtain ⟨h1, rfl⟩ := scanLines_none hsc
    have := ih (by simp [hs, h1])
    simpa using this
  | @str ss ss' c c' evs es g hc hsc _ ih =>
    subst hm
    obtain ⟨l, rfl, h2, rfl⟩ := scanLines_some hsc
    have := Lines.line (l := ss ++ l) (by simp [hs, h2]) (strip_exists _) (ih (by simp))
    simpa using this

/-! ## The text as a whole -/

/-- Lines with newlines. -/
def flat (ls : List Text) : Text := (ls.map (· ++ ['\n'])).flatten

theorem flat_snoc (ls : List Text) (l : Text) : flat (ls ++ [l]) = flat ls ++ l ++ ['\n'] := by
  simp [flat]

theorem flat_last (ls : List Text) : ls = [] ∨ ∃ x, flat ls = x ++ ['\n'] := by
  rcases List.eq_nil_or_concat ls with rfl | ⟨a, b, rfl⟩
  · exact .inl rfl
  · rw [List.concat_eq_append]; exact .inr ⟨_, flat_snoc a b⟩

theorem stripCr_flat (ls : List Text) (r : Text) :
    stripCr (flat ls ++ r) = flat ls ++ stripCr r := by
  obtain ⟨⟨k, h1⟩, h2⟩ := strip_exists r
  refine Strip.unique (strip_exists _) ⟨⟨k, ?_⟩, ?_⟩
  · rw [List.append_assoc, ← h1]
  · rw [List.getLast?_append]
    cases hg : (stripCr r).getLast? with
    | some x => rw [hg] at h2; simpa using h2
    | none =>
      rcases flat_last ls with rfl | ⟨x, hx⟩
      · simp [flat]
      · rw [hx]; simp

theorem Lines.char {t : Text} {ls : List Text} {r : Text} (h : Lines t ls r) {c : Char}
    (hc : c ≠ '\n') : Lines (t ++ [c]) ls (r ++ [c]) := by
  induction h with
  | rest h => exact .rest (by simp [h, Ne.symm hc])
  | line h1 h2 _ ih => rw [List.append_assoc, List.cons_append]; exact .line h1 h2 ih

theorem Lines.newline {t : Text} {ls : List Text} {r r' : Text} (h : Lines t ls r)
    (hs : Strip r r') : Lines (t ++ ['\n']) (ls ++ [r']) [] := by
  induction h with
  | rest h => exact .line h hs (.rest (by simp))
  | line h1 h2 _ ih =>
    rw [List.append_assoc, List.cons_append, List.cons_append]; exact .line h1 h2 (ih hs)

theorem Lines.noNewline {t : Text} {ls : List Text} {r : Text} (h : Lines t ls r) : '\n' ∉ r := by
  induction h with
  | rest h => exact h
  | line _ _ _ ih => exact ih

theorem scan_whole {p : Text} : ∀ {u : Text} {ls : List Text} {r : Text}, Lines u ls r →
    ∃ ls' r', scanLines false (flat ls ++ r) p = (flat ls' ++ r', none) ∧ Lines (u ++ p) ls' r' := by
  induction p with
  | nil => intro u ls r h; exact ⟨ls, r, by rw [scanLines], by simpa using h⟩
  | cons c p ih =>
    intro u ls r h
    rw [scanLines]
    by_cases hc : c = '\n'
    · rw [if_pos hc, if_neg (by simp), stripCr_flat ls r, ← flat_snoc]
      obtain ⟨ls', r', h1, h2⟩ := ih (h.newline (strip_exists r))
      rw [List.append_nil] at h1
      exact ⟨ls', r', h1, by rw [hc]; simpa using h2⟩
    · rw [if_neg hc, List.append_assoc]
      obtain ⟨ls', r', h1, h2⟩ := ih (h.char hc)
      exact ⟨ls', r', h1, by simpa using h2⟩

theorem feed_whole {m : Mode} {ss cur : Text} {evs : List Ev} {es : List Text} {g : Text}
    (h : Feed m ss cur evs es g) (hm : m = .whole) : ∀ {u ls r}, Lines u ls r → ss = flat ls ++ r →
    es = [] ∧ ∃ ls' r', Lines (u ++ (cur ++ text evs)) ls' r' ∧ g = flat ls' ++ r' := by
  induction h with
  | done => intro u ls r hl hs; exact ⟨rfl, ls, r, by simpa [text] using hl, hs⟩
  | block _ ih => exact ih
  | data _ ih => exact ih
  | @more ss ss' c evs es g hc hsc _ ih =>
    intro u ls r hl hs
    subst hm hs
    obtain ⟨ls', r', h1, h2⟩ := scan_whole (p := c) hl
    rw [show scan .whole (flat ls ++ r) c = scanLines false (flat ls ++ r) c from rfl, h1] at hsc
    cases hsc
    obtain ⟨e, ls'', r'', h3, h4⟩ := ih h2 rfl
    exact ⟨e, ls'', r'', by simpa using h3, h4⟩
  | @str ss ss' c c' evs es g hc hsc _ ih =>
    intro u ls r hl hs
    subst hm hs
    obtain ⟨ls', r', h1, h2⟩ := scan_whole (p := c) hl
    rw [show scan .whole (flat ls ++ r) c = scanLines false (flat ls ++ r) c from rfl, h1] at hsc
    cases hsc

/-! ## Words -/

/-- Complete words and the one that the text ends with. -/
inductive WSplit : Text → List Text → Text → Prop
  | rest {g} : (∀ c ∈ g, ¬ Space c) → WSplit g [] g
  | space {c cs es g} : Space c → WSplit cs es g → WSplit (c :: cs) es g
  | word {w c cs es g} : Word w → Space c → WSplit cs es g → WSplit (w ++ c :: cs) (w :: es) g

theorem WSplit.spaces {sp t : Text} {es : List Text} {g : Text} (hs : ∀ c ∈ sp, Space c)
    (h : WSplit t es g) : WSplit (sp ++ t) es g := by
  induction sp with
  | nil => exact h
  | cons c sp ih => exact .space (hs c (by simp)) (ih fun x hx => hs x (by simp [hx]))

/-- The data in the stream. -/
def chunks : List Ev → List Text
  | [] => []
  | .block :: evs => chunks evs
  | .data c :: evs => c :: chunks evs

theorem text_chunks : ∀ evs, text evs = (chunks evs).flatten
  | [] => rfl
  | .block :: evs => by rw [text, chunks, text_chunks evs]
  | .data c :: evs => by rw [text, chunks, text_chunks evs]; rfl

/-- Whether the text ends inside of a word. -/
def inWord (w : Bool) (c : Text) : Bool :=
  match c.getLast? with
  | none => w
  | some x => !isSep x

/-- The data without the whitespaces that are at the beginning of what comes next and are after a
word that ends what came before. -/
def glue : Bool → List Text → Text
  | _, [] => []
  | w, c :: cs =>
    let c' := if w then c.dropWhile isSep else c
    c' ++ glue (inWord w c') cs

theorem take_drop_sep (p : Char → Bool) (l : Text) : l = l.takeWhile p ++ l.dropWhile p ∧
    (∀ c ∈ l.takeWhile p, p c = true) ∧ ∀ x r, l.dropWhile p = x :: r → p x = false := by
  refine ⟨List.takeWhile_append_dropWhile.symm, fun c hc => ?_, fun x r h => ?_⟩
  · induction l with
    | nil => simp at hc
    | cons a l ih =>
      rw [List.takeWhile] at hc
      split at hc
      · next ha =>
        rcases List.mem_cons.1 hc with rfl | hc
        · exact ha
        · exact ih hc
      · simp at hc
  · induction l with
    | nil => simp at h
    | cons a l ih =>
      rw [List.dropWhile] at h
      split at h
      · exact ih h
      · next ha => cases h; exact ha

theorem inWord_append (w : Bool) (a b : Text) : inWord w (a ++ b) = inWord (inWord w a) b := by
  rw [inWord, inWord, inWord, List.getLast?_append]
  cases b.getLast? with
  | none => cases a.getLast? <;> rfl
  | some x => rfl

theorem glue_nil (w : Bool) (cs : List Text) : glue w ([] :: cs) = glue w cs := by
  rw [glue]
  cases w <;> rfl

theorem glue_false (c : Text) (cs : List Text) :
    glue false (c :: cs) = c ++ glue (inWord false c) cs := rfl

theorem inWord_word (w : Bool) {c : Text} (hc : ∀ x ∈ c, ¬ Space x) (hw : w = true ∨ c ≠ []) :
    inWord w c = true := by
  rw [inWord]
  cases hl : c.getLast? with
  | none =>
    rcases hw with hw | hw
    · exact hw
    · exact absurd (List.getLast?_eq_none_iff.1 hl) hw
  | some x => exact (isSep_not x).2 (hc x (List.mem_of_getLast? hl))

theorem inWord_spaces {c : Text} (hc : ∀ x ∈ c, Space x) : inWord false c = false := by
  rw [inWord]
  cases hl : c.getLast? with
  | none => rfl
  | some x =>
    have := (isSep_iff x).2 (hc x (List.mem_of_getLast? hl))
    simp [this]

theorem feed_words {m : Mode} {ss cur : Text} {evs : List Ev} {es : List Text} {g : Text}
    (h : Feed m ss cur evs es g) (hm : m = .words) (hs : ∀ c ∈ ss, ¬ Space c) :
    WSplit (ss ++ glue (ss != []) (cur :: chunks evs)) es g := by
  induction h with
  | done => simpa [chunks, glue] using WSplit.rest hs
  | block _ ih => exact ih hs
  | @data ss c evs es g _ ih =>
    rw [glue_nil, chunks]
    exact ih hs
  | @more ss ss' c evs es g hc hsc _ ih =>
    subst hm
    obtain ⟨a1, a2, a3⟩ := take_drop_sep isSep c
    have a2' : ∀ x ∈ c.takeWhile isSep, Space x := fun x hx => (isSep_iff x).1 (a2 x hx)
    rw [show scan .words ss c = scanWords ss c from rfl, scanWords] at hsc
    cases hq : c.dropWhile isSep with
    | nil =>
      rw [hq] at hsc
      cases hsc
      have := ih hs
      rw [glue_nil] at this
      rw [glue]
      cases hss : (ss != []) with
      | true =>
        rw [hss] at this
        rw [if_pos rfl, hq]
        exact this
      | false =>
        rw [hss] at this
        rw [if_neg (by simp)]
        have e : ss = [] := by simpa using hss
        rw [e] at this ⊢
        rw [List.nil_append] at this ⊢
        rw [hq, List.append_nil] at a1
        rw [inWord_spaces (a1 ▸ a2')]
        exact this.spaces (a1 ▸ a2')
    | cons x q =>
      obtain ⟨b1, b2, b3⟩ := take_drop_sep (fun c => !isSep c) (x :: q)
      have b2' : ∀ y ∈ (x :: q).takeWhile (fun c => !isSep c), ¬ Space y :=
        fun y hy => (isSep_not y).1 (b2 y hy)
      rw [hq] at hsc
      dsimp only at hsc
      cases hr : (x :: q).dropWhile (fun c => !isSep c) with
      | cons y r => rw [hr] at hsc; cases hsc
      | nil =>
        rw [hr] at hsc
        cases hsc
        rw [hr, List.append_nil] at b1
        have hne : (ss ++ (x :: q).takeWhile (fun c => !isSep c) != []) = true := by
          rw [← b1]; simp
        have := ih (by intro c hc; rcases List.mem_append.1 hc with h | h; exact hs c h; exact b2' c h)
        rw [glue_nil, hne, ← b1] at this
        rw [← b1] at b2'
        rw [glue]
        cases hss : (ss != []) with
        | true =>
          rw [if_pos rfl, hq]
          rw [inWord_word true b2' (.inl rfl), ← List.append_assoc]
          exact this
        | false =>
          rw [if_neg (by simp)]
          have e : ss = [] := by simpa using hss
          rw [e] at this ⊢
          rw [List.nil_append] at this ⊢
          rw [hq] at a1
          conv => arg 1; rw [a1]
          rw [inWord_append, inWord_word _ b2' (.inr (by simp)), List.append_assoc]
          exact this.spaces a2'
  | @str ss ss' c c' evs es g hc hsc _ ih =>
    subst hm
    obtain ⟨a1, a2, a3⟩ := take_drop_sep isSep c
    have a2' : ∀ x ∈ c.takeWhile isSep, Space x := fun x hx => (isSep_iff x).1 (a2 x hx)
    rw [show scan .words ss c = scanWords ss c from rfl, scanWords] at hsc
    cases hq : c.dropWhile isSep with
    | nil => rw [hq] at hsc; cases hsc
    | cons x q =>
      obtain ⟨b1, b2, b3⟩ := take_drop_sep (fun c => !isSep c) (x :: q)
      have b2' : ∀ y ∈ (x :: q).takeWhile (fun c => !isSep c), ¬ Space y :=
        fun y hy => (isSep_not y).1 (b2 y hy)
      have bne : (x :: q).takeWhile (fun c => !isSep c) ≠ [] := by
        have := a3 x q hq
        rw [List.takeWhile]
        simp [this]
      rw [hq] at hsc
      dsimp only at hsc
      cases hr : (x :: q).dropWhile (fun c => !isSep c) with
      | nil => rw [hr] at hsc; cases hsc
      | cons y r =>
        rw [hr] at hsc
        cases hsc
        have hy : Space y := by
          have := b3 y c' hr
          rw [← isSep_iff]
          simpa using this
        rw [hr] at b1
        generalize (x :: q).takeWhile (fun c => !isSep c) = w at b1 b2' bne
        have := ih (by simp)
        rw [show (([] : Text) != []) = false from rfl, List.nil_append, glue_false] at this
        have hi : ∀ z, inWord z (w ++ y :: c') = inWord false c' := by
          intro z
          rw [show w ++ y :: c' = (w ++ [y]) ++ c' by simp, inWord_append]
          congr 1
          rw [inWord]
          simp [(isSep_iff y).2 hy]
        have hw : WSplit ((ss ++ w) ++ y :: (c' ++ glue (inWord false c') (chunks evs)))
            ((ss ++ w) :: es) g :=
          .word ⟨by simp [bne], fun z hz => by
            rcases List.mem_append.1 hz with h | h
            · exact hs z h
            · exact b2' z h⟩ hy this
        rw [glue]
        cases hss : (ss != []) with
        | true =>
          rw [if_pos rfl, hq, b1]
          rw [hi]
          simpa using hw
        | false =>
          rw [if_neg (by simp)]
          have e : ss = [] := by simpa using hss
          rw [e] at hw ⊢
          rw [List.nil_append] at hw ⊢
          rw [hq, b1] at a1
          have hi' : inWord false c = inWord false c' := by
            rw [a1, inWord_append, hi]
          rw [hi']
          conv => arg 1; rw [a1]
          have := hw.spaces a2'
          simpa using this

theorem WSplit.words {t : Text} {es : List Text} {g : Text} (h : WSplit t es g) :
    Words t (es ++ if g = [] then [] else [g]) := by
  induction h with
  | @rest g h =>
    by_cases hg : g = []
    · subst hg; exact .nil
    · rw [if_neg hg]; exact .last ⟨hg, h⟩
  | space hc _ ih => exact .space hc ih
  | word hw hc _ ih => exact .word hw hc ih

theorem WSplit.ofNil {t : Text} {es : List Text} {g : Text} (h : WSplit t es g) (ht : t = []) :
    g = [] := by
  cases h with
  | rest _ => exact ht
  | space => cases ht
  | word => simp at ht

theorem WSplit.last {t : Text} {es : List Text} {g : Text} (h : WSplit t es g) :
    ∀ c, t.getLast? = some c → (Space c ↔ g = []) := by
  induction h with
  | @rest g h =>
    intro c hc
    have hm := List.mem_of_getLast? hc
    refine ⟨fun hs => absurd hs (h c hm), fun hg => ?_⟩
    subst hg
    simp at hm
  | @space x cs es g hx hsp ih =>
    intro c hc
    cases cs with
    | nil =>
      simp at hc
      subst hc
      simp [hx, hsp.ofNil rfl]
    | cons y cs => exact ih c (by simpa using hc)
  | @word w x cs es g hw hx hsp ih =>
    intro c hc
    cases cs with
    | nil =>
      simp at hc
      subst hc
      simp [hx, hsp.ofNil rfl]
    | cons y cs => exact ih c (by simpa using hc)

end Verif.SetRead
