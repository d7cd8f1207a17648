import Verif.SetRead.Split

/-!
# Reading elements from the output of a command: properties

C70: what `set` and `for` get is what the output is split into, however it arrives.
-/

namespace Verif.SetRead

/-! ## What a text is split into is unique -/

theorem split_unique {P : Char → Prop} {w w' : Text} {c c' : Char} {t t' : Text}
    (h : w ++ c :: t = w' ++ c' :: t') (hw : ∀ x ∈ w, ¬ P x) (hw' : ∀ x ∈ w', ¬ P x) (hc : P c)
    (hc' : P c') : w = w' ∧ c = c' ∧ t = t' := by
  induction w generalizing w' with
  | nil =>
    cases w' with
    | nil => cases h; exact ⟨rfl, rfl, rfl⟩
    | cons x w' => cases h; exact absurd hc (hw' _ (by simp))
  | cons x w ih =>
    cases w' with
    | nil => cases h; exact absurd hc' (hw _ (by simp))
    | cons y w' =>
      rw [List.cons_append, List.cons_append] at h
      injection h with h1 h2
      obtain ⟨rfl, h3⟩ := ih h2 (fun z hz => hw z (by simp [hz])) (fun z hz => hw' z (by simp [hz]))
      exact ⟨by rw [h1], h3⟩

theorem Words.unique {t : Text} {ws : List Text} (h : Words t ws) :
    ∀ ws', Words t ws' → ws = ws' := by
  induction h with
  | nil =>
    intro ws' h'
    generalize he : ([] : Text) = t at h'
    cases h' with
    | nil => rfl
    | space => cases he
    | last hw => exact absurd he.symm hw.1
    | word => simp at he
  | @space c cs ws hc _ ih =>
    intro ws' h'
    generalize he : c :: cs = t at h'
    cases h' with
    | nil => cases he
    | space _ h => cases he; exact ih _ h
    | last hw => subst he; exact absurd hc (hw.2 c (by simp))
    | @word w c' cs' ws' hw hc' h =>
      cases w with
      | nil => exact absurd rfl hw.1
      | cons x w => cases he; exact absurd hc (hw.2 c (by simp))
  | @last w hw =>
    intro ws' h'
    generalize he : w = t at h'
    cases h' with
    | nil => exact absurd he hw.1
    | space hc _ => subst he; exact absurd hc (hw.2 _ (by simp))
    | last _ => subst he; rfl
    | word _ hc _ => subst he; exact absurd hc (hw.2 _ (by simp))
  | @word w c cs ws hw hc _ ih =>
    intro ws' h'
    generalize he : w ++ c :: cs = t at h'
    cases h' with
    | nil => simp at he
    | @space x xs ws' hx h =>
      cases w with
      | nil => exact absurd rfl hw.1
      | cons y w => cases he; exact absurd hx (hw.2 _ (by simp))
    | last hw' => subst he; exact absurd hc (hw'.2 _ (by simp))
    | @word w' c' cs' ws' hw' hc' h =>
      obtain ⟨rfl, rfl, rfl⟩ := split_unique (P := Space) he hw.2 hw'.2 hc hc'
      rw [ih _ h]

theorem Lines.unique {t : Text} {ls : List Text} {r : Text} (h : Lines t ls r) :
    ∀ ls' r', Lines t ls' r' → ls = ls' ∧ r = r' := by
  induction h with
  | @rest r h =>
    intro ls' r' h'
    generalize he : r = t at h'
    cases h' with
    | rest _ => exact ⟨rfl, rfl⟩
    | line _ _ _ => subst he; simp at h
  | @line l l1 cs ls r h1 h2 _ ih =>
    intro ls' r' h'
    generalize he : l ++ '\n' :: cs = t at h'
    cases h' with
    | rest h => subst he; simp at h
    | @line l' l1' cs' ls' r' h1' h2' h =>
      obtain ⟨rfl, _, rfl⟩ := split_unique (P := (· = '\n')) he
        (fun x hx e => h1 (e ▸ hx)) (fun x hx e => h1' (e ▸ hx)) rfl rfl
      obtain ⟨rfl, rfl⟩ := ih _ _ h
      rw [h2.unique h2']
      exact ⟨rfl, rfl⟩

theorem Words.ofNil {t : Text} {ws : List Text} (h : Words t ws) (ht : t = []) : ws = [] := by
  subst ht
  exact (Words.unique .nil _ h).symm

theorem Lines.ofNil {t : Text} {ls : List Text} {r : Text} (h : Lines t ls r) (ht : t = []) :
    ls = [] := by
  subst ht
  exact (Lines.unique (.rest (by simp)) _ _ h).1.symm

/-- C70: a text is split in one way. -/
theorem elements_unique (exact : Bool) (m : Mode) (t : Text) (a b : List Text)
    (ha : Elements exact m t a) (hb : Elements exact m t b) : a = b := by
  cases ha with
  | nothing =>
    generalize he : ([] : Text) = t at hb
    cases hb with
    | nothing => rfl
    | words h => exact absurd he.symm h
    | wordsBlank _ h => subst he; simp at h
    | lines h => exact absurd he.symm h
    | linesRest h => exact absurd he.symm h
    | whole h => exact absurd he.symm h
    | wholeEnd h => exact absurd (h.ofNil he.symm) (by simp)
  | words h1 h2 h3 h4 =>
    cases hb with
    | nothing => exact absurd rfl h1
    | words _ k2 _ _ => exact h2.unique _ k2
    | wordsBlank k1 k2 k3 k4 =>
      rw [h3] at k2
      cases k2
      rw [h4 k3] at k4
      cases k4
  | wordsBlank h1 h2 h3 h4 =>
    cases hb with
    | nothing => simp at h2
    | words _ k2 k3 k4 =>
      rw [h2] at k3
      cases k3
      rw [k4 h3] at h4
      cases h4
    | wordsBlank k1 _ _ _ => rw [h1.unique _ k1]
  | lines h1 h2 h3 =>
    cases hb with
    | nothing => exact absurd rfl h1
    | lines _ k2 _ => exact (h2.unique _ _ k2).1
    | linesRest _ k2 k3 =>
      obtain ⟨_, e⟩ := h2.unique _ _ k2
      rw [k3 e.symm] at h3
      cases h3
  | linesRest h1 h2 h3 =>
    cases hb with
    | nothing => exact absurd rfl h1
    | lines _ k2 k3 =>
      obtain ⟨_, e⟩ := h2.unique _ _ k2
      rw [h3 e] at k3
      cases k3
    | linesRest _ k2 k3 =>
      obtain ⟨rfl, rfl⟩ := h2.unique _ _ k2
      rfl
  | whole h1 h2 h3 =>
    cases hb with
    | nothing => exact absurd rfl h1
    | whole _ k2 _ =>
      obtain ⟨rfl, rfl⟩ := h2.unique _ _ k2
      rfl
    | wholeEnd k1 k2 =>
      obtain ⟨_, e⟩ := h2.unique _ _ k1
      rw [h3 e] at k2
      cases k2
  | wholeEnd h1 h2 =>
    cases hb with
    | nothing => exact absurd (h1.ofNil rfl) (by simp)
    | whole _ k2 k3 =>
      obtain ⟨_, e⟩ := h1.unique _ _ k2
      rw [k3 e.symm] at h2
      cases h2
    | wholeEnd k1 k2 =>
      obtain ⟨e, _⟩ := h1.unique _ _ k1
      obtain ⟨rfl, e2⟩ := List.append_inj' e rfl
      cases e2
      rfl

/-! ## Lemmas -/

theorem elements_fin {exact : Bool} {m : Mode} {t : Text} {es : List Text} {g : Text}
    (h : match m with
      | .words => WSplit t es g
      | .lines => Lines t es g
      | .whole => es = [] ∧ ∃ ls r, Lines t ls r ∧ g = flat ls ++ r) :
    Elements exact m t (es ++ fin m exact (t == []) g) := by
  cases m with
  | words =>
    dsimp only at h
    by_cases ht : t = []
    · subst ht
      have hg := h.ofNil rfl
      subst hg
      have := h.words.ofNil rfl
      rw [if_pos rfl, List.append_nil] at this
      subst this
      simp [fin]
      exact .nothing
    · have ht' : (t == []) = false := by simpa using ht
      rw [ht']
      cases hl : t.getLast? with
      | none => exact absurd (List.getLast?_eq_none_iff.1 hl) ht
      | some c =>
        have hw := h.words
        have hs := h.last c hl
        by_cases hg : g = []
        · subst hg
          rw [if_pos rfl, List.append_nil] at hw
          cases exact with
          | true => exact .wordsBlank hw hl (hs.2 rfl) rfl
          | false =>
            simp only [fin]
            rw [if_neg (by simp), List.append_nil]
            exact .words ht hw hl fun _ => rfl
        · rw [if_neg hg] at hw
          rw [fin, if_pos (.inl hg)]
          have e : (if exact = true then g else last .words g) = g := by
            cases exact <;> simp [last]
          rw [e]
          exact .words ht hw hl fun hsp => absurd (hs.1 hsp) hg
  | lines =>
    dsimp only at h
    by_cases ht : t = []
    · subst ht
      obtain ⟨rfl, rfl⟩ := Lines.unique (.rest (by simp)) _ _ h
      simp [fin]
      exact .nothing
    · have ht' : (t == []) = false := by simpa using ht
      rw [ht']
      have e : (if exact = true then g else last .lines g) = g := by
        cases exact <;> simp [last]
      rw [fin, e]
      by_cases hg : g = []
      · subst hg
        cases exact with
        | true =>
          rw [if_pos (by simp)]
          exact .linesRest ht h fun _ => rfl
        | false =>
          rw [if_neg (by simp), List.append_nil]
          exact .lines ht h rfl
      · rw [if_pos (.inl hg)]
        exact .linesRest ht h fun h => absurd h hg
  | whole =>
    obtain ⟨rfl, ls, r, hl, rfl⟩ := h
    rw [List.nil_append]
    by_cases ht : t = []
    · subst ht
      obtain ⟨rfl, rfl⟩ := Lines.unique (.rest (by simp)) _ _ hl
      simp [fin, flat]
      exact .nothing
    · have ht' : (t == []) = false := by simpa using ht
      rw [ht']
      have hg : flat ls ++ r ≠ [] := by
        intro e
        obtain ⟨e1, rfl⟩ := List.append_eq_nil_iff.1 e
        rcases flat_last ls with rfl | ⟨x, hx⟩
        · cases hl; exact ht rfl
        · rw [hx] at e1; simp at e1
      rw [fin, if_pos (.inl hg)]
      cases exact with
      | true => exact .whole ht hl fun _ => rfl
      | false =>
        rw [if_neg (by simp), last]
        by_cases hr : r = []
        · subst hr
          rw [List.append_nil]
          rcases List.eq_nil_or_concat ls with rfl | ⟨a, b, rfl⟩
          · cases hl; exact absurd rfl ht
          · rw [List.concat_eq_append] at *
            rw [flat_snoc, if_pos ⟨rfl, by simp⟩, List.dropLast_concat]
            exact .wholeEnd hl rfl
        · have hn : ¬ ((flat ls ++ r).getLast? = some '\n') := by
            rw [List.getLast?_append]
            cases hx : r.getLast? with
            | none => exact absurd (List.getLast?_eq_none_iff.1 hx) hr
            | some c =>
              intro e
              have : c = '\n' := by simpa using e
              subst this
              exact hl.noNewline (List.mem_of_getLast? hx)
          rw [if_neg (fun h => hn h.2)]
          exact .whole ht hl fun h => absurd h hr

/-- What the callback is called with until it says that it is enough. -/
structure Delivered (f : List Text → Bool) (els d : List Text) : Prop where
  /-- The first elements in order. -/
  pre : d <+: els
  /-- It was not enough before. -/
  go : ∀ p, p <+: d → p ≠ [] → p ≠ d → f p = true
  /-- All of them, or it is enough. -/
  all : d = els ∨ (d ≠ [] ∧ f d = false)

theorem upTo_delivered (f : List Text → Bool) : ∀ (es d : List Text),
    (∀ p, p <+: d → p ≠ [] → f p = true) → Delivered f (d ++ es) (upTo f d es)
  | [], d, h => ⟨by rw [upTo]; simp, fun p hp h1 _ => h p hp h1, .inl (by simp [upTo])⟩
  | e :: es, d, h => by
    rw [upTo]
    by_cases hf : f (d ++ [e]) = true
    · rw [if_pos hf]
      have hp : ∀ p, p <+: d ++ [e] → p ≠ [] → f p = true := by
        intro p hp hn
        rcases List.prefix_concat_iff.1 hp with rfl | hp
        · exact hf
        · exact h p hp hn
      have := upTo_delivered f es (d ++ [e]) hp
      rwa [List.append_assoc] at this
    · rw [if_neg hf]
      refine ⟨⟨es, by simp⟩, fun p hp h1 h2 => ?_, .inr ⟨by simp, by simpa using hf⟩⟩
      rcases List.prefix_concat_iff.1 hp with rfl | hp
      · exact absurd rfl h2
      · exact h p hp h1

/-! ## Properties -/

/-- There is no data that begins with a whitespace right after data that ends with a word. -/
def Aligned (evs : List Ev) : Prop :=
  ∀ a c b x y, chunks evs = a ++ c :: b → a.flatten.getLast? = some x → ¬ Space x →
    c.head? = some y → ¬ Space y

theorem glue_aligned : ∀ (cs : List Text) (w : Bool),
    (∀ a c b y, cs = a ++ c :: b → inWord w a.flatten = true → c.head? = some y → ¬ Space y) →
    glue w cs = cs.flatten
  | [], _, _ => rfl
  | c :: cs, w, h => by
    have hc : (if w = true then c.dropWhile isSep else c) = c := by
      cases w with
      | false => rfl
      | true =>
        rw [if_pos rfl]
        cases c with
        | nil => rfl
        | cons y c =>
          have := h [] (y :: c) cs y rfl rfl rfl
          rw [← isSep_iff] at this
          rw [List.dropWhile]
          simp [this]
    rw [glue]
    simp only [hc, List.flatten_cons]
    rw [glue_aligned cs (inWord w c) fun a c' b y e hi => h (c :: a) c' b y (by rw [e]; rfl) (by
      rw [List.flatten_cons, inWord_append]; exact hi)]

theorem aligned_glue {evs : List Ev} (h : Aligned evs) : glue false (chunks evs) = text evs := by
  rw [text_chunks]
  refine glue_aligned _ _ fun a c b y e hi hy => ?_
  rw [inWord] at hi
  cases hl : a.flatten.getLast? with
  | none => rw [hl] at hi; cases hi
  | some x =>
    rw [hl] at hi
    exact h a c b x y e hl ((isSep_not x).1 hi) hy

theorem glue_empty : ∀ cs : List Text, (glue false cs == []) = (cs.flatten == [])
  | [] => rfl
  | c :: cs => by
    cases c with
    | nil => rw [glue_nil, List.flatten_cons, List.nil_append]; exact glue_empty cs
    | cons x c => rw [glue_false]; rfl

theorem readAll_reads (m : Mode) (exact : Bool) (f : List Text → Bool) (evs : List Ev) (t : Text)
    (ht : (t == []) = (text evs == []))
    (h : ∀ es g, Feed m [] [] evs es g → match m with
      | .words => WSplit t es g
      | .lines => Lines t es g
      | .whole => es = [] ∧ ∃ ls r, Lines t ls r ∧ g = flat ls ++ r) :
    ∃ els d, Elements exact m t els ∧ Delivered f els d ∧
      Reads (fun n => readAll m exact f n evs) d := by
  obtain ⟨es, g, hf⟩ := feed_exists m evs 0 [] [] (by simp)
  have hr := read_feed (f := f) hf exact true []
  rw [List.nil_append, Bool.true_and, ← ht] at hr
  exact ⟨_, _, elements_fin (h es g hf), by
    have := upTo_delivered f (es ++ fin m exact (t == []) g) [] (by
      intro p hp hn; exact absurd (List.prefix_nil.1 hp) hn)
    rwa [List.nil_append] at this, hr⟩

/-- C70: reading line by line or all at once, what is passed on is what the output is split into,
in order, up to where it is enough, no matter how much of the output is available at a time. The
output is always read to the end. -/
theorem read_elements (m : Mode) (hm : m ≠ .words) (exact : Bool) (f : List Text → Bool)
    (evs : List Ev) :
    ∃ els d N st, Elements exact m (text evs) els ∧ Delivered f els d ∧ st.cur = [] ∧
      st.evs = [] ∧ ∀ n, readAll m exact f n evs = if N < n then some (d, st) else none := by
  obtain ⟨els, d, h1, h2, N, st, h3, h4, h5⟩ := readAll_reads m exact f evs (text evs) rfl
    fun es g h => by
      cases m with
      | words => exact absurd rfl hm
      | lines => simpa using feed_lines h rfl (by simp)
      | whole => simpa using feed_whole h rfl (.rest (r := []) (by simp)) (by simp [flat])
  exact ⟨els, d, N, st, h1, h2, h3, h4, h5⟩

/-- C70 (partial): the same for words if there is no data that begins with a whitespace right after
data that ends with a word. -/
theorem read_words_partial (exact : Bool) (f : List Text → Bool) (evs : List Ev)
    (ha : Aligned evs) :
    ∃ els d N st, Elements exact .words (text evs) els ∧ Delivered f els d ∧ st.cur = [] ∧
      st.evs = [] ∧ ∀ n, readAll .words exact f n evs = if N < n then some (d, st) else none := by
  obtain ⟨els, d, h1, h2, N, st, h3, h4, h5⟩ := readAll_reads .words exact f evs (text evs) rfl
    fun es g h => by
      have := feed_words h rfl (by simp)
      rw [List.nil_append, show (([] : Text) != []) = false from rfl, glue_nil,
        aligned_glue ha] at this
      exact this
  exact ⟨els, d, N, st, h1, h2, h3, h4, h5⟩

/-- C70: what it is otherwise: whitespaces at the beginning of such data are lost. -/
theorem read_words_glued (exact : Bool) (f : List Text → Bool) (evs : List Ev) :
    ∃ els d N st, Elements exact .words (glue false (chunks evs)) els ∧ Delivered f els d ∧
      st.cur = [] ∧ st.evs = [] ∧
      ∀ n, readAll .words exact f n evs = if N < n then some (d, st) else none := by
  obtain ⟨els, d, h1, h2, N, st, h3, h4, h5⟩ := readAll_reads .words exact f evs
    (glue false (chunks evs)) (by rw [text_chunks]; exact glue_empty _)
    fun es g h => by
      have := feed_words h rfl (by simp)
      rw [List.nil_append, show (([] : Text) != []) = false from rfl, glue_nil] at this
      exact this
  exact ⟨els, d, N, st, h1, h2, h3, h4, h5⟩

theorem delivered_all {els d : List Text} (h : Delivered (fun _ => true) els d) : d = els := by
  rcases h.all with h | ⟨_, h⟩
  · exact h
  · cases h

theorem lines_flat : ∀ xs : List Text, (∀ x ∈ xs, '\n' ∉ x ∧ x.getLast? ≠ some '\r') →
    Lines (xs.map (· ++ ['\n'])).flatten xs []
  | [], _ => .rest (by simp)
  | x :: xs, h => by
    have := Lines.line (h x (by simp)).1 ⟨⟨0, by simp⟩, (h x (by simp)).2⟩
      (lines_flat xs fun y hy => h y (by simp [hy]))
    simpa using this

/-- C70: lines that are printed, by any number of writes, are read back. -/
theorem lines_roundtrip (xs : List Text) (hx : ∀ x ∈ xs, '\n' ∉ x ∧ x.getLast? ≠ some '\r')
    (evs : List Ev) (he : text evs = (xs.map (· ++ ['\n'])).flatten) :
    ∃ N st, ∀ n, readAll .lines false (fun _ => true) n evs =
      if N < n then some (xs, st) else none := by
  obtain ⟨els, d, N, st, h1, h2, _, _, h5⟩ := read_elements .lines (by simp) false (fun _ => true) evs
  have e : els = xs := by
    refine elements_unique false .lines _ _ _ h1 ?_
    rw [he]
    cases xs with
    | nil => exact .nothing
    | cons x xs => exact .lines (by simp) (lines_flat _ hx) rfl
  rw [delivered_all h2, e] at h5
  exact ⟨N, st, h5⟩

/-- C70: and so is a text without carriage returns before newlines (with `-e`). -/
theorem whole_roundtrip (t : Text) (ht : t ≠ []) (hr : '\r' ∉ t) (evs : List Ev)
    (he : text evs = t) :
    ∃ N st, ∀ n, readAll .whole true (fun _ => true) n evs =
      if N < n then some ([t], st) else none := by
  obtain ⟨els, d, N, st, h1, h2, _, _, h5⟩ := read_elements .whole (by simp) true (fun _ => true) evs
  have key : ∀ {t ls r}, Lines t ls r → '\r' ∉ t → (ls.map (· ++ ['\n'])).flatten ++ r = t := by
    intro t ls r h
    induction h with
    | rest => intro _; simp
    | @line l l' cs ls r h1 h2 _ ih =>
      intro hr
      have hl : l' = l := by
        refine h2.unique ⟨⟨0, by simp⟩, fun e => hr ?_⟩
        simp [List.mem_of_getLast? e]
      have := ih (fun h => hr (by simp [h]))
      subst hl
      simp at this ⊢
      exact this
  have e : els = [t] := by
    rw [he] at h1
    generalize hx : true = ex at h1
    cases h1 with
    | nothing => exact absurd rfl ht
    | whole _ h _ => rw [key h hr]
    | wholeEnd _ h => subst hx; cases h
  rw [delivered_all h2, e] at h5
  exact ⟨N, st, h5⟩

theorem words_flat : ∀ xs : List Text, (∀ x ∈ xs, Word x) →
    Words (xs.map (· ++ ['\n'])).flatten xs
  | [], _ => .nil
  | x :: xs, h => by
    have := Words.word (h x (by simp)) (c := '\n') (by decide)
      (words_flat xs fun y hy => h y (by simp [hy]))
    simpa using this

/-- C70 (partial): words are, if writes are aligned. -/
theorem words_roundtrip_partial (xs : List Text) (hx : ∀ x ∈ xs, Word x) (evs : List Ev)
    (ha : Aligned evs) (he : text evs = (xs.map (· ++ ['\n'])).flatten) :
    ∃ N st, ∀ n, readAll .words false (fun _ => true) n evs =
      if N < n then some (xs, st) else none := by
  obtain ⟨els, d, N, st, h1, h2, _, _, h5⟩ := read_words_partial false (fun _ => true) evs ha
  have e : els = xs := by
    refine elements_unique false .words _ _ _ h1 ?_
    rw [he]
    have hw := words_flat xs hx
    generalize hT : (xs.map (· ++ ['\n'])).flatten = T at hw ⊢
    cases hl : T.getLast? with
    | none =>
      have := List.getLast?_eq_none_iff.1 hl
      subst this
      rw [hw.ofNil rfl]
      exact .nothing
    | some c => exact .words (by intro h; subst h; simp at hl) hw hl fun _ => rfl
  rw [delivered_all h2, e] at h5
  exact ⟨N, st, h5⟩

/-! ## Cases -/

example : readAll .lines false (fun _ => true) 10
    [.data "a b\r".toList, .block, .data "\n\nc".toList, .data "d".toList] =
      some (["a b".toList, [], "cd".toList], ⟨[], [], false, false⟩) := by decide +kernel

example : readAll .words true (fun _ => true) 10 [.data " a b".toList, .block, .data "c \n".toList] =
    some (["a".toList, "bc".toList, []], ⟨[], [], false, false⟩) := by decide +kernel

example : Aligned [.data " a b".toList, .block, .data "c \n".toList] := by
  intro a c b x y e h1 h2 h3
  simp only [chunks] at e
  cases a with
  | nil => simp at h1
  | cons a0 a =>
    injection e with e1 e2
    cases a with
    | nil =>
      injection e2 with e3 e4
      subst e3
      simp at h3
      subst h3
      decide
    | cons a1 a =>
      injection e2 with e3 e4
      simp at e4

/-- With `break` after the first line the rest is read and ignored. -/
example : readAll .lines false (fun d => d.length < 1) 10
    [.data "a\nb".toList, .block, .data "\nc\n".toList] =
      some (["a".toList], ⟨[], [], false, false⟩) := by decide +kernel

/-! ## What is false of the code -/

/-- A word at the end of the data that is available is glued to the first one that comes after
it, even though there is a whitespace between them. -/
theorem words_glued :
    readAll .words false (fun _ => true) 10 [.data "ab".toList, .block, .data " cd\n".toList] =
      some (["abcd".toList], ⟨[], [], false, false⟩) ∧
    Elements false .words (text [.data "ab".toList, .block, .data " cd\n".toList])
      ["ab".toList, "cd".toList] := by
  refine ⟨by decide +kernel, .words (c := '\n') (by decide) ?_ (by decide) fun _ => rfl⟩
  exact .word (w := "ab".toList) (c := ' ') (by unfold Word; decide) (by decide)
    (.word (w := "cd".toList) (c := '\n') (by unfold Word; decide) (by decide) .nil)

/-- So what is read depends on how the output arrives. -/
theorem words_depend :
    readAll .words false (fun _ => true) 10 [.data "ab cd\n".toList] =
      some (["ab".toList, "cd".toList], ⟨[], [], false, false⟩) := by decide +kernel

/-- The final blank element is lost as well. -/
theorem blank_lost :
    readAll .words true (fun _ => true) 10 [.data "ab".toList, .data "\n".toList] =
      some (["ab".toList], ⟨[], [], false, false⟩) ∧
    readAll .words true (fun _ => true) 10 [.data "ab\n".toList] =
      some (["ab".toList, []], ⟨[], [], false, false⟩) := by decide +kernel

end Verif.SetRead
