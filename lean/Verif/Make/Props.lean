import Verif.Make.Inverse

/-! C29: parsing of make dependency declarations. -/

namespace Verif.Make

/-- What is reported for targets `ts` and prerequisites `ps`. -/
def reported (ts ps : List (List Char)) : List (Ty × List Char) :=
  ts.map (fun p => (.target, p)) ++ ps.map (fun p => (.prereq, p))

theorem lines_ok : ∀ (ls : List Line) (s : St) (rest : List (List Char)), s ≠ .fin → Continued ls →
    (∀ l ∈ ls, Separated l.items) → (∀ l ∈ ls, Wr l.items) →
    Okay s ((ls.flatMap (·.items)).map (·.1)) → stAfter s ((ls.flatMap (·.items)).map (·.1)) = .prereqs →
    parseLines s (ls.map Line.text ++ rest) = .ok (outs s ((ls.flatMap (·.items)).map (·.1)), rest) := by
  have okA : ∀ (a b : List Item) (s : St), Okay s (a ++ b) → Okay s a ∧ Okay (stAfter s a) b := by
    intro a
    induction a with
    | nil => intro b s h; cases s <;> exact ⟨trivial, h⟩
    | cons i a ih =>
      intro b s h
      cases i <;> cases s <;> simp [Okay] at h <;> exact ih b _ h
  have stA : ∀ (a b : List Item) (s : St), stAfter s (a ++ b) = stAfter (stAfter s a) b := by
    intro a
    induction a with
    | nil => intro b s; rfl
    | cons i a ih => intro b s; cases i <;> cases s <;> exact ih b _
  have outA : ∀ (a b : List Item) (s : St), Okay s (a ++ b) → outs s (a ++ b) = outs s a ++ outs (stAfter s a) b := by
    intro a
    induction a with
    | nil => intro b s _; simp [outs, stAfter]
    | cons i a ih =>
      intro b s h
      cases i <;> cases s <;> simp [Okay] at h <;> simp [outs, stAfter, ih b _ h]
  have stF : ∀ (a : List Item) (s : St), s ≠ .fin → stAfter s a ≠ .fin := by
    intro a
    induction a with
    | nil => intro s h; exact h
    | cons i a ih => intro s h; cases i <;> cases s <;> first | exact absurd rfl h | exact ih _ (by decide)
  have fuel : ∀ is : List (Item × Nat), Wr is → is.length ≤ (body is).length := by
    intro is
    induction is with
    | nil => intro _; simp
    | cons i is ih =>
      intro hw
      obtain ⟨i, k⟩ := i
      have := ih (fun w p k h => hw w p k (List.mem_cons_of_mem _ h))
      have h1 : 1 ≤ i.text.length := by
        cases i with
        | colon => simp [Item.text]
        | path w p =>
          obtain ⟨h1, h2⟩ := hw w p k (by simp)
          have := (written_head h1).2.2.2 h2
          cases w with
          | nil => exact absurd rfl this
          | cons a b => simp [Item.text]
      simp [body]; omega
  have line : ∀ (l : Line) (s : St), s ≠ .fin → Wr l.items → Separated l.items →
      Okay s (l.items.map (·.1)) →
      (l.cont = false → stAfter s (l.items.map (·.1)) = .prereqs ∨ (s = .begin ∧ l.items = [])) →
      parseLine (l.text.length + 1) s l.text =
        .ok (lineEnd (stAfter s (l.items.map (·.1))) l.cont, outs s (l.items.map (·.1))) := by
    intro l s hs hw hsep hok hc
    have : l.text = List.replicate l.lead ' ' ++ (body l.items ++ ctext l.cont) := by
      simp [Line.text, ctext]
    rw [this]
    refine parse_items _ l.items s l.lead l.cont _ (Nat.le_refl _) ?_ hs hw hsep hok hc
    have := fuel l.items hw
    simp; omega
  intro ls
  induction ls with
  | nil => intro s rest _ h; exact absurd h (by simp [Continued])
  | cons l ls ih =>
    intro s rest hs hcont hsep hw hok hst
    simp only [List.flatMap_cons, List.map_append] at hok hst ⊢
    obtain ⟨ok1, ok2⟩ := okA _ _ _ hok
    rw [stA] at hst
    rw [outA _ _ _ hok]
    rw [List.map_cons, List.cons_append, parseLines]
    cases ls with
    | nil =>
      have hc : l.cont = false := hcont
      simp only [List.flatMap_nil, List.map_nil, stAfter] at hst
      rw [line l s hs (hw l (by simp)) (hsep l (by simp)) ok1 (fun _ => Or.inl hst)]
      simp [hc, hst, lineEnd, outs]
    | cons l' ls =>
      obtain ⟨hc, hcont⟩ := hcont
      have hi := ih (stAfter s (l.items.map (·.1))) rest (stF _ _ hs) hcont
        (fun a h => hsep a (List.mem_cons_of_mem _ h)) (fun a h => hw a (List.mem_cons_of_mem _ h)) ok2 hst
      rw [line l s hs (hw l (by simp)) (hsep l (by simp)) ok1 (by simp [hc])]
      simp only [hc, lineEnd, if_true]
      rw [if_neg (stF _ _ hs), hi]

theorem items_targets : ∀ (is : List Item) (ts : List (List Char)) (s : St),
    is.map (fun | .path _ p => some p | .colon => none) = ts.map some → s = .begin ∨ s = .targets →
    ∀ is2, (ts ≠ [] ∨ s = .targets) → (Okay s (is ++ .colon :: is2) ↔ Okay .prereqs is2) ∧
      stAfter s (is ++ .colon :: is2) = stAfter .prereqs is2 ∧
      outs s (is ++ .colon :: is2) = ts.map (fun p => (.target, p)) ++ outs .prereqs is2 := by
  intro is
  induction is with
  | nil =>
    intro ts s h hs is2 hne
    have : ts = [] := by cases ts <;> simp at h ⊢
    subst this
    rcases hne with h | rfl
    · exact absurd rfl h
    · simp [Okay, stAfter, outs]
  | cons i is ih =>
    intro ts s h hs is2 hne
    cases ts with
    | nil => simp at h
    | cons t ts =>
      cases i with
      | colon => simp at h
      | path w p =>
        simp at h
        obtain ⟨rfl, h⟩ := h
        obtain ⟨h1, h2, h3⟩ := ih ts .targets h (Or.inr rfl) is2 (Or.inr rfl)
        rcases hs with rfl | rfl <;> simp [Okay, stAfter, outs, h1, h2, h3]

theorem items_prereqs : ∀ (is : List Item) (ps : List (List Char)),
    is.map (fun | .path _ p => some p | .colon => none) = ps.map some →
    Okay .prereqs is ∧ stAfter .prereqs is = .prereqs ∧
      outs .prereqs is = ps.map (fun p => (.prereq, p)) := by
  intro is
  induction is with
  | nil =>
    intro ps h
    have : ps = [] := by cases ps <;> simp at h ⊢
    subst this
    simp [Okay, stAfter, outs]
  | cons i is ih =>
    intro ps h
    cases ps with
    | nil => simp at h
    | cons t ps =>
      cases i with
      | colon => simp at h
      | path w p =>
        simp at h
        obtain ⟨rfl, h⟩ := h
        simpa [Okay, stAfter, outs] using ih ps h

/-- A blank line (possibly continued, which has no effect before the declaration). -/
def blank (b : Nat × Bool) : List Char := List.replicate b.1 ' ' ++ (if b.2 then ['\\'] else [])

/-- **C29.** However a declaration is written and laid out over lines (after any blank lines), parsing
reports exactly its targets and its prerequisites, in order, and stops right after its last line. -/
theorem declaration_parsed {ls : List Line} {ts ps : List (List Char)} (h : Declares ls ts ps)
    (blanks : List (Nat × Bool)) (rest : List (List Char)) :
    parseLines .begin (blanks.map blank ++ ls.map Line.text ++ rest) =
      .ok (reported ts ps, rest) := by
  obtain ⟨hc, hsep, hw, ⟨is1, is2, e, h1, h2⟩, ht⟩ := h
  induction blanks with
  | nil =>
    obtain ⟨a1, a2, a3⟩ := items_targets is1 ts .begin h1 (Or.inl rfl) is2 (Or.inl ht)
    obtain ⟨b1, b2, b3⟩ := items_prereqs is2 ps h2
    have := lines_ok ls .begin rest (by decide) hc hsep (fun l hl w p k hm => hw l hl w p k hm)
      (by rw [e]; exact a1.2 b1) (by rw [e, a2, b2])
    simp only [List.map_nil, List.nil_append]
    rw [this, e, a3, b3]
    rfl
  | cons k blanks ih =>
    rw [List.map_cons, List.cons_append, List.cons_append, parseLines]
    have := parse_items 0 [] .begin k.1 k.2 ((blank k).length + 1) (by simp) (by simp)
      (by decide) wr_nil trivial trivial (fun _ => Or.inr ⟨rfl, rfl⟩)
    have hb : blank k = List.replicate k.1 ' ' ++ (body [] ++ ctext k.2) := by simp [blank, body, ctext]
    rw [← hb] at this
    rw [this]
    have he : lineEnd (stAfter .begin (([] : List (Item × Nat)).map (·.1))) k.2 = .begin := by
      cases k.2 <;> rfl
    simp only [he]
    rw [if_neg (by decide), ih]
    simp [outs]

/-- **C29.** Every path can be written. -/
theorem every_path_written (p : List Char) : ∃ w, Written w p := by
  induction p with
  | nil => exact ⟨[], .nil⟩
  | cons c p ih =>
    obtain ⟨w, hw⟩ := ih
    by_cases h : c ∈ escapable
    · exact ⟨_, .escaped h hw⟩
    · by_cases hd : c = '$'
      · subst hd; exact ⟨_, .dollars hw⟩
      · refine ⟨_, .plain ?_ hw⟩
        simp [escapable] at h ⊢
        exact ⟨h.2.1, h.2.2.1, h.1, hd⟩

/-- **C29.** A text stands for one path only. -/
theorem written_unique {w p q : List Char} (hp : Written w p) (hq : Written w q) : p = q := by
  have h1 := scan_written hp [] (Or.inl rfl)
  have h2 := scan_written hq [] (Or.inl rfl)
  rw [h1] at h2
  exact (Prod.mk.inj h2).1

theorem lineEnd_fin {s : St} {c : Bool} (hs : s ≠ .fin) (h : lineEnd s c = .fin) :
    c = false ∧ s ≠ .begin := by
  cases c with
  | true => exact absurd h hs
  | false =>
    refine ⟨rfl, ?_⟩
    rintro rfl
    cases h

theorem stAfter_ne_fin : ∀ (a : List Item) (s : St), s ≠ .fin → stAfter s a ≠ .fin := by
  intro a
  induction a with
  | nil => intro s h; exact h
  | cons i a ih => intro s h; cases i <;> cases s <;> first | exact absurd rfl h | exact ih _ (by decide)

theorem okay_split : ∀ (is : List Item) (s : St), Okay s is → stAfter s is = .prereqs → s ≠ .prereqs →
    ∃ (is1 is2 : List Item) (ts ps : List (List Char)), is = is1 ++ .colon :: is2 ∧
      is1.map (fun | .path _ p => some p | .colon => none) = ts.map some ∧
      is2.map (fun | .path _ p => some p | .colon => none) = ps.map some ∧ (s = .begin → ts ≠ []) := by
  have pre : ∀ is : List Item, Okay .prereqs is → ∃ ps : List (List Char),
      is.map (fun | .path _ p => some p | .colon => none) = ps.map some := by
    intro is
    induction is with
    | nil => intro _; exact ⟨[], rfl⟩
    | cons i is ih =>
      intro h
      cases i with
      | colon => exact absurd h (by simp [Okay])
      | path w p =>
        obtain ⟨ps, e⟩ := ih (by simpa [Okay] using h)
        exact ⟨p :: ps, by simp [e]⟩
  intro is
  induction is with
  | nil => intro s _ h1 h2; exact absurd h1 h2
  | cons i is ih =>
    intro s hok hst hs
    cases i with
    | path w p =>
      have h1 : Okay .targets is ∧ stAfter .targets is = .prereqs := by
        cases s with
        | prereqs => exact absurd rfl hs
        | fin => exact absurd hok (by simp [Okay])
        | begin => simpa [Okay, stAfter] using ⟨hok, hst⟩
        | targets => simpa [Okay, stAfter] using ⟨hok, hst⟩
      obtain ⟨is1, is2, ts, ps, rfl, e1, e2, -⟩ := ih .targets h1.1 h1.2 (by decide)
      exact ⟨.path w p :: is1, is2, p :: ts, ps, rfl, by simp [e1], e2, by simp⟩
    | colon =>
      cases s with
      | begin => exact absurd hok (by simp [Okay])
      | prereqs => exact absurd rfl hs
      | fin => exact absurd hok (by simp [Okay])
      | targets =>
        obtain ⟨ps, e⟩ := pre is (by simpa [Okay] using hok)
        exact ⟨[], is, [], ps, rfl, rfl, e, by simp⟩

/-- **C29.** Only declarations are accepted: if parsing of lines (with no NUL character) succeeds, then
these are, after blank lines, a declaration of what was reported. Every other text is an error. -/
theorem only_declarations_parsed {text rest : List (List Char)} {out : List (Ty × List Char)}
    (hz : ∀ l ∈ text, '\x00' ∉ l) (h : parseLines .begin text = .ok (out, rest)) :
    ∃ (blanks : List (Nat × Bool)) (ls : List Line) (ts ps : List (List Char)), text = blanks.map blank ++ ls.map Line.text ++ rest ∧
      Declares ls ts ps ∧ out = reported ts ps := by
  -- lines after the first item
  have main : ∀ (text : List (List Char)) (s : St) (out : List (Ty × List Char)) (rest : List (List Char)),
      s ≠ .fin → (∀ l ∈ text, '\x00' ∉ l) → parseLines s text = .ok (out, rest) →
      ∃ (blanks : List (Nat × Bool)) (ls : List Line),
        text = blanks.map blank ++ ls.map Line.text ++ rest ∧
        Continued ls ∧ (∀ l ∈ ls, Separated l.items) ∧ (∀ l ∈ ls, Wr l.items) ∧
        Okay s ((ls.flatMap (·.items)).map (·.1)) ∧
        stAfter s ((ls.flatMap (·.items)).map (·.1)) = .prereqs ∧
        (s ≠ .begin → blanks = []) := by
    have okA : ∀ (a b : List Item) (s : St), Okay s a → Okay (stAfter s a) b → Okay s (a ++ b) := by
      intro a
      induction a with
      | nil => intro b s _ h; exact h
      | cons i a ih =>
        intro b s h h2
        cases i <;> cases s <;> simp [Okay] at h <;> exact ih b _ h h2
    have stA : ∀ (a b : List Item) (s : St), stAfter s (a ++ b) = stAfter (stAfter s a) b := by
      intro a
      induction a with
      | nil => intro b s; rfl
      | cons i a ih => intro b s; cases i <;> cases s <;> exact ih b _
    have stB : ∀ (a : List Item) (s : St), s ≠ .begin → stAfter s a ≠ .begin := by
      intro a
      induction a with
      | nil => intro s h; exact h
      | cons i a ih => intro s h; cases i <;> cases s <;> first | exact absurd rfl h | exact ih _ (by decide)
    intro text
    induction text with
    | nil => intro s out rest _ _ h; cases h
    | cons l text ih =>
      intro s out rest hs hz h
      rw [parseLines] at h
      cases hp : parseLine (l.length + 1) s l with
      | error b => rw [hp] at h; cases h
      | ok q =>
        obtain ⟨s1, out1⟩ := q
        rw [hp] at h
        simp only [] at h
        obtain ⟨j, is, c, e, hwr, hsep, hok, hc, rfl, -⟩ := parse_inv _ _ _ _ _ (hz l (by simp)) hp
        have etext : l = (Line.mk j is c).text := by rw [e]; simp [Line.text, ctext]
        have hz' : ∀ l ∈ text, '\x00' ∉ l := fun a ha => hz a (List.mem_cons_of_mem _ ha)
        by_cases hf : lineEnd (stAfter s (is.map (·.1))) c = .fin
        · rw [if_pos hf] at h
          simp at h
          obtain ⟨-, rfl⟩ := h
          obtain ⟨rfl, hnb⟩ := lineEnd_fin (stAfter_ne_fin _ _ hs) hf
          refine ⟨[], [⟨j, is, false⟩], by simp [← etext], rfl, ?_, ?_, by simpa using hok, ?_, fun _ => rfl⟩
          · intro l hl; simp at hl; subst hl; exact hsep
          · intro l hl; simp at hl; subst hl; exact hwr
          · rcases hc rfl with h | ⟨rfl, rfl⟩
            · simpa using h
            · exact absurd rfl hnb
        · rw [if_neg hf] at h
          cases hp2 : parseLines (lineEnd (stAfter s (is.map (·.1))) c) text with
          | error b => rw [hp2] at h; cases h
          | ok q =>
            obtain ⟨out2, rest2⟩ := q
            rw [hp2] at h
            simp at h
            obtain ⟨-, rfl⟩ := h
            obtain ⟨blanks, ls, et, h1, h2, h3, h4, h5, h6⟩ := ih _ _ _ hf hz' hp2
            cases c with
            | true =>
              simp only [lineEnd, if_true] at h4 h5 h6 hf
              by_cases hbl : stAfter s (is.map (·.1)) = .begin
              · have : s = .begin ∧ is = [] := by
                  cases is with
                  | nil => exact ⟨hbl, rfl⟩
                  | cons i is =>
                    obtain ⟨i, k⟩ := i
                    have h1 := stB (is.map (·.1)) .targets (by decide)
                    have h2 := stB (is.map (·.1)) .prereqs (by decide)
                    have h3 := stB (is.map (·.1)) .fin (by decide)
                    rw [List.map_cons] at hbl
                    cases i <;> cases s <;> rw [stAfter] at hbl <;> first
                      | exact absurd hbl h1
                      | exact absurd hbl h2
                      | exact absurd hbl h3
                      | simp
                obtain ⟨rfl, rfl⟩ := this
                refine ⟨(j, true) :: blanks, ls, ?_, h1, h2, h3, by simpa [stAfter] using h4,
                  by simpa [stAfter] using h5, by simp⟩
                simp [e, et, body, ctext, blank]
              · have := h6 hbl
                subst this
                refine ⟨[], ⟨j, is, true⟩ :: ls, by simp [← etext, et], ?_, ?_, ?_, ?_, ?_, fun _ => rfl⟩
                · cases ls with
                  | nil => exact absurd h1 (by simp [Continued])
                  | cons a b => exact ⟨rfl, h1⟩
                · intro l hl
                  rcases List.mem_cons.1 hl with rfl | hl
                  · exact hsep
                  · exact h2 l hl
                · intro l hl
                  rcases List.mem_cons.1 hl with rfl | hl
                  · exact hwr
                  · exact h3 l hl
                · simp only [List.flatMap_cons, List.map_append]; exact okA _ _ _ hok h4
                · simp only [List.flatMap_cons, List.map_append]; rw [stA]; exact h5
            | false =>
              have hsb : stAfter s (is.map (·.1)) = .begin := by
                simp only [lineEnd] at hf
                by_cases hb : stAfter s (is.map (·.1)) = .begin
                · exact hb
                · simp [hb] at hf
              rcases hc rfl with h | ⟨rfl, rfl⟩
              · rw [h] at hsb; cases hsb
              · simp [lineEnd, stAfter] at h4 h5 h6
                refine ⟨(j, false) :: blanks, ls, ?_, h1, h2, h3, by simpa using h4, by simpa using h5, by simp⟩
                simp [e, et, body, ctext, blank]
  obtain ⟨blanks, ls, et, h1, h2, h3, h4, h5, -⟩ := main text .begin out rest (by decide) hz h
  obtain ⟨is1, is2, ts, ps, ei, e1, e2, hts⟩ := okay_split _ _ h4 h5 (by decide)
  have hd : Declares ls ts ps :=
    ⟨h1, h2, fun l hl w p k hm => h3 l hl w p k hm, ⟨is1, is2, ei, e1, e2⟩, hts rfl⟩
  refine ⟨blanks, ls, ts, ps, et, hd, ?_⟩
  have := declaration_parsed hd blanks rest
  rw [← et, h] at this
  simp at this
  exact this

/-- **C29.** Every text is either parsed or diagnosed: the loop over a line ends and `next` is never
called after the end. -/
theorem always_ends (text : List (List Char)) :
    parseLines .begin text ≠ .error .stuck ∧ parseLines .begin text ≠ .error .assertFailed := by
  have skipLen : ∀ l : List Char, (skip l).length ≤ l.length := by
    intro l
    induction l with
    | nil => simp [skip]
    | cons c l ih => rw [skip]; split <;> simp <;> omega
  have scanLen : ∀ (n : Nat) (l : List Char), l.length ≤ n →
      (scan l).2.length ≤ l.length ∧ ((scan l).2.length = l.length → After l) := by
    intro n
    induction n with
    | zero =>
      intro l hl
      have : l = [] := List.eq_nil_of_length_eq_zero (by omega)
      subst this
      exact ⟨by simp [scan], fun _ => Or.inl rfl⟩
    | succ n ih =>
      intro l hl
      cases l with
      | nil => exact ⟨by simp [scan], fun _ => Or.inl rfl⟩
      | cons c l =>
        cases l with
        | nil =>
          rw [scan]
          by_cases h : c = ' ' ∨ c = ':' ∨ c = '\\'
          · rw [if_pos h]
            refine ⟨by simp, fun _ => ?_⟩
            rcases h with rfl | rfl | rfl
            · exact Or.inr (Or.inr (Or.inl rfl))
            · exact Or.inr (Or.inr (Or.inr rfl))
            · exact Or.inr (Or.inl rfl)
          · rw [if_neg h]; simp
        | cons d l =>
          simp only [List.length_cons] at hl
          have i1 := (ih (d :: l) (by simp; omega)).1
          have i2 := (ih l (by omega)).1
          simp only [List.length_cons] at i1
          rw [scan]
          by_cases h1 : c = ' ' ∨ c = ':'
          · rw [if_pos h1]
            refine ⟨by simp, fun _ => ?_⟩
            rcases h1 with rfl | rfl
            · exact Or.inr (Or.inr (Or.inl rfl))
            · exact Or.inr (Or.inr (Or.inr rfl))
          · rw [if_neg h1]
            by_cases h2 : c = '\\'
            · rw [if_pos h2]
              by_cases h3 : found d = true
              · rw [if_pos h3]; simp only [List.length_cons]; exact ⟨by omega, by omega⟩
              · rw [if_neg h3]; simp only [List.length_cons]; exact ⟨by omega, by omega⟩
            · rw [if_neg h2]
              by_cases h3 : c = '$'
              · rw [if_pos h3]
                by_cases h4 : d = '$'
                · rw [if_pos h4]; simp only [List.length_cons]; exact ⟨by omega, by omega⟩
                · rw [if_neg h4]; simp only [List.length_cons]; exact ⟨by omega, by omega⟩
              · rw [if_neg h3]; simp only [List.length_cons]; exact ⟨by omega, by omega⟩
  have leaveLen : ∀ y : List Char, (leave y).2.length ≤ y.length := by
    intro y; unfold leave; split
    · simp
    · split <;> simp
  have prog : ∀ {s s' t l r l'}, next s l = .ok (s', t, r, l') →
      (l' = [] ∨ (l'.length < l.length ∧ s' ≠ .fin)) := by
    intro s s' t l r l' h
    obtain ⟨hs, -, e, y, hl, hc⟩ := next_inv h
    rw [lowNext_eq] at hl
    simp only [Prod.mk.injEq] at hl
    obtain ⟨-, he, hy⟩ := hl
    have k1 := skipLen l
    obtain ⟨k2, k3⟩ := scanLen _ (skip l) (Nat.le_refl _)
    have k4 := skipLen (scan (skip l)).2
    have k5 := leaveLen (skip (scan (skip l)).2)
    rw [hy] at k5
    rcases hc with ⟨rfl, -, rfl, -⟩ | ⟨rfl, hyc, rfl, rfl⟩ | ⟨rfl, -, rfl⟩
    · left
      rw [← hy]
      unfold leave at he ⊢
      split
      · rfl
      · split
        · rfl
        · rename_i h1 h2; rw [if_neg h1, if_neg h2] at he; cases he
    · by_cases hn : l' = []
      · exact Or.inl hn
      · right
        refine ⟨?_, by cases s <;> first | exact absurd rfl hs | (split <;> decide)⟩
        apply Nat.lt_of_le_of_ne (by omega)
        intro heq
        have e1 : (scan (skip l)).2.length = (skip l).length := by omega
        have ha := k3 e1
        obtain ⟨j, ej, hj⟩ := skip_inv l
        have e2 : scan (skip l) = ([], skip l) := scan_after ha
        rw [e2] at hy k4
        simp only [] at hy k4
        rw [skip_of_head hj] at hy
        rcases ha with h | h | h | h
        · rw [h] at hy; exact hn (by rw [← hy]; rfl)
        · rw [h] at hy; exact hn (by rw [← hy]; rfl)
        · exact hj h
        · have : leave (skip l) = (false, skip l) := by
            unfold leave
            rw [if_neg (by intro hh; rw [hh] at h; cases h), if_neg (by intro hh; rw [hh] at h; cases h)]
          rw [this] at hy
          simp only [] at hy
          rw [← hy] at hyc
          exact hyc h
    · by_cases hn : l' = []
      · exact Or.inl hn
      · right
        simp only [List.length_cons] at k5
        exact ⟨by omega, by rw [if_neg hn]; decide⟩
  have nextBad : ∀ {s l b}, s ≠ .fin → next s l = .error b → b ≠ .stuck ∧ b ≠ .assertFailed := by
    intro s l b hs h
    unfold next at h
    rw [if_neg hs] at h
    simp only [] at h
    split at h
    · rename_i b' hb
      simp at h; subst h
      split at hb
      · split at hb
        · cases hb
        · split at hb
          · cases hb; exact ⟨by decide, by decide⟩
          · cases hb
      · split at hb <;> cases hb
    · split at h
      · split at h <;> cases h <;> exact ⟨by decide, by decide⟩
      · cases h
  have line : ∀ (fuel : Nat) (s : St) (l : List Char) (b : Bad), s ≠ .fin → l.length < fuel →
      parseLine fuel s l = .error b → b ≠ .stuck ∧ b ≠ .assertFailed := by
    intro fuel
    induction fuel with
    | zero => intro s l b _ h; omega
    | succ fuel ih =>
      intro s l b hs hf h
      rw [parseLine] at h
      cases hn : next s l with
      | error b' =>
        rw [hn] at h
        simp at h; subst h
        exact nextBad hs hn
      | ok q =>
        obtain ⟨s1, t, r, l1⟩ := q
        rw [hn] at h
        simp only [] at h
        rcases prog hn with rfl | ⟨hlt, hs1⟩
        · simp at h
        · by_cases hl1 : l1 = []
          · rw [if_pos hl1] at h; cases h
          · rw [if_neg hl1] at h
            cases hp : parseLine fuel s1 l1 with
            | error b' =>
              rw [hp] at h
              simp at h; subst h
              exact ih s1 l1 b' hs1 (by omega) hp
            | ok q => rw [hp] at h; cases h
  have main : ∀ (text : List (List Char)) (s : St) (b : Bad), s ≠ .fin → parseLines s text = .error b →
      b ≠ .stuck ∧ b ≠ .assertFailed := by
    intro text
    induction text with
    | nil => intro s b _ h; cases h; exact ⟨by decide, by decide⟩
    | cons l text ih =>
      intro s b hs h
      rw [parseLines] at h
      cases hp : parseLine (l.length + 1) s l with
      | error b' => rw [hp] at h; simp at h; subst h; exact line _ _ _ _ hs (by omega) hp
      | ok q =>
        obtain ⟨s1, o1⟩ := q
        rw [hp] at h
        simp only [] at h
        by_cases hf : s1 = .fin
        · rw [if_pos hf] at h; cases h
        · rw [if_neg hf] at h
          cases hp2 : parseLines s1 text with
          | error b' => rw [hp2] at h; simp at h; subst h; exact ih _ _ hf hp2
          | ok q => rw [hp2] at h; cases h
  exact ⟨fun h => (main _ _ _ (by decide) h).1 rfl, fun h => (main _ _ _ (by decide) h).2 rfl⟩

/-! ## Concrete cases -/

/-- ` a\ b \` / `c$$:\` / `  x\y \#z` : targets `a b` and `c$`, prerequisites `x\y` and `#z`. -/
def exLines : List Line :=
  [⟨1, [(.path "a\\ b".toList "a b".toList, 1)], true⟩,
   ⟨0, [(.path "c$$".toList "c$".toList, 0), (.colon, 0)], true⟩,
   ⟨2, [(.path "x\\y".toList "x\\y".toList, 1), (.path "\\#z".toList "#z".toList, 0)], false⟩]

example : exLines.map Line.text =
    [" a\\ b \\".toList, "c$$:\\".toList, "  x\\y \\#z".toList] := by decide

theorem exDeclares : Declares exLines ["a b".toList, "c$".toList] ["x\\y".toList, "#z".toList] where
  continued := ⟨rfl, rfl, rfl⟩
  separated := by
    intro l hl
    simp [exLines] at hl
    rcases hl with rfl | rfl | rfl <;> simp [Separated]
  written := by
    intro l hl w p k hm
    simp [exLines] at hl
    rcases hl with rfl | rfl | rfl
    · simp at hm; obtain ⟨⟨rfl, rfl⟩, -⟩ := hm
      exact ⟨.plain (by decide) (.escaped (by decide) (.plain (by decide) .nil)), by decide⟩
    · simp at hm; obtain ⟨⟨rfl, rfl⟩, -⟩ := hm
      exact ⟨.plain (by decide) (.dollars .nil), by decide⟩
    · simp at hm
      rcases hm with ⟨⟨rfl, rfl⟩, -⟩ | ⟨⟨rfl, rfl⟩, -⟩
      · exact ⟨.plain (by decide) (.backslash (by decide) (by decide) (.plain (by decide) .nil)), by decide⟩
      · exact ⟨.escaped (by decide) (.plain (by decide) .nil), by decide⟩
  items := ⟨[.path "a\\ b".toList "a b".toList, .path "c$$".toList "c$".toList],
    [.path "x\\y".toList "x\\y".toList, .path "\\#z".toList "#z".toList], by decide, by decide, by decide⟩
  targets := by simp

example : parseLines .begin ([] :: exLines.map Line.text ++ ["next: decl".toList]) =
    .ok (reported ["a b".toList, "c$".toList] ["x\\y".toList, "#z".toList], ["next: decl".toList]) :=
  declaration_parsed exDeclares [(0, false)] _

/-- Rejected texts. -/
example : parseLines .begin ["a b".toList] = .error .endBeforeColon := by rfl
example : parseLines .begin [": b".toList] = .error .colonBeforeTarget := by rfl
example : parseLines .begin ["a: b : c".toList] = .error .colonAfterPrereq := by rfl
example : parseLines .begin ["a: b \\".toList] = .error .incomplete := by rfl

/-- The hypothesis on NUL is needed: the search for an escapable character also finds the terminator,
so a backslash before a NUL is dropped. -/
theorem nul_is_escapable : parseLines .begin [['a', ':', '\\', '\x00']] =
    .ok ([(.target, ['a']), (.prereq, ['\x00'])], []) := by rfl

end Verif.Make
