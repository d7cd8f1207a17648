import Verif.Make.Lemmas

namespace Verif.Make

/-- The items allowed after a state. -/
def Okay : St → List Item → Prop
  | _, [] => True
  | .begin, .path _ _ :: l => Okay .targets l
  | .targets, .path _ _ :: l => Okay .targets l
  | .prereqs, .path _ _ :: l => Okay .prereqs l
  | .targets, .colon :: l => Okay .prereqs l
  | _, _ => False

/-- The state after items. -/
def stAfter : St → List Item → St
  | s, [] => s
  | .begin, .path _ _ :: l => stAfter .targets l
  | s, .path _ _ :: l => stAfter s l
  | _, .colon :: l => stAfter .prereqs l

/-- The paths of items. -/
def outs : St → List Item → List (Ty × List Char)
  | _, [] => []
  | .prereqs, .path _ p :: l => (.prereq, p) :: outs .prereqs l
  | _, .path _ p :: l => (.target, p) :: outs .targets l
  | _, .colon :: l => outs .prereqs l

def Wr (is : List (Item × Nat)) : Prop :=
  ∀ w p k, (Item.path w p, k) ∈ is → Written w p ∧ p ≠ []

def ctext (c : Bool) : List Char := if c then ['\\'] else []

/-- The state a line ends in. -/
def lineEnd (s : St) (c : Bool) : St := if c then s else if s = .begin then .begin else .fin

theorem after_body {is : List (Item × Nat)} {c : Bool} (h : is = [] ∨ ∃ k is', is = (.colon, k) :: is') :
    After (body is ++ ctext c) := by
  rcases h with rfl | ⟨k, is', rfl⟩
  · cases c
    · left; rfl
    · right; left; rfl
  · right; right; right; simp [body, Item.text]

theorem follow_body {is : List (Item × Nat)} (c : Bool) (hw : Wr is) (hs : Separated is) :
    Follow (body is ++ ctext c) := by
  cases is with
  | nil =>
    cases c
    · left; rfl
    · right; left; rfl
  | cons i is =>
    obtain ⟨i, k⟩ := i
    cases i with
    | colon => right; right; left; simp [body, Item.text]
    | path w p =>
      right; right; right
      obtain ⟨h1, h2⟩ := hw w p k (by simp)
      refine ⟨w, p, List.replicate k ' ' ++ (body is ++ ctext c), by simp [body, Item.text], h1, h2, ?_⟩
      cases k with
      | succ k => right; right; left; simp [List.replicate_succ]
      | zero =>
        simp only [List.replicate_zero, List.nil_append]
        apply after_body
        cases is with
        | nil => exact Or.inl rfl
        | cons i' is =>
          obtain ⟨i', k'⟩ := i'
          cases i' with
          | colon => exact Or.inr ⟨_, _, rfl⟩
          | path w' p' => exact absurd hs.1 (by decide)

theorem sep_tail {i : Item × Nat} {is : List (Item × Nat)} (h : Separated (i :: is)) :
    Separated is := by
  obtain ⟨i, k⟩ := i
  cases is with
  | nil => trivial
  | cons j is =>
    obtain ⟨j, k'⟩ := j
    cases i <;> cases j
    · exact h.2
    · exact h
    · exact h
    · exact h

theorem body_cons_ne {i : Item × Nat} {is : List (Item × Nat)} (hw : Wr (i :: is)) (x : List Char) :
    body (i :: is) ++ x ≠ [] ∧ body (i :: is) ++ x ≠ ['\\'] := by
  obtain ⟨i, k⟩ := i
  cases i with
  | colon => simp [body, Item.text]
  | path w p =>
    obtain ⟨h1, h2⟩ := hw w p k (by simp)
    obtain ⟨-, -, h3, h4⟩ := written_head h1
    cases w with
    | nil => exact absurd rfl (h4 h2)
    | cons c w =>
      refine ⟨by simp [body, Item.text], ?_⟩
      intro h
      simp [body, Item.text] at h
      obtain ⟨rfl, h⟩ := h
      obtain ⟨d, r, e⟩ := h3 rfl
      simp at e
      subst e
      simp at h

theorem body_path_head {w p : List Char} {k : Nat} {is : List (Item × Nat)}
    (hw : Wr ((.path w p, k) :: is)) (x : List Char) :
    (body ((.path w p, k) :: is) ++ x).head? ≠ some ':' := by
  obtain ⟨h1, h2⟩ := hw w p k (by simp)
  obtain ⟨-, h3, -, h4⟩ := written_head h1
  cases w with
  | nil => exact absurd rfl (h4 h2)
  | cons c w => simpa [body, Item.text] using h3

/-- `next` given what `lowNext` returned, when there is no colon after. -/
theorem next_plain {s : St} {l r y : List Char} {e : Bool} (hs : s ≠ .fin)
    (hl : lowNext l = (r, e, y)) (hy : y.head? ≠ some ':')
    (he : e = true → s = .prereqs ∨ (s = .begin ∧ r = [])) :
    next s l = .ok (if e then lineEnd s false else if s = .begin ∧ r ≠ [] then .targets else s,
      if s = .prereqs then .prereq else .target, r, y) := by
  unfold next
  rw [if_neg hs, hl]
  simp only []
  cases e with
  | false =>
    simp only [Bool.false_eq_true, if_false]
    by_cases hb : s = .begin ∧ r ≠ []
    · rw [if_pos hb, if_pos hb]
      simp only []
      split
      · rename_i l'; simp at hy
      · rfl
    · rw [if_neg hb, if_neg hb]
      simp only []
      split
      · rename_i l'; simp at hy
      · rfl
  | true =>
    rcases he rfl with rfl | ⟨rfl, rfl⟩
    · simp [lineEnd]
      split
      · simp at hy
      · rfl
    · simp [lineEnd]
      split
      · simp at hy
      · rfl

theorem next_colon {s : St} {l r y : List Char} (hs : s ≠ .fin)
    (hl : lowNext l = (r, false, ':' :: y)) (ht : s = .targets ∨ (s = .begin ∧ r ≠ [])) :
    next s l = .ok (if y = [] then .fin else .prereqs, .target, r, y) := by
  unfold next
  rw [if_neg hs, hl]
  rcases ht with rfl | ⟨rfl, hr⟩
  · simp
  · simp [hr]

theorem parse_items (n : Nat) : ∀ (is : List (Item × Nat)) (s : St) (j : Nat) (c : Bool) (fuel : Nat),
    is.length ≤ n → is.length < fuel → s ≠ .fin → Wr is → Separated is → Okay s (is.map (·.1)) →
    (c = false → stAfter s (is.map (·.1)) = .prereqs ∨ (s = .begin ∧ is = [])) →
    parseLine fuel s (List.replicate j ' ' ++ (body is ++ ctext c)) =
      .ok (lineEnd (stAfter s (is.map (·.1))) c, outs s (is.map (·.1))) := by
  induction n with
  | zero =>
    intro is s j c fuel hn hf hs hw hsep hok hc
    have : is = [] := List.eq_nil_of_length_eq_zero (by omega)
    subst this
    cases fuel with
    | zero => simp at hf
    | succ fuel =>
      have hl := lowNext_none j (body [] ++ ctext c) (after_body (Or.inl rfl))
        (by cases c <;> simp [ctext, body])
      cases c with
      | true =>
        have hn := next_plain hs hl (by simp [leave, body, ctext]) (by simp [leave, body, ctext])
        rw [parseLine, hn]
        simp [leave, body, ctext, lineEnd, stAfter, outs]
      | false =>
        have hn := next_plain hs hl (by simp [leave, body, ctext]) (by
          intro _
          rcases hc rfl with h | h
          · exact Or.inl h
          · exact Or.inr ⟨h.1, rfl⟩)
        rw [parseLine, hn]
        simp [leave, body, ctext, stAfter, outs]
  | succ n ih =>
    intro is s j c fuel hn hf hs hw hsep hok hc
    cases is with
    | nil => exact ih [] s j c fuel (by simp) hf hs hw hsep hok hc
    | cons i is =>
      obtain ⟨i, k⟩ := i
      have hw' : Wr is := fun w p k h => hw w p k (List.mem_cons_of_mem _ h)
      have hsep' := sep_tail hsep
      cases fuel with
      | zero => simp at hf
      | succ fuel =>
        simp only [List.length_cons] at hn hf
        cases i with
        | colon =>
          -- the colon at the start
          cases s with
          | begin => exact absurd hok (by simp [Okay])
          | prereqs => exact absurd hok (by simp [Okay])
          | fin => exact absurd rfl hs
          | targets =>
            have hl := lowNext_none j (body ((.colon, k) :: is) ++ ctext c)
              (after_body (Or.inr ⟨k, is, rfl⟩)) (by simp [body, Item.text])
            have hle : leave (body ((.colon, k) :: is) ++ ctext c) =
                (false, ':' :: (List.replicate k ' ' ++ (body is ++ ctext c))) := by
              unfold leave
              rw [if_neg (body_cons_ne hw _).1, if_neg (body_cons_ne hw _).2]
              simp [body, Item.text]
            rw [hle] at hl
            have hx := next_colon (by decide) hl (Or.inl rfl)
            rw [parseLine, hx]
            simp only [if_true, List.nil_append]
            by_cases hy : List.replicate k ' ' ++ (body is ++ ctext c) = []
            · rw [if_pos hy, if_pos hy]
              simp only [List.append_eq_nil_iff] at hy
              obtain ⟨-, hb, hcc⟩ := hy
              have hc0 : c = false := by cases c <;> simp_all [ctext]
              have his : is = [] := by
                cases is with
                | nil => rfl
                | cons a b => exact absurd (by simpa using hb) (body_cons_ne hw' []).1
              subst hc0; subst his
              simp [lineEnd, stAfter, outs]
            · rw [if_neg hy, if_neg hy]
              rw [ih is .prereqs k c fuel (by omega) (by omega) (by decide) hw' hsep'
                (by simpa [Okay] using hok)
                (fun h => by
                  rcases hc h with h | h
                  · left; simpa [stAfter] using h
                  · exact absurd h.1 (by decide))]
              simp [stAfter, outs]
        | path w p =>
          obtain ⟨hwr, hp⟩ := hw w p k (by simp)
          have hfo := follow_body c hw' hsep'
          have hk : k = 0 → After (body is ++ ctext c) := by
            intro hk0
            apply after_body
            cases is with
            | nil => exact Or.inl rfl
            | cons i' is =>
              obtain ⟨i', k'⟩ := i'
              cases i' with
              | colon => exact Or.inr ⟨_, _, rfl⟩
              | path w' p' => exact absurd hsep.1 (by omega)
          have hl := lowNext_path hwr j k _ hfo hk hp
          have hbody : body ((.path w p, k) :: is) ++ ctext c =
              w ++ List.replicate k ' ' ++ (body is ++ ctext c) := by
            simp [body, Item.text]
          rw [hbody]
          cases is with
          | nil =>
            have hc' : c = false → s = .prereqs := by
              intro h
              rcases hc h with h | h
              · cases s <;> simp [stAfter] at h ⊢
              · exact absurd h.2 (by simp)
            have hx := next_plain hs hl
              (by cases c <;> simp [leave, body, ctext])
              (by
                intro he
                cases c with
                | true => simp [leave, body, ctext] at he
                | false => exact Or.inl (hc' rfl))
            rw [parseLine, hx]
            cases c with
            | true =>
              cases s <;> simp [leave, body, ctext, hp, lineEnd, stAfter, outs] at hs ⊢
            | false =>
              have := hc' rfl
              subst this
              simp [leave, body, ctext, hp, lineEnd, stAfter, outs]
          | cons i' is =>
            obtain ⟨i', k'⟩ := i'
            have hle : leave (body ((i', k') :: is) ++ ctext c) =
                (false, body ((i', k') :: is) ++ ctext c) := by
              unfold leave
              rw [if_neg (body_cons_ne hw' _).1, if_neg (body_cons_ne hw' _).2]
            rw [hle] at hl
            simp only [List.length_cons] at hn hf
            cases i' with
            | path w' p' =>
              have hx := next_plain hs hl (body_path_head hw' _) (by simp)
              rw [parseLine, hx]
              simp only [Bool.false_eq_true, if_false]
              rw [if_neg (body_cons_ne hw' _).1]
              have hih := ih ((.path w' p', k') :: is) (if s = .begin ∧ p ≠ [] then .targets else s) 0 c
                fuel (by simp; omega) (by simp; omega) (by cases s <;> simp [hp] at hs ⊢) hw' hsep'
                (by cases s <;> simp [hp, Okay] at hok ⊢ <;> exact hok)
                (fun h => by
                  rcases hc h with h | h
                  · left; cases s <;> simpa [stAfter, hp] using h
                  · exact absurd h.2 (by simp))
              simp only [List.replicate_zero, List.nil_append] at hih
              rw [hih]
              cases s <;> simp [stAfter, outs, hp] at hs ⊢
            | colon =>
              have ht : s = .targets ∨ (s = .begin ∧ p ≠ []) := by
                cases s with
                | begin => exact Or.inr ⟨rfl, hp⟩
                | targets => exact Or.inl rfl
                | prereqs => exact absurd hok (by simp [Okay])
                | fin => exact absurd rfl hs
              have hy0 : body ((.colon, k') :: is) ++ ctext c =
                  ':' :: (List.replicate k' ' ' ++ (body is ++ ctext c)) := by
                simp [body, Item.text]
              simp only [hy0] at hl ⊢
              have hx := next_colon hs hl ht
              rw [parseLine, hx]
              simp only []
              have hw'' : Wr is := fun w p k h => hw' w p k (List.mem_cons_of_mem _ h)
              by_cases hy : List.replicate k' ' ' ++ (body is ++ ctext c) = []
              · rw [if_pos hy, if_pos hy]
                simp only [List.append_eq_nil_iff] at hy
                obtain ⟨-, hb, hcc⟩ := hy
                have hc0 : c = false := by cases c <;> simp_all [ctext]
                have his : is = [] := by
                  cases is with
                  | nil => rfl
                  | cons a b => exact absurd (by simpa using hb) (body_cons_ne hw'' []).1
                subst hc0; subst his
                rcases ht with rfl | ⟨rfl, -⟩ <;> simp [lineEnd, stAfter, outs, hp]
              · rw [if_neg hy, if_neg hy]
                rw [ih is .prereqs k' c fuel (by omega) (by omega) (by decide) hw'' (sep_tail hsep')
                  (by rcases ht with rfl | ⟨rfl, -⟩ <;> simpa [Okay] using hok)
                  (fun h => by
                    rcases hc h with h | h
                    · left; rcases ht with rfl | ⟨rfl, -⟩ <;> simpa [stAfter] using h
                    · exact absurd h.2 (by simp))]
                rcases ht with rfl | ⟨rfl, -⟩ <;> simp [stAfter, outs, hp]

end Verif.Make
