import Verif.CcLex.Main

/-!
# C and C++ tokens: the model does not run out of steps
-/

namespace Verif.CcLex

theorem skip_steps (nl : Bool) (s : Str) : ∀ m f l, skip nl m f l s ≠ .error .steps := by
  induction s with
  | nil => intro m f l; cases m <;> simp [skip]
  | cons c r ih =>
    intro m f l
    cases m with
    | code =>
      unfold skip
      split
      · split
        · exact ih _ _ _
        · simp
      · split
        · exact ih _ _ _
        · split
          · exact ih _ _ _
          · split
            · exact ih _ _ _
            · simp
    | line =>
      unfold skip
      split
      · split
        · exact ih _ _ _
        · simp
      · exact ih _ _ _
    | opening => unfold skip; exact ih _ _ _
    | block =>
      unfold skip
      split
      · exact ih _ _ _
      · split <;> exact ih _ _ _
    | closing => unfold skip; exact ih _ _ _

theorem quoted_steps (q : Char) (k : Kind) (p r : Str) : quoted q k p r ≠ .error .steps := by
  unfold quoted
  split <;> simp

theorem literalToken_steps (raw : Bool) (p : Str) (q : Char) (r : Str) : literalToken raw p q r ≠ .error .steps := by
  unfold literalToken
  split
  · exact quoted_steps _ _ _ _
  · split
    · unfold rawString
      split
      · simp
      · split <;> simp
    · exact quoted_steps _ _ _ _

theorem identifier_steps (c : Char) (r : Str) : identifier c r ≠ .error .steps := by
  unfold identifier
  dsimp only
  split
  · simp
  · split
    · exact literalToken_steps _ _ _ _
    · simp

theorem ok_steps (x : Lexed) : (Except.ok x : Except Err Lexed) ≠ .error .steps := by
  intro h; cases h

theorem ite_steps {p : Prop} [Decidable p] {a b : Except Err Lexed} (ha : a ≠ .error .steps)
    (hb : b ≠ .error .steps) : (if p then a else b) ≠ .error .steps := by
  by_cases h : p
  · rw [if_pos h]; exact ha
  · rw [if_neg h]; exact hb

theorem lexeme_steps (c : Char) (r : Str) : lexeme c r ≠ .error .steps := by
  unfold lexeme
  refine ite_steps (ok_steps _) (ite_steps (ok_steps _) (ite_steps (ok_steps _) (ite_steps (ok_steps _)
    (ite_steps ?_ ?_))))
  · cases r with
    | nil => exact ok_steps _
    | cons p r => exact ite_steps (ok_steps _) (ite_steps (ok_steps _) (ite_steps (ok_steps _) (ok_steps _)))
  refine ite_steps (ite_steps (ok_steps _) (ok_steps _)) (ite_steps (ite_steps (ite_steps (ok_steps _) (ok_steps _))
    (ite_steps (ok_steps _) (ok_steps _))) ?_)
  refine ite_steps (ite_steps (ok_steps _) (ite_steps (ite_steps (ok_steps _) (ok_steps _)) (ok_steps _))) ?_
  refine ite_steps (ite_steps (ok_steps _) (ok_steps _)) (ite_steps (ite_steps (ok_steps _) (ok_steps _)) ?_)
  exact ite_steps (ok_steps _) (ite_steps (identifier_steps _ _) (ite_steps (literalToken_steps _ _ _ _) (ok_steps _)))

theorem nested_steps (s : St) (c : Char) (r : Str) : nested s c r ≠ .error .steps := by
  unfold nested
  split
  · rename_i e h
    intro he
    injection he with he
    exact lexeme_steps c r (he ▸ h)
  · simp

theorem args_steps (n : Nat) : ∀ s : St, s.inp.length < n → args n s ≠ .error .steps := by
  induction n with
  | zero => intro s h; exact absurd h (Nat.not_lt_zero _)
  | succ n ih =>
    intro s h
    unfold args
    split
    · rename_i e he
      intro h'
      injection h' with h'
      exact skip_steps _ _ _ _ _ (h' ▸ he)
    · simp
    · rename_i f l c r he
      obtain ⟨k, b, hg, -, -, -⟩ := skip_iff.1 he
      have h1 := gap_length hg
      split
      · simp
      · split
        · rename_i e hn
          intro h'
          injection h' with h'
          exact nested_steps _ _ _ (h' ▸ hn)
        · rename_i t s' hn
          apply ih
          obtain ⟨hl, rfl⟩ := nested_iff.1 hn
          obtain ⟨e, hne⟩ := hl.split
          have h2 := congrArg List.length e
          rw [List.length_append] at h2
          have h3 : 0 < t.text.length := List.length_pos_iff.2 hne
          show t.rest.length < n
          omega

theorem fileName_steps (s : Str) : ∀ e, fileName e s ≠ .error .steps := by
  induction s with
  | nil => intro e; simp [fileName]
  | cons c r ih =>
    have hm : ∀ e, (fileName e r).map (fun x : Str × Str => (c :: x.1, x.2)) ≠ .error .steps := by
      intro e h
      cases h1 : fileName e r with
      | error x =>
        rw [h1] at h
        injection h with h
        exact ih e (h ▸ h1)
      | ok x => rw [h1] at h; cases h
    intro e
    unfold fileName
    split
    · simp
    · split
      · split
        · exact hm _
        · simp
      · split
        · exact ih _
        · split
          · simp
          · exact hm _

theorem switch_steps (f : File) (s : Str) : switch f s ≠ .error .steps := by
  unfold switch
  repeat' split
  all_goals simp

theorem lineDirective_steps (s : St) : lineDirective s ≠ .error .steps := by
  unfold lineDirective
  split
  · simp
  · split
    · rename_i e he
      intro h'
      injection h' with h'
      exact skip_steps _ _ _ _ _ (h' ▸ he)
    · simp
    · split
      · split
        · rename_i e he
          intro h'
          injection h' with h'
          exact fileName_steps _ _ (h' ▸ he)
        · split
          · rename_i e he
            intro h'
            injection h' with h'
            exact switch_steps _ _ (h' ▸ he)
          · simp
      · simp

theorem directive_steps (pre : Bool) (s : St) : directive pre s ≠ .error .steps := by
  unfold directive
  split
  · rename_i e he
    intro h'
    injection h' with h'
    exact skip_steps _ _ _ _ _ (h' ▸ he)
  · simp
  · split
    · simp
    · split
      · split
        · rename_i e he
          intro h'
          injection h' with h'
          exact lineDirective_steps _ (h' ▸ he)
        · exact args_steps _ _ (Nat.lt_succ_self _)
      · split
        · rename_i e he
          intro h'
          injection h' with h'
          exact nested_steps _ _ _ (h' ▸ he)
        · split
          · split
            · rename_i e he
              intro h'
              injection h' with h'
              exact skip_steps _ _ _ _ _ (h' ▸ he)
            · split
              · split
                · rename_i e he
                  intro h'
                  injection h' with h'
                  exact lineDirective_steps _ (h' ▸ he)
                · exact args_steps _ _ (Nat.lt_succ_self _)
              · simp
          · split
            · simp
            · exact args_steps _ _ (Nat.lt_succ_self _)

theorem run_steps (pre : Bool) (n : Nat) : ∀ (v : Bool) (s : St), s.inp.length < n → run pre n v s ≠ .error .steps := by
  induction n with
  | zero => intro v s h; exact absurd h (Nat.not_lt_zero _)
  | succ n ih =>
    intro v s h
    unfold run
    split
    · rename_i e he
      intro h'
      injection h' with h'
      exact skip_steps _ _ _ _ _ (h' ▸ he)
    · simp
    · rename_i f l c r he
      obtain ⟨k, b, hg, -, -, -⟩ := skip_iff.1 he
      have h1 := gap_length hg
      split
      · split
        · rename_i e he
          intro h'
          injection h' with h'
          exact directive_steps _ _ (h' ▸ he)
        · rename_i s' hd
          apply ih
          obtain ⟨is, l', f', r', hd', rfl⟩ := directive_iff.1 hd
          have h2 := directive_length hd'
          show r'.length < n
          simp only [List.length_cons] at h1
          have h3 : r'.length ≤ r.length := h2
          omega
      · split
        · rename_i e he
          intro h'
          injection h' with h'
          exact lexeme_steps _ _ (h' ▸ he)
        · rename_i t ht
          have hl := lexeme_iff.1 ht
          obtain ⟨e, hne⟩ := hl.split
          have h2 := congrArg List.length e
          rw [List.length_append] at h2
          have h3 : 0 < t.text.length := List.length_pos_iff.2 hne
          split
          · rename_i e he
            intro h'
            injection h' with h'
            refine ih _ _ ?_ (h' ▸ he)
            show t.rest.length < n
            omega
          · simp

end Verif.CcLex
