import Verif.InSubst.Model

/-!
# Substitutions in `.in` files: lemmas about lines
-/

namespace Verif.InSubst

/-! ## Newlines -/

theorem newlines_plain (nl : Eol) : ∀ {u : Str}, '\n' ∉ u → newlines nl u = u := by
  intro u
  induction u with
  | nil => intro _; rfl
  | cons c u ih =>
    intro h
    have hc : c ≠ '\n' := fun e => h (e ▸ List.mem_cons_self)
    have hu : '\n' ∉ u := fun e => h (List.mem_cons_of_mem _ e)
    rw [newlines.eq_def]
    split
    · rename_i h'; cases h'
    · rename_i v h'
      obtain ⟨-, rfl⟩ := List.cons.inj h'
      exact absurd List.mem_cons_self hu
    · rename_i h'; exact absurd (List.cons.inj h').1 hc
    · rename_i h'
      obtain ⟨rfl, rfl⟩ := List.cons.inj h'
      rw [ih hu]

theorem newlines_lf (nl : Eol) (v : Str) : newlines nl ('\n' :: v) = nl.str ++ newlines nl v := by
  rw [newlines.eq_def]
  rfl

theorem newlines_crlf (nl : Eol) (v : Str) : newlines nl ('\r' :: '\n' :: v) = nl.str ++ newlines nl v := by
  rw [newlines.eq_def]
  rfl

theorem newlines_char (nl : Eol) {c : Char} {v : Str} (h1 : c ≠ '\n') (h2 : ¬ (c = '\r' ∧ v.head? = some '\n')) :
    newlines nl (c :: v) = c :: newlines nl v := by
  rw [newlines.eq_def]
  split
  · rename_i h; cases h
  · rename_i h
    obtain ⟨rfl, rfl⟩ := List.cons.inj h
    exact absurd ⟨rfl, rfl⟩ h2
  · rename_i h; exact absurd (List.cons.inj h).1 h1
  · rename_i h
    obtain ⟨rfl, rfl⟩ := List.cons.inj h
    rfl

theorem newlines_append (nl : Eol) (x : Str) : ∀ {u : Str}, '\n' ∉ u → u.getLast? ≠ some '\r' →
    newlines nl (u ++ '\n' :: x) = u ++ nl.str ++ newlines nl x := by
  intro u
  induction u with
  | nil => intro _ _; exact newlines_lf nl x
  | cons c u ih =>
    intro h hl
    have hc : c ≠ '\n' := fun e => h (e ▸ List.mem_cons_self)
    have hu : '\n' ∉ u := fun e => h (List.mem_cons_of_mem _ e)
    rw [List.cons_append, newlines_char nl hc]
    · rw [ih hu]
      · rfl
      · intro e
        apply hl
        cases u with
        | nil => cases e
        | cons d u => simpa using e
    · rintro ⟨rfl, e⟩
      cases u with
      | nil => exact hl rfl
      | cons d u =>
        have : d = '\n' := by simpa using e
        exact hu (this ▸ List.mem_cons_self)

theorem newlines_append_cr (nl : Eol) (x : Str) : ∀ {u : Str}, '\n' ∉ u →
    newlines nl (u ++ '\r' :: '\n' :: x) = u ++ nl.str ++ newlines nl x := by
  intro u
  induction u with
  | nil => intro _; exact newlines_crlf nl x
  | cons c u ih =>
    intro h
    have hc : c ≠ '\n' := fun e => h (e ▸ List.mem_cons_self)
    have hu : '\n' ∉ u := fun e => h (List.mem_cons_of_mem _ e)
    rw [List.cons_append, newlines_char nl hc]
    · rw [ih hu]
      rfl
    · rintro ⟨rfl, e⟩
      cases u with
      | nil => simp at e
      | cons d u =>
        have : d = '\n' := by simpa using e
        exact hu (this ▸ List.mem_cons_self)

/-- The first newline. -/
theorem idxOf_some {w : Str} {i : Nat} (h : w.idxOf? '\n' = some i) :
    ∃ u x, w = u ++ '\n' :: x ∧ '\n' ∉ u ∧ u.length = i := by
  induction w generalizing i with
  | nil => simp at h
  | cons c w ih =>
    rw [List.idxOf?_cons] at h
    by_cases hc : c = '\n'
    · subst hc
      rw [if_pos (by simp)] at h
      injection h with h
      exact ⟨[], w, rfl, by simp, by simp [← h]⟩
    · rw [if_neg (by simpa using hc)] at h
      cases hw : w.idxOf? '\n' with
      | none => rw [hw] at h; simp at h
      | some j =>
        rw [hw] at h
        simp at h
        obtain ⟨u, x, rfl, hu, hl⟩ := ih hw
        exact ⟨c :: u, x, rfl, by simp [hu, Ne.symm hc], by simp [hl, h]⟩

theorem idxOf_none {w : Str} (h : w.idxOf? '\n' = none) : '\n' ∉ w := by
  simpa using h

/-- What the loop makes of the value from a position on. -/
def joined (nl : Eol) (a w : Str) : Str :=
  if a.getLast? = some '\r' ∧ w.head? = some '\n' then a.dropLast ++ newlines nl ('\r' :: w) else a ++ newlines nl w

theorem joined_ne (nl : Eol) {a w : Str} (h : a.getLast? ≠ some '\r') : joined nl a w = a ++ newlines nl w := by
  unfold joined
  rw [if_neg fun e => h e.1]

theorem joined_lf {a w : Str} (c : Char) : joined .lf (a ++ [c]) w = a ++ newlines .lf (c :: w) := by
  unfold joined
  by_cases h : c = '\r' ∧ w.head? = some '\n'
  · obtain ⟨rfl, h⟩ := h
    rw [if_pos (by simp [h])]
    simp
  · rw [if_neg (by simpa using h)]
    by_cases hc : c = '\n'
    · subst hc
      rw [newlines_lf]
      simp [Eol.str]
    · rw [newlines_char _ hc h]
      simp

theorem joined_plain (nl : Eol) {a w : Str} (h : '\n' ∉ w) : joined nl a w = a ++ w := by
  unfold joined
  rw [if_neg, newlines_plain nl h]
  rintro ⟨-, e⟩
  cases w with
  | nil => cases e
  | cons c w => simp at e; exact h (e ▸ List.mem_cons_self)

theorem snoc_of_last {u : Str} {c : Char} (h : u.getLast? = some c) : ∃ u', u = u' ++ [c] := by
  rcases List.eq_nil_or_concat u with rfl | ⟨u', d, rfl⟩
  · cases h
  · rw [List.concat_eq_append, List.getLast?_concat] at h
    injection h with h
    exact ⟨u', by simp [h]⟩

theorem replace_joined (nl : Eol) (n : Nat) : ∀ (a w : Str),
    2 * w.length < n + (if a.getLast? = some '\r' ∧ w.head? = some '\n' then 1 else 0) →
    replaceNewlines nl.str n a.length (a ++ w) = joined nl a w := by
  induction n with
  | zero =>
    intro a w h
    exfalso
    split at h
    · rename_i h'
      cases w with
      | nil => cases h'.2
      | cons c w => simp at h
    · omega
  | succ n ih =>
    intro a w hn
    unfold replaceNewlines
    rw [List.drop_left]
    cases hi : w.idxOf? '\n' with
    | none => exact (joined_plain nl (idxOf_none hi)).symm
    | some i =>
      obtain ⟨u, x, rfl, hu, rfl⟩ := idxOf_some hi
      dsimp only
      have hget : ∀ b : Str, b.length = a.length + u.length → b ++ '\n' :: x = a ++ (u ++ '\n' :: x) →
          (a ++ (u ++ '\n' :: x))[a.length + u.length - 1]? = if b = [] then some '\n' else b.getLast? := by
        intro b hb e
        rw [← e, ← hb]
        split
        · rename_i h; subst h; rfl
        · rename_i h
          rw [List.getElem?_append_left (by have := List.length_pos_iff.2 h; omega), List.getLast?_eq_getElem?]
      have hcase : (a ++ u).getLast? = some '\r' ∨ (a ++ u).getLast? ≠ some '\r' := Decidable.em _
      have hg := hget (a ++ u) (by simp) (by simp)
      rcases hcase with hcr | hcr
      · -- CRLF in the value.
        have hne : a ++ u ≠ [] := by intro e; rw [e] at hcr; cases hcr
        have hlen : a.length + u.length ≠ 0 := by
          intro e; apply hne
          rw [← List.length_eq_zero_iff, List.length_append]; exact e
        rw [hg, if_neg hne, if_pos ⟨hlen, hcr⟩]
        obtain ⟨b, hb⟩ := snoc_of_last hcr
        have hbl : b.length = a.length + u.length - 1 := by
          have := congrArg List.length hb
          simp at this; omega
        have e0 : a ++ (u ++ '\n' :: x) = b ++ '\r' :: '\n' :: x := by
          rw [← List.append_assoc, hb]; simp
        have e1 : List.take (a.length + u.length - 1) (a ++ (u ++ '\n' :: x)) = b := by
          rw [e0, ← hbl, List.take_left]
        have e2 : List.drop (a.length + u.length - 1 + 2) (a ++ (u ++ '\n' :: x)) = x := by
          rw [e0, ← hbl]
          have : b ++ '\r' :: '\n' :: x = (b ++ ['\r', '\n']) ++ x := by simp
          rw [this, show b.length + 2 = (b ++ ['\r', '\n']).length by simp, List.drop_left]
        rw [e1, e2, ← hbl]
        -- What it should be.
        have goal : joined nl a (u ++ '\n' :: x) = b ++ nl.str ++ newlines nl x := by
          rcases List.eq_nil_or_concat u with rfl | ⟨u', d, rfl⟩
          · rw [List.append_nil] at hb
            unfold joined
            rw [if_pos ⟨by rw [hb]; simp, rfl⟩, hb]
            simp only [List.dropLast_concat, List.nil_append]
            rw [newlines_crlf, List.append_assoc]
          · rw [List.concat_eq_append] at hb hu ⊢
            rw [← List.append_assoc] at hb
            obtain ⟨rfl, hd⟩ := List.append_inj' hb rfl
            obtain rfl : d = '\r' := by simpa using hd
            have hu' : '\n' ∉ u' := fun e => hu (List.mem_append_left _ e)
            unfold joined
            rw [if_neg]
            · rw [show u' ++ ['\r'] ++ '\n' :: x = u' ++ '\r' :: '\n' :: x by simp, newlines_append_cr nl x hu']
              simp
            · rintro ⟨-, e⟩
              cases u' with
              | nil => simp at e
              | cons c u' => simp at e; exact hu' (e ▸ List.mem_cons_self)
        rw [goal]
        have hx : 2 * x.length < n := by
          simp only [List.length_append, List.length_cons] at hn
          split at hn <;> omega
        cases nl with
        | crlf =>
          have := ih (b ++ Eol.crlf.str) x (by split <;> omega)
          rw [show (b ++ Eol.crlf.str).length = b.length + 2 by simp [Eol.str]] at this
          rw [this, joined_ne]
          simp [Eol.str]
        | lf =>
          cases x with
          | nil =>
            have : newlines .lf [] = [] := rfl
            rw [this, List.append_nil]
            cases n with
            | zero => rfl
            | succ n =>
              unfold replaceNewlines
              rw [List.drop_eq_nil_of_le (by simp [Eol.str])]
              rfl
          | cons y x =>
            have := ih (b ++ Eol.lf.str ++ [y]) x (by simp at hx; split <;> omega)
            rw [show (b ++ Eol.lf.str ++ [y]).length = b.length + 2 by simp [Eol.str]] at this
            rw [show b ++ Eol.lf.str ++ y :: x = b ++ Eol.lf.str ++ [y] ++ x by simp, this, joined_lf]
      · -- LF in the value.
        have hno : ¬ (a.length + u.length ≠ 0 ∧ (a ++ (u ++ '\n' :: x))[a.length + u.length - 1]? = some '\r') := by
          rintro ⟨h1, h2⟩
          rw [hg] at h2
          split at h2
          · simp at h2
          · exact hcr h2
        rw [if_neg hno]
        have e1 : List.take (a.length + u.length) (a ++ (u ++ '\n' :: x)) = a ++ u := by
          rw [← List.append_assoc, ← List.length_append, List.take_left]
        have e2 : List.drop (a.length + u.length + 1) (a ++ (u ++ '\n' :: x)) = x := by
          rw [show a ++ (u ++ '\n' :: x) = (a ++ u ++ ['\n']) ++ x by simp,
            show a.length + u.length + 1 = (a ++ u ++ ['\n']).length by simp; omega, List.drop_left]
        rw [e1, e2]
        have goal : joined nl a (u ++ '\n' :: x) = a ++ u ++ nl.str ++ newlines nl x := by
          unfold joined
          rw [if_neg]
          · rw [newlines_append nl x hu]
            · simp
            · intro e
              apply hcr
              cases u with
              | nil => cases e
              | cons c u => rw [List.getLast?_append, e]; rfl
          · rintro ⟨h1, h2⟩
            cases u with
            | nil => rw [List.append_nil] at hcr; exact hcr h1
            | cons c u => simp at h2; exact hu (h2 ▸ List.mem_cons_self)
        rw [goal]
        have hn' : 2 * (u ++ '\n' :: x).length < n + 1 := by
          split at hn
          · rename_i h'
            exfalso
            cases u with
            | nil => rw [List.append_nil] at hcr; exact hcr h'.1
            | cons c u => have := h'.2; simp at this; exact hu (this ▸ List.mem_cons_self)
          · omega
        simp only [List.length_append, List.length_cons] at hn'
        cases nl with
        | lf =>
          have := ih (a ++ u ++ Eol.lf.str) x (by split <;> omega)
          rw [show (a ++ u ++ Eol.lf.str).length = a.length + u.length + 1 by simp [Eol.str]; omega] at this
          rw [this, joined_ne]
          simp [Eol.str]
        | crlf =>
          have := ih (a ++ u ++ ['\r']) ('\n' :: x) (by simp; omega)
          rw [show (a ++ u ++ ['\r']).length = a.length + u.length + 1 by simp; omega] at this
          rw [show a ++ u ++ Eol.crlf.str ++ x = a ++ u ++ ['\r'] ++ '\n' :: x by simp [Eol.str], this]
          unfold joined
          rw [if_pos (by simp), newlines_crlf]
          simp

theorem replace_newlines (nl : Eol) (v : Str) : replaceNewlines nl.str (2 * v.length + 1) 0 v = newlines nl v := by
  have := replace_joined nl (2 * v.length + 1) [] v (by simp)
  simpa [joined] using this

/-! ## Names -/

theorem scan_iff (f : Bool) (n : Str) : scan f n = true ↔
    (∀ c ∈ n, c = '_' ∨ c = '.' ∨ c.isAlphanum = true) ∧
    (f = true → ∀ c, n.head? = some c → c.isDigit = false) ∧ n.getLast? ≠ some '.' := by
  induction n generalizing f with
  | nil => simp [scan]
  | cons c r ih =>
    have hal : c.isAlphanum = true ↔ c.isAlpha = true ∨ c.isDigit = true := by simp [Char.isAlphanum]
    have hdd : c = '_' ∨ c = '.' → c.isDigit = false := by rintro (rfl | rfl) <;> decide
    have had : c.isAlpha = true → c.isDigit = false := by
      intro h
      cases hd : c.isDigit with
      | false => rfl
      | true =>
        simp only [Char.isAlpha, Char.isUpper, Char.isLower, Char.isDigit, Bool.or_eq_true, Bool.and_eq_true,
          decide_eq_true_eq, UInt32.le_iff_toNat_le] at h hd
        have e1 : 'A'.val.toNat = 65 := rfl
        have e3 : 'a'.val.toNat = 97 := rfl
        have e6 : '9'.val.toNat = 57 := rfl
        omega
    have hlast : (c :: r).getLast? ≠ some '.' ↔ r.getLast? ≠ some '.' ∧ (r = [] → c ≠ '.') := by
      cases r with
      | nil => simp
      | cons d r => simp [List.getLast?_cons_cons]
    have ih' := ih false
    unfold scan
    rw [hlast]
    by_cases h1 : c = '_' ∨ (if f then c.isAlpha else c.isAlphanum) = true
    · rw [if_pos h1, ih']
      have h2 : c = '_' ∨ c.isAlphanum = true := by
        rcases h1 with h | h
        · exact .inl h
        · cases f
          · exact .inr h
          · exact .inr (hal.2 (.inl h))
      have h3 : c ≠ '.' := by rintro rfl; revert h2; decide
      have h4 : f = true → c.isDigit = false := by
        rintro rfl
        rcases h1 with h | h
        · exact hdd (.inl h)
        · exact had h
      simp only [List.mem_cons, forall_eq_or_imp, List.head?_cons, Option.some.injEq, forall_eq', reduceCtorEq,
        false_implies, true_and]
      constructor
      · rintro ⟨h5, h6⟩
        exact ⟨⟨h2.elim .inl fun h => .inr (.inr h), h5⟩, h4, h6, fun _ => h3⟩
      · rintro ⟨⟨-, h5⟩, -, h6, -⟩
        exact ⟨h5, h6⟩
    · rw [if_neg h1]
      by_cases h2 : c = '.' ∧ r ≠ []
      · rw [if_pos h2, ih']
        simp only [List.mem_cons, forall_eq_or_imp, List.head?_cons, Option.some.injEq, forall_eq', reduceCtorEq,
          false_implies, true_and]
        constructor
        · rintro ⟨h5, h6⟩
          exact ⟨⟨.inr (.inl h2.1), h5⟩, fun _ => hdd (.inr h2.1), h6, fun e => absurd e h2.2⟩
        · rintro ⟨⟨-, h5⟩, -, h6, -⟩
          exact ⟨h5, h6⟩
      · rw [if_neg h2]
        simp only [Bool.false_eq_true, false_iff, not_and]
        rintro h5 h6 -
        intro h7
        have h8 := h5 c List.mem_cons_self
        rcases h8 with h8 | h8 | h8
        · exact h1 (.inl h8)
        · exact h2 ⟨h8, fun e => h7 e h8⟩
        · apply h1
          refine .inr ?_
          cases f
          · exact h8
          · have := h6 rfl c rfl
            rcases hal.1 h8 with h9 | h9
            · exact h9
            · rw [this] at h9; cases h9

theorem scan_isVar {n : Str} : scan true n = true ↔ IsVar n := by
  rw [scan_iff]
  unfold IsVar
  simp

/-! ## The other end -/

theorem escape_cons (sym c : Char) (n : Str) :
    escape sym (c :: n) = (if c = sym then [c, c] else [c]) ++ escape sym n := rfl

/-- In the strict mode either there is the other end or what is left is a name. -/
theorem strict_split (sym : Char) (m : Nat) : ∀ r : Str, r.length < m →
    (∃ n s, r = escape sym n ++ sym :: s ∧ s.head? ≠ some sym) ∨ ∃ n, r = escape sym n := by
  induction m with
  | zero => intro r h; exact absurd h (Nat.not_lt_zero _)
  | succ m ih =>
    intro r h
    cases r with
    | nil => exact .inr ⟨[], rfl⟩
    | cons c r =>
      by_cases hc : c = sym
      · subst hc
        by_cases hr : r.head? = some c
        · cases r with
          | nil => cases hr
          | cons d r =>
            obtain rfl : d = c := by simpa using hr
            rcases ih r (by simp at h; omega) with ⟨n, s, rfl, hs⟩ | ⟨n, rfl⟩
            · exact .inl ⟨d :: n, s, by simp [escape_cons], hs⟩
            · exact .inr ⟨d :: n, by simp [escape_cons]⟩
        · exact .inl ⟨[], r, rfl, hr⟩
      · rcases ih r (by simp at h; omega) with ⟨n, s, rfl, hs⟩ | ⟨n, rfl⟩
        · exact .inl ⟨c :: n, s, by simp [escape_cons, hc], hs⟩
        · exact .inr ⟨c :: n, by simp [escape_cons, hc]⟩

theorem getElem_mid (a : Str) (c : Char) (b : Str) : (a ++ c :: b)[a.length]? = some c := by simp

theorem getElem_next (a : Str) (c : Char) (b : Str) : (a ++ c :: b)[a.length + 1]? = b.head? := by
  rw [List.getElem?_append_right (by omega), show a.length + 1 - a.length = 1 by omega]
  simp [List.head?_eq_getElem?]

theorem erase_mid (a : Str) (c : Char) (b : Str) : (a ++ c :: b).eraseIdx a.length = a ++ b := by
  rw [List.eraseIdx_append_of_length_le (Nat.le_refl _)]
  simp

theorem find_strict_end {sym : Char} (n : Str) : ∀ (f : Nat) (a s : Str), s.head? ≠ some sym → n.length < f →
    findEnd true sym f a.length (a ++ (escape sym n ++ sym :: s)) =
      (a ++ (n ++ sym :: s), some (a.length + n.length)) := by
  induction n with
  | nil =>
    intro f a s hs hf
    cases f with
    | zero => cases hf
    | succ f =>
      show findEnd true sym (f + 1) a.length (a ++ sym :: s) = _
      unfold findEnd
      rw [if_neg (by simp), if_pos (getElem_mid _ _ _), if_neg]
      · rfl
      · rw [getElem_next]
        exact fun h => hs h.2.2
  | cons c n ih =>
    intro f a s hs hf
    cases f with
    | zero => cases hf
    | succ f =>
      have step : findEnd true sym f (a.length + 1) (a ++ c :: (escape sym n ++ sym :: s)) =
          (a ++ (c :: n ++ sym :: s), some (a.length + (c :: n).length)) := by
        have := ih f (a ++ [c]) s hs (by simp at hf; omega)
        rw [List.length_append, List.length_singleton] at this
        rw [show a ++ c :: (escape sym n ++ sym :: s) = a ++ [c] ++ (escape sym n ++ sym :: s) by simp, this]
        simp
        omega
      by_cases hc : c = sym
      · subst hc
        rw [escape_cons, if_pos rfl]
        show findEnd true c (f + 1) a.length (a ++ c :: c :: (escape c n ++ c :: s)) = _
        unfold findEnd
        rw [if_neg (by simp), if_pos (getElem_mid _ _ _), if_pos, erase_mid, step]
        refine ⟨rfl, by simp, ?_⟩
        rw [getElem_next]
        rfl
      · rw [escape_cons, if_neg hc]
        show findEnd true sym (f + 1) a.length (a ++ c :: (escape sym n ++ sym :: s)) = _
        unfold findEnd
        rw [if_neg (by simp), if_neg, step]
        rw [getElem_mid]
        intro e
        exact hc (by injection e)

theorem find_strict_none {sym : Char} (n : Str) : ∀ (f : Nat) (a : Str), n.length < f →
    findEnd true sym f a.length (a ++ escape sym n) = (a ++ n, none) := by
  induction n with
  | nil =>
    intro f a hf
    cases f with
    | zero => cases hf
    | succ f =>
      show findEnd true sym (f + 1) a.length (a ++ []) = _
      unfold findEnd
      rw [if_pos (by simp)]
  | cons c n ih =>
    intro f a hf
    cases f with
    | zero => cases hf
    | succ f =>
      have step : findEnd true sym f (a.length + 1) (a ++ c :: escape sym n) = (a ++ c :: n, none) := by
        have := ih f (a ++ [c]) (by simp at hf; omega)
        rw [List.length_append, List.length_singleton] at this
        rw [show a ++ c :: escape sym n = a ++ [c] ++ escape sym n by simp, this]
        simp
      by_cases hc : c = sym
      · subst hc
        rw [escape_cons, if_pos rfl]
        show findEnd true c (f + 1) a.length (a ++ c :: c :: escape c n) = _
        unfold findEnd
        rw [if_neg (by simp), if_pos (getElem_mid _ _ _), if_pos, erase_mid, step]
        refine ⟨rfl, by simp, ?_⟩
        rw [getElem_next]
        rfl
      · rw [escape_cons, if_neg hc]
        show findEnd true sym (f + 1) a.length (a ++ c :: escape sym n) = _
        unfold findEnd
        rw [if_neg (by simp), if_neg, step]
        rw [getElem_mid]
        intro e
        exact hc (by injection e)

theorem find_lax_end {sym : Char} (n : Str) : ∀ (f : Nat) (a s : Str), sym ∉ n → n.length < f →
    findEnd false sym f a.length (a ++ (n ++ sym :: s)) = (a ++ (n ++ sym :: s), some (a.length + n.length)) := by
  induction n with
  | nil =>
    intro f a s _ hf
    cases f with
    | zero => cases hf
    | succ f =>
      show findEnd false sym (f + 1) a.length (a ++ sym :: s) = _
      unfold findEnd
      rw [if_neg (by simp), if_pos (getElem_mid _ _ _), if_neg (by simp)]
      rfl
  | cons c n ih =>
    intro f a s hn hf
    cases f with
    | zero => cases hf
    | succ f =>
      have hc : c ≠ sym := fun e => hn (e ▸ List.mem_cons_self)
      show findEnd false sym (f + 1) a.length (a ++ c :: (n ++ sym :: s)) = _
      unfold findEnd
      rw [if_neg (by simp), if_neg]
      · have := ih f (a ++ [c]) s (fun e => hn (List.mem_cons_of_mem _ e)) (by simp at hf; omega)
        rw [List.length_append, List.length_singleton] at this
        rw [show a ++ c :: (n ++ sym :: s) = a ++ [c] ++ (n ++ sym :: s) by simp, this]
        simp
        omega
      · rw [getElem_mid]
        intro e
        exact hc (by injection e)

theorem find_lax_none {sym : Char} (n : Str) : ∀ (f : Nat) (a : Str), sym ∉ n → n.length < f →
    findEnd false sym f a.length (a ++ n) = (a ++ n, none) := by
  induction n with
  | nil =>
    intro f a _ hf
    cases f with
    | zero => cases hf
    | succ f =>
      unfold findEnd
      rw [if_pos (by simp)]
  | cons c n ih =>
    intro f a hn hf
    cases f with
    | zero => cases hf
    | succ f =>
      have hc : c ≠ sym := fun e => hn (e ▸ List.mem_cons_self)
      unfold findEnd
      rw [if_neg (by simp), if_neg]
      · have := ih f (a ++ [c]) (fun e => hn (List.mem_cons_of_mem _ e)) (by simp at hf; omega)
        rw [List.length_append, List.length_singleton] at this
        rw [show a ++ c :: n = a ++ [c] ++ n by simp, this]
      · rw [getElem_mid]
        intro e
        exact hc (by injection e)

end Verif.InSubst
