import Verif.CcLex.Model

/-!
# C and C++ tokens: spaces and comments
-/

namespace Verif.CcLex

theorem plus_zero (l : UInt64) : plus l 0 = l := by
  unfold plus
  exact UInt64.add_zero l

theorem plus_plus (l : UInt64) (j k : Nat) : plus (plus l j) k = plus l (j + k) := by
  unfold plus
  rw [UInt64.ofNat_add, UInt64.add_assoc]

theorem newlines_cons (c : Char) (t : Str) : newlines (c :: t) = (if c = '\n' then 1 else 0) + newlines t := by
  unfold newlines
  rw [List.count_cons]
  by_cases h : c = '\n'
  · simp [h, Nat.add_comm]
  · simp [h]

theorem newlines_append (s t : Str) : newlines (s ++ t) = newlines s + newlines t := List.count_append

/-- The end of a block comment is the first one. -/
def Closes (t : Str) : Prop := ∀ a x, t ++ ['*', '/'] = a ++ '*' :: '/' :: x → x = []

theorem Closes.nil : Closes [] := by
  intro a x h
  cases a with
  | nil => simp at h; exact h
  | cons b a =>
    have := congrArg List.length h
    simp at this
    omega

theorem Closes.cons {c : Char} {t : Str} : Closes (c :: t) ↔
    Closes t ∧ ¬ (c = '*' ∧ (t ++ ['*', '/']).head? = some '/') := by
  constructor
  · intro h
    refine ⟨fun a x e => h (c :: a) x (by rw [List.cons_append, e, List.cons_append]), ?_⟩
    rintro ⟨rfl, h2⟩
    cases t with
    | nil => simp at h2
    | cons d t =>
      simp at h2
      subst h2
      have := h [] (t ++ ['*', '/']) (by simp)
      simp at this
  · rintro ⟨h1, h2⟩ a x e
    cases a with
    | nil =>
      rw [List.cons_append, List.nil_append] at e
      obtain ⟨rfl, e'⟩ := List.cons.inj e
      exact absurd ⟨rfl, by rw [e']; rfl⟩ h2
    | cons b a =>
      rw [List.cons_append, List.cons_append] at e
      exact h1 a x (List.cons.inj e).2

/-- What is skipped from each place. -/
def From (nl : Bool) : Mode → Str → Str → Nat → Bool → Prop
  | .code, s, r, k, b => Gap nl s r k b
  | .line, s, r, k, b => ∃ t s', s = t ++ s' ∧ '\n' ∉ t ∧ (s' = [] ∨ s'.head? = some '\n') ∧ Gap nl s' r k b
  | .block, s, r, k, b => ∃ t s' k', s = t ++ '*' :: '/' :: s' ∧ Closes t ∧ Gap nl s' r k' b ∧
      k = newlines t + k'
  | .opening, s, r, k, b => ∃ c t s' k', s = c :: (t ++ '*' :: '/' :: s') ∧ Closes t ∧ Gap nl s' r k' b ∧
      k = newlines t + k'
  | .closing, s, r, k, b => ∃ c s', s = c :: s' ∧ Gap nl s' r k b

theorem stop_nil (nl : Bool) : Stop nl [] := by
  refine ⟨fun c h => by simp at h, fun t h => by simp at h, fun t h => by simp at h⟩

theorem space_ne {c : Char} (h : isSpace c = true) : c ≠ '\n' ∧ c ≠ '/' := by
  constructor
  · rintro rfl; exact absurd h (by decide)
  · rintro rfl; exact absurd h (by decide)

theorem stop_newline : ∀ r, Stop false ('\n' :: r) := by
  intro r
  refine ⟨fun c h => ?_, fun t h => ?_, fun t h => ?_⟩
  · simp at h; subst h; exact ⟨by decide, fun h => absurd h (by decide)⟩
  · exact absurd (List.cons.inj h).1 (by decide)
  · exact absurd (List.cons.inj h).1 (by decide)

theorem gap_stop {nl : Bool} {s r : Str} {k : Nat} {b : Bool} (hs : Stop nl s) (h : Gap nl s r k b) :
    s = r ∧ k = 0 ∧ b = false := by
  cases h with
  | nil => exact ⟨rfl, rfl, rfl⟩
  | space hc _ => exact absurd hc (by rw [(hs.1 _ rfl).1]; decide)
  | newline hn _ => exact absurd rfl ((hs.1 _ rfl).2 hn)
  | line _ _ _ => exact absurd rfl (hs.2.1 _)
  | block _ _ => exact absurd rfl (hs.2.2 _)

theorem gap_newline {nl : Bool} {s r : Str} {k : Nat} {b : Bool} (hr : Stop nl r) :
    Gap nl ('\n' :: s) r k b ↔
      if nl then ∃ k' b', k = k' + 1 ∧ b = true ∧ Gap nl s r k' b' else r = '\n' :: s ∧ k = 0 ∧ b = false := by
  cases nl with
  | true =>
    rw [if_pos rfl]
    constructor
    · intro h
      cases h with
      | nil => exact absurd rfl ((hr.1 _ rfl).2 rfl)
      | space hc _ => exact absurd hc (by decide)
      | newline _ h => exact ⟨_, _, rfl, rfl, h⟩
    · rintro ⟨k', b', rfl, rfl, h⟩
      exact .newline rfl h
  | false =>
    rw [if_neg (by decide)]
    constructor
    · intro h
      obtain ⟨h1, h2, h3⟩ := gap_stop (stop_newline s) h
      exact ⟨h1.symm, h2, h3⟩
    · rintro ⟨rfl, rfl, rfl⟩
      exact .nil

theorem gap_space {nl : Bool} {c : Char} {s r : Str} {k : Nat} {b : Bool} (hr : Stop nl r)
    (hc : isSpace c = true) : Gap nl (c :: s) r k b ↔ Gap nl s r k b := by
  constructor
  · intro h
    cases h with
    | nil => exact absurd hc (by rw [(hr.1 _ rfl).1]; decide)
    | space _ h => exact h
    | newline => exact absurd hc (by decide)
    | line => exact absurd hc (by decide)
    | block => exact absurd hc (by decide)
  · exact .space hc

theorem gap_line {nl : Bool} {s r : Str} {k : Nat} {b : Bool} (hr : Stop nl r) :
    Gap nl ('/' :: '/' :: s) r k b ↔
      ∃ t s', '/' :: s = t ++ s' ∧ '\n' ∉ t ∧ (s' = [] ∨ s'.head? = some '\n') ∧ Gap nl s' r k b := by
  constructor
  · intro h
    generalize hx : '/' :: '/' :: s = x at h
    cases h with
    | nil => exact absurd hx.symm (hr.2.1 _)
    | space hc _ => obtain ⟨rfl, -⟩ := List.cons.inj hx; exact absurd hc (by decide)
    | newline => exact absurd (List.cons.inj hx).1 (by decide)
    | @line t s' _ _ _ h1 h2 h3 =>
      obtain rfl := (List.cons.inj (List.cons.inj hx).2).2
      refine ⟨'/' :: t, s', rfl, ?_, h2, h3⟩
      intro hm
      rcases List.mem_cons.1 hm with h | h
      · exact absurd h (by decide)
      · exact h1 h
    | block => exact absurd (List.cons.inj (List.cons.inj hx).2).1 (by decide)
  · rintro ⟨t, s', h1, h2, h3, h4⟩
    cases t with
    | nil =>
      rcases h3 with h | h
      · subst h; simp at h1
      · rw [List.nil_append] at h1; subst h1; simp at h
    | cons c t =>
      obtain ⟨rfl, rfl⟩ := List.cons.inj h1
      exact .line (fun h => h2 (List.mem_cons_of_mem _ h)) h3 h4

theorem gap_block {nl : Bool} {s r : Str} {k : Nat} {b : Bool} (hr : Stop nl r) :
    Gap nl ('/' :: '*' :: s) r k b ↔
      ∃ t s' k', s = t ++ '*' :: '/' :: s' ∧ Closes t ∧ Gap nl s' r k' b ∧ k = newlines t + k' := by
  constructor
  · intro h
    generalize hx : '/' :: '*' :: s = x at h
    cases h with
    | nil => exact absurd hx.symm (hr.2.2 _)
    | space hc _ => obtain ⟨rfl, -⟩ := List.cons.inj hx; exact absurd hc (by decide)
    | newline => exact absurd (List.cons.inj hx).1 (by decide)
    | line => exact absurd (List.cons.inj (List.cons.inj hx).2).1 (by decide)
    | block h1 h2 =>
      obtain rfl := (List.cons.inj (List.cons.inj hx).2).2
      exact ⟨_, _, _, rfl, h1, h2, rfl⟩
  · rintro ⟨t, s', k', rfl, h1, h2, rfl⟩
    exact .block h1 h2

theorem gap_other {nl : Bool} {c : Char} {s r : Str} {k : Nat} {b : Bool} (h1 : c ≠ '\n')
    (h2 : isSpace c = false) (h3 : ¬ (c = '/' ∧ s.head? = some '/')) (h4 : ¬ (c = '/' ∧ s.head? = some '*')) :
    Stop nl (c :: s) ∧ (Gap nl (c :: s) r k b ↔ r = c :: s ∧ k = 0 ∧ b = false) := by
  have hs : Stop nl (c :: s) := by
    refine ⟨fun d hd => ?_, fun t e => ?_, fun t e => ?_⟩
    · simp at hd; subst hd; exact ⟨h2, fun _ => h1⟩
    · obtain ⟨rfl, rfl⟩ := List.cons.inj e; exact h3 ⟨rfl, rfl⟩
    · obtain ⟨rfl, rfl⟩ := List.cons.inj e; exact h4 ⟨rfl, rfl⟩
  refine ⟨hs, ?_, ?_⟩
  · intro h
    obtain ⟨a, b, c⟩ := gap_stop hs h
    exact ⟨a.symm, b, c⟩
  · rintro ⟨rfl, rfl, rfl⟩
    exact .nil

theorem skip_from (nl : Bool) (s : Str) : ∀ (m : Mode) (f : Bool) (l : UInt64) (f' : Bool) (l' : UInt64)
    (r : Str), skip nl m f l s = .ok (f', l', r) ↔
      ∃ k b, From nl m s r k b ∧ Stop nl r ∧ l' = plus l k ∧ f' = (f || b) := by
  induction s with
  | nil =>
    intro m f l f' l' r
    have hnil : ∀ k b, Gap nl [] r k b ↔ r = [] ∧ k = 0 ∧ b = false := by
      intro k b
      constructor
      · intro h; obtain ⟨a, b, c⟩ := gap_stop (stop_nil nl) h; exact ⟨a.symm, b, c⟩
      · rintro ⟨rfl, rfl, rfl⟩; exact .nil
    have hdone : (Except.ok (f, l, []) : Except Err _) = .ok (f', l', r) ↔
        ∃ k b, (r = [] ∧ k = 0 ∧ b = false) ∧ Stop nl r ∧ l' = plus l k ∧ f' = (f || b) := by
      constructor
      · intro h
        simp at h
        obtain ⟨rfl, rfl, rfl⟩ := h
        exact ⟨0, false, ⟨rfl, rfl, rfl⟩, stop_nil nl, (plus_zero _).symm, by simp⟩
      · rintro ⟨k, b, ⟨rfl, rfl, rfl⟩, -, rfl, rfl⟩
        rw [plus_zero, Bool.or_false]
    cases m with
    | code =>
      rw [show skip nl .code f l [] = .ok (f, l, []) from rfl, hdone]
      simp only [From, hnil]
    | line =>
      rw [show skip nl .line f l [] = .ok (f, l, []) from rfl, hdone]
      constructor
      · rintro ⟨k, b, h, h2⟩
        exact ⟨k, b, ⟨[], [], rfl, by simp, .inl rfl, (hnil k b).2 h⟩, h2⟩
      · rintro ⟨k, b, ⟨t, s', e, -, -, h⟩, h2⟩
        have := List.append_eq_nil_iff.1 e.symm
        obtain ⟨rfl, rfl⟩ := this
        exact ⟨k, b, (hnil k b).1 h, h2⟩
    | opening =>
      rw [show skip nl .opening f l [] = .error .comment from rfl]
      constructor
      · intro h; simp at h
      · rintro ⟨k, b, ⟨c, t, s', k', e, -⟩, -⟩; simp at e
    | block =>
      rw [show skip nl .block f l [] = .error .comment from rfl]
      constructor
      · intro h; simp at h
      · rintro ⟨k, b, ⟨t, s', k', e, -⟩, -⟩; simp at e
    | closing =>
      rw [show skip nl .closing f l [] = .error .comment from rfl]
      constructor
      · intro h; simp at h
      · rintro ⟨k, b, ⟨c, s', e, -⟩, -⟩; simp at e
  | cons c s ih =>
    intro m f l f' l' r
    have hdone : Stop nl (c :: s) → ((Except.ok (f, l, c :: s) : Except Err _) = .ok (f', l', r) ↔
        ∃ k b, (r = c :: s ∧ k = 0 ∧ b = false) ∧ Stop nl r ∧ l' = plus l k ∧ f' = (f || b)) := by
      intro hs
      constructor
      · intro h
        simp at h
        obtain ⟨rfl, rfl, rfl⟩ := h
        exact ⟨0, false, ⟨rfl, rfl, rfl⟩, hs, (plus_zero _).symm, by simp⟩
      · rintro ⟨k, b, ⟨rfl, rfl, rfl⟩, -, rfl, rfl⟩
        rw [plus_zero, Bool.or_false]
    have hnewline : c = '\n' →
        ((if nl then skip nl .code true (plus l 1) s else .ok (f, l, c :: s)) = .ok (f', l', r) ↔
        ∃ k b, Gap nl (c :: s) r k b ∧ Stop nl r ∧ l' = plus l k ∧ f' = (f || b)) := by
      rintro rfl
      cases nl with
      | true =>
        rw [if_pos rfl, ih]
        constructor
        · rintro ⟨k, b, h, h1, rfl, rfl⟩
          exact ⟨k + 1, true, (gap_newline h1).2 ⟨k, b, rfl, rfl, h⟩, h1,
            by rw [plus_plus, Nat.add_comm], by simp⟩
        · rintro ⟨k, b, h, h1, rfl, rfl⟩
          obtain ⟨k', b', rfl, rfl, h'⟩ := (gap_newline h1).1 h
          exact ⟨k', b', h', h1, by rw [plus_plus, Nat.add_comm], by simp⟩
      | false =>
        rw [if_neg (by decide), hdone (stop_newline s)]
        constructor
        · rintro ⟨k, b, h, h1, h2⟩
          exact ⟨k, b, (gap_newline h1).2 h, h1, h2⟩
        · rintro ⟨k, b, h, h1, h2⟩
          exact ⟨k, b, (gap_newline h1).1 h, h1, h2⟩
    cases m with
    | code =>
      rw [skip]
      by_cases h1 : c = '\n'
      · rw [if_pos h1, hnewline h1]
        rfl
      rw [if_neg h1]
      by_cases h2 : isSpace c = true
      · rw [if_pos h2, ih]
        constructor
        · rintro ⟨k, b, h, h1, h3⟩; exact ⟨k, b, (gap_space h1 h2).2 h, h1, h3⟩
        · rintro ⟨k, b, h, h1, h3⟩; exact ⟨k, b, (gap_space h1 h2).1 h, h1, h3⟩
      rw [if_neg h2]
      by_cases h3 : c = '/' ∧ s.head? = some '/'
      · rw [if_pos h3, ih]
        obtain ⟨rfl, h3⟩ := h3
        cases s with
        | nil => simp at h3
        | cons d s =>
          simp at h3
          subst h3
          constructor
          · rintro ⟨k, b, h, h1, h3⟩; exact ⟨k, b, (gap_line h1).2 h, h1, h3⟩
          · rintro ⟨k, b, h, h1, h3⟩; exact ⟨k, b, (gap_line h1).1 h, h1, h3⟩
      rw [if_neg h3]
      by_cases h4 : c = '/' ∧ s.head? = some '*'
      · rw [if_pos h4, ih]
        obtain ⟨rfl, h4⟩ := h4
        cases s with
        | nil => simp at h4
        | cons d s =>
          simp at h4
          subst h4
          constructor
          · rintro ⟨k, b, ⟨c, t, s', k', e, h⟩, h5, h6⟩
            obtain ⟨rfl, rfl⟩ := List.cons.inj e
            exact ⟨k, b, (gap_block h5).2 ⟨t, s', k', rfl, h⟩, h5, h6⟩
          · rintro ⟨k, b, h, h5, h6⟩
            obtain ⟨t, s', k', rfl, h'⟩ := (gap_block h5).1 h
            exact ⟨k, b, ⟨_, t, s', k', rfl, h'⟩, h5, h6⟩
      rw [if_neg h4]
      have ho := fun r k b => gap_other (nl := nl) (r := r) (k := k) (b := b) h1 (by simpa using h2) h3 h4
      rw [hdone (ho [] 0 false).1]
      simp only [From, (ho _ _ _).2]
    | line =>
      rw [skip]
      by_cases h1 : c = '\n'
      · rw [if_pos h1, hnewline h1]
        subst h1
        constructor
        · rintro ⟨k, b, h, h2⟩
          exact ⟨k, b, ⟨[], _, rfl, by simp, .inr rfl, h⟩, h2⟩
        · rintro ⟨k, b, ⟨t, s', e, h1, -, h⟩, h2⟩
          cases t with
          | nil => rw [List.nil_append] at e; subst e; exact ⟨k, b, h, h2⟩
          | cons d t => exact absurd (by rw [(List.cons.inj e).1]; exact List.mem_cons_self) h1
      rw [if_neg h1, ih]
      constructor
      · rintro ⟨k, b, ⟨t, s', rfl, h3, h⟩, h2⟩
        refine ⟨k, b, ⟨c :: t, s', rfl, ?_, h⟩, h2⟩
        intro hm
        rcases List.mem_cons.1 hm with h | h
        · exact h1 h.symm
        · exact h3 h
      · rintro ⟨k, b, ⟨t, s', e, h3, h4, h⟩, h2⟩
        cases t with
        | nil =>
          rw [List.nil_append] at e
          subst e
          rcases h4 with h4 | h4
          · simp at h4
          · simp at h4; exact absurd h4 h1
        | cons d t =>
          obtain ⟨rfl, rfl⟩ := List.cons.inj e
          exact ⟨k, b, ⟨t, s', rfl, fun h => h3 (List.mem_cons_of_mem _ h), h4, h⟩, h2⟩
    | opening =>
      rw [skip, ih]
      constructor
      · rintro ⟨k, b, ⟨t, s', k', rfl, h⟩, h2⟩
        exact ⟨k, b, ⟨c, t, s', k', rfl, h⟩, h2⟩
      · rintro ⟨k, b, ⟨d, t, s', k', e, h⟩, h2⟩
        obtain ⟨rfl, rfl⟩ := List.cons.inj e
        exact ⟨k, b, ⟨t, s', k', rfl, h⟩, h2⟩
    | block =>
      rw [skip]
      by_cases h1 : c = '*' ∧ s.head? = some '/'
      · rw [if_pos h1, ih]
        obtain ⟨rfl, h1⟩ := h1
        cases s with
        | nil => simp at h1
        | cons d s =>
          simp at h1
          subst h1
          constructor
          · rintro ⟨k, b, ⟨d, s', e, h⟩, h2⟩
            obtain ⟨rfl, rfl⟩ := List.cons.inj e
            exact ⟨k, b, ⟨[], _, k, rfl, .nil, h, (Nat.zero_add _).symm⟩, h2⟩
          · rintro ⟨k, b, ⟨t, s', k', e, hc, h, rfl⟩, h2⟩
            cases t with
            | nil =>
              obtain rfl := (List.cons.inj (List.cons.inj e).2).2
              have hz : newlines ([] : Str) + k' = k' := Nat.zero_add k'
              rw [hz] at h2
              exact ⟨k', b, ⟨_, _, rfl, h⟩, h2⟩
            | cons c t =>
              obtain ⟨rfl, e'⟩ := List.cons.inj e
              refine absurd ⟨rfl, ?_⟩ (Closes.cons.1 hc).2
              cases t with
              | nil => simp at e'
              | cons d t => obtain ⟨rfl, -⟩ := List.cons.inj e'; rfl
      rw [if_neg h1]
      have key : ∀ l₁, l₁ = plus l (if c = '\n' then 1 else 0) →
          (skip nl .block f l₁ s = .ok (f', l', r) ↔
            ∃ k b, From nl .block (c :: s) r k b ∧ Stop nl r ∧ l' = plus l k ∧ f' = (f || b)) := by
        rintro l₁ rfl
        rw [ih]
        constructor
        · rintro ⟨k, b, ⟨t, s', k', rfl, hc, h, rfl⟩, h2, rfl, h3⟩
          refine ⟨newlines (c :: t) + k', b, ⟨c :: t, s', k', rfl, Closes.cons.2 ⟨hc, ?_⟩, h, rfl⟩, h2, ?_, h3⟩
          · rintro ⟨rfl, h4⟩
            refine h1 ⟨rfl, ?_⟩
            cases t with
            | nil => simp at h4
            | cons d t => simpa using h4
          · rw [plus_plus, newlines_cons, Nat.add_assoc]
        · rintro ⟨k, b, ⟨t, s', k', e, hc, h, rfl⟩, h2, rfl, h3⟩
          cases t with
          | nil =>
            obtain ⟨rfl, rfl⟩ := List.cons.inj e
            exact absurd ⟨rfl, rfl⟩ h1
          | cons d t =>
            obtain ⟨rfl, rfl⟩ := List.cons.inj e
            refine ⟨newlines t + k', b, ⟨t, s', k', rfl, (Closes.cons.1 hc).1, h, rfl⟩, h2, ?_, h3⟩
            rw [plus_plus, newlines_cons, Nat.add_assoc]
      by_cases h2 : c = '\n'
      · rw [if_pos h2]
        exact key _ (by rw [if_pos h2])
      · rw [if_neg h2]
        exact key _ (by rw [if_neg h2, plus_zero])
    | closing =>
      rw [skip, ih]
      constructor
      · rintro ⟨k, b, h, h2⟩
        exact ⟨k, b, ⟨c, s, rfl, h⟩, h2⟩
      · rintro ⟨k, b, ⟨d, s', e, h⟩, h2⟩
        obtain ⟨rfl, rfl⟩ := List.cons.inj e
        exact ⟨k, b, h, h2⟩

/-- What is skipped is a gap and there is nothing more to skip. -/
theorem skip_iff {nl f : Bool} {l : UInt64} {s : Str} {f' : Bool} {l' : UInt64} {r : Str} :
    skip nl .code f l s = .ok (f', l', r) ↔
      ∃ k b, Gap nl s r k b ∧ Stop nl r ∧ l' = plus l k ∧ f' = (f || b) :=
  skip_from nl s .code f l f' l' r

theorem gap_length {nl : Bool} {s r : Str} {k : Nat} {b : Bool} (h : Gap nl s r k b) :
    r.length ≤ s.length := by
  induction h with
  | nil => exact Nat.le_refl _
  | space => simp; omega
  | newline => simp; omega
  | line => simp; omega
  | block => simp; omega

end Verif.CcLex
