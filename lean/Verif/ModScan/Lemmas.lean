import Verif.ModScan.Model

/-! # Modules of a translation unit: declarations -/

namespace Verif.ModScan

open CcLex (Tok Kind Str)

theorem bool_false {b : Bool} (h : ¬ b = true) : b = false := by cases b <;> simp_all

/-! ## Parts of declarations -/

/-- The name does not go on. -/
def Ends (k : Kind) (r : List Tok) : Prop := ∀ t, r.head? = some t → t.first = false → t.kind ≠ k

theorem dotted_iff (ts : List Tok) : ∀ n r, dotted ts = some (n, r) ↔
    ∃ l, ts = l ++ r ∧ Dotted l n ∧ Ends .dot r := by
  have hone : ∀ (t : Tok) n, Dotted [t] n → t.kind = .identifier ∧ t.first = false ∧ n = t.value := by
    intro t n h
    cases h with
    | one h1 h2 => exact ⟨h1, h2, rfl⟩
  have hhead : ∀ l n, Dotted l n → ∃ t l', l = t :: l' ∧ t.kind = .identifier ∧ t.first = false ∧
      ((l' = [] ∧ n = t.value) ∨ ∃ d l'' n', l' = d :: l'' ∧ d.kind = .dot ∧ d.first = false ∧
        Dotted l'' n' ∧ n = t.value ++ '.' :: n') := by
    intro l n h
    cases h with
    | one h1 h2 => exact ⟨_, [], rfl, h1, h2, Or.inl ⟨rfl, rfl⟩⟩
    | more h1 h2 h3 h4 h5 => exact ⟨_, _, rfl, h1, h2, Or.inr ⟨_, _, _, rfl, h3, h4, h5, rfl⟩⟩
  fun_induction dotted ts with
  | case1 =>
    intro n r
    constructor
    · intro h; cases h
    · rintro ⟨l, h1, h2, _⟩
      obtain ⟨t, l', rfl, _⟩ := hhead _ _ h2
      cases h1
  | case2 t h =>
    intro n r
    constructor
    · intro h; cases h
    · rintro ⟨l, h1, h2, _⟩
      obtain ⟨t', l', rfl, h3, h4, _⟩ := hhead _ _ h2
      simp only [List.cons_append, List.cons.injEq] at h1
      obtain ⟨rfl, _⟩ := h1
      rcases h with h | h
      · exact absurd h3 h
      · rw [h4] at h; cases h
  | case3 t h =>
    intro n r
    simp only [not_or] at h
    constructor
    · intro hx
      cases hx
      exact ⟨[t], rfl, .one (Classical.not_not.1 h.1) (bool_false h.2), fun t h => by cases h⟩
    · rintro ⟨l, h1, h2, _⟩
      obtain ⟨t', l', rfl, h3, h4, h5⟩ := hhead _ _ h2
      simp only [List.cons_append, List.cons.injEq] at h1
      obtain ⟨rfl, h1⟩ := h1
      obtain ⟨rfl, rfl⟩ := List.append_eq_nil_iff.1 h1.symm
      rcases h5 with ⟨_, rfl⟩ | ⟨d, l'', n', h6, _⟩
      · rfl
      · cases h6
  | case4 t d ts h =>
    intro n r
    constructor
    · intro h; cases h
    · rintro ⟨l, h1, h2, _⟩
      obtain ⟨t', l', rfl, h3, h4, _⟩ := hhead _ _ h2
      simp only [List.cons_append, List.cons.injEq] at h1
      obtain ⟨rfl, _⟩ := h1
      rcases h with h | h
      · exact absurd h3 h
      · rw [h4] at h; cases h
  | case5 t d ts h hd =>
    intro n r
    simp only [not_or] at h
    constructor
    · intro hx
      cases hx
      refine ⟨[t], rfl, .one (Classical.not_not.1 h.1) (bool_false h.2), ?_⟩
      intro x hx hf hk
      simp only [List.head?_cons, Option.some.injEq] at hx
      subst hx
      rcases hd with hd | hd
      · exact hd hk
      · rw [hf] at hd; cases hd
    · rintro ⟨l, h1, h2, h9⟩
      obtain ⟨t', l', rfl, h3, h4, h5⟩ := hhead _ _ h2
      simp only [List.cons_append, List.cons.injEq] at h1
      obtain ⟨rfl, h1⟩ := h1
      rcases h5 with ⟨rfl, rfl⟩ | ⟨d', l'', n', rfl, h6, h7, _⟩
      · simp only [List.nil_append] at h1; rw [h1]
      · simp only [List.cons_append, List.cons.injEq] at h1
        obtain ⟨rfl, _⟩ := h1
        rcases hd with hd | hd
        · exact absurd h6 hd
        · rw [h7] at hd; cases hd
  | case6 t d ts h hd n1 r1 hx ih =>
    intro n r
    simp only [not_or] at h hd
    constructor
    · intro hy
      simp only [Option.some.injEq, Prod.mk.injEq] at hy
      obtain ⟨rfl, rfl⟩ := hy
      obtain ⟨l, rfl, h2, h3⟩ := (ih _ _).1 hx
      exact ⟨t :: d :: l, rfl, .more (Classical.not_not.1 h.1) (bool_false h.2)
        (Classical.not_not.1 hd.1) (bool_false hd.2) h2, h3⟩
    · rintro ⟨l, h1, h2, h9⟩
      obtain ⟨t', l', rfl, h3, h4, h5⟩ := hhead _ _ h2
      simp only [List.cons_append, List.cons.injEq] at h1
      obtain ⟨rfl, h1⟩ := h1
      rcases h5 with ⟨rfl, rfl⟩ | ⟨d', l'', n', rfl, h6, h7, h8, rfl⟩
      · simp only [List.nil_append] at h1
        subst h1
        exact absurd (Classical.not_not.1 hd.1) (h9 d rfl (bool_false hd.2))
      · simp only [List.cons_append, List.cons.injEq] at h1
        obtain ⟨rfl, rfl⟩ := h1
        have := (ih n' r).2 ⟨l'', rfl, h8, h9⟩
        rw [hx] at this
        cases this
        rfl
  | case7 t d ts h hd hx ih =>
    intro n r
    simp only [not_or] at h hd
    constructor
    · intro h; cases h
    · rintro ⟨l, h1, h2, h9⟩
      obtain ⟨t', l', rfl, h3, h4, h5⟩ := hhead _ _ h2
      simp only [List.cons_append, List.cons.injEq] at h1
      obtain ⟨rfl, h1⟩ := h1
      rcases h5 with ⟨rfl, rfl⟩ | ⟨d', l'', n', rfl, h6, h7, h8, rfl⟩
      · simp only [List.nil_append] at h1
        subst h1
        exact absurd (Classical.not_not.1 hd.1) (h9 d rfl (bool_false hd.2))
      · simp only [List.cons_append, List.cons.injEq] at h1
        obtain ⟨rfl, rfl⟩ := h1
        have := (ih n' r).2 ⟨l'', rfl, h8, h9⟩
        rw [hx] at this
        cases this

theorem rest_iff (ts : List Tok) : ∀ r, rest ts = some r ↔
    ∃ as s, ts = as ++ s :: r ∧ (∀ a ∈ as, a.kind ≠ .semi ∧ a.first = false) ∧ s.kind = .semi ∧
      s.first = false := by
  induction ts with
  | nil =>
    intro r
    constructor
    · intro h; cases h
    · rintro ⟨as, s, h, _⟩
      exact absurd h.symm (by simp)
  | cons t ts ih =>
    intro r
    simp only [rest]
    by_cases h1 : t.kind ≠ .semi ∧ t.first = false
    · rw [if_pos h1, ih]
      constructor
      · rintro ⟨as, s, rfl, h2, h3⟩
        exact ⟨t :: as, s, rfl, List.forall_mem_cons.2 ⟨h1, h2⟩, h3⟩
      · rintro ⟨as, s, h2, h3, h4, h5⟩
        cases as with
        | nil =>
          simp only [List.nil_append, List.cons.injEq] at h2
          obtain ⟨rfl, _⟩ := h2
          exact absurd h4 h1.1
        | cons a as =>
          simp only [List.cons_append, List.cons.injEq] at h2
          obtain ⟨rfl, rfl⟩ := h2
          exact ⟨as, s, rfl, (List.forall_mem_cons.1 h3).2, h4, h5⟩
    · rw [if_neg h1]
      constructor
      · intro h
        by_cases h2 : t.kind ≠ .semi
        · rw [if_pos h2] at h; cases h
        · rw [if_neg h2] at h
          by_cases h3 : t.first = true
          · rw [if_pos h3] at h; cases h
          · rw [if_neg h3] at h
            cases h
            exact ⟨[], t, rfl, by simp, Classical.not_not.1 h2, bool_false h3⟩
      · rintro ⟨as, s, h2, h3, h4, h5⟩
        cases as with
        | nil =>
          simp only [List.nil_append, List.cons.injEq] at h2
          obtain ⟨rfl, rfl⟩ := h2
          rw [if_neg (by simp [h4]), if_neg (by simp [h5])]
        | cons a as =>
          simp only [List.cons_append, List.cons.injEq] at h2
          obtain ⟨rfl, rfl⟩ := h2
          exact absurd (List.forall_mem_cons.1 h3).1 h1

theorem closing_iff (ts : List Tok) : ∀ r, closing ts = some r ↔
    ∃ h g, ts = h ++ g :: r ∧ (∀ x ∈ h, x.kind ≠ .greater ∧ x.first = false) ∧
      g.kind = .greater := by
  induction ts with
  | nil =>
    intro r
    constructor
    · intro h; cases h
    · rintro ⟨as, s, h, _⟩
      exact absurd h.symm (by simp)
  | cons t ts ih =>
    intro r
    simp only [closing]
    by_cases h1 : t.kind = .greater
    · rw [if_pos h1]
      constructor
      · intro h; cases h; exact ⟨[], t, rfl, by simp, h1⟩
      · rintro ⟨as, s, h2, h3, h4⟩
        cases as with
        | nil =>
          simp only [List.nil_append, List.cons.injEq] at h2
          rw [h2.2]
        | cons a as =>
          simp only [List.cons_append, List.cons.injEq] at h2
          obtain ⟨rfl, rfl⟩ := h2
          exact absurd h1 (List.forall_mem_cons.1 h3).1.1
    · rw [if_neg h1]
      constructor
      · intro h
        by_cases h2 : t.first = true
        · rw [if_pos h2] at h; cases h
        · rw [if_neg h2] at h
          obtain ⟨as, s, rfl, h3, h4⟩ := (ih r).1 h
          exact ⟨t :: as, s, rfl, List.forall_mem_cons.2 ⟨⟨h1, bool_false h2⟩, h3⟩, h4⟩
      · rintro ⟨as, s, h2, h3, h4⟩
        cases as with
        | nil =>
          simp only [List.nil_append, List.cons.injEq] at h2
          obtain ⟨rfl, _⟩ := h2
          exact absurd h4 h1
        | cons a as =>
          simp only [List.cons_append, List.cons.injEq] at h2
          obtain ⟨rfl, rfl⟩ := h2
          rw [if_neg (by rw [(List.forall_mem_cons.1 h3).1.2]; simp)]
          exact (ih r).2 ⟨as, s, rfl, (List.forall_mem_cons.1 h3).2, h4⟩

/-- The rest of a declaration, with what follows it. -/
theorem rest_Rest (cont : Kind → Prop) (ts r : List Tok) :
    (rest ts = some r ∧ ∀ t, ts.head? = some t → t.first = false → ¬ cont t.kind ∨ t.kind = .semi) ↔
      ∃ l, ts = l ++ r ∧ Rest cont l := by
  rw [rest_iff]
  constructor
  · rintro ⟨⟨as, s, rfl, h1, h2, h3⟩, h4⟩
    refine ⟨as ++ [s], by simp, as, s, rfl, h1, h2, h3, ?_⟩
    intro a ha
    cases as with
    | nil => cases ha
    | cons b as =>
      simp only [List.head?_cons, Option.some.injEq] at ha
      subst ha
      have := List.forall_mem_cons.1 h1
      rcases h4 b rfl this.1.2 with h | h
      · exact h
      · exact absurd h this.1.1
  · rintro ⟨l, rfl, as, s, rfl, h1, h2, h3, h4⟩
    refine ⟨⟨as, s, by simp, h1, h2, h3⟩, ?_⟩
    intro t ht hf
    cases as with
    | nil =>
      simp only [List.nil_append, List.cons_append, List.head?_cons, Option.some.injEq] at ht
      subst ht; exact Or.inr h2
    | cons b as =>
      simp only [List.cons_append, List.head?_cons, Option.some.injEq] at ht
      subst ht
      exact Or.inl (h4 b rfl)

theorem isModule_iff (c : Compiler) (v : Str) : isModule c v = true ↔ Spelled c .module v := by
  simp only [isModule, Bool.or_eq_true, Bool.and_eq_true, beq_iff_eq]
  constructor
  · rintro (rfl | ⟨h, rfl⟩)
    · exact .module
    · exact .preprocessed (Or.symm h)
  · intro h
    cases h with
    | module => exact Or.inl rfl
    | preprocessed h => exact Or.inr ⟨Or.symm h, rfl⟩

theorem isImport_iff (c : Compiler) (v : Str) : isImport c v = true ↔ Spelled c .import v := by
  simp only [isImport, Bool.or_eq_true, Bool.and_eq_true, beq_iff_eq]
  constructor
  · rintro (rfl | ⟨h, rfl⟩)
    · exact .import
    · exact .preprocessedImport h
  · intro h
    cases h with
    | «import» => exact Or.inl rfl
    | preprocessedImport h => exact Or.inr ⟨h, rfl⟩

theorem spelled_not_export (c : Compiler) (w : Word) : ¬ Spelled c w "export".toList := by
  intro h
  generalize hv : "export".toList = v at h
  cases h <;> exact absurd hv (by decide)

theorem spelled_word {c : Compiler} {w w' : Word} {v : Str} (h : Spelled c w v)
    (h' : Spelled c w' v) : w = w' := by
  cases h <;> (generalize hv : String.toList _ = v at h'; cases h' <;>
    first | rfl | exact absurd hv (by decide))

/-! ## What a declaration does -/

/-- The effect of a declaration on what has been found. -/
def St.add (st : St) : Decl → Option St
  | .marker => some { st with marker := true }
  | .module ex base part => addModule st ex (fullName base part) part.isSome
  | .import ex n => some (addImport st ⟨false, n, ex⟩)
  | .importPart ex p => (ownModule st).map fun m => addImport st ⟨true, m ++ ':' :: p, ex⟩
  | .header => some st

theorem moduleName_iff (ts : List Tok) (n : Str) (p : Bool) (r : List Tok) :
    moduleName ts = some (n, p, r) ↔
      ∃ l base, Dotted l base ∧
        ((p = false ∧ n = base ∧ ts = l ++ r ∧ Ends .dot r ∧ Ends .colon r) ∨
          ∃ k l' part, p = true ∧ n = base ++ ':' :: part ∧ k.kind = .colon ∧ k.first = false ∧
            Dotted l' part ∧ ts = l ++ k :: l' ++ r ∧ Ends .dot r) := by
  unfold moduleName
  constructor
  · intro h
    cases hd : dotted ts with
    | none => simp [hd] at h
    | some x =>
      obtain ⟨m, q⟩ := x
      obtain ⟨l, rfl, h1, h2⟩ := (dotted_iff _ _ _).1 hd
      simp only [hd] at h
      cases q with
      | nil =>
        simp only [Option.some.injEq, Prod.mk.injEq] at h
        obtain ⟨rfl, rfl, rfl⟩ := h
        exact ⟨l, m, h1, Or.inl ⟨rfl, rfl, rfl, h2, fun t h => by cases h⟩⟩
      | cons t q =>
        simp only at h
        by_cases hc : t.kind = .colon ∧ t.first = false
        · rw [if_pos hc] at h
          cases he : dotted q with
          | none => simp [he] at h
          | some y =>
            obtain ⟨p1, q1⟩ := y
            simp only [he, Option.some.injEq, Prod.mk.injEq] at h
            obtain ⟨rfl, rfl, rfl⟩ := h
            obtain ⟨l', rfl, h3, h4⟩ := (dotted_iff _ _ _).1 he
            exact ⟨l, m, h1, Or.inr ⟨t, l', p1, rfl, rfl, hc.1, hc.2, h3, by simp, h4⟩⟩
        · rw [if_neg hc] at h
          simp only [Option.some.injEq, Prod.mk.injEq] at h
          obtain ⟨rfl, rfl, rfl⟩ := h
          refine ⟨l, m, h1, Or.inl ⟨rfl, rfl, rfl, h2, ?_⟩⟩
          intro x hx hf hk
          simp only [List.head?_cons, Option.some.injEq] at hx
          subst hx
          exact hc ⟨hk, hf⟩
  · rintro ⟨l, base, h1, ⟨rfl, rfl, rfl, h2, h3⟩ | ⟨k, l', part, rfl, rfl, h2, h3, h4, rfl, h5⟩⟩
    · rw [(dotted_iff _ _ _).2 ⟨l, rfl, h1, h2⟩]
      cases r with
      | nil => rfl
      | cons t r =>
        simp only
        rw [if_neg]
        rintro ⟨h4, h5⟩
        exact h3 t rfl h5 h4
    · rw [(dotted_iff (l ++ k :: l' ++ r) base (k :: (l' ++ r))).2 ⟨l, by simp, h1, ?_⟩]
      · simp only [h2, h3, true_and, if_true, (dotted_iff _ _ _).2 ⟨l', rfl, h4, h5⟩]
      · intro t ht _
        simp only [List.head?_cons, Option.some.injEq] at ht
        subst ht
        rw [h2]; simp

/-- The head of these tokens does not continue a name. -/
theorem rest_head {ts : List Tok} {k k' : Kind} (h1 : Ends k ts) (h2 : Ends k' ts) :
    ∀ t, ts.head? = some t → t.first = false → ¬ (t.kind = k ∨ t.kind = k') ∨ t.kind = .semi := by
  intro t ht hf
  refine Or.inl ?_
  rintro (h | h)
  · exact h1 t ht hf h
  · exact h2 t ht hf h

theorem ends_of_rest {cont : Kind → Prop} {l r : List Tok} (h : Rest cont l) (k : Kind)
    (hk : cont k) (hs : k ≠ .semi) : Ends k (l ++ r) := by
  obtain ⟨as, s, rfl, h1, h2, h3, h4⟩ := h
  intro t ht hf hkt
  cases as with
  | nil =>
    simp only [List.nil_append, List.cons_append, List.head?_cons, Option.some.injEq] at ht
    subst ht
    exact hs (hkt.symm.trans h2)
  | cons b as =>
    simp only [List.cons_append, List.head?_cons, Option.some.injEq] at ht
    subst ht
    exact h4 b rfl (hkt ▸ hk)

/-- The part of a declaration after its lead. -/
inductive Tail : Word → Bool → List Tok → Decl → Prop
  | marker {s} : s.kind = .semi → s.first = false → Tail .module false [s] .marker
  | module {ex n base r} : Dotted n base → Rest (fun k => k = .dot ∨ k = .colon) r →
      Tail .module ex (n ++ r) (.module ex base none)
  | part {ex n base k p part r} : Dotted n base → k.kind = .colon → k.first = false →
      Dotted p part → Rest (· = .dot) r →
      Tail .module ex (n ++ k :: p ++ r) (.module ex base (some part))
  | import {ex n name r} : Dotted n name → Rest (· = .dot) r →
      Tail .import ex (n ++ r) (.import ex name)
  | importPart {ex k p part r} : k.kind = .colon → k.first = false →
      Dotted p part → Rest (· = .dot) r → Tail .import ex (k :: p ++ r) (.importPart ex part)
  | quoted {ex s r} : s.kind = .string → s.first = false → Rest (fun _ => False) r →
      Tail .import ex (s :: r) .header
  | angled {ex b h g r} : b.kind = .less → b.first = false →
      (∀ x ∈ h, x.kind ≠ .greater ∧ x.first = false) → g.kind = .greater →
      Rest (fun _ => False) r → Tail .import ex (b :: h ++ g :: r) .header

theorem declares_iff (c : Compiler) (ts : List Tok) (d : Decl) :
    Declares c ts d ↔ ∃ w ex l r, ts = l ++ r ∧ Lead c w ex l ∧ Tail w ex r d := by
  constructor
  · intro h
    cases h with
    | marker h1 h2 h3 => exact ⟨_, _, _, _, rfl, h1, .marker h2 h3⟩
    | module h1 h2 h3 => exact ⟨_, _, _, _, by simp, h1, .module h2 h3⟩
    | part h1 h2 h3 h4 h5 h6 =>
      refine ⟨_, _, _, _, ?_, h1, .part h2 h3 h4 h5 h6⟩
      simp
    | «import» h1 h2 h3 => exact ⟨_, _, _, _, by simp, h1, .import h2 h3⟩
    | importPart h1 h2 h3 h4 h5 =>
      refine ⟨_, _, _, _, ?_, h1, .importPart h2 h3 h4 h5⟩
      simp
    | quoted h1 h2 h3 h4 => exact ⟨_, _, _, _, rfl, h1, .quoted h2 h3 h4⟩
    | angled h1 h2 h3 h4 h5 h6 =>
      refine ⟨_, _, _, _, ?_, h1, .angled h2 h3 h4 h5 h6⟩
      simp
  · rintro ⟨w, ex, l, r, rfl, h1, h2⟩
    cases h2 with
    | marker h2 h3 => exact .marker h1 h2 h3
    | module h2 h3 => have := Declares.module h1 h2 h3; simpa using this
    | part h2 h3 h4 h5 h6 => have := Declares.part h1 h2 h3 h4 h5 h6; simpa using this
    | «import» h2 h3 => have := Declares.import h1 h2 h3; simpa using this
    | importPart h2 h3 h4 h5 => have := Declares.importPart h1 h2 h3 h4 h5; simpa using this
    | quoted h2 h3 h4 => exact .quoted h1 h2 h3 h4
    | angled h2 h3 h4 h5 h6 => have := Declares.angled h1 h2 h3 h4 h5 h6; simpa using this

theorem dotted_kind {l : List Tok} {n : Str} (h : Dotted l n) :
    ∃ t l', l = t :: l' ∧ t.kind = .identifier ∧ t.first = false := by
  cases h with
  | one h1 h2 => exact ⟨_, _, rfl, h1, h2⟩
  | more h1 h2 => exact ⟨_, _, rfl, h1, h2⟩

theorem parseModule_iff (st : St) (ex : Bool) (ts : List Tok) (st' : St) (r : List Tok) :
    parseModule st ex ts = some (st', r) ↔
      ∃ l d, ts = l ++ r ∧ Tail .module ex l d ∧ st.add d = some st' := by
  constructor
  · intro h
    cases ts with
    | nil => cases h
    | cons t ts =>
      simp only [parseModule] at h
      by_cases hm : ex = false ∧ t.kind = .semi ∧ t.first = false
      · rw [if_pos hm] at h
        simp only [Option.some.injEq, Prod.mk.injEq] at h
        obtain ⟨rfl, rfl⟩ := h
        obtain ⟨rfl, h2, h3⟩ := hm
        exact ⟨[t], .marker, rfl, .marker h2 h3, rfl⟩
      · rw [if_neg hm] at h
        cases hn : moduleName (t :: ts) with
        | none => simp [hn] at h
        | some x =>
          obtain ⟨n, p, r1⟩ := x
          simp only [hn] at h
          cases hr : rest r1 with
          | none => simp [hr] at h
          | some r2 =>
            simp only [hr] at h
            cases ha : addModule st ex n p with
            | none => simp [ha] at h
            | some st1 =>
              simp only [ha, Option.some.injEq, Prod.mk.injEq] at h
              obtain ⟨rfl, rfl⟩ := h
              obtain ⟨l, base, h1, ⟨rfl, rfl, h2, h3, h4⟩ |
                ⟨k, l', part, rfl, rfl, h2, h3, h4, h5, h6⟩⟩ := (moduleName_iff _ _ _ _).1 hn
              · obtain ⟨q, rfl, hq⟩ := (rest_Rest (fun k => k = .dot ∨ k = .colon) r1 r2).1
                  ⟨hr, rest_head h3 h4⟩
                exact ⟨l ++ q, .module ex n none, by rw [h2]; simp, .module h1 hq, ha⟩
              · obtain ⟨q, rfl, hq⟩ := (rest_Rest (· = .dot) r1 r2).1
                  ⟨hr, fun t ht hf => Or.inl (h6 t ht hf)⟩
                exact ⟨l ++ k :: l' ++ q, .module ex base (some part), by rw [h5]; simp,
                  .part h1 h2 h3 h4 hq, ha⟩
  · rintro ⟨l, d, rfl, h, hd⟩
    cases h with
    | marker h1 h2 =>
      simp only [St.add, Option.some.injEq] at hd
      subst hd
      simp [parseModule, h1, h2]
    | @module _ n base q h1 h2 =>
      obtain ⟨t, l', rfl, h3, h4⟩ := dotted_kind h1
      have hn := (moduleName_iff ((t :: l') ++ q ++ r) base false (q ++ r)).2
        ⟨t :: l', base, h1, Or.inl ⟨rfl, rfl, by simp, ends_of_rest h2 .dot (Or.inl rfl) (by simp),
          ends_of_rest h2 .colon (Or.inr rfl) (by simp)⟩⟩
      have hr := ((rest_Rest _ (q ++ r) r).2 ⟨q, rfl, h2⟩).1
      simp only [List.cons_append] at hn ⊢
      simp only [parseModule]
      rw [if_neg (by simp [h3])]
      simp only [hn, hr]
      rw [show addModule st ex base false = some st' from hd]
    | @part _ n base k p part q h1 h2 h3 h4 h5 =>
      obtain ⟨t, l', rfl, h6, h7⟩ := dotted_kind h1
      have hn := (moduleName_iff ((t :: l') ++ k :: p ++ q ++ r) (base ++ ':' :: part) true
        (q ++ r)).2 ⟨t :: l', base, h1, Or.inr ⟨k, p, part, rfl, rfl, h2, h3, h4, by simp,
          ends_of_rest h5 .dot rfl (by simp)⟩⟩
      have hr := ((rest_Rest _ (q ++ r) r).2 ⟨q, rfl, h5⟩).1
      simp only [List.cons_append] at hn ⊢
      simp only [parseModule]
      rw [if_neg (by simp [h6])]
      simp only [hn, hr]
      rw [show addModule st ex (base ++ ':' :: part) true = some st' from hd]

theorem parseImport_iff (st : St) (ex : Bool) (ts : List Tok) (hf : ∀ t, ts.head? = some t → t.first = false)
    (st' : St) (r : List Tok) : parseImport st ex ts = some (st', r) ↔
      ∃ l d, ts = l ++ r ∧ Tail .import ex l d ∧ st.add d = some st' := by
  constructor
  · intro h
    cases ts with
    | nil => cases h
    | cons t ts =>
      have htf := hf t rfl
      simp only [parseImport] at h
      split at h
      · rename_i hk
        obtain ⟨x, h1, h2⟩ := Option.map_eq_some_iff.1 h
        simp only [Prod.mk.injEq] at h2
        obtain ⟨rfl, rfl⟩ := h2
        obtain ⟨q, rfl, hq⟩ := (rest_Rest (fun _ => False) ts x).1
          ⟨h1, fun _ _ _ => Or.inl (fun h => h)⟩
        exact ⟨t :: q, .header, rfl, .quoted hk htf hq, rfl⟩
      · rename_i hk
        obtain ⟨x, h1, h2⟩ := Option.map_eq_some_iff.1 h
        simp only [Prod.mk.injEq] at h2
        obtain ⟨rfl, rfl⟩ := h2
        obtain ⟨y, h3, h4⟩ := Option.bind_eq_some_iff.1 h1
        obtain ⟨a, g, rfl, h5, h6⟩ := (closing_iff _ _).1 h3
        obtain ⟨q, rfl, hq⟩ := (rest_Rest (fun _ => False) y x).1
          ⟨h4, fun _ _ _ => Or.inl (fun h => h)⟩
        exact ⟨t :: a ++ g :: q, .header, by simp, .angled hk htf h5 h6 hq, rfl⟩
      · rename_i hk
        cases hm : ownModule st with
        | none => simp [hm] at h
        | some m =>
          simp only [hm] at h
          cases hd : dotted ts with
          | none => simp [hd] at h
          | some y =>
            obtain ⟨p, q⟩ := y
            simp only [hd] at h
            obtain ⟨x, h1, h2⟩ := Option.map_eq_some_iff.1 h
            simp only [Prod.mk.injEq] at h2
            obtain ⟨rfl, rfl⟩ := h2
            obtain ⟨l, rfl, h3, h4⟩ := (dotted_iff _ _ _).1 hd
            obtain ⟨q', rfl, hq⟩ := (rest_Rest (· = .dot) q x).1
              ⟨h1, fun t ht hf => Or.inl (h4 t ht hf)⟩
            exact ⟨t :: l ++ q', .importPart ex p, by simp, .importPart hk htf h3 hq, by
              simp [St.add, hm]⟩
      · rename_i hk
        cases hd : dotted (t :: ts) with
        | none => simp [hd] at h
        | some y =>
          obtain ⟨p, q⟩ := y
          simp only [hd] at h
          obtain ⟨x, h1, h2⟩ := Option.map_eq_some_iff.1 h
          simp only [Prod.mk.injEq] at h2
          obtain ⟨rfl, rfl⟩ := h2
          obtain ⟨l, h5, h3, h4⟩ := (dotted_iff _ _ _).1 hd
          obtain ⟨q', rfl, hq⟩ := (rest_Rest (· = .dot) q x).1
            ⟨h1, fun t ht hf => Or.inl (h4 t ht hf)⟩
          exact ⟨l ++ q', .import ex p, by rw [h5]; simp, .import h3 hq, rfl⟩
      · cases h
  · rintro ⟨l, d, rfl, h, hd⟩
    cases h with
    | @«import» _ n name q h1 h2 =>
      obtain ⟨t, l', rfl, h3, h4⟩ := dotted_kind h1
      have hn := (dotted_iff ((t :: l') ++ q ++ r) name (q ++ r)).2
        ⟨t :: l', by simp, h1, ends_of_rest h2 .dot rfl (by simp)⟩
      have hr := ((rest_Rest _ (q ++ r) r).2 ⟨q, rfl, h2⟩).1
      simp only [List.cons_append] at hn ⊢
      simp only [parseImport, h3, hn, hr, Option.map_some]
      cases hd; rfl
    | @importPart _ k p part q h1 h2 h3 h4 =>
      have hn := (dotted_iff (p ++ q ++ r) part (q ++ r)).2
        ⟨p, by simp, h3, ends_of_rest h4 .dot rfl (by simp)⟩
      have hr := ((rest_Rest _ (q ++ r) r).2 ⟨q, rfl, h4⟩).1
      simp only [List.cons_append] at hn ⊢
      simp only [parseImport, h1, hn, hr, Option.map_some]
      simp only [St.add] at hd
      cases hm : ownModule st with
      | none => simp [hm] at hd
      | some m => simp only [hm, Option.map_some, Option.some.injEq] at hd ⊢; rw [hd]
    | @quoted _ s q h1 h2 h3 =>
      have hr := ((rest_Rest _ (q ++ r) r).2 ⟨q, rfl, h3⟩).1
      simp only [List.cons_append, parseImport, h1, hr, Option.map_some]
      cases hd; rfl
    | @angled _ b a g q h1 h2 h3 h4 h5 =>
      have hr := ((rest_Rest _ (q ++ r) r).2 ⟨q, rfl, h5⟩).1
      have hc := (closing_iff (a ++ g :: q ++ r) (q ++ r)).2 ⟨a, g, by simp, h3, h4⟩
      simp only [List.cons_append] at hc ⊢
      simp only [parseImport, h1, hc, Option.bind_some, hr, Option.map_some]
      cases hd; rfl

end Verif.ModScan
