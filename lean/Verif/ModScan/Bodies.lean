import Verif.ModScan.Text

/-!
# Modules of a translation unit: bodies
-/

namespace Verif.ModScan

open CcLex (Tok Kind Str)

theorem balanced_scan {c : Compiler} {b : List Tok} (h : Balanced b) : ∀ d r ds,
    Scan c (d + 1) (b ++ r) ds ↔ Scan c (d + 1) r ds := by
  induction h with
  | nil => intro d r ds; exact Iff.rfl
  | @other t ts h1 h2 _ ih =>
    intro d r ds
    rw [← ih d r ds]
    constructor
    · intro h
      cases h with
      | enter h _ => exact absurd h h1
      | leave h _ => exact absurd h h2
      | other _ _ _ h => exact h
    · intro h
      exact .other h1 h2 (by simp) h
  | @braces o ts e us ho _ he _ ih1 ih2 =>
    intro d r ds
    rw [← ih2 d r ds]
    have e1 : (o :: ts ++ e :: us) ++ r = o :: (ts ++ e :: (us ++ r)) := by simp
    rw [e1]
    constructor
    · intro h
      cases h with
      | enter _ h =>
        rw [ih1] at h
        cases h with
        | enter h _ => rw [he] at h; cases h
        | leave _ h => exact h
        | other _ h _ _ => exact absurd he h
      | leave h _ => rw [ho] at h; cases h
      | other h _ _ _ => exact absurd ho h
    · intro h
      exact .enter ho ((ih1 (d + 1) _ _).2 (.leave he h))

/-- A block. -/
theorem block_scan {c : Compiler} {o e : Tok} {b b' : List Tok} (ho : o.kind = .lcbrace)
    (hb : Balanced b) (hb' : Balanced b') {d : Nat} {r : List Tok} {ds : List Decl}
    (h : Scan c d (o :: (b ++ e :: r)) ds) : Scan c d (o :: (b' ++ e :: r)) ds := by
  have key : ∀ ds, Scan c (d + 1) (b ++ e :: r) ds → Scan c (d + 1) (b' ++ e :: r) ds :=
    fun ds h => (balanced_scan hb' d _ ds).2 ((balanced_scan hb d _ ds).1 h)
  rcases scan_cons h with ⟨_, h⟩ | ⟨h, _⟩ | ⟨h, _⟩ | ⟨l, x, r', ds', _, hx, _, h, _⟩ | ⟨h, _⟩
  · exact .enter ho (key _ h)
  · rw [ho] at h; cases h
  · rw [ho] at h; cases h
  · have := declares_begins (r := r') h
    rw [← hx] at this
    have := (begins_head this).1
    rw [ho] at this; cases this
  · exact absurd ho h

theorem lead_first {c : Compiler} {w : Word} {ex : Bool} {l : List Tok} (h : Lead c w ex l) :
    ∀ t ∈ l, t.first = true → Keyword c t := by
  intro t ht hf
  cases h with
  | plain h1 h2 h3 =>
    simp only [List.mem_singleton] at ht
    subst ht
    exact ⟨h1, Or.inr ⟨w, h3⟩⟩
  | exported h1 h2 h3 h4 h5 h6 =>
    simp only [List.mem_cons, List.not_mem_nil, or_false] at ht
    rcases ht with rfl | rfl
    · exact ⟨h1, Or.inl h3⟩
    · rw [h5] at hf; cases hf

theorem dotted_first {l : List Tok} {n : Str} (h : Dotted l n) : ∀ t ∈ l, t.first = false := by
  induction h with
  | one h1 h2 => intro t ht; simp only [List.mem_singleton] at ht; subst ht; exact h2
  | more h1 h2 h3 h4 h5 ih =>
    intro t ht
    rcases List.mem_cons.1 ht with rfl | ht
    · exact h2
    · rcases List.mem_cons.1 ht with rfl | ht
      · exact h4
      · exact ih t ht

theorem rest_first {p : Kind → Prop} {l : List Tok} (h : Rest p l) : ∀ t ∈ l, t.first = false := by
  obtain ⟨as, s, rfl, h1, h2, h3, _⟩ := h
  intro t ht
  rcases List.mem_append.1 ht with ht | ht
  · exact (h1 t ht).2
  · simp only [List.mem_singleton] at ht; subst ht; exact h3

/-- Declarations are on one line, except for the closing bracket. -/
theorem declares_first {c : Compiler} {l : List Tok} {d : Decl} (h : Declares c l d) :
    ∀ t ∈ l, t.first = true → Keyword c t ∨ t.kind = .greater := by
  intro t ht hf
  have no : t.first = false → Keyword c t ∨ t.kind = .greater := fun h => by rw [h] at hf; cases hf
  cases h with
  | marker h1 h2 h3 =>
    rcases List.mem_append.1 ht with ht | ht
    · exact Or.inl (lead_first h1 t ht hf)
    · simp only [List.mem_singleton] at ht; subst ht; exact no h3
  | module h1 h2 h3 =>
    simp only [List.mem_append] at ht
    rcases ht with (ht | ht) | ht
    · exact Or.inl (lead_first h1 t ht hf)
    · exact no (dotted_first h2 t ht)
    · exact no (rest_first h3 t ht)
  | part h1 h2 h3 h4 h5 h6 =>
    simp only [List.mem_append, List.mem_cons, or_assoc] at ht
    rcases ht with ht | ht | rfl | ht | ht
    · exact Or.inl (lead_first h1 t ht hf)
    · exact no (dotted_first h2 t ht)
    · exact no h4
    · exact no (dotted_first h5 t ht)
    · exact no (rest_first h6 t ht)
  | «import» h1 h2 h3 =>
    simp only [List.mem_append] at ht
    rcases ht with (ht | ht) | ht
    · exact Or.inl (lead_first h1 t ht hf)
    · exact no (dotted_first h2 t ht)
    · exact no (rest_first h3 t ht)
  | importPart h1 h2 h3 h4 h5 =>
    simp only [List.mem_append, List.mem_cons, or_assoc] at ht
    rcases ht with ht | rfl | ht | ht
    · exact Or.inl (lead_first h1 t ht hf)
    · exact no h3
    · exact no (dotted_first h4 t ht)
    · exact no (rest_first h5 t ht)
  | quoted h1 h2 h3 h4 =>
    simp only [List.mem_append, List.mem_cons] at ht
    rcases ht with ht | rfl | ht
    · exact Or.inl (lead_first h1 t ht hf)
    · exact no h3
    · exact no (rest_first h4 t ht)
  | angled h1 h2 h3 h4 h5 h6 =>
    simp only [List.mem_append, List.mem_cons, or_assoc] at ht
    rcases ht with ht | rfl | ht | rfl | ht
    · exact Or.inl (lead_first h1 t ht hf)
    · exact no h3
    · exact no (h4 t ht).2
    · exact Or.inr h5
    · exact no (rest_first h6 t ht)

theorem begins_keyword {c : Compiler} {t : Tok} {ts : List Tok} (h : Begins c (t :: ts)) :
    Keyword c t := by
  obtain ⟨w, ex, l, u, r, h1, h2, _⟩ := h
  have hf := lead_first h2
  obtain ⟨t', l', rfl, h3, h4⟩ := lead_head h2
  simp only [List.cons_append, List.cons.injEq] at h1
  obtain ⟨rfl, _⟩ := h1
  exact hf t (by simp) h4

/-- What is after the beginning of another line does not matter. -/
theorem begins_cut {c : Compiler} {y t : Tok} {a x x' : List Tok} (hf : t.first = true)
    (hk : ¬ Keyword c t) (h : Begins c (y :: (a ++ t :: x))) : Begins c (y :: (a ++ t :: x')) := by
  obtain ⟨w, ex, l, u, r, h1, h2, h3, h4⟩ := h
  have e1 : (y :: a) ++ t :: x = (l ++ [u]) ++ r := by simpa using h1
  rcases List.append_eq_append_iff.1 e1 with ⟨b, hb, hb'⟩ | ⟨b, hb, hb'⟩
  · cases b with
    | nil =>
      refine ⟨w, ex, l, u, t :: x', ?_, h2, h3, h4⟩
      have : y :: (a ++ t :: x') = (y :: a) ++ t :: x' := rfl
      rw [this]
      rw [List.append_nil] at hb
      rw [← hb]; simp
    | cons z b =>
      exfalso
      simp only [List.cons_append, List.cons.injEq] at hb'
      obtain ⟨rfl, _⟩ := hb'
      have hm : t ∈ l ++ [u] := by rw [hb]; simp
      rcases List.mem_append.1 hm with hm | hm
      · exact hk (lead_first h2 t hm hf)
      · simp only [List.mem_singleton] at hm
        subst hm
        rw [hf] at h3; cases h3
  · refine ⟨w, ex, l, u, b ++ t :: x', ?_, h2, h3, h4⟩
    have : y :: (a ++ t :: x') = (y :: a) ++ t :: x' := rfl
    rw [this, hb]; simp

theorem scan_cut {c : Compiler} {t : Tok} (hf : t.first = true) (hk : ¬ Keyword c t)
    (hg : t.kind ≠ .greater) {d : Nat} {ts : List Tok} {ds : List Decl} (h : Scan c d ts ds) :
    ∀ a x, ts = a ++ t :: x → (∀ x', Scan c d (a ++ t :: x') ds) ∨
      ∃ d' ds1 ds2, ds = ds1 ++ ds2 ∧ Scan c d' (t :: x) ds2 ∧
        ∀ x' ds2', Scan c d' (t :: x') ds2' → Scan c d (a ++ t :: x') (ds1 ++ ds2') := by
  induction h with
  | nil => intro a x h; exact absurd h (by simp)
  | @enter d y ts ds h1 h2 ih =>
    intro a x he
    cases a with
    | nil => cases he; exact Or.inr ⟨d, [], ds, rfl, .enter h1 h2, fun _ _ h => h⟩
    | cons y' a =>
      cases he
      rcases ih a x rfl with h | ⟨d', ds1, ds2, rfl, h4, h5⟩
      · exact Or.inl fun x' => .enter h1 (h x')
      · exact Or.inr ⟨d', ds1, ds2, rfl, h4, fun x' ds2' h => .enter h1 (h5 x' ds2' h)⟩
  | @leave d y ts ds h1 h2 ih =>
    intro a x he
    cases a with
    | nil => cases he; exact Or.inr ⟨_, [], ds, rfl, .leave h1 h2, fun _ _ h => h⟩
    | cons y' a =>
      cases he
      rcases ih a x rfl with h | ⟨d', ds1, ds2, rfl, h4, h5⟩
      · exact Or.inl fun x' => .leave h1 (h x')
      · exact Or.inr ⟨d', ds1, ds2, rfl, h4, fun x' ds2' h => .leave h1 (h5 x' ds2' h)⟩
  | @stray y ts h1 =>
    intro a x he
    cases a with
    | nil => cases he; exact Or.inl fun x' => .stray h1
    | cons y' a => cases he; exact Or.inl fun x' => .stray h1
  | @decl l e r ds h1 h2 ih =>
    intro a x he
    rcases List.append_eq_append_iff.1 he with ⟨b, rfl, hb⟩ | ⟨b, hb, hb'⟩
    · rcases ih b x hb with h | ⟨d', ds1, ds2, rfl, h4, h5⟩
      · refine Or.inl fun x' => ?_
        rw [List.append_assoc]
        exact .decl h1 (h x')
      · refine Or.inr ⟨d', e :: ds1, ds2, rfl, h4, fun x' ds2' h => ?_⟩
        rw [List.append_assoc]
        exact .decl h1 (h5 x' ds2' h)
    · cases b with
      | nil =>
        rw [List.append_nil] at hb
        subst hb
        rcases ih [] x (by simpa using hb'.symm) with h | ⟨d', ds1, ds2, rfl, h4, h5⟩
        · exact Or.inl fun x' => .decl h1 (h x')
        · exact Or.inr ⟨d', e :: ds1, ds2, rfl, h4, fun x' ds2' h => .decl h1 (h5 x' ds2' h)⟩
      | cons z b =>
        exfalso
        simp only [List.cons_append, List.cons.injEq] at hb'
        obtain ⟨rfl, _⟩ := hb'
        rcases declares_first h1 t (by rw [hb]; simp) hf with h | h
        · exact hk h
        · exact hg h
  | @other d y ts ds h1 h2 h3 h4 ih =>
    intro a x he
    cases a with
    | nil => cases he; exact Or.inr ⟨d, [], ds, rfl, .other h1 h2 h3 h4, fun _ _ h => h⟩
    | cons y' a =>
      cases he
      have hb : ∀ x', ¬ (d = 0 ∧ Begins c (y :: (a ++ t :: x'))) :=
        fun x' h => h3 ⟨h.1, begins_cut hf hk h.2⟩
      rcases ih a x rfl with h | ⟨d', ds1, ds2, rfl, h5, h6⟩
      · exact Or.inl fun x' => .other h1 h2 (hb x') (h x')
      · exact Or.inr ⟨d', ds1, ds2, rfl, h5, fun x' ds2' h => .other h1 h2 (hb x') (h6 x' ds2' h)⟩

/-- Tokens that begin nothing. -/
theorem scan_dull {c : Compiler} (l : List Tok) (hl : ∀ t ∈ l, ¬ (t.first = true ∧ Keyword c t)) :
    ∀ d y ds, Scan c d (l ++ y) ds → (∀ y', Scan c d (l ++ y') ds) ∨
      ∃ d', Scan c d' y ds ∧ ∀ y' ds', Scan c d' y' ds' → Scan c d (l ++ y') ds' := by
  induction l with
  | nil => intro d y ds h; exact Or.inr ⟨d, h, fun _ _ h => h⟩
  | cons t l ih =>
    intro d y ds h
    have hb : ∀ z, ¬ Begins c (t :: z) := fun z h =>
      hl t (by simp) ⟨(begins_head h).2, begins_keyword h⟩
    have ih := ih fun x hx => hl x (by simp [hx])
    rcases scan_cons h with ⟨h1, h⟩ | ⟨h1, d0, rfl, hs⟩ | ⟨h1, rfl, rfl⟩ |
      ⟨_, x, r', ds', _, hx, _, h, _⟩ | ⟨h1, h2, h3, h⟩
    · rcases ih _ _ _ h with h | ⟨d', h4, h5⟩
      · exact Or.inl fun y' => .enter h1 (h y')
      · exact Or.inr ⟨d', h4, fun y' ds' h => .enter h1 (h5 y' ds' h)⟩
    · rcases ih _ _ _ hs with h | ⟨d', h4, h5⟩
      · exact Or.inl fun y' => .leave h1 (h y')
      · exact Or.inr ⟨d', h4, fun y' ds' h => .leave h1 (h5 y' ds' h)⟩
    · exact Or.inl fun y' => .stray h1
    · have := declares_begins (r := r') h
      rw [← hx] at this
      exact absurd this (hb _)
    · rcases ih _ _ _ h with h | ⟨d', h4, h5⟩
      · exact Or.inl fun y' => .other h1 h2 (fun h => hb _ h.2) (h y')
      · exact Or.inr ⟨d', h4, fun y' ds' h => .other h1 h2 (fun h => hb _ h.2) (h5 y' ds' h)⟩

theorem body_scan {c : Compiler} {a l b b' r : List Tok} {o e : Tok}
    (hl : ∀ t ∈ l, ¬ (t.first = true ∧ Keyword c t))
    (hh : ∀ t, (l ++ [o]).head? = some t → t.first = true ∧ t.kind ≠ .greater)
    (ho : o.kind = .lcbrace) (hb : Balanced b) (hb' : Balanced b') {ds : List Decl}
    (h : Scan c 0 (a ++ (l ++ o :: (b ++ e :: r))) ds) :
    Scan c 0 (a ++ (l ++ o :: (b' ++ e :: r))) ds := by
  obtain ⟨t, z, z', hz, hz', h1, h2, h3⟩ : ∃ t z z', l ++ o :: (b ++ e :: r) = t :: z ∧
      l ++ o :: (b' ++ e :: r) = t :: z' ∧ t.first = true ∧ t.kind ≠ .greater ∧ ¬ Keyword c t := by
    cases l with
    | nil =>
      obtain ⟨h1, h2⟩ := hh o rfl
      exact ⟨o, _, _, rfl, rfl, h1, h2, fun h => by have := h.1; rw [ho] at this; cases this⟩
    | cons t l =>
      obtain ⟨h1, h2⟩ := hh t rfl
      exact ⟨t, _, _, rfl, rfl, h1, h2, fun h => hl t (by simp) ⟨h1, h⟩⟩
  rw [hz] at h
  rw [hz']
  rcases scan_cut h1 h3 h2 h a z rfl with h | ⟨d', ds1, ds2, rfl, h4, h5⟩
  · exact h z'
  · apply h5
    rw [← hz] at h4
    rw [← hz']
    rcases scan_dull l hl _ _ _ h4 with h | ⟨d'', h6, h7⟩
    · exact h _
    · exact h7 _ _ (block_scan ho hb hb' h6)

end Verif.ModScan
