import Verif.LinkOrder.Model

/-!
# Link order of libraries: what a library depends on
-/

namespace Verif.LinkOrder

variable {n : Nat}

/-- The length as an option. -/
def limit (p : Tsys) (s : Str) : Option Nat := if sense p s = 0 then none else some (sense p s)

theorem sense_unix {p : Tsys} (hp : p ≠ .msvc) (s : Str) : sense p s =
    if s.head? = some '-' then
      if s.tail.head? = some 'l' || s = "-pthread".toList then
        if s.length = 2 then 2 else 1
      else if p = .darwin && s = "-framework".toList then 2
      else 0
    else 1 := by
  cases p with
  | msvc => exact absurd rfl hp
  | darwin => rfl
  | other => rfl

theorem takes_unix {p : Tsys} (hp : p ≠ .msvc) (s : Str) : Takes p s (limit p s) := by
  unfold limit
  rw [sense_unix hp]
  by_cases h : s.head? = some '-'
  · rw [if_pos h]
    by_cases h1 : s.tail.head? = some 'l'
    · obtain ⟨t, rfl⟩ : ∃ t, s = '-' :: 'l' :: t := by
        match s, h, h1 with
        | [], h, _ => simp at h
        | [_], _, h1 => simp at h1
        | a :: b :: t, h, h1 => simp at h h1; subst h; subst h1; exact ⟨t, rfl⟩
      cases t with
      | nil => exact .lSpace hp rfl
      | cons c t =>
        have : ('-' :: 'l' :: c :: t).length ≠ 2 := by simp
        rw [if_neg this]
        exact .l (t := c :: t) hp rfl (by simp)
    · by_cases h2 : s = "-pthread".toList
      · subst h2; exact .pthread hp rfl
      · have e1 : (decide (s.tail.head? = some 'l') || decide (s = "-pthread".toList)) = false := by
          rw [decide_eq_false h1, decide_eq_false h2]; rfl
        rw [e1]
        by_cases h3 : p = .darwin ∧ s = "-framework".toList
        · have e2 : (decide (p = .darwin) && decide (s = "-framework".toList)) = true := by
            rw [decide_eq_true h3.1, decide_eq_true h3.2]; rfl
          rw [e2]
          exact .framework h3.1 h3.2
        · have e2 : (decide (p = .darwin) && decide (s = "-framework".toList)) = false := by
            rw [← Bool.not_eq_true, Bool.and_eq_true, decide_eq_true_eq, decide_eq_true_eq]
            exact h3
          rw [e2]
          refine .option hp h ?_ h2 (fun hd hf => h3 ⟨hd, hf⟩)
          rintro t rfl
          exact h1 rfl
  · rw [if_neg h]
    exact .path hp h

theorem takes_limit (p : Tsys) (s : Str) : Takes p s (limit p s) := by
  by_cases hp : p = .msvc
  · subst hp
    unfold limit sense
    by_cases h : s.head? = some '/'
    · simp only [h, if_true]; exact .msvcOption rfl h
    · simp only [h, if_false]; exact .msvcPath rfl h
  · exact takes_unix hp s

theorem takes_unique {p : Tsys} {s : Str} {k k' : Option Nat} (h : Takes p s k) (h' : Takes p s k') :
    k = k' := by
  cases h with
  | msvcOption a b => subst a; cases h' <;> first | rfl | contradiction
  | msvcPath a b => subst a; cases h' <;> first | rfl | contradiction
  | path a b =>
    cases h' with
    | l _ h => subst h; exact absurd rfl b
    | lSpace _ h => subst h; exact absurd rfl b
    | pthread _ h => subst h; exact absurd rfl b
    | framework _ h => subst h; exact absurd rfl b
    | _ => first | rfl | contradiction
  | l a b c =>
    subst b
    cases h' with
    | lSpace _ h => cases h; exact absurd rfl c
    | option _ _ h => exact absurd rfl (h _)
    | path _ h => exact absurd rfl h
    | framework _ h => cases h
    | _ => first | rfl | contradiction
  | lSpace a b =>
    subst b
    cases h' with
    | l _ h c => cases h; exact absurd rfl c
    | pthread _ h => cases h
    | option _ _ h => exact absurd rfl (h _)
    | path _ h => exact absurd rfl h
    | _ => first | rfl | contradiction
  | pthread a b =>
    subst b
    cases h' with
    | lSpace _ h => cases h
    | framework _ h => cases h
    | path _ h => exact absurd rfl h
    | _ => first | rfl | contradiction
  | framework a b =>
    subst b
    cases h' with
    | l _ h => cases h
    | pthread _ h => cases h
    | path _ h => exact absurd rfl h
    | option _ _ _ _ h => exact absurd rfl (h a)
    | msvcOption h => rw [a] at h; cases h
    | msvcPath h => rw [a] at h; cases h
    | _ => rfl
  | option a b c d e =>
    cases h' with
    | l _ h => exact absurd h (c _)
    | lSpace _ h => exact absurd h (c _)
    | framework h1 h2 => exact absurd h2 (e h1)
    | _ => first | rfl | contradiction

theorem limit_of_takes {p : Tsys} {s : Str} {k : Option Nat} (h : Takes p s k) : limit p s = k :=
  takes_unique (takes_limit p s) h

theorem limit_pos {p : Tsys} {s : Str} {m : Nat} (h : limit p s = some m) : m ≠ 0 := by
  unfold limit at h
  by_cases h0 : sense p s = 0
  · simp [h0] at h
  · simp [h0] at h; omega

/-- The words that are taken. -/
theorem takeWords_spec (k : Option Nat) (es : List (Elem n)) :
    ∃ r, es = (takeWords k es).map .word ++ r ∧ (∀ m, k = some m → (takeWords k es).length ≤ m) ∧
      ((∃ m, k = some m ∧ (takeWords k es).length = m) ∨ r = [] ∨ ∃ i r', r = .lib i :: r') := by
  induction es generalizing k with
  | nil => exact ⟨[], by simp [takeWords], by simp [takeWords], .inr (.inl rfl)⟩
  | cons e es ih =>
    cases e with
    | lib i =>
      refine ⟨.lib i :: es, ?_, ?_, .inr (.inr ⟨i, es, rfl⟩)⟩
      · cases k with
        | none => simp [takeWords]
        | some k => cases k <;> simp [takeWords]
      · intro m hm; subst hm
        cases m <;> simp [takeWords]
    | word s =>
      match k with
      | some 0 => exact ⟨_, by simp [takeWords]; rfl, by simp [takeWords], .inl ⟨0, rfl, by simp [takeWords]⟩⟩
      | some (k + 1) =>
        obtain ⟨r, h1, h2, h3⟩ := ih (some k)
        refine ⟨r, by simp [takeWords]; exact h1, ?_, ?_⟩
        · rintro m ⟨⟩
          simp [takeWords]
          exact h2 k rfl
        · rcases h3 with ⟨m, hm, h3⟩ | h3
          · cases hm
            exact .inl ⟨k + 1, rfl, by simp [takeWords]; exact h3⟩
          · exact .inr h3
      | none =>
        obtain ⟨r, h1, h2, h3⟩ := ih none
        refine ⟨r, by simp [takeWords]; exact h1, by simp, ?_⟩
        rcases h3 with ⟨m, hm, h3⟩ | h3
        · cases hm
        · exact .inr h3

/-- Those are the only ones. -/
theorem takeWords_eq {k : Option Nat} {c : List Str} {r : List (Elem n)}
    (h1 : ∀ m, k = some m → c.length ≤ m)
    (h2 : (∃ m, k = some m ∧ c.length = m) ∨ r = [] ∨ ∃ i r', r = .lib i :: r') :
    takeWords k (c.map .word ++ r) = c := by
  induction c generalizing k with
  | nil =>
    rcases h2 with ⟨m, hm, h2⟩ | rfl | ⟨i, r', rfl⟩
    · simp at h2
      subst h2; subst hm
      cases r with
      | nil => simp [takeWords]
      | cons x r => cases x <;> simp [takeWords]
    · simp [takeWords]
    · cases k with
      | none => simp [takeWords]
      | some k => cases k <;> simp [takeWords]
  | cons s c ih =>
    match k, h1, h2 with
    | some 0, h1, _ => have := h1 0 rfl; simp at this
    | some (k + 1), h1, h2 =>
      simp only [List.map_cons, List.cons_append, takeWords]
      rw [ih]
      · rintro m ⟨⟩
        have := h1 _ rfl
        simp at this
        exact this
      · rcases h2 with ⟨m, hm, h2⟩ | h2
        · cases hm
          exact .inl ⟨k, rfl, by simpa using h2⟩
        · exact .inr h2
    | none, h1, h2 =>
      simp only [List.map_cons, List.cons_append, takeWords]
      rw [ih (by simp)]
      rcases h2 with ⟨m, hm, h2⟩ | h2
      · cases hm
      · exact .inr h2

theorem parts_word (p : Tsys) (g : Libs n) (f : Nat) (s : Str) (es : List (Elem n)) :
    parts p g (f + 1) (.word s :: es) =
      .words (takeWords (limit p s) (.word s :: es)) ::
        parts p g f ((.word s :: es).drop (takeWords (limit p s) (.word s :: es)).length) := rfl

theorem takeWords_head (p : Tsys) (s : Str) (es : List (Elem n)) :
    ∃ c, takeWords (limit p s) (.word s :: es) = s :: c := by
  match h : limit p s with
  | none => exact ⟨takeWords none es, by simp only [takeWords]⟩
  | some 0 => exact absurd rfl (limit_pos h)
  | some (k + 1) => exact ⟨takeWords (some k) es, by simp only [takeWords]⟩

theorem parts_spec (p : Tsys) (g : Libs n) (f : Nat) (es : List (Elem n)) (h : es.length ≤ f) :
    Parts p g es (parts p g f es) := by
  induction f generalizing es with
  | zero =>
    have : es = [] := by simpa using h
    subst this
    exact .nil
  | succ f ih =>
    cases es with
    | nil => exact .nil
    | cons e es =>
      cases e with
      | lib i => exact .lib (ih es (by simpa using h))
      | word s =>
        rw [parts_word]
        obtain ⟨c, hc⟩ := takeWords_head p s es
        obtain ⟨r, h1, h2, h3⟩ := takeWords_spec (limit p s) (.word s :: es)
        rw [hc] at h1 h2 h3 ⊢
        have hr : (Elem.word s :: es).drop (s :: c).length = r := by
          rw [h1, List.drop_left']
          simp
        rw [hr]
        have := Parts.words (takes_limit p s) h2 h3 (ih r ?_)
        · rw [← h1] at this
          exact this
        · have hl := congrArg List.length h1
          simp at hl h
          omega

theorem parts_unique {p : Tsys} {g : Libs n} {es : List (Elem n)} {ds : List (Dep n)}
    (h : Parts p g es ds) : ∀ f, es.length ≤ f → parts p g f es = ds := by
  induction h with
  | nil => intro f _; cases f <;> rfl
  | lib _ ih =>
    intro f hf
    cases f with
    | zero => simp at hf
    | succ f => rw [parts, ih f (by simpa using hf)]
  | @words s c k es ds ht hl he _ ih =>
    intro f hf
    cases f with
    | zero => simp at hf
    | succ f =>
      have hw := takeWords_eq hl he
      have : (s :: c).map Elem.word ++ es = .word s :: (c.map .word ++ es) := rfl
      rw [this] at hw ⊢
      rw [parts_word, limit_of_takes ht, hw, ← this, List.drop_left' (by simp), ih f]
      simp at hf
      omega

theorem partsOf_some {p : Tsys} {g : Libs n} {es : List (Elem n)} {d : Dep n} :
    d ∈ partsOf p g (some es) ↔ ∃ ds, Parts p g es ds ∧ d ∈ ds := by
  constructor
  · intro h
    exact ⟨_, parts_spec p g _ es (Nat.le_refl _), h⟩
  · rintro ⟨ds, h1, h2⟩
    rw [← parts_unique h1 _ (Nat.le_refl _)] at h2
    exact h2

theorem mem_partsOf {p : Tsys} {g : Libs n} {eo : Option (List (Elem n))} {d : Dep n} :
    d ∈ partsOf p g eo ↔ ∃ es ds, eo = some es ∧ Parts p g es ds ∧ d ∈ ds := by
  cases eo with
  | none => simp [partsOf]
  | some es =>
    rw [partsOf_some]
    simp

theorem explicit_iff (l : Lib n) : explicit l = true ↔ l.explicit := by
  simp [explicit, Lib.explicit, Option.isSome_iff_ne_none]

theorem uses_iff (p : Tsys) (g : Libs n) (l : Lib n) (d : Dep n) : d ∈ deps p g l ↔ Uses p g l d := by
  unfold deps
  rw [List.mem_append]
  constructor
  · rintro (h | h)
    · by_cases hs : (l.static && !explicit l) = true
      · rw [if_pos hs] at h
        simp only [Bool.and_eq_true, Bool.not_eq_true'] at hs
        obtain ⟨⟨i, w⟩, h1, rfl⟩ := List.mem_map.1 h
        exact .prereq hs.1 (by rw [← explicit_iff, hs.2]; simp) h1
      · rw [if_neg hs] at h; cases h
    · cases hl : l.lang with
      | unknown => rw [hl] at h; cases h
      | cc =>
        rw [hl] at h
        simp only at h
        by_cases hs : l.static = true
        · rw [if_pos hs, mem_partsOf] at h
          obtain ⟨es, ds, h1, h2, h3⟩ := h
          exact .cImpl hs (by simp [hl]) h1 h2 h3
        · rw [if_neg hs, mem_partsOf] at h
          obtain ⟨es, ds, h1, h2, h3⟩ := h
          exact .cIntf (by simpa using hs) (by simp [hl]) h1 h2 h3
      | x =>
        rw [hl] at h
        simp only at h
        by_cases hs : l.static = true
        · rw [if_pos hs] at h
          by_cases he : explicit l = true
          · rw [if_pos he, List.mem_append, mem_partsOf, mem_partsOf] at h
            rcases h with ⟨es, ds, h1, h2, h3⟩ | ⟨es, ds, h1, h2, h3⟩
            · exact .cImpl hs (by simp [hl]) h1 h2 h3
            · exact .xImpl hs hl h1 h2 h3
          · rw [if_neg he, List.mem_append, partsOf_some, partsOf_some] at h
            rw [explicit_iff] at he
            rcases h with ⟨ds, h2, h3⟩ | ⟨ds, h2, h3⟩
            · exact .cLibs hs he hl h2 h3
            · exact .xLibs hs he hl h2 h3
        · rw [if_neg hs, List.mem_append, mem_partsOf, mem_partsOf] at h
          have hs : l.static = false := by simpa using hs
          rcases h with ⟨es, ds, h1, h2, h3⟩ | ⟨es, ds, h1, h2, h3⟩
          · exact .cIntf hs (by simp [hl]) h1 h2 h3
          · exact .xIntf hs hl h1 h2 h3
  · intro h
    cases h with
    | @prereq i w hs he hm =>
      left
      rw [← explicit_iff] at he
      simp [hs, he]
      exact hm
    | @cLibs ds _ hs he hl hp hm =>
      right
      rw [← explicit_iff] at he
      simp only [hl, hs, if_true, if_neg he, List.mem_append, partsOf_some]
      exact .inl ⟨ds, hp, hm⟩
    | @xLibs ds _ hs he hl hp hm =>
      right
      rw [← explicit_iff] at he
      simp only [hl, hs, if_true, if_neg he, List.mem_append, partsOf_some]
      exact .inr ⟨ds, hp, hm⟩
    | @cImpl es ds _ hs hl he hp hm =>
      right
      cases h : l.lang with
      | unknown => exact absurd h hl
      | cc => simp only [hs, if_true, mem_partsOf]; exact ⟨es, ds, he, hp, hm⟩
      | x =>
        have hex : explicit l = true := by simp [explicit, h, he]
        simp only [hs, if_true, hex, List.mem_append, mem_partsOf]
        exact .inl ⟨es, ds, he, hp, hm⟩
    | @xImpl es ds _ hs hl he hp hm =>
      right
      have hex : explicit l = true := by simp [explicit, hl, he]
      simp only [hl, hs, if_true, hex, List.mem_append, mem_partsOf]
      exact .inr ⟨es, ds, he, hp, hm⟩
    | @cIntf es ds _ hs hl he hp hm =>
      right
      cases h : l.lang with
      | unknown => exact absurd h hl
      | cc => simp only [hs, Bool.false_eq_true, if_false, mem_partsOf]; exact ⟨es, ds, he, hp, hm⟩
      | x =>
        simp only [hs, Bool.false_eq_true, if_false, List.mem_append, mem_partsOf]
        exact .inl ⟨es, ds, he, hp, hm⟩
    | @xIntf es ds _ hs hl he hp hm =>
      right
      simp only [hl, hs, Bool.false_eq_true, if_false, List.mem_append, mem_partsOf]
      exact .inr ⟨es, ds, he, hp, hm⟩

theorem parts_whole {p : Tsys} {g : Libs n} {es : List (Elem n)} {ds : List (Dep n)}
    (h : Parts p g es ds) {j : Fin n} {w : Bool} (hm : .lib j w ∈ ds) : w = (g j).whole := by
  induction h with
  | nil => cases hm
  | lib _ ih =>
    rcases List.mem_cons.1 hm with h | h
    · cases h; rfl
    · exact ih h
  | words _ _ _ _ ih =>
    rcases List.mem_cons.1 hm with h | h
    · cases h
    · exact ih h

/-- In an interface whether to link whole depends on the target only. -/
theorem intf_whole {p : Tsys} {g : Libs n} {l : Lib n} (hs : l.static = false) {j : Fin n} {w : Bool}
    (hm : .lib j w ∈ deps p g l) : w = (g j).whole := by
  rw [uses_iff] at hm
  cases hm with
  | prereq h => rw [hs] at h; cases h
  | cLibs h => rw [hs] at h; cases h
  | xLibs h => rw [hs] at h; cases h
  | cImpl h => rw [hs] at h; cases h
  | xImpl h => rw [hs] at h; cases h
  | cIntf _ _ _ hp hm => exact parts_whole hp hm
  | xIntf _ _ _ hp hm => exact parts_whole hp hm

end Verif.LinkOrder
