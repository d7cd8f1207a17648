import Verif.InSubst.Docs

/-!
# Substitutions in `.in` files: databases and histories
-/

namespace Verif.InSubst

variable {hash : Str → Str} {e : Env}

/-! ## Views -/

/-- The view that is being written. -/
abbrev View.out (ls : List Str) : View := ⟨ls, none, none⟩

theorem expect_out (ls : List Str) (l : Str) : (View.out ls).expect l = .out (ls ++ [l]) := rfl

theorem foldl_expect_out (hs : List Str) : ∀ ls, hs.foldl View.expect (.out ls) = .out (ls ++ hs) := by
  induction hs with
  | nil => intro ls; simp
  | cons h hs ih => intro ls; rw [List.foldl_cons, expect_out, ih]; simp

theorem foldl_expect (hs : List Str) : ∀ (done : List Str) (cur : Option Str) (ls : List Str) (b : Bool),
    (∀ r, ls = hs ++ r → ∃ done' cur', hs.foldl View.expect ⟨done, cur, some (ls, b)⟩ = ⟨done', cur', some (r, b)⟩ ∧
      done' ++ cur'.toList = done ++ cur.toList ++ hs) ∧
    (¬ hs <+: ls → hs.foldl View.expect ⟨done, cur, some (ls, b)⟩ = .out (done ++ cur.toList ++ hs)) := by
  induction hs with
  | nil =>
    intro done cur ls b
    refine ⟨?_, ?_⟩
    · rintro r rfl
      exact ⟨done, cur, rfl, by simp⟩
    · intro h
      exact absurd (List.nil_prefix) h
  | cons h hs ih =>
    intro done cur ls b
    rw [List.foldl_cons]
    cases ls with
    | nil =>
      refine ⟨?_, ?_⟩
      · intro r hr
        cases hr
      · intro _
        have : View.expect ⟨done, cur, some ([], b)⟩ h = .out (done ++ cur.toList ++ [h]) := by
          cases b <;> rfl
        rw [this, foldl_expect_out]
        simp
    | cons l ls =>
      by_cases hl : l = h
      · subst hl
        have : View.expect ⟨done, cur, some (l :: ls, b)⟩ l = ⟨done ++ cur.toList, some l, some (ls, b)⟩ := by
          unfold View.expect
          show (if l = l then _ else _) = _
          rw [if_pos rfl]
        rw [this]
        have := ih (done ++ cur.toList) (some l) ls b
        refine ⟨?_, ?_⟩
        · intro r hr
          obtain ⟨done', cur', h1, h2⟩ := this.1 r (by injection hr)
          exact ⟨done', cur', h1, by rw [h2]; simp⟩
        · intro hp
          rw [this.2 fun hp' => hp (by rw [List.cons_prefix_cons]; exact ⟨rfl, hp'⟩)]
          simp
      · have : View.expect ⟨done, cur, some (l :: ls, b)⟩ h = .out (done ++ cur.toList ++ [h]) := by
          unfold View.expect
          show (if l = h then _ else _) = _
          rw [if_neg hl]
          rfl
        rw [this, foldl_expect_out]
        refine ⟨?_, ?_⟩
        · intro r hr
          injection hr with h1 h2
          exact absurd h1 hl
        · intro _
          simp

theorem read_rewrite (done : List Str) (cur : Option Str) (x : List Str × Bool) :
    (View.read ⟨done, cur, some x⟩).2.rewrite = .out (done ++ cur.toList) := by
  obtain ⟨ls, b⟩ := x
  cases ls with
  | nil => cases b <;> rfl
  | cons l ls => rfl

/-! ## Lines -/

theorem digits_repr (k : Nat) : ∀ c ∈ (Nat.repr k).toList, c.isDigit = true := by
  intro c hc
  rw [Nat.toList_repr] at hc
  exact Nat.isDigit_of_mem_toDigits (by omega) (by omega) hc

theorem dropWhile_all {p : Char → Bool} (u : Str) (c : Char) (r : Str) (h : ∀ x ∈ u, p x = true) (hc : p c = false) :
    (u ++ c :: r).dropWhile p = c :: r := by
  induction u with
  | nil => rw [List.nil_append, List.dropWhile_cons_of_neg (by simp [hc])]
  | cons d u ih =>
    rw [List.cons_append, List.dropWhile_cons_of_pos (h d (by simp)), ih fun x hx => h x (by simp [hx])]

theorem takeWhile_all {p : Char → Bool} (u : Str) (c : Char) (r : Str) (h : ∀ x ∈ u, p x = true) (hc : p c = false) :
    (u ++ c :: r).takeWhile p = u := by
  induction u with
  | nil => rw [List.nil_append, List.takeWhile_cons_of_neg (by simp [hc])]
  | cons d u ih =>
    rw [List.cons_append, List.takeWhile_cons_of_pos (h d (by simp)), ih fun x hx => h x (by simp [hx])]

/-- Hashes are printed as hexadecimal numbers. -/
def Plain (hash : Str → Str) : Prop := ∀ v, ' ' ∉ hash v ∧ '/' ∉ hash v

theorem parse_entry (hp : Plain hash) (k : Nat) (n v : Str) (hn : n ≠ []) :
    parseEntry (entry hash k n v) = some (n, hash v) := by
  unfold parseEntry entry
  rw [List.append_assoc]
  rw [show ' ' :: n ++ ' ' :: hash v = ' ' :: (n ++ ' ' :: hash v) from rfl, dropWhile_all _ _ _ (digits_repr k) (by decide)]
  dsimp only
  have hrev : (n ++ ' ' :: hash v).reverse = (hash v).reverse ++ ' ' :: n.reverse := by simp
  have hh : ∀ x ∈ (hash v).reverse, decide (x ≠ ' ') = true := by
    intro x hx
    rw [List.mem_reverse] at hx
    have := (hp v).1
    simp only [decide_eq_true_eq]
    rintro rfl
    exact this hx
  show (if 2 ≤ ((n ++ ' ' :: hash v).reverse.dropWhile fun x => decide (x ≠ ' ')).reverse.length then
      if '/' ∈ ((n ++ ' ' :: hash v).reverse.takeWhile fun x => decide (x ≠ ' ')).reverse then none
      else some (((n ++ ' ' :: hash v).reverse.dropWhile fun x => decide (x ≠ ' ')).reverse.dropLast,
        ((n ++ ' ' :: hash v).reverse.takeWhile fun x => decide (x ≠ ' ')).reverse)
    else none) = _
  rw [hrev, takeWhile_all _ _ _ hh (by simp), dropWhile_all _ _ _ hh (by simp)]
  have hl : 0 < n.length := List.length_pos_iff.2 hn
  rw [if_pos (by simp; omega), List.reverse_reverse, if_neg (hp v).2]
  simp

/-! ## The check -/

/-- The line is good. -/
def GoodLine (hash : Str → Str) (e : Env) (l : Str) : Prop :=
  ∃ n h v, parseEntry l = some (n, h) ∧ substitute e n = .ok (some v) ∧ h = hash v

/-- The line is bad: either it is not understood or the value is different. -/
def BadLine (hash : Str → Str) (e : Env) (l : Str) : Prop :=
  parseEntry l = none ∨ ∃ n h v, parseEntry l = some (n, h) ∧ substitute e n = .ok (some v) ∧ h ≠ hash v

theorem checkLoop_spec (r : List Str) : ∀ (f : Nat) (done : List Str) (cur : Option Str) (b : Bool) (k : Nat),
    r.length < f →
    ((∀ l ∈ r, GoodLine hash e l) →
      (b = true → ∃ v, checkLoop hash e f ⟨done, cur, some (r, b)⟩ k = (v, .ok (k + r.length)) ∧ v.writing = false ∧
        v.lines = done ++ cur.toList ++ r) ∧
      (b = false → checkLoop hash e f ⟨done, cur, some (r, b)⟩ k =
        (.out (done ++ cur.toList ++ r), .ok (k + r.length)))) ∧
    (∀ g l r', r = g ++ l :: r' → (∀ l ∈ g, GoodLine hash e l) →
      (BadLine hash e l → checkLoop hash e f ⟨done, cur, some (r, b)⟩ k =
        (.out (done ++ cur.toList ++ g), .ok (k + g.length))) ∧
      (∀ n h x, parseEntry l = some (n, h) → substitute e n = .error x → ∃ v,
        checkLoop hash e f ⟨done, cur, some (r, b)⟩ k = (v, .error x) ∧ v.writing = false) ∧
      (∀ n h, parseEntry l = some (n, h) → substitute e n = .ok none → ∃ v,
        checkLoop hash e f ⟨done, cur, some (r, b)⟩ k = (v, .error .assertion) ∧ v.writing = false)) := by
  induction r with
  | nil =>
    intro f done cur b k hf
    cases f with
    | zero => cases hf
    | succ f =>
      refine ⟨?_, ?_⟩
      · intro _
        refine ⟨?_, ?_⟩
        · rintro rfl
          refine ⟨⟨done, cur, some ([], true)⟩, ?_, rfl, ?_⟩
          · rfl
          · simp [View.lines]
        · rintro rfl
          unfold checkLoop
          rw [if_pos (show View.more ⟨done, cur, some ([], false)⟩ = true from rfl)]
          simp [View.read]
      · intro g l r' h
        cases g <;> cases h
  | cons a r ih =>
    intro f done cur b k hf
    cases f with
    | zero => cases hf
    | succ f =>
      have hmore : View.more ⟨done, cur, some (a :: r, b)⟩ = true := rfl
      have hread : View.read ⟨done, cur, some (a :: r, b)⟩ = (some a, ⟨done ++ cur.toList, some a, some (r, b)⟩) := rfl
      have hi := ih f (done ++ cur.toList) (some a) b (k + 1) (by simp at hf; omega)
      have hgood : GoodLine hash e a → checkLoop hash e (f + 1) ⟨done, cur, some (a :: r, b)⟩ k =
          checkLoop hash e f ⟨done ++ cur.toList, some a, some (r, b)⟩ (k + 1) := by
        rintro ⟨n, h, v, h1, h2, h3⟩
        rw [checkLoop, if_pos hmore, hread]
        dsimp only
        rw [h1]
        dsimp only
        rw [h2]
        dsimp only
        rw [if_pos h3]
      refine ⟨?_, ?_⟩
      · intro hg
        rw [hgood (hg a (by simp))]
        have := hi.1 fun l hl => hg l (by simp [hl])
        refine ⟨?_, ?_⟩
        · intro hb
          obtain ⟨v, h1, h2, h3⟩ := this.1 hb
          exact ⟨v, by rw [h1]; simp; omega, h2, by rw [h3]; simp⟩
        · intro hb
          rw [this.2 hb]
          simp
          omega
      · intro g l r' hr hg
        cases g with
        | nil =>
          injection hr with h1 h2
          subst h1
          subst h2
          refine ⟨?_, ?_, ?_⟩
          · intro hbad
            rw [checkLoop, if_pos hmore, hread]
            dsimp only
            rcases hbad with h1 | ⟨n, h, v, h1, h2, h3⟩
            · rw [h1]; simp [View.rewrite]
            · rw [h1]
              dsimp only
              rw [h2]
              dsimp only
              rw [if_neg h3]
              simp [View.rewrite]
          · intro n h x h1 h2
            refine ⟨⟨done ++ cur.toList, some a, some (r, b)⟩, ?_, ?_⟩
            · rw [checkLoop, if_pos hmore, hread]
              dsimp only
              rw [h1]
              dsimp only
              rw [h2]
            · rfl
          · intro n h h1 h2
            refine ⟨⟨done ++ cur.toList, some a, some (r, b)⟩, ?_, ?_⟩
            · rw [checkLoop, if_pos hmore, hread]
              dsimp only
              rw [h1]
              dsimp only
              rw [h2]
            · rfl
        | cons x g =>
          injection hr with h1 h2
          subst h1
          rw [hgood (hg a (by simp))]
          have := hi.2 g l r' h2 fun l hl => hg l (by simp [hl])
          refine ⟨?_, this.2.1, this.2.2⟩
          intro hbad
          rw [this.1 hbad]
          simp
          omega

end Verif.InSubst
