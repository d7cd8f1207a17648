import Verif.SetRead.Model

/-! # Reading elements from the output of a command: lemmas -/

namespace Verif.SetRead

/-- What is in the stream altogether. -/
def text : List Ev → Text
  | [] => []
  | .block :: evs => text evs
  | .data c :: evs => c ++ text evs

/-- The substrings and what is left in the end. -/
inductive Feed (m : Mode) : Text → Text → List Ev → List Text → Text → Prop
  | done {ss} : Feed m ss [] [] [] ss
  | block {ss evs es g} : Feed m ss [] evs es g → Feed m ss [] (.block :: evs) es g
  | data {ss c evs es g} : Feed m ss c evs es g → Feed m ss [] (.data c :: evs) es g
  | more {ss ss' c evs es g} : c ≠ [] → scan m ss c = (ss', none) → Feed m ss' [] evs es g →
      Feed m ss c evs es g
  | str {ss ss' c c' evs es g} : c ≠ [] → scan m ss c = (ss', some c') → Feed m [] c' evs es g →
      Feed m ss c evs (ss' :: es) g

theorem scanLines_length {nl : Bool} : ∀ {p ss ss' c' : Text}, scanLines nl ss p = (ss', some c') →
    c'.length < p.length := by
  intro p
  induction p with
  | nil => intro ss ss' c' h; simp [scanLines] at h
  | cons c p ih =>
    intro ss ss' c' h
    rw [scanLines] at h
    split at h
    · split at h
      · cases h; simp
      · have := ih h; simp; omega
    · have := ih h; simp; omega

theorem length_dropWhile (p : Char → Bool) (l : Text) : (l.dropWhile p).length ≤ l.length := by
  induction l with
  | nil => simp
  | cons a l ih => simp only [List.dropWhile]; split <;> simp <;> omega

theorem scanWords_length {p ss ss' c' : Text} (h : scanWords ss p = (ss', some c')) :
    c'.length < p.length := by
  rw [scanWords] at h
  split at h
  · cases h
  · next c q e =>
    split at h
    · cases h
    · next x r e2 =>
      cases h
      have h1 := length_dropWhile isSep p
      rw [e] at h1
      have h2 := length_dropWhile (fun c => !isSep c) (c :: q)
      rw [e2] at h2
      simp only [List.length_cons] at h1 h2
      omega

theorem scan_length {m : Mode} {p ss ss' c' : Text} (h : scan m ss p = (ss', some c')) :
    c'.length < p.length := by
  cases m
  · exact scanWords_length h
  · exact scanLines_length h
  · exact scanLines_length h

theorem feed_exists (m : Mode) : ∀ (evs : List Ev) (n : Nat) (ss c : Text), c.length ≤ n →
    ∃ es g, Feed m ss c evs es g := by
  intro evs
  have chunk : ∀ evs, (∀ ss, ∃ es g, Feed m ss [] evs es g) → ∀ n (ss c : Text), c.length ≤ n →
      ∃ es g, Feed m ss c evs es g := by
    intro evs h0 n
    induction n with
    | zero =>
      intro ss c hc
      have : c = [] := List.eq_nil_of_length_eq_zero (by omega)
      subst this
      exact h0 ss
    | succ n ih =>
      intro ss c hc
      by_cases he : c = []
      · subst he; exact h0 ss
      · cases hs : scan m ss c with
        | mk ss' o =>
          cases o with
          | none =>
            obtain ⟨es, g, h⟩ := h0 ss'
            exact ⟨es, g, .more he hs h⟩
          | some c' =>
            have := scan_length hs
            obtain ⟨es, g, h⟩ := ih [] c' (by omega)
            exact ⟨_, g, .str he hs h⟩
  induction evs with
  | nil => exact chunk [] fun ss => ⟨[], ss, .done⟩
  | cons e evs ih =>
    refine chunk _ fun ss => ?_
    cases e with
    | block =>
      obtain ⟨es, g, h⟩ := ih 0 ss [] (by simp)
      exact ⟨es, g, .block h⟩
    | data c =>
      obtain ⟨es, g, h⟩ := ih c.length ss c (Nat.le_refl _)
      exact ⟨es, g, .data h⟩

/-- The last substring, if any. -/
def fin (m : Mode) (exact empty : Bool) (g : Text) : List Text :=
  if g ≠ [] ∨ (exact = true ∧ empty = false) then [if exact then g else last m g] else []

/-- What the callback is called with. -/
def upTo (f : List Text → Bool) (d : List Text) : List Text → List Text
  | [] => d
  | e :: es => if f (d ++ [e]) then upTo f (d ++ [e]) es else d ++ [e]

/-- The result of `read`, after some number of iterations. -/
def Reads (r : Nat → Option (List Text × St)) (d : List Text) : Prop :=
  ∃ N st, st.cur = [] ∧ st.evs = [] ∧ ∀ n, r n = if N < n then some (d, st) else none

theorem Reads.succ {r r' : Nat → Option (List Text × St)} {d : List Text} (h : Reads r d)
    (h0 : r' 0 = none) (hs : ∀ n, r' (n + 1) = r n) : Reads r' d := by
  obtain ⟨N, st, h1, h2, h⟩ := h
  refine ⟨N + 1, st, h1, h2, fun n => ?_⟩
  cases n with
  | zero => rw [h0, if_neg (by omega)]
  | succ n =>
    rw [hs, h]
    by_cases hn : N < n
    · rw [if_pos hn, if_pos (by omega)]
    · rw [if_neg hn, if_neg (by omega)]

theorem Reads.now {r : Nat → Option (List Text × St)} {d : List Text} {st : St}
    (h1 : st.cur = []) (h2 : st.evs = []) (h0 : r 0 = none) (hs : ∀ n, r (n + 1) = some (d, st)) :
    Reads r d := by
  refine ⟨0, st, h1, h2, fun n => ?_⟩
  cases n with
  | zero => rw [h0, if_neg (by omega)]
  | succ n => rw [hs, if_pos (by omega)]

theorem Reads.same {r r' : Nat → Option (List Text × St)} {d : List Text} (h : Reads r d)
    (e : ∀ n, r' n = r n) : Reads r' d := by
  have : r' = r := funext e
  rwa [this]

theorem skip_cur (x : Text) (ex em : Bool) (evs' : List Ev) : ∀ (evs evs'' : List Ev) (y : Text),
    skip ⟨x, evs', ex, em⟩ evs = skip ⟨y, evs'', ex, em⟩ evs
  | [], _, _ => rfl
  | .block :: _, _, _ => rfl
  | .data _ :: evs, evs'', y => by rw [skip, skip]; exact skip_cur x ex em evs' evs evs'' y

theorem read_skip (m : Mode) (f : List Text → Bool) (ex em : Bool) (s : Text) (d : List Text) :
    ∀ (evs : List Ev) (cur : Text), Reads (fun n => read m f n false ⟨cur, evs, ex, em⟩ s d) d
  | [], cur => by
    refine .now (st := ⟨[], [], ex, em⟩) rfl rfl (by rw [read]) fun n => ?_
    rw [read]
    rfl
  | .block :: evs, cur => by
    refine (read_skip m f ex em s d evs []).succ (by rw [read]) fun n => ?_
    rw [read]
    rfl
  | .data c :: evs, cur => by
    refine (read_skip m f ex em s d evs cur).same fun n => ?_
    cases n with
    | zero => rw [read, read]
    | succ n =>
      rw [read, read, show skip ⟨cur, .data c :: evs, ex, em⟩ (.data c :: evs) =
        skip ⟨cur, .data c :: evs, ex, em⟩ evs by rw [skip]]
      rw [skip_cur cur ex em _ evs evs cur]

theorem read_str {m : Mode} {f : List Text → Bool} {st st' : St} {s s' : Text} {d es : List Text}
    (hn : next m st s = .str s' st')
    (h : Reads (fun n => read m f n true st' [] (d ++ [s'])) (upTo f (d ++ [s']) es)) :
    Reads (fun n => read m f n true st s d) (upTo f d (s' :: es)) := by
  rw [upTo]
  by_cases hf : f (d ++ [s']) = true
  · rw [if_pos hf]
    refine h.succ (by rw [read]) fun n => ?_
    rw [read, hn]
    dsimp only
    rw [if_pos hf]
  · rw [if_neg hf]
    refine (read_skip m f st'.exact st'.empty s' (d ++ [s']) st'.evs st'.cur).succ (by rw [read])
      fun n => ?_
    rw [read, hn]
    dsimp only
    rw [if_neg hf]

theorem next_data (m : Mode) (c : Text) (evs : List Ev) (ex em : Bool) (ss : Text) :
    next m ⟨[], .data c :: evs, ex, em⟩ ss = next m ⟨c, evs, ex, em⟩ ss := by
  rw [next, next]
  dsimp only
  rw [if_pos rfl, pull]

theorem read_feed {m : Mode} {f : List Text → Bool} {ss cur : Text} {evs : List Ev}
    {es : List Text} {g : Text} (h : Feed m ss cur evs es g) (ex : Bool) :
    ∀ (em : Bool) (d : List Text), Reads (fun n => read m f n true ⟨cur, evs, ex, em⟩ ss d)
      (upTo f d (es ++ fin m ex (em && (cur ++ text evs == [])) g)) := by
  induction h with
  | @done ss =>
    intro em d
    rw [List.nil_append, fin]
    have e : (em && (([] : Text) ++ text [] == [])) = em := by simp [text]
    rw [e]
    by_cases hc : ss ≠ [] ∨ (ex = true ∧ em = false)
    · rw [if_pos hc]
      refine read_str (st' := ⟨[], [], false, em⟩) ?_ ?_
      · rw [next, if_pos rfl, pull, if_pos hc]
      · refine .now (st := ⟨[], [], false, em⟩) rfl rfl (by rw [read]) fun n => ?_
        rw [read, next, if_pos rfl, pull, if_neg (by simp)]
        rfl
    · rw [if_neg hc]
      refine .now (st := ⟨[], [], ex, em⟩) rfl rfl (by rw [read]) fun n => ?_
      rw [read, next, if_pos rfl, pull, if_neg hc]
      rfl
  | @block ss evs es g _ ih =>
    intro em d
    refine (ih em d).succ (by rw [read]) fun n => ?_
    rw [read, next, if_pos rfl, pull]
  | @data ss c evs es g _ ih =>
    intro em d
    refine (ih em d).same fun n => ?_
    cases n with
    | zero => rw [read, read]
    | succ n => rw [read, read, next_data]
  | @more ss ss' c evs es g hc hs _ ih =>
    intro em d
    have e : (em && (c ++ text evs == [])) = (false && (([] : Text) ++ text evs == [])) := by
      cases c with
      | nil => exact absurd rfl hc
      | cons => simp
    rw [e]
    refine (ih false d).same fun n => ?_
    cases n with
    | zero => rw [read, read]
    | succ n =>
      rw [read, read, next, next]
      dsimp only
      rw [if_neg hc, if_pos rfl, hs]
  | @str ss ss' c c' evs es g hc hs _ ih =>
    intro em d
    have e : (em && (c ++ text evs == [])) = (false && (c' ++ text evs == [])) := by
      cases c with
      | nil => exact absurd rfl hc
      | cons => simp
    rw [e, List.cons_append]
    refine read_str (st' := ⟨c', evs, ex, false⟩) ?_ (ih false _)
    rw [next]
    dsimp only
    rw [if_neg hc, hs]

end Verif.SetRead
