import Verif.DiagBuf.Model

/-!
# Diagnostics of commands: lemmas about a job
-/

set_option linter.unusedSimpArgs false

namespace Verif.DiagBuf

theorem piped_iff (g : Cfg) (c : Cmd) : piped g c = false ↔ Inherits g c := by
  cases h1 : g.serial <;> cases h2 : g.noDiagBuffer <;> cases h3 : c.forcePipe <;>
    simp [piped, Inherits, h1, h2, h3]

theorem streaming_iff (g : Cfg) (c : Cmd) : streaming g c = true ↔ Streams g c := by
  cases h1 : g.serial <;> cases h2 : g.noDiagBuffer <;> cases h3 : c.forceBuffer <;>
    simp [streaming, nobuf, Streams, h1, h2, h3]

theorem nonEmpty_nil : nonEmpty [] = [] := rfl

theorem nonEmpty_cons (x : Char) (t : List Char) : nonEmpty (x :: t) = [x :: t] := rfl

theorem nonEmpty_of_ne {t : List Char} (h : t ≠ []) : nonEmpty t = [t] := by
  simp [nonEmpty, h]

theorem closing_eq (c : Cmd) (buf : List Char) :
    closing c buf = nonEmpty (buf ++ recordText c) := by
  cases h : c.record with
  | none => simp [closing, recordText, h, nonEmpty]
  | some t => simp [closing, recordText, h, nonEmpty]

/-- Where the execution goes on after what is being written. -/
def Pc.next : Pc → Next
  | .opened => .opened
  | .reading => .reading
  | .copying => .reading
  | .eof => .eof
  | .emit _ k => k
  | .hold _ _ k => k

/-- The job has the lock. -/
def Pc.Holds : Pc → Prop
  | .copying => True
  | .hold _ _ _ => True
  | _ => False

/-- Pieces are being written. -/
def Pc.Emits : Pc → Prop
  | .emit _ _ => True
  | .hold _ _ _ => True
  | _ => False

/-- The invariant of a job. -/
structure Inv (g : Cfg) (c : Cmd) (r : Run) : Prop where
  todo : r.pc.next ≠ .opened → r.todo = []
  ended : r.pc.next = .eof ∨ r.pc.next = .closed →
    (piped g c = true → r.pipe = [] ∧ r.left = []) ∧ r.line = []
  closed : r.pc.next = .closed → r.left = [] ∧ r.buf = []
  stream : streaming g c = true → r.buf = []
  direct : piped g c = false → r.buf = [] ∧ r.pipe = [] ∧ r.todo = [] ∧ r.line = []
  line : r.line ≠ [] → streaming g c = true ∧ g.serial = false
  copying : r.pc = .copying → g.serial = true ∧ streaming g c = true ∧ piped g c = true
  emits : piped g c = false → r.pc.Emits → r.pc.next = .closed

/-- What is left to be written of a command that is not being closed. -/
def rest (g : Cfg) (c : Cmd) (r : Run) : List (List Char) :=
  if piped g c = false then r.left.map (fun x => [x]) ++ nonEmpty (recordText c)
  else if streaming g c then
    r.todo.map fragment ++
      (if g.serial then nonEmpty (r.pipe ++ r.left) else linesFrom r.line (r.pipe ++ r.left)) ++
      nonEmpty (recordText c)
  else nonEmpty (r.buf ++ r.todo.flatMap fragment ++ r.pipe ++ r.left ++ recordText c)

/-- What is left after the pieces that are being written. -/
def after (g : Cfg) (c : Cmd) (r : Run) (k : Next) : List (List Char) :=
  if k = .closed then [] else rest g c r

/-- What is left to be written, including the piece of which a part has been written. -/
def pend (g : Cfg) (c : Cmd) (p : List Char) (r : Run) : List (List Char) :=
  match r.pc with
  | .copying => (p ++ r.pipe ++ r.left) :: nonEmpty (recordText c)
  | .emit ws k => ws ++ after g c r k
  | .hold w ws k => (p ++ w) :: (ws ++ after g c r k)
  | _ => rest g c r

theorem pend_part {g : Cfg} {c : Cmd} {r : Run} (h : ¬ r.pc.Holds) (p q : List Char) :
    pend g c p r = pend g c q r := by
  unfold pend
  cases hp : r.pc <;> simp [Pc.Holds, hp] at h ⊢

theorem inv_start {g : Cfg} {c : Cmd} (ho : Inherits g c → c.writes = []) :
    Inv g c (start c) where
  todo h := absurd rfl h
  ended h := by simp [start, Pc.next] at h
  closed h := by simp [start, Pc.next] at h
  stream _ := rfl
  direct h := ⟨rfl, rfl, ho ((piped_iff g c).1 h), rfl⟩
  line h := absurd rfl h
  copying h := by simp [start] at h
  emits _ h := by simp [start, Pc.Emits] at h

theorem pend_start {g : Cfg} {c : Cmd} (p : List Char) :
    pend g c p (start c) = pieces g c := by
  simp only [pend, start, rest, pieces]
  by_cases h1 : Inherits g c
  · rw [if_pos h1, if_pos ((piped_iff g c).2 h1)]
  · rw [if_neg h1, if_neg (fun h => h1 ((piped_iff g c).1 h))]
    by_cases h2 : Streams g c
    · rw [if_pos h2, if_pos ((streaming_iff g c).2 h2)]
      simp [lines]
    · rw [if_neg h2, if_neg (fun h => h2 ((streaming_iff g c).1 h))]
      simp [text]

theorem piped_cases (g : Cfg) (c : Cmd) : piped g c = true ∨ piped g c = false := by
  cases piped g c <;> simp

theorem local_inv {g : Cfg} {c : Cmd} {r r' : Run} (h : Local g c r r') (hi : Inv g c r) :
    Inv g c r' := by
  obtain ⟨h1, h2, h3, h4, h5, h6, h7, h8⟩ := hi
  cases h with
  | @write w t hp ht =>
    have hpi : piped g c ≠ false := fun h => by simp [(h5 h).2.2.1] at ht
    unfold write
    by_cases hs : streaming g c = true
    · rw [if_pos hs]
      constructor <;> simp_all [Pc.next, Pc.Emits]
    · rw [if_neg hs]
      constructor <;> simp_all [Pc.next, Pc.Emits]
  | call hp ht => constructor <;> simp_all [Pc.next, Pc.Emits]
  | none hp hn => constructor <;> simp_all [Pc.next, Pc.Emits]
  | copy hp hp' hs hq hn => constructor <;> simp_all [Pc.next, Pc.Emits]
  | char hp hp' hs hser hq =>
    unfold readChar
    split <;> constructor <;> simp_all [Pc.next, Pc.Emits]
  | last hp hp' hq hl =>
    unfold readEnd
    split <;> constructor <;> simp_all [Pc.next, Pc.Emits]
  | close hp hl => constructor <;> simp_all [Pc.next, Pc.Emits]
  | @goOn k hp hk =>
    cases k <;> constructor <;> simp_all [Pc.next, Pc.Emits, Next.pc]

theorem local_holds {g : Cfg} {c : Cmd} {r r' : Run} (h : Local g c r r') :
    ¬ r.pc.Holds ∧ ¬ r'.pc.Holds := by
  cases h with
  | @write w t hp ht =>
    unfold write
    split <;> simp [hp, Pc.Holds]
  | call hp ht => simp [hp, Pc.Holds]
  | none hp hn => simp [hp, Pc.Holds]
  | copy hp hp' hs hq => simp [hp, Pc.Holds]
  | char hp hp' hs hser hq =>
    unfold readChar
    split <;> simp [hp, Pc.Holds]
  | last hp hp' hq hl =>
    unfold readEnd
    split <;> simp [hp, Pc.Holds]
  | close hp hl => simp [hp, Pc.Holds]
  | @goOn k hp hk =>
    cases k <;> simp [hp, Pc.Holds, Next.pc]

theorem linesFrom_nl (l xs : List Char) :
    linesFrom l ('\n' :: xs) = (l ++ ['\n']) :: linesFrom [] xs := by
  cases l <;> simp [linesFrom]

theorem linesFrom_char (l xs : List Char) {x : Char} (h : x ≠ '\n') :
    linesFrom l (x :: xs) = linesFrom (l ++ [x]) xs := by
  cases l <;> simp [linesFrom, h]

theorem linesFrom_end {l : List Char} (h : l ≠ []) : linesFrom l [] = [l ++ ['\n']] := by
  cases l with
  | nil => exact absurd rfl h
  | cons a l => simp [linesFrom]

theorem fragment_eq (w : List Char × Bool) :
    fragment w = w.1 ++ (if w.2 = true then ['\n'] else []) := rfl

theorem local_pend {g : Cfg} {c : Cmd} {r r' : Run} (h : Local g c r r') (hi : Inv g c r)
    (p : List Char) : pend g c p r' = pend g c p r := by
  obtain ⟨h1, h2, h3, h4, h5, h6, h7, h8⟩ := hi
  cases h with
  | @write w t hp ht =>
    have hpi : piped g c = true := by
      rcases piped_cases g c with h | h
      · exact h
      · simp [(h5 h).2.2.1] at ht
    unfold write
    by_cases hs : streaming g c = true
    · simp [pend, hp, hs, after, rest, hpi, ht, fragment_eq]
    · simp [pend, hp, hs, after, rest, hpi, ht, fragment_eq]
  | call hp ht => simp [pend, hp, rest]
  | none hp hn => simp [pend, hp, rest]
  | copy hp hpi hs hq => simp [pend, hp, rest, hpi, hs, hq, h1 (by simp [hp, Pc.next])]
  | @char x q hp hpi hs hser hq =>
    unfold readChar
    by_cases hx : x = '\n'
    · subst hx
      simp [pend, hp, rest, after, hpi, hs, hser, hq, linesFrom_nl,
        h1 (by simp [hp, Pc.next])]
    · simp [pend, hp, rest, after, hpi, hs, hser, hq, hx, linesFrom_char _ _ hx]
  | last hp hpi hq hl =>
    unfold readEnd
    by_cases hn : r.line = []
    · simp [pend, hp, rest, hn]
    · have h := h6 hn
      simp [pend, hp, rest, after, hn, hpi, h.1, h.2, hq, hl, linesFrom_end hn,
        h1 (by simp [hp, Pc.next]), linesFrom]
  | close hp hl =>
    have e := h2 (by simp [hp, Pc.next])
    have t := h1 (by simp [hp, Pc.next])
    rcases piped_cases g c with hpi | hpi
    · have e' := e.1 hpi
      by_cases hs : streaming g c = true
      · have hb := h4 hs
        simp [pend, hp, rest, after, closing_eq, hpi, hs, hb, e', e.2, t, nonEmpty_nil,
          linesFrom]
      · simp [pend, hp, rest, after, closing_eq, hpi, hs, e', t]
    · have d := h5 hpi
      simp [pend, hp, rest, after, closing_eq, hpi, d.1, hl]
  | @goOn k hp hk =>
    cases k <;> simp_all [pend, Next.pc, after, rest]

end Verif.DiagBuf
