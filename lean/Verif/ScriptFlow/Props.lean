import Verif.ScriptFlow.Files
import Verif.ScriptFlow.FileName
import Verif.ScriptFlow.ParseLemmas

/-!
# Script flow control: properties
-/

namespace Verif.ScriptFlow

variable {A V σ : Type}

/-! ## C47: the flow control constructs mean what they say -/

/-- Executing the lines of a script does what the script says: it ends in some way exactly if
running the script does, whatever the lines do, however deep the constructs are nested and however
many iterations there are. -/
theorem lines_run (c : Calls A V σ) (tof : Bool) (p : Prog A) (ii : List Nat) (li : Nat) (s : σ)
    (o : Out σ) :
    (∃ f li', exec c.exec tof f p.lines ii li s = some (o, li')) ↔
      ∃ n, run c tof n p ii s = some o := by
  constructor
  · rintro ⟨f, li', h⟩
    obtain ⟨_, N, hN⟩ := (complete (tof := tof) (calls_facts c) f).1 p ii li li s o li'
      (fun h => h.elim) (fun h => h.elim) h
    exact ⟨N, by rw [← run_erase c tof N p li]; exact hN N (Nat.le_refl N)⟩
  · rintro ⟨n, h⟩
    rw [← run_erase c tof n p li] at h
    obtain ⟨li', _, N, hN⟩ := sound (tof := tof) (calls_facts c) p ii li li s o
      (fun h => h.elim) (fun h => h.elim) h
    exact ⟨N, li', hN N (Nat.le_refl N)⟩

/-- There is at most one way for a script to end. -/
theorem run_unique (c : Calls A V σ) (tof : Bool) (p : Prog A) (ii : List Nat) (li : Nat) (s : σ)
    {f f' li1 li2 : Nat} {o o' : Out σ} (h : exec c.exec tof f p.lines ii li s = some (o, li1))
    (h' : exec c.exec tof f' p.lines ii li s = some (o', li2)) : o = o' := by
  obtain ⟨_, N, hN⟩ := (complete (tof := tof) (calls_facts c) f).1 p ii li li s o li1
    (fun h => h.elim) (fun h => h.elim) h
  obtain ⟨_, N', hN'⟩ := (complete (tof := tof) (calls_facts c) f').1 p ii li li s o' li2
    (fun h => h.elim) (fun h => h.elim) h'
  have h1 := hN (N + N') (by omega)
  have h2 := hN' (N + N') (by omega)
  rw [h1] at h2
  exact Option.some.inj h2

/-- No assertion fails: the end of every construct is found. -/
theorem no_assert (c : Calls A V σ) (tof : Bool) (p : Prog A) (ii : List Nat) (li : Nat) (s : σ)
    (f li' : Nat) : exec c.exec tof f p.lines ii li s ≠ some (.bad, li') := by
  intro h
  obtain ⟨n, hn⟩ := (lines_run c tof p ii li s .bad).mp ⟨f, li', h⟩
  exact run_fine c tof n p true (scoped_true p) ii s .bad hn

/-- If every `break` and `continue` is inside a loop, then the script ends normally, by exiting or
by failing. -/
theorem no_stray (c : Calls A V σ) (tof : Bool) (p : Prog A) (hp : p.scoped false) (ii : List Nat)
    (li : Nat) (s s' : σ) (f li' : Nat) :
    exec c.exec tof f p.lines ii li s ≠ some (.cont s', li') ∧
    exec c.exec tof f p.lines ii li s ≠ some (.brk s', li') := by
  constructor
  · intro h
    obtain ⟨n, hn⟩ := (lines_run c tof p ii li s _).mp ⟨f, li', h⟩
    exact absurd (run_fine c tof n p false hp ii s _ hn) (by simp [Out.fine])
  · intro h
    obtain ⟨n, hn⟩ := (lines_run c tof p ii li s _).mp ⟨f, li', h⟩
    exact absurd (run_fine c tof n p false hp ii s _ hn) (by simp [Out.fine])

/-! ### From the source -/

/-- The pre-parser (syntax version 2) accepts exactly the sources that are a script written out,
with every `break` and `continue` inside a loop, and gives the lines of the script. -/
theorem parse2_iff (src : List (Src A)) (ls : List (Line A)) :
    parse2 src = some ls ↔ ∃ p o, Written (.seq p) o src ∧ ls = p.lines ∧ p.scoped false := by
  constructor
  · exact s_script _ src ls
  · rintro ⟨p, o, h, rfl, hs⟩
    exact (accepts h 0 hs).2 rfl _ (by omega)

/-- In syntax version 1 the source is the lines, so exactly the lines of a script are accepted. -/
theorem parse1_iff (src : List (Line A)) :
    parse1 src = true ↔ ∃ p : Prog A, src = p.lines ∧ p.scoped false := by
  constructor
  · exact s1_script _ src
  · rintro ⟨p, rfl, hs⟩
    have := acc_seq p 0 none Bool parseScript1 steps_script hs 1 [] true
      (fun f hf => by
        obtain ⟨f, rfl⟩ : ∃ g, f = g + 1 := ⟨f - 1, by omega⟩
        simp only [parseScript1]) (4 * p.lines.length + 4) (by omega)
    rwa [List.append_nil] at this

/-- What can follow a sequence of statements. -/
def Closes : List (Line A) → Prop
  | [] => True
  | l :: _ => l.isElse = true ∨ l.isFin = true

theorem closes_fin (x : List (Line A)) : Closes (.fin :: x) := Or.inr rfl

mutual

theorem lines_inj_tail : ∀ (p q : Prog A) (t t' : List (Line A)), Closes t → Closes t' →
    p.lines ++ t = q.lines ++ t' → p = q ∧ t = t'
  | .nil, q, t, t', ht, ht', h => by
    cases q <;> simp only [Prog.lines, List.nil_append, List.cons_append] at h <;>
      first
      | exact ⟨rfl, h⟩
      | (subst h; simp [Closes, Line.isElse, Line.isFin] at ht)
  | .var a r, q, t, t', ht, ht', h => by
    cases q <;> simp only [Prog.lines, List.nil_append, List.cons_append, List.cons.injEq,
      Line.var.injEq, reduceCtorEq, false_and] at h
    · subst h; simp [Closes, Line.isElse, Line.isFin] at ht'
    · obtain ⟨rfl, h⟩ := h
      obtain ⟨rfl, h1⟩ := lines_inj_tail r _ t t' ht ht' h
      exact ⟨rfl, h1⟩
  | .cmd a r, q, t, t', ht, ht', h => by
    cases q <;> simp only [Prog.lines, List.nil_append, List.cons_append, List.cons.injEq,
      Line.cmd.injEq, reduceCtorEq, false_and] at h
    · subst h; simp [Closes, Line.isElse, Line.isFin] at ht'
    · obtain ⟨rfl, h⟩ := h
      obtain ⟨rfl, h1⟩ := lines_inj_tail r _ t t' ht ht' h
      exact ⟨rfl, h1⟩
  | .cont r, q, t, t', ht, ht', h => by
    cases q <;> simp only [Prog.lines, List.nil_append, List.cons_append, List.cons.injEq,
      true_and, reduceCtorEq, false_and] at h
    · subst h; simp [Closes, Line.isElse, Line.isFin] at ht'
    · obtain ⟨rfl, h1⟩ := lines_inj_tail r _ t t' ht ht' h
      exact ⟨rfl, h1⟩
  | .brk r, q, t, t', ht, ht', h => by
    cases q <;> simp only [Prog.lines, List.nil_append, List.cons_append, List.cons.injEq,
      true_and, reduceCtorEq, false_and] at h
    · subst h; simp [Closes, Line.isElse, Line.isFin] at ht'
    · obtain ⟨rfl, h1⟩ := lines_inj_tail r _ t t' ht ht' h
      exact ⟨rfl, h1⟩
  | .whl a b r, q, t, t', ht, ht', h => by
    cases q <;> simp only [Prog.lines, List.nil_append, List.cons_append, List.cons.injEq,
      Line.whl.injEq, List.append_assoc, reduceCtorEq, false_and] at h
    · subst h; simp [Closes, Line.isElse, Line.isFin] at ht'
    · obtain ⟨rfl, h⟩ := h
      obtain ⟨rfl, h1⟩ := lines_inj_tail b _ _ _ (closes_fin _) (closes_fin _) h
      obtain ⟨rfl, h2⟩ := lines_inj_tail r _ t t' ht ht' (List.cons.inj h1).2
      exact ⟨rfl, h2⟩
  | .forS a b r, q, t, t', ht, ht', h => by
    cases q <;> simp only [Prog.lines, List.nil_append, List.cons_append, List.cons.injEq,
      Line.forS.injEq, List.append_assoc, reduceCtorEq, false_and] at h
    · subst h; simp [Closes, Line.isElse, Line.isFin] at ht'
    · obtain ⟨rfl, h⟩ := h
      obtain ⟨rfl, h1⟩ := lines_inj_tail b _ _ _ (closes_fin _) (closes_fin _) h
      obtain ⟨rfl, h2⟩ := lines_inj_tail r _ t t' ht ht' (List.cons.inj h1).2
      exact ⟨rfl, h2⟩
  | .forA a b r, q, t, t', ht, ht', h => by
    cases q <;> simp only [Prog.lines, List.nil_append, List.cons_append, List.cons.injEq,
      Line.forA.injEq, List.append_assoc, reduceCtorEq, false_and] at h
    · subst h; simp [Closes, Line.isElse, Line.isFin] at ht'
    · obtain ⟨rfl, h⟩ := h
      obtain ⟨rfl, h1⟩ := lines_inj_tail b _ _ _ (closes_fin _) (closes_fin _) h
      obtain ⟨rfl, h2⟩ := lines_inj_tail r _ t t' ht ht' (List.cons.inj h1).2
      exact ⟨rfl, h2⟩
  | .ifc k neg a b e r, q, t, t', ht, ht', h => by
    cases q <;> simp only [Prog.lines, List.nil_append, List.cons_append, List.cons.injEq,
      Line.ifc.injEq, List.append_assoc, reduceCtorEq, false_and] at h
    · subst h; simp [Closes, Line.isElse, Line.isFin] at ht'
    · rename_i e' r'
      obtain ⟨⟨rfl, rfl, rfl⟩, h⟩ := h
      have hc : ∀ (e : Else A) (x : List (Line A)), Closes (e.lines ++ .fin :: x) := by
        intro e x
        cases e with
        | none => exact Or.inr rfl
        | els b => exact Or.inl rfl
        | elifc k neg a b e => exact Or.inl rfl
      obtain ⟨rfl, h1⟩ := lines_inj_tail b _ _ _ (hc e _) (hc e' _) h
      obtain ⟨rfl, h2⟩ := lines_inj_else e _ _ _ h1
      obtain ⟨rfl, h3⟩ := lines_inj_tail r _ t t' ht ht' h2
      exact ⟨rfl, h3⟩

theorem lines_inj_else : ∀ (e e' : Else A) (t t' : List (Line A)),
    e.lines ++ .fin :: t = e'.lines ++ .fin :: t' → e = e' ∧ t = t'
  | .none, e', t, t', h => by
    cases e' <;> simp only [Else.lines, List.nil_append, List.cons_append, List.cons.injEq,
      true_and, reduceCtorEq, false_and] at h
    exact ⟨rfl, h⟩
  | .els b, e', t, t', h => by
    cases e' <;> simp only [Else.lines, List.nil_append, List.cons_append, List.cons.injEq,
      true_and, reduceCtorEq, false_and] at h
    obtain ⟨rfl, h1⟩ := lines_inj_tail b _ _ _ (closes_fin _) (closes_fin _) h
    exact ⟨rfl, (List.cons.inj h1).2⟩
  | .elifc k neg a b e, e', t, t', h => by
    cases e' <;> simp only [Else.lines, List.nil_append, List.cons_append, List.cons.injEq,
      Line.elifc.injEq, List.append_assoc, reduceCtorEq, false_and] at h
    rename_i e'
    obtain ⟨⟨rfl, rfl, rfl⟩, h⟩ := h
    have hc : ∀ (e : Else A) (x : List (Line A)), Closes (e.lines ++ .fin :: x) := by
      intro e x
      cases e with
      | none => exact Or.inr rfl
      | els b => exact Or.inl rfl
      | elifc k neg a b e => exact Or.inl rfl
    obtain ⟨rfl, h1⟩ := lines_inj_tail b _ _ _ (hc e _) (hc e' _) h
    obtain ⟨rfl, h2⟩ := lines_inj_else e _ _ _ h1
    exact ⟨rfl, h2⟩

end

/-- Different scripts have different lines. -/
theorem lines_inj {p q : Prog A} (h : p.lines = q.lines) : p = q :=
  (lines_inj_tail p q [] [] trivial trivial (by rw [h])).1

/-- A source is the writing of at most one script. -/
theorem written_unique {p q : Prog A} {o o' : Bool} {src : List (Src A)}
    (h : Written (.seq p) o src) (h' : Written (.seq q) o' src) (hp : p.scoped false)
    (hq : q.scoped false) : p = q := by
  have h1 := (parse2_iff src _).mpr ⟨p, o, h, rfl, hp⟩
  have h2 := (parse2_iff src _).mpr ⟨q, o', h', rfl, hq⟩
  rw [h1] at h2
  exact lines_inj (Option.some.inj h2)

/-- Parsing and then executing a source does what the script it is the writing of says. -/
theorem source_run (c : Calls A V σ) (tof : Bool) (src : List (Src A)) (p : Prog A) (o : Bool)
    (h : Written (.seq p) o src) (hs : p.scoped false) (s : σ) (out : Out σ) :
    (∃ ls f li', parse2 src = some ls ∧ exec c.exec tof f ls [] 1 s = some (out, li')) ↔
      ∃ n, run c tof n p [] s = some out := by
  have hp := (parse2_iff src _).mpr ⟨p, o, h, rfl, hs⟩
  rw [← lines_run c tof p [] 1 s out]
  constructor
  · rintro ⟨ls, f, li', h1, h2⟩
    rw [hp] at h1
    cases h1
    exact ⟨f, li', h2⟩
  · rintro ⟨f, li', h2⟩
    exact ⟨_, f, li', hp, h2⟩

/-! ### A concrete script -/

/-- Commands append their text to the state; a condition is whether the state has less than
the given number of elements; loops go over 1, 2. -/
def demo : Calls Nat Nat (List Nat) where
  set a s := .ok () (s ++ [a])
  cmd a _ s := if a = 99 then .exit 3 s else if a = 98 then .fail s else .ok () (s ++ [a])
  cond a _ s := .ok (decide (s.length < a)) s
  value _ a s := .ok (a == 0) s
  stream _ _ s := .ok [1, 2] s
  args _ s := .ok [1, 2] s
  assign _ v s := .ok () (s ++ [v])

/-- `if`-`elif`-`else` inside a while-loop with a `break`, inside a for-loop. -/
def demoProg : Prog Nat :=
  .forA 0
    (.whl 6 (.cmd 7 (.ifc .cmd false 3 (.cont .nil)
      (.elifc .null true 0 (.cmd 8 .nil) (.els (.cmd 9 (.brk .nil)))) .nil)) (.cmd 10 .nil))
    (.cmd 11 .nil)

example : demoProg.scoped false := by simp [demoProg, Prog.scoped, Else.scoped]

example : run demo true 20 demoProg [] [] =
    some (.normal [1, 7, 7, 9, 10, 2, 10, 11]) := by rfl

example : ∃ f li', exec demo.exec true f demoProg.lines [] 1 [] =
    some (.normal [1, 7, 7, 9, 10, 2, 10, 11], li') :=
  (lines_run demo true demoProg [] 1 [] _).mpr ⟨20, by rfl⟩

/-- Exiting and failing inside of a loop. -/
example : run demo false 20 (.forS 0 (.cmd 5 (.cmd 99 .nil)) (.cmd 11 .nil)) [] [] =
    some (.exited 3 [1, 5]) := by rfl

example : run demo true 20 (.forS 0 (.cmd 5 (.cmd 99 .nil)) (.cmd 11 .nil)) [] [] =
    some (.failed [1, 5]) := by rfl

/-- The same script with braces, and one with a dangling `else`, which belongs to the nearest
`if`. -/
example : ∃ ls, parse2 [Src.line (.forA 0), .lb, .line (.whl 6), .lb, .line (.cmd 7),
    .line (.ifc .cmd false 3), .line .cont, .line (.elifc .null true 0), .lb, .line (.cmd 8), .rb,
    .line .els, .lb, .line (.cmd 9), .line .brk, .rb, .rb, .line (.cmd 10), .rb,
    .line (.cmd 11)] = some ls ∧ ls = demoProg.lines := ⟨_, by rfl, by rfl⟩

example : ∃ ls, parse2 [Src.line (.ifc .cmd false 1), .line (.ifc .cmd false 2), .line (.cmd 3),
      .line .els, .line (.cmd 4)] = some ls ∧
    ls = (Prog.ifc .cmd false 1 (.ifc .cmd false 2 (.cmd 3 .nil) (.els (.cmd 4 .nil)) .nil) .none
      .nil).lines := ⟨_, by rfl, by rfl⟩

example : parse2 [Src.line (.whl 6), .lb, .line .brk] = none := by rfl
example : parse2 [Src.line (.ifc .cmd false 6), .line (.brk : Line Nat)] = none := by rfl
example : parse1 demoProg.lines = true := (parse1_iff _).mpr ⟨_, rfl, by
  simp [demoProg, Prog.scoped, Else.scoped]⟩
example : parse1 [(.ifc .cmd false 1 : Line Nat), .cmd 2] = false := by rfl

/-! ## C48: the files of the commands -/

/-- The lines with the indexes that the commands get: in a script without `elif`, `ifn` and `ife`
every command gets its number in the script, whatever path the execution takes.

Full statement: for all the scripts. Missing (and false, see `elif_shifts` and `ife_shifts`): the
scripts with `elif`, `ifn` or `ife`. -/
theorem index_static_partial (x : Exec A V σ) (hx : x.NoSingle) (tof : Bool) (p : Prog A)
    (hp : p.plain) (ii : List Nat) (li : Nat) (s : σ) (o : Out σ) :
    ((∃ f li', exec x tof f p.lines ii li s = some (o, li')) ↔
      ∃ n, run x.static tof n (p.number li) ii s = some o) ∧
    ∀ f li' s', exec x tof f p.lines ii li s = some (.normal s', li') → li' = li + p.count := by
  have F : Facts x True := ⟨hx, Or.inl trivial⟩
  refine ⟨⟨?_, ?_⟩, ?_⟩
  · rintro ⟨f, li', h⟩
    obtain ⟨_, N, hN⟩ := (complete (tof := tof) F f).1 p ii li li s o li' (fun _ => hp)
      (fun _ => rfl) h
    exact ⟨N, hN N (Nat.le_refl N)⟩
  · rintro ⟨n, h⟩
    obtain ⟨li', _, N, hN⟩ := sound (tof := tof) F p ii li li s o (fun _ => hp) (fun _ => rfl) h
    exact ⟨N, li', hN N (Nat.le_refl N)⟩
  · intro f li' s' h
    exact ((complete (tof := tof) F f).1 p ii li li s _ li' (fun _ => hp) (fun _ => rfl) h).1
      trivial rfl

/-- The callbacks, with what names the files of every command (also of a condition and of a
for-loop) remembered in the state, the last one first: the iteration indexes and the line index,
which is 0 for a single command (build/script/parser.cxx:1552-1553, test/script/parser.cxx:2684-2685). -/
def Exec.files (x : Exec A V σ) : Exec A V (σ × List Call) where
  set a s := (x.set a s.1).withLog s.2
  cmd a ii li b s := (x.cmd a ii li b s.1).withLog ((ii, if b then 0 else li) :: s.2)
  cond a ii li s := (x.cond a ii li s.1).withLog ((ii, li) :: s.2)
  value k a s := (x.value k a s.1).withLog s.2
  stream a ii li s := (x.stream a ii li s.1).withLog ((ii, li) :: s.2)
  args a s := (x.args a s.1).withLog s.2
  assign a v s := (x.assign a v s.1).withLog s.2

/-- The indexes and the single flag. -/
abbrev Call3 := List Nat × Nat × Bool

/-- Add to the state of a result. -/
def Res.withLog3 (g : List Call3) {β : Type} : Res σ β → Res (σ × List Call3) β
  | .ok b s => .ok b (s, g)
  | .exit c s => .exit c (s, g)
  | .fail s => .fail (s, g)

/-- The callbacks, with the indexes and the single flag remembered. -/
def Exec.log3 (x : Exec A V σ) : Exec A V (σ × List Call3) where
  set a s := (x.set a s.1).withLog3 s.2
  cmd a ii li b s := (x.cmd a ii li b s.1).withLog3 ((ii, li, b) :: s.2)
  cond a ii li s := (x.cond a ii li s.1).withLog3 ((ii, li, false) :: s.2)
  value k a s := (x.value k a s.1).withLog3 s.2
  stream a ii li s := (x.stream a ii li s.1).withLog3 ((ii, li, false) :: s.2)
  args a s := (x.args a s.1).withLog3 s.2
  assign a v s := (x.assign a v s.1).withLog3 s.2

theorem sim_log (x : Exec A V σ) (c : Call3 → Call) (hc : ∀ ii li, c (ii, li, false) = (ii, li))
    (y : Exec A V (σ × List Call)) (hset : y.set = fun a s => (x.set a s.1).withLog s.2)
    (hcmd : y.cmd = fun a ii li b s => (x.cmd a ii li b s.1).withLog (c (ii, li, b) :: s.2))
    (hcond : y.cond = fun a ii li s => (x.cond a ii li s.1).withLog ((ii, li) :: s.2))
    (hvalue : y.value = fun k a s => (x.value k a s.1).withLog s.2)
    (hstream : y.stream = fun a ii li s => (x.stream a ii li s.1).withLog ((ii, li) :: s.2))
    (hargs : y.args = fun a s => (x.args a s.1).withLog s.2)
    (hassign : y.assign = fun a v s => (x.assign a v s.1).withLog s.2) :
    Sim (fun s : σ × List Call3 => (s.1, s.2.map c)) x.log3 y where
  set a s := by rw [hset]; simp only [Exec.log3]; cases x.set a s.1 <;> rfl
  cmd a ii li b s := by rw [hcmd]; simp only [Exec.log3]; cases x.cmd a ii li b s.1 <;> rfl
  cond a ii li s := by
    rw [hcond]; simp only [Exec.log3]; cases x.cond a ii li s.1 <;> simp [Res.withLog, Res.withLog3, Res.mapSt, hc]
  value k a s := by rw [hvalue]; simp only [Exec.log3]; cases x.value k a s.1 <;> rfl
  stream a ii li s := by
    rw [hstream]; simp only [Exec.log3]; cases x.stream a ii li s.1 <;>
      simp [Res.withLog, Res.withLog3, Res.mapSt, hc]
  args a s := by rw [hargs]; simp only [Exec.log3]; cases x.args a s.1 <;> rfl
  assign a v s := by rw [hassign]; simp only [Exec.log3]; cases x.assign a v s.1 <;> rfl

theorem log3_single (x : Exec A V σ) :
    Keeps (fun s : σ × List Call3 => ∀ c ∈ s.2, c.2.2 = true → c.2.1 = 1) x.log3 where
  set a s h := by simp only [Exec.log3]; cases x.set a s.1 <;> exact h
  cmd a ii li b s hb h := by
    have : ∀ c ∈ (ii, li, b) :: s.2, c.2.2 = true → c.2.1 = 1 := by
      intro c hc
      rcases List.mem_cons.mp hc with rfl | hc
      · exact hb
      · exact h c hc
    simp only [Exec.log3]
    cases x.cmd a ii li b s.1 <;> exact this
  cond a ii li s h := by
    have : ∀ c ∈ (ii, li, false) :: s.2, c.2.2 = true → c.2.1 = 1 := by
      intro c hc
      rcases List.mem_cons.mp hc with rfl | hc
      · intro h; cases h
      · exact h c hc
    simp only [Exec.log3]
    cases x.cond a ii li s.1 <;> exact this
  value k a s h := by simp only [Exec.log3]; cases x.value k a s.1 <;> exact h
  stream a ii li s h := by
    have : ∀ c ∈ (ii, li, false) :: s.2, c.2.2 = true → c.2.1 = 1 := by
      intro c hc
      rcases List.mem_cons.mp hc with rfl | hc
      · intro h; cases h
      · exact h c hc
    simp only [Exec.log3]
    cases x.stream a ii li s.1 <;> exact this
  args a s h := by simp only [Exec.log3]; cases x.args a s.1 <;> exact h
  assign a v s h := by simp only [Exec.log3]; cases x.assign a v s.1 <;> exact h

theorem nodup_map {α β γ : Type} {l : List α} {f : α → β} {g : α → γ}
    (h : (l.map f).Nodup) (hfg : ∀ a ∈ l, ∀ b ∈ l, g a = g b → f a = f b) : (l.map g).Nodup := by
  induction l with
  | nil => exact List.nodup_nil
  | cons a l ih =>
    rw [List.map_cons, List.nodup_cons] at h ⊢
    refine ⟨?_, ih h.2 fun a ha b hb => hfg a (List.mem_cons_of_mem _ ha) b (List.mem_cons_of_mem _ hb)⟩
    intro hm
    obtain ⟨b, hb, hab⟩ := List.mem_map.mp hm
    have := hfg b (List.mem_cons_of_mem _ hb) a (List.mem_cons_self ..) hab
    exact h.1 (List.mem_map.mpr ⟨b, hb, this⟩)

theorem map_state {τ : Type} {φ : σ → τ} {o : Out σ} {t : τ} (h : (o.map φ).state = some t) :
    ∃ s, o.state = some s ∧ φ s = t := by
  cases o <;> simp only [Out.map, Out.state, Option.some.injEq, reduceCtorEq] at h
  all_goals exact ⟨_, rfl, h⟩

/-- In a script without `elif`, `ifn` and `ife`, no two commands that are executed have the same
indexes: neither two different commands nor two executions of the same command in different
iterations, whatever path the execution takes.

Full statement: for all the scripts. Missing (and false, see `index_collision`): the scripts with
`elif`, `ifn` or `ife`. -/
theorem files_unique_partial (x : Exec A V σ) (hx : x.NoSingle) (tof : Bool) (p : Prog A)
    (hp : p.plain) (s : σ) (f li' : Nat) (o : Out (σ × List Call)) (st : σ × List Call)
    (h : exec x.files tof f p.lines [] 1 (s, []) = some (o, li')) (hst : o.state = some st) :
    st.2.Nodup := by
  have S1 : Sim (fun s : σ × List Call3 => (s.1, s.2.map fun c => (c.1, if c.2.2 then 0 else c.2.1)))
      x.log3 x.files := sim_log x _ (fun _ _ => rfl) _ rfl rfl rfl rfl rfl rfl rfl
  have S2 : Sim (fun s : σ × List Call3 => (s.1, s.2.map fun c => (c.1, c.2.1))) x.log3 x.log :=
    sim_log x _ (fun _ _ => rfl) _ rfl rfl rfl rfl rfl rfl rfl
  have e1 := (exec_map S1 tof f).1 p.lines [] 1 (s, [])
  have e2 := (exec_map S2 tof f).1 p.lines [] 1 (s, [])
  simp only [List.map_nil] at e1 e2
  rw [h] at e1
  cases h3 : exec x.log3 tof f p.lines [] 1 (s, []) with
  | none => rw [h3] at e1; cases e1
  | some r =>
    obtain ⟨o3, l3⟩ := r
    rw [h3] at e1 e2
    simp only [mapR, Option.map_some, Option.some.injEq, Prod.mk.injEq] at e1 e2
    obtain ⟨rfl, rfl⟩ := e1
    obtain ⟨st3, hst3, rfl⟩ := map_state hst
    have hs := (exec_inv (log3_single x) tof f).1 p.lines [] 1 (s, [])
      (by intro c hc; cases hc) o3 _ st3 h3 hst3
    have F : Facts x.log True := ⟨fun a ii li b s => by simp only [Exec.log]; rw [hx], Or.inl trivial⟩
    obtain ⟨_, N, hN⟩ := (complete (tof := tof) F f).1 p [] 1 1 (s, []) _ _ (fun _ => hp)
      (fun _ => rfl) e2
    have hl := logs_run x tof N p 1 [] (s, []) _ (hN N (Nat.le_refl N))
    have hst2 : (o3.map fun s : σ × List Call3 => (s.1, s.2.map fun c => (c.1, c.2.1))).state =
        some (st3.1, st3.2.map fun c => (c.1, c.2.1)) := by
      cases o3 <;> simp only [Out.state, Option.some.injEq, reduceCtorEq] at hst3 <;> subst hst3 <;> rfl
    obtain ⟨new, hnew, hg⟩ := hl _ hst2
    simp only [List.append_nil] at hnew
    have hnd : (st3.2.map fun c => (c.1, c.2.1)).Nodup := hnew ▸ hg.nodup
    have hlo : ∀ c ∈ st3.2, 1 ≤ c.2.1 := by
      intro c hc
      exact hg.lo (c.1, c.2.1) (hnew ▸ List.mem_map.mpr ⟨c, hc, rfl⟩)
    refine nodup_map hnd fun a ha b hb hab => ?_
    simp only [Prod.mk.injEq] at hab ⊢
    refine ⟨hab.1, ?_⟩
    have h1 := hs a ha
    have h2 := hs b hb
    have h3 := hlo a ha
    have h4 := hlo b hb
    by_cases ha' : a.2.2 = true <;> by_cases hb' : b.2.2 = true <;>
      simp only [ha', hb', if_true, if_false, Bool.false_eq_true] at hab
    · rw [h1 ha', h2 hb']
    · omega
    · omega
    · exact hab.2

/-- The line index 0, which is left out of the name, is only used for the first command of a
script. -/
theorem single_first (x : Exec A V σ) (tof : Bool) (ls : List (Line A)) (ii : List Nat) (li : Nat)
    (s : σ) (f li' : Nat) (o : Out (σ × List Call3)) (st : σ × List Call3)
    (h : exec x.log3 tof f ls ii li (s, []) = some (o, li')) (hst : o.state = some st) :
    ∀ c ∈ st.2, c.2.2 = true → c.2.1 = 1 :=
  (exec_inv (log3_single x) tof f).1 ls ii li (s, []) (by intro c hc; cases hc) o li' st h hst

/-- The names of the streams. -/
def streams : List (List Char) := ["stdin".toList, "stdout".toList, "stderr".toList]

/-- Different streams, different indexes: different names. -/
theorem file_name_inj {nm nm' : List Char} (hn : nm ∈ streams) (hn' : nm' ∈ streams)
    {ii ii' : List Nat} {li li' ci ci' : Nat} :
    stdPath nm ii li ci = stdPath nm' ii' li' ci' ↔ nm = nm' ∧ ii = ii' ∧ li = li' ∧ ci = ci' := by
  constructor
  · refine stdPath_inj ?_ ?_
    · simp only [streams, List.mem_cons, List.not_mem_nil, or_false] at hn
      rcases hn with rfl | rfl | rfl <;> decide
    · simp only [streams, List.mem_cons, List.not_mem_nil, or_false] at hn'
      rcases hn' with rfl | rfl | rfl <;> decide
  · rintro ⟨rfl, rfl, rfl, rfl⟩
    rfl

example : String.ofList (stdPath "stdout".toList [3, 12] 4 2) = "stdout-i12-i3-n4-c2" := by decide

/-- So no two commands of a script without `elif`, `ifn` and `ife` use the same file (the command
indexes inside of an expression do not matter).

Full statement: for all the scripts. Missing (and false, see `index_collision`): the scripts with
`elif`, `ifn` or `ife`. -/
theorem file_names_unique_partial (x : Exec A V σ) (hx : x.NoSingle) (tof : Bool) (p : Prog A)
    (hp : p.plain) (s : σ) (f li' : Nat) (o : Out (σ × List Call)) (st : σ × List Call)
    (h : exec x.files tof f p.lines [] 1 (s, []) = some (o, li')) (hst : o.state = some st)
    {nm nm' : List Char} (hn : nm ∈ streams) (hn' : nm' ∈ streams) (ci ci' : Nat) {i j : Nat}
    {a b : Call} (hi : st.2[i]? = some a) (hj : st.2[j]? = some b) (hij : i ≠ j) :
    stdPath nm a.1 a.2 ci ≠ stdPath nm' b.1 b.2 ci' := by
  intro he
  obtain ⟨_, h1, h2, _⟩ := (file_name_inj hn hn').mp he
  have hab : a = b := Prod.ext h1 h2
  subst hab
  have hnd := files_unique_partial x hx tof p hp s f li' o st h hst
  exact hij ((List.getElem?_inj (by
    obtain ⟨h, _⟩ := List.getElem?_eq_some_iff.mp hi
    exact h) hnd).mp (by rw [hi, hj]))

/-- A plain script that has all the constructs: the indexes. -/
def plainProg : Prog Nat :=
  .var 1 (.forA 0
    (.whl 4 (.cmd 7 (.ifc .cmd false 3 (.cont .nil) (.els (.cmd 9 (.brk .nil))) .nil)) (.cmd 10 .nil))
    (.cmd 11 .nil))

example : plainProg.plain := by simp [plainProg, Prog.plain, Else.plain]
example : demo.exec.NoSingle := fun _ _ _ _ _ => rfl

example : ∃ st li', exec demo.exec.files true 100 plainProg.lines [] 1 ([], []) =
      some (.normal st, li') ∧
    st.2.reverse = [([1, 1], 1), ([1, 1], 2), ([1, 1], 3), ([1, 1], 4), ([1], 5), ([1, 2], 1), ([2], 5),
      ([], 6)] ∧ li' = 7 := ⟨_, _, by rfl, by rfl, by rfl⟩

/-- A single command. -/
example : ∃ st li', exec demo.exec.files true 100 (Prog.var 1 (.cmd 5 (.var 2 .nil))).lines [] 1
    ([], []) = some (.normal st, li') ∧ st.2 = [([], 0)] := ⟨_, _, by rfl, by rfl⟩

/-! ### What goes wrong -/

/-- The indexes of the commands of a script, in the order they are executed, for conditions that
are given by their texts and for loops over two elements. -/
def told : Calls Bool Nat Unit where
  set _ s := .ok () s
  cmd _ _ s := .ok () s
  cond a _ s := .ok a s
  value _ a s := .ok a s
  stream _ _ s := .ok [1, 2] s
  args _ s := .ok [1, 2] s
  assign _ _ s := .ok () s

/-- The indexes. -/
def toldIndexes (p : Prog Bool) : Option (List Call) :=
  (exec told.exec.files true 100 p.lines [] 1 ((), [])).bind fun r =>
    r.1.state.map fun s => s.2.reverse

/-- The `elif` line that follows a taken branch is not counted, so the index of the last command
depends on the path. -/
theorem elif_shifts :
    let p (c d : Bool) : Prog Bool :=
      .ifc .cmd false c (.cmd false .nil) (.elifc .cmd false d (.cmd false .nil) .none) (.cmd false .nil)
    toldIndexes (p true true) = some [([], 1), ([], 2), ([], 4)] ∧
    toldIndexes (p false true) = some [([], 1), ([], 3), ([], 4), ([], 5)] := by
  refine ⟨by rfl, by rfl⟩

/-- An `ife` or `ifn` line is counted when it is skipped but not when it is executed. -/
theorem ife_shifts :
    let p (c : Bool) : Prog Bool :=
      .ifc .cmd false c (.ifc .empty false true (.cmd false .nil) .none .nil) .none (.cmd false .nil)
    toldIndexes (p true) = some [([], 1), ([], 2), ([], 3)] ∧
    toldIndexes (p false) = some [([], 1), ([], 4)] := by
  refine ⟨by rfl, by rfl⟩

/-- The only command in a taken `ife` branch is taken for a single command although another one
follows (which is harmless: the other one does not get the index 0). -/
theorem single_in_branch :
    toldIndexes (.ifc .empty false true (.cmd false .nil) .none (.cmd false .nil)) =
      some [([], 0), ([], 2)] := by rfl

/-- Conditions that depend on the iteration. -/
def told2 : Calls (Nat → Bool) Nat Nat where
  set _ s := .ok () s
  cmd _ _ s := .ok () s
  cond a _ s := .ok (a s) s
  value _ a s := .ok (a s) s
  stream _ _ s := .ok [1, 2] s
  args _ s := .ok [1, 2] s
  assign _ v _ := .ok () v

/-- Two different commands of one script get the same indexes, and so save their standard streams
to the same file: the second command of the first loop in its first iteration, and the command of
the second loop in its first iteration. (The first condition is true in the second iteration, the
second one in the first.) -/
theorem index_collision :
    let p : Prog (Nat → Bool) :=
      .forA (fun _ => true)
        (.ifc .cmd false (fun i => i == 2) (.cmd (fun _ => true) .nil)
          (.elifc .cmd false (fun i => i == 1) (.cmd (fun _ => true) .nil) .none) .nil)
        (.forA (fun _ => true) (.cmd (fun _ => true) .nil) .nil)
    ∃ st li', exec told2.exec.files true 100 p.lines [] 1 (0, []) = some (.normal st, li') ∧
      st.2.reverse = [([1], 1), ([1], 3), ([1], 4), ([2], 1), ([2], 2), ([1], 4), ([2], 4)] ∧
      ¬ st.2.Nodup := by
  refine ⟨_, _, by rfl, by rfl, by decide⟩

end Verif.ScriptFlow
