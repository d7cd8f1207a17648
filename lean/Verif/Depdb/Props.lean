import Verif.Depdb.Lemmas2

/-! Properties C01, C02, C03, C05 and C06: dependency databases.

In all the theorems `f` is the content of the file before the session (`none` if there
is no file) and `t` is the touch request. A session is a list of operations; the
lines it writes must be storable (`Op.Ok`, that is, `OkLine`). -/

namespace Verif.Depdb

/-- A whole session: open, operations, close. -/
def session (f : Option Bytes) (os : List Op) (t : Touch := .absent) : Db :=
  ((Db.open f).ops os).close t

/-- The result of the `n`-th read (from 0) of a run that opens a file and only reads. -/
def nthRead (x : Bytes) (n : Nat) : Option Bytes :=
  (((Db.open (some x)).ops (List.replicate n .read)).read).1

/-- The state of a run that has opened a file and read `n` lines. -/
def afterReads (x : Bytes) (n : Nat) : Db := (Db.open (some x)).ops (List.replicate n .read)

/-! ### C01 -/

/-- The file left behind by a session consists of the lines the session has accepted or
written (as specified by `View`), and the end marker. -/
theorem depdb_session_content (f : Option Bytes) (os : List Op) (hos : ∀ o ∈ os, o.Ok) (t : Touch) :
    ∃ junk, (session f os t).file = enc ((View.open f).ops os).lines ++ 0 :: junk ∧
      ((session f os t).file = before f ∨ junk = []) := by
  obtain ⟨junk, h1, h2, _⟩ := rel_close (rel_ops (rel_open f) os hos) t
  exact ⟨junk, h1, h2⟩

/-- During a session a read returns what the specification says. -/
theorem depdb_session_read (f : Option Bytes) (os : List Op) (hos : ∀ o ∈ os, o.Ok) :
    ((Db.open f).ops os).read.1 = ((View.open f).ops os).read.1 :=
  (rel_read (rel_ops (rel_open f) os hos)).1

/-- Reading a file with the version line, the lines `ls` and the end marker. -/
theorem reads_of_file (ls : List Bytes) (junk : Bytes) (hls : ∀ l ∈ ls, 10 ∉ l)
    (hm : hasMark (enc ([49] :: ls)) = false) (n : Nat) :
    nthRead (enc ([49] :: ls) ++ 0 :: junk) n = ls[n]? ∧
    (afterReads (enc ([49] :: ls) ++ 0 :: junk) n).file = enc ([49] :: ls) ++ 0 :: junk ∧
    (∀ x ∈ (afterReads (enc ([49] :: ls) ++ 0 :: junk) n).hist, x = enc ([49] :: ls) ++ 0 :: junk) ∧
    (ls.length ≤ n ↔ (afterReads (enc ([49] :: ls) ++ 0 :: junk) n).st = .readEof) := by
  generalize hx : enc ([49] :: ls) ++ 0 :: junk = x
  have hst : stored [] x = ([49] :: ls, true) := by
    rw [← hx]
    refine stored_enc' _ (by simp) ?_ hm junk
    intro l hl
    rcases List.mem_cons.1 hl with rfl | hl
    · decide
    · exact hls l hl
  have hop : View.open (some x) = { done := [], cur := some [49], rest := some (ls, true) } := by
    simp [View.open, hst]
  have hrel := rel_ops (rel_open (some x)) (List.replicate n .read) (replicate_read_ok n)
  have hrest := View.reads_rest ls true n (View.open (some x)) (by simp [hop])
  have hres := View.reads_result ls true n (View.open (some x)) (by simp [hop])
  have hne : ((View.open (some x)).ops (List.replicate n .read)).rest ≠ none := by
    have := hrest
    unfold View.reads at this
    simp [this]
  refine ⟨?_, (rel_unmodified hrel hne).1, (rel_unmodified hrel hne).2, ?_⟩
  · unfold nthRead
    rw [(rel_read hrel).1]; exact hres
  · unfold afterReads
    rw [(rel_writing hrel).2.1]
    have := hrest
    unfold View.reads at this
    simp [this]

/-- **C01**. Whatever a session does, if the version line is still there (see
`depdb_version_kept`), a later run reads back exactly the lines that the session
accepted or wrote, then is told there are no more, and then knows that the database was
closed properly; reading does not modify the file. -/
theorem depdb_round_trip (f : Option Bytes) (os : List Op) (hos : ∀ o ∈ os, o.Ok) (t : Touch)
    (ls : List Bytes) (hls : ((View.open f).ops os).lines = [49] :: ls) (n : Nat) :
    let x := (session f os t).file
    nthRead x n = ls[n]? ∧ (afterReads x n).file = x ∧ (∀ y ∈ (afterReads x n).hist, y = x) ∧
    (ls.length ≤ n ↔ (afterReads x n).st = .readEof) := by
  have hrel := rel_ops (rel_open f) os hos
  obtain ⟨junk, h1, _⟩ := depdb_session_content f os hos t
  obtain ⟨h2, h3⟩ := rel_lines_ok hrel
  rw [hls] at h1 h2 h3
  simp only [h1]
  exact reads_of_file ls junk (fun l hl => h2 l (List.mem_cons_of_mem _ hl)) h3 n

/-- The special case of a rule that writes the lines to a new file, or to a file which does
not start with the version line (any garbage). -/
theorem depdb_round_trip_new (f : Option Bytes)
    (hf : ∀ x, f = some x → (stored [] x).1.head? ≠ some [49])
    (ls : List Bytes) (hls : ∀ l ∈ ls, OkLine l) (t : Touch) (n : Nat) :
    (session f (ls.map .write) t).file = closedFile ls ∧
    nthRead (session f (ls.map .write) t).file n = ls[n]? := by
  have hopen : View.open f = { done := [[49]], cur := none, rest := none } := by
    cases f with
    | none => rfl
    | some x =>
      have := hf x rfl
      unfold View.open
      simp only
      generalize stored [] x = p at *
      obtain ⟨ls, b⟩ := p
      cases ls with
      | nil => rfl
      | cons l ls => simp at this; simp [this]
  have hw : ∀ (s : View), s.rest = none → s.ops (ls.map .write) = { s with done := s.done ++ ls } := by
    clear hls
    induction ls with
    | nil => intro s _; simp [View.ops]
    | cons l ls ih =>
      intro s h
      have e : s.ops ((l :: ls).map .write) = (s.op (.write l)).ops (ls.map .write) := rfl
      have e2 : s.op (.write l) = { s with done := s.done ++ [l] } := by
        simp [View.op, View.write, View.rewrite, h]
      rw [e, e2, ih { s with done := s.done ++ [l] } h]
      simp
  have hok : ∀ o ∈ ls.map Op.write, o.Ok := by
    intro o ho
    obtain ⟨l, hl, rfl⟩ := List.mem_map.1 ho
    exact hls l hl
  have hlines : ((View.open f).ops (ls.map .write)).lines = [49] :: ls := by
    rw [hw _ (by rw [hopen]), hopen]; simp [View.lines]
  refine ⟨?_, (depdb_round_trip f _ hok t ls hlines n).1⟩
  have hrel := rel_ops (rel_open f) (ls.map .write) hok
  have hst : ((Db.open f).ops (ls.map .write)).st = .write := by
    rw [(rel_writing hrel).1, hw _ (by rw [hopen]), hopen]
  cases hrel with
  | write st ro file w cur rest mark hist nl ends =>
    have : session f (ls.map .write) t = ((Db.open f).ops (ls.map .write)).put 0 := by
      simp [session, Db.close, ro, st]
    rw [this, put_end _ _ w]
    simp only [file, closedFile]
    rw [hw _ (by rw [hopen]), hopen]
    simp
  | eof _ st => rw [hst] at st; cases st
  | read _ st => rw [hst] at st; cases st

/-- The version line is kept by every session that starts by reading (or stating an
expectation), and by every session on a file that does not have a valid version line.
(A session that starts with a write on a file with a valid version line overwrites the
line read last, which is the version line itself: see
`depdb_write_first_loses_version`.) -/
theorem depdb_version_kept (f : Option Bytes) (o : Op) (os : List Op)
    (ho : o = .read ∨ ∃ v, o = .expect v) :
    ∃ ls, ((View.open f).ops (o :: os)).lines = [49] :: ls := by
  have step : ∀ (s : View) (o : Op), (∃ ls, s.done = [49] :: ls) → ∃ ls, (s.op o).done = [49] :: ls := by
    intro s o ⟨ls, h⟩
    have hr : ∃ ls, s.read.2.done = [49] :: ls := by
      unfold View.read; split <;> simp [h]
    have hw : ∀ (s : View) v, (∃ ls, s.done = [49] :: ls) → ∃ ls, (s.write v).done = [49] :: ls := by
      intro s v ⟨ls, h⟩
      unfold View.write View.rewrite; split <;> simp [h]
    cases o with
    | read => exact hr
    | rewrite => exact ⟨ls, by unfold View.op View.rewrite; simp only; split <;> simp [h]⟩
    | write v => exact hw s v ⟨ls, h⟩
    | expect v =>
      unfold View.op; simp only
      generalize s.read = p at *
      obtain ⟨a, s'⟩ := p
      cases a with
      | none => exact hw s' v hr
      | some l =>
        simp only; split
        · exact hr
        · exact hw s' v hr
  have steps : ∀ (os : List Op) (s : View), (∃ ls, s.done = [49] :: ls) →
      ∃ ls, (s.ops os).done = [49] :: ls := by
    intro os
    induction os with
    | nil => intro s h; exact h
    | cons o os ih => intro s h; exact ih _ (step s o h)
  have hread : ∃ ls, (View.open f).read.2.done = [49] :: ls := by
    unfold View.open
    split
    · simp [View.read]
    · split
      · split
        · rename_i l ls b _ hl
          cases ls with
          | nil => cases b <;> simp [View.read, hl]
          | cons x xs => simp [View.read, hl]
        · simp [View.read]
      · simp [View.read]
  have first : ∃ ls, ((View.open f).op o).done = [49] :: ls := by
    rcases ho with rfl | ⟨v, rfl⟩
    · exact hread
    · unfold View.op; simp only
      have hw : ∀ (s : View) v, (∃ ls, s.done = [49] :: ls) → ∃ ls, (s.write v).done = [49] :: ls := by
        intro s v ⟨ls, h⟩
        unfold View.write View.rewrite; split <;> simp [h]
      generalize (View.open f).read = p at *
      obtain ⟨a, s'⟩ := p
      cases a with
      | none => exact hw s' v hread
      | some l =>
        simp only; split
        · exact hread
        · exact hw s' v hread
  obtain ⟨ls, h⟩ := steps os _ first
  refine ⟨ls ++ ((View.open f).ops (o :: os)).cur.toList, ?_⟩
  have e : (View.open f).ops (o :: os) = ((View.open f).op o).ops os := rfl
  rw [View.lines, e, h]; simp

/-- A limitation of C01 (the code documents that a write overwrites the line read last): on
a database that was opened successfully, a write that is not preceded by a read
overwrites the version line. -/
theorem depdb_write_first_loses_version :
    (session (some (closedFile [[97]])) [.write [98]]).file = enc [[98]] ++ [0] := by
  decide +kernel

/- Non-vacuity: a file with an old database, a session that accepts the first line,
replaces the second and adds a third one. -/
example :
    (session (some (closedFile [[97], [98], [99]])) [.expect [97], .expect [100], .write [101]]).file
      = closedFile [[97], [100], [101]] := by decide +kernel

example : ((View.open (some (closedFile [[97], [98], [99]]))).ops
    [.expect [97], .expect [100], .write [101]]).lines = [49] :: [[97], [100], [101]] := by
  decide +kernel

/-! ### C02 -/

/-- **C02**, the content: after a session that states what it expects, the file contains
exactly the expected lines, whatever it contained before. -/
theorem depdb_expect_content (f : Option Bytes) (ls : List Bytes) (hls : ∀ l ∈ ls, OkLine l)
    (t : Touch) :
    let x := (session f (ls.map .expect) t).file
    stored [] x = ([49] :: ls, true) ∧ (x = closedFile ls ∨ some x = f) := by
  have hok : ∀ o ∈ ls.map Op.expect, o.Ok := by
    intro o ho
    obtain ⟨l, hl, rfl⟩ := List.mem_map.1 ho
    exact hls l hl
  obtain ⟨junk, h1, h2⟩ := depdb_session_content f _ hok t
  have hlines : ((View.open f).ops (ls.map .expect)).lines = [49] :: ls := by
    rcases hr : (View.open f).rest with _ | ⟨old, b⟩
    · rw [View.expects_writing _ _ hr]
      have := View.open_lines f
      have hcur : (View.open f).cur = none := by
        unfold View.open at hr ⊢
        split
        · rfl
        · split
          · split
            · rename_i h; simp_all
            · rfl
          · rfl
      simp only [View.lines, hcur] at this ⊢
      simp at this
      simp [this]
    · rw [(View.expects _ ls old b hr).1, View.open_lines]; rfl
  rw [hlines] at h1
  refine ⟨?_, ?_⟩
  · rw [h1]
    refine stored_enc _ (by simp) ?_ junk
    intro l hl
    rcases List.mem_cons.1 hl with rfl | hl
    · decide
    · exact hls l hl
  · rcases h2 with h2 | h2
    · cases f with
      | none =>
        simp only [before, Option.getD_none] at h2
        rw [h2] at h1
        simp [enc] at h1
      | some f => right; simpa [before] using h2
    · left; rw [h1, h2]; rfl

/-- **C02**, what is reported: the database is switched to writing exactly when the expected
lines are not the first lines stored in the file. -/
theorem depdb_expect_writing_iff (f : Option Bytes) (ls : List Bytes) (hls : ∀ l ∈ ls, OkLine l) :
    ((Db.open f).ops (ls.map .expect)).st ≠ .write ↔
      ∃ x more, f = some x ∧ (stored [] x).1 = [49] :: (ls ++ more) := by
  have hok : ∀ o ∈ ls.map Op.expect, o.Ok := by
    intro o ho
    obtain ⟨l, hl, rfl⟩ := List.mem_map.1 ho
    exact hls l hl
  rw [Ne, (rel_writing (rel_ops (rel_open f) _ hok)).1]
  cases f with
  | none =>
    rw [View.expects_writing _ _ (by rfl)]
    simp [View.open]
  | some x =>
    rcases hst : stored [] x with ⟨old, b⟩
    by_cases hv : ∃ old', old = [49] :: old'
    · obtain ⟨old', rfl⟩ := hv
      have ho : View.open (some x) = { done := [], cur := some [49], rest := some (old', b) } := by
        simp [View.open, hst]
      rw [(View.expects _ ls old' b (by simp [ho])).2]
      by_cases hp : ls <+: old'
      · simp only [hp, if_true]
        obtain ⟨more, rfl⟩ := hp
        simp [hst]
      · simp only [hp, if_false]
        simp only [not_true, false_iff, not_exists, not_and, Option.some.injEq]
        rintro y more rfl he
        rw [hst] at he
        simp at he
        exact hp ⟨more, he.symm⟩
    · have ho : (View.open (some x)).rest = none := by
        unfold View.open
        simp only [hst]
        cases old with
        | nil => rfl
        | cons l old =>
          have : l ≠ [49] := fun h => hv ⟨old, by rw [h]⟩
          simp [this]
      rw [View.expects_writing _ _ ho]
      simp only [ho, not_true, false_iff, not_exists, not_and, Option.some.injEq]
      rintro y more rfl he
      rw [hst] at he
      exact hv ⟨_, he⟩

/-- **C02**, each expectation reports a mismatch with the stored line at its position, and
reports nothing if the line matches, is missing, or if there was a mismatch before. -/
theorem depdb_expect_report (x : Bytes) (ls : List Bytes) (hls : ∀ l ∈ ls, OkLine l) (v : Bytes)
    (old : List Bytes) (b : Bool) (hx : stored [] x = ([49] :: old, b)) :
    (((Db.open (some x)).ops (ls.map .expect)).expect v).1 =
      if ls <+: old then old[ls.length]?.filter (fun l => decide (l ≠ v)) else none := by
  have hok : ∀ o ∈ ls.map Op.expect, o.Ok := by
    intro o ho
    obtain ⟨l, hl, rfl⟩ := List.mem_map.1 ho
    exact hls l hl
  have hr := (rel_read (rel_ops (rel_open (some x)) _ hok)).1
  have ho : View.open (some x) = { done := [], cur := some [49], rest := some (old, b) } := by
    simp [View.open, hx]
  have hrest := (View.expects (View.open (some x)) ls old b (by simp [ho])).2
  have hread : ((View.open (some x)).ops (ls.map .expect)).read.1 =
      if ls <+: old then old[ls.length]? else none := by
    generalize (View.open (some x)).ops (ls.map .expect) = s at *
    split
    · rename_i hp
      simp only [hp, if_true] at hrest
      have hd : old[ls.length]? = (old.drop ls.length).head? := by
        rw [List.head?_drop]
      rw [hd]
      generalize old.drop ls.length = r at *
      cases r with
      | nil => cases b <;> simp [View.read, hrest]
      | cons l r => simp [View.read, hrest]
    · rename_i hp
      simp only [hp, if_false] at hrest
      simp [View.read, hrest]
  rw [hread] at hr
  unfold Db.expect
  generalize ((Db.open (some x)).ops (ls.map .expect)).read = p at *
  obtain ⟨a, d'⟩ := p
  simp only at hr
  subst hr
  by_cases hp : ls <+: old
  · simp only [hp, if_true]
    cases old[ls.length]? with
    | none => rfl
    | some l => by_cases hl : l = v <;> simp [hl, Option.filter]
  · simp [hp]

/-- **C02**, no needless modification: if the file is a properly closed database with exactly
the expected lines, it is never touched. -/
theorem depdb_expect_unmodified (x : Bytes) (ls : List Bytes) (hls : ∀ l ∈ ls, OkLine l)
    (hx : stored [] x = ([49] :: ls, true)) :
    (session (some x) (ls.map .expect)).file = x ∧
    ∀ y ∈ (session (some x) (ls.map .expect)).hist, y = x := by
  have hok : ∀ o ∈ ls.map Op.expect, o.Ok := by
    intro o ho
    obtain ⟨l, hl, rfl⟩ := List.mem_map.1 ho
    exact hls l hl
  have hrel := rel_ops (rel_open (some x)) _ hok
  have ho : View.open (some x) = { done := [], cur := some [49], rest := some (ls, true) } := by
    simp [View.open, hx]
  have hrest := (View.expects (View.open (some x)) ls ls true (by simp [ho])).2
  simp at hrest
  have heof : ((Db.open (some x)).ops (ls.map .expect)).st = .readEof :=
    ((rel_writing hrel).2.1).2 hrest
  unfold session
  rw [close_eof _ heof]
  exact rel_unmodified hrel (by rw [hrest]; simp)

/- Non-vacuity: matching, a changed line, a database that is too long, garbage. -/
example : stored [] (closedFile [[97], []]) = ([49] :: [[97], []], true) := by decide +kernel
example : (session (some (closedFile [[97], [98]])) [.expect [97], .expect [99]]).file
    = closedFile [[97], [99]] := by decide +kernel
example : (session (some (closedFile [[97], [98]])) [.expect [97]]).file
    = closedFile [[97]] := by decide +kernel
example : (session (some [50, 10, 97, 0]) [.expect [97]]).file = closedFile [[97]] := by
  decide +kernel

/-! ### C03 -/

/-- **C03**. Let `y` be the content of the file at any moment of a session: the previous
content, the final content, or else it does not look closed; in the last case a later
run is never told that the database is complete, and the lines it reads are the
first lines (after the version line) that the session was going to leave behind. -/
theorem depdb_crash_safe (f : Option Bytes) (os : List Op) (hos : ∀ o ∈ os, o.Ok) (t : Touch)
    (y : Bytes) (hy : y ∈ (session f os t).hist) :
    y = before f ∨ y = (session f os t).file ∨
    (¬ LooksClosed y ∧
     (∀ n, (afterReads y n).st ≠ .readEof) ∧
     (∀ n l, nthRead y n = some l → ((View.open f).ops os).lines[n + 1]? = some l)) := by
  have hrel := rel_ops (rel_open f) os hos
  obtain ⟨junk, _, _, h3⟩ := rel_close hrel t
  rcases h3 y hy with h | h | h
  · exact Or.inl h
  · right; right
    obtain ⟨hm, ls, p, he, hp, hpre⟩ := h
    have hnl : ∀ l ∈ ls, 10 ∉ l := fun l hl => (rel_lines_ok hrel).1 l (hpre.subset hl)
    have hst := stored_partial ls p hnl hp (he ▸ hm)
    rw [← he] at hst
    have hpre2 : (stored [] y).1 <+: ((View.open f).ops os).lines := by
      rw [hst]; simp only
      split
      · exact (List.dropLast_prefix ls).trans hpre
      · exact hpre
    refine ⟨?_, ?_, ?_⟩
    · rw [looksClosed_iff, hm]; simp
    · intro n
      have hr := rel_ops (rel_open (some y)) (List.replicate n .read) (replicate_read_ok n)
      unfold afterReads
      rw [Ne, (rel_writing hr).2.1]
      rcases hro : (View.open (some y)).rest with _ | ⟨old, b⟩
      · have : ∀ m, ((View.open (some y)).reads m) = View.open (some y) := by
          intro m
          induction m with
          | zero => rfl
          | succ m ihm =>
            rw [View.reads_succ]
            have : (View.open (some y)).read.2 = View.open (some y) := by simp [View.read, hro]
            rw [this]; exact ihm
        have := this n
        unfold View.reads at this
        rw [this, hro]; simp
      · have hb : b = false := by
          have h2 := congrArg Prod.snd hst
          unfold View.open at hro
          rcases hs : stored [] y with ⟨ls', b'⟩
          rw [hs] at h2
          simp only [hs] at hro
          simp only at h2
          cases ls' with
          | nil => simp at hro
          | cons l ls' =>
            simp only at hro
            split at hro <;> simp at hro
            rw [← hro.2, h2]
        have := View.reads_rest old b n _ hro
        unfold View.reads at this
        rw [this, hb]
        split <;> simp
    · intro n l hl
      have hr := rel_ops (rel_open (some y)) (List.replicate n .read) (replicate_read_ok n)
      unfold nthRead at hl
      rw [(rel_read hr).1] at hl
      rcases hro : (View.open (some y)).rest with _ | ⟨old, b⟩
      · exfalso
        have : ∀ m, ((View.open (some y)).reads m) = View.open (some y) := by
          intro m
          induction m with
          | zero => rfl
          | succ m ihm =>
            rw [View.reads_succ]
            have : (View.open (some y)).read.2 = View.open (some y) := by simp [View.read, hro]
            rw [this]; exact ihm
        have := this n
        unfold View.reads at this
        rw [this] at hl
        simp [View.read, hro] at hl
      · have h4 := View.reads_result old b n _ hro
        unfold View.reads at h4
        rw [h4] at hl
        have h5 : ∃ l0, (stored [] y).1 = l0 :: old := by
          unfold View.open at hro
          rcases hs : stored [] y with ⟨ls', b'⟩
          simp only [hs] at hro
          cases ls' with
          | nil => simp at hro
          | cons l0 ls' =>
            simp only at hro
            split at hro <;> simp at hro
            exact ⟨l0, by simp [hro.1]⟩
        obtain ⟨l0, h5⟩ := h5
        rw [h5] at hpre2
        obtain ⟨r, hr⟩ := hpre2
        rw [← hr]
        obtain ⟨hn, rfl⟩ := List.getElem?_eq_some_iff.1 hl
        simp [List.getElem?_append_left hn]
  · exact Or.inr (Or.inl h)

/- Non-vacuity: a moment in the middle of replacing a line, with a crash. -/
example : (enc [[49], [97]] ++ [100]) ∈
    (session (some (closedFile [[97], [98]])) [.expect [97], .expect [100, 100]]).hist := by
  decide +kernel
example : nthRead (enc [[49], [97]] ++ [100]) 0 = some [97] ∧
    nthRead (enc [[49], [97]] ++ [100]) 1 = none := by decide +kernel

/-! ### C05 -/

/-- **C05**, soundness: if skipping reports a proper end, then reading all the lines would
too, and closing the database leaves the file alone. -/
theorem depdb_skip_sound (f : Option Bytes) (os : List Op) (hos : ∀ o ∈ os, o.Ok)
    (hst : ((Db.open f).ops os).st = .read ∨ ((Db.open f).ops os).st = .readEof)
    (h : ((Db.open f).ops os).skip.1 = true) :
    (∃ n, ((Db.open f).ops (os ++ List.replicate n .read)).st = .readEof) ∧
    (((Db.open f).ops os).skip.2.close .absent).file = before f ∧
    ∀ y ∈ (((Db.open f).ops os).skip.2.close .absent).hist, y = before f := by
  have hrel := rel_ops (rel_open f) os hos
  have hkeep : ∀ d' : Db, d'.st = .readEof → d'.file = ((Db.open f).ops os).file →
      d'.hist = ((Db.open f).ops os).hist → ((Db.open f).ops os).st ≠ .write →
      (d'.close .absent).file = before f ∧ ∀ y ∈ (d'.close .absent).hist, y = before f := by
    intro d' h1 h2 h3 h4
    rw [close_eof _ h1, h2, h3]
    exact rel_unmodified hrel (fun h => h4 ((rel_writing hrel).1.2 h))
  rcases hst with hst | hst
  · constructor
    · -- read all that remains
      rcases hr : ((View.open f).ops os).rest with _ | ⟨ls, b⟩
      · rw [← (rel_writing hrel).1, hst] at hr; cases hr
      · have hb : b = true := by
          unfold Db.skip at h
          simp only [hst] at h
          split at h
          · rename_i r hs
            obtain ⟨a, e⟩ := skipScan_mark hs
            cases hrel with
            | write st => rw [hst] at st; cases st
            | eof _ st => rw [hst] at st; cases st
            | read tail st ro file hist split pos g rest mark head nl =>
              have hdrop : ((Db.open f).ops os).file.drop ((Db.open f).ops os).g = tail := by
                rw [file, split, ← List.append_assoc]
                apply drop_left'; simp [g]
              rw [hdrop] at e
              have h2 := stored_snd [] tail
              rw [(looksClosed_iff tail).1 ⟨a, r, e⟩] at h2
              rw [rest] at hr
              simp at hr
              rw [hr] at h2; exact h2
          · simp at h
        refine ⟨ls.length, ?_⟩
        have hrel2 := rel_ops hrel (List.replicate ls.length .read) (replicate_read_ok _)
        have happ : (Db.open f).ops (os ++ List.replicate ls.length .read) =
            ((Db.open f).ops os).ops (List.replicate ls.length .read) := by
          simp [Db.ops]
        rw [happ, (rel_writing hrel2).2.1]
        have := View.reads_rest ls b ls.length _ hr
        unfold View.reads at this
        rw [this, hb]; simp
    · unfold Db.skip at h ⊢
      simp only [hst] at h ⊢
      split at h
      · exact hkeep _ rfl rfl rfl (by rw [hst]; simp)
      · simp at h
  · constructor
    · exact ⟨0, by simpa using hst⟩
    · unfold Db.skip
      simp only [hst]
      exact hkeep _ hst rfl rfl (by rw [hst]; simp)

/-- **C05**, completeness, *partial*: if reading all the remaining lines reaches the proper end
and none of the lines that remain is empty, then skipping reports it. What is missing is
the case of empty lines, for which the claim is false
(`depdb_skip_misses_empty_line`). -/
theorem depdb_skip_complete_partial (f : Option Bytes) (os : List Op) (hos : ∀ o ∈ os, o.Ok)
    (hst : ((Db.open f).ops os).st = .read) (ls : List Bytes)
    (hrest : ((View.open f).ops os).rest = some (ls, true)) (hls : ∀ l ∈ ls, l ≠ []) :
    ((Db.open f).ops os).skip.1 = true := by
  cases rel_ops (rel_open f) os hos with
  | write st => rw [hst] at st; cases st
  | eof _ st => rw [hst] at st; cases st
  | read tail st ro file hist split pos g rest mark head nl =>
    have hdrop : ((Db.open f).ops os).file.drop ((Db.open f).ops os).g = tail := by
      rw [file, split, ← List.append_assoc]
      apply drop_left'; simp [g]
    rw [rest] at hrest
    simp at hrest
    obtain ⟨r, hr⟩ := skipScan_complete ls tail hrest hls
    simp [Db.skip, st, hdrop, hr]

/-- **C05** is false in general: for a properly closed database whose last line is empty,
reading all lines reports a proper end but skipping does not (and truncates the
database). -/
theorem depdb_skip_misses_empty_line :
    let x := closedFile [[97], []]
    (afterReads x 2).st = .readEof ∧ (Db.open (some x)).skip.1 = false ∧
    (Db.open (some x)).skip.2.file = enc [[49]] := by
  decide +kernel

/- Non-vacuity. -/
example : ((Db.open (some (closedFile [[97], [98], [99]]))).ops [.expect [97]]).skip.1 = true := by
  decide +kernel
example : ((Db.open (some (closedFile [[97], [98], [99]]))).ops [.expect [97]]).st = .read := by
  decide +kernel

/-! ### C06 -/

theorem closeToReopen_content {F : Bytes} {d : Db} {s : View} (h : Rel F d s) :
    ∃ junk, d.closeToReopen.2.file = enc s.lines ++ 0 :: junk ∧
      d.closeToReopen.1 = (enc s.lines).length := by
  cases h with
  | write st ro file w cur rest mark hist nl ends =>
    refine ⟨[], ?_⟩
    have hl : s.lines = s.done := by simp [View.lines, cur]
    have hw : ({ d with pos := d.w } : Db).w = ({ d with pos := d.w } : Db).file.length := w
    simp only [Db.closeToReopen, st, true_or, if_true]
    constructor
    · have := put_end { d with pos := d.w } 0 hw
      simp only [st] at this
      rw [this, hl]; simp [file]
    · simp [w, hl, file]
  | eof junk st ro file hist split pos g rest mark nl =>
    have hF : d.file = enc s.lines ++ 0 :: junk := by
      rw [file, split]; simp [View.lines, enc_append]
    have hg : d.g = (enc s.lines).length := by simp [View.lines, enc_append, g]
    refine ⟨junk, ?_, ?_⟩
    · have := put_over { d with st := .write, pos := d.g, w := d.g } (enc s.lines) (0 :: junk) 0 hF hg
      simp [Db.closeToReopen, st, Db.change, ro]
      simpa [ro] using this.1
    · simp [Db.closeToReopen, st, Db.change, ro, hg]
  | read tail st ro file hist split pos g rest mark head nl =>
    have hch := rel_change (d := { d with pos := d.g }) (done := s.lines) (t := tail)
      (Or.inl st) ro file hist (by rw [split]; simp [View.lines, enc_append])
      (by simp [View.lines, enc_append, g]) (by simpa [View.lines, enc_append] using mark)
      (by simpa [View.lines] using nl)
    cases hch with
    | eof _ _ _ _ _ _ _ _ rest _ _ => cases rest
    | read _ _ _ _ _ _ _ _ rest _ _ _ => cases rest
    | write st' ro' file' w' cur' rest' mark' hist' nl' ends' =>
      refine ⟨[], ?_⟩
      have he : d.closeToReopen =
          ((({ d with pos := d.g } : Db).change true).w,
           { (({ d with pos := d.g } : Db).change true) with
             pos := (({ d with pos := d.g } : Db).change true).w }.put 0) := by
        simp [Db.closeToReopen, st]
      rw [he]
      constructor
      · simp only
        rw [put_end _ _ (by simpa using w')]; simp [file']
      · simp [w', file']

/-- **C06**. A database is closed for reopening after any session, reopened, more lines are
written and it is closed: in between it is a complete database with the lines of
the session, and at the end with these lines followed by the new ones. -/
theorem depdb_reopen (f : Option Bytes) (os : List Op) (hos : ∀ o ∈ os, o.Ok)
    (ls more : List Bytes) (hls : ((View.open f).ops os).lines = [49] :: ls)
    (hmore : ∀ l ∈ more, OkLine l) (t : Touch) :
    let r := ((Db.open f).ops os).closeToReopen
    let y := (((Db.reopen r.2.file r.1).ops (more.map .write)).close t).file
    stored [] r.2.file = ([49] :: ls, true) ∧ stored [] y = ([49] :: (ls ++ more), true) ∧
    (∀ n, nthRead r.2.file n = ls[n]?) ∧ (∀ n, nthRead y n = (ls ++ more)[n]?) := by
  intro r y
  have hrel := rel_ops (rel_open f) os hos
  obtain ⟨junk, h1, h2⟩ := closeToReopen_content hrel
  obtain ⟨h3, h4⟩ := rel_lines_ok hrel
  rw [hls] at h1 h2 h3 h4
  have h1' : r.2.file = enc ([49] :: ls) ++ 0 :: junk := h1
  have h2' : r.1 = (enc ([49] :: ls)).length := h2
  obtain ⟨J, k1, k2, k3, k4⟩ := writes_over (Db.reopen r.2.file r.1) (enc ([49] :: ls)) (0 :: junk)
    more h1' h2' rfl rfl
  have hy : ∃ J, y = enc ([49] :: (ls ++ more)) ++ 0 :: J := by
    have := put_over _ _ _ 0 k1 k2
    have hcl : ((Db.reopen r.2.file r.1).ops (more.map .write)).close t =
        ((Db.reopen r.2.file r.1).ops (more.map .write)).put 0 := by
      simp [Db.close, k3, k4]
    refine ⟨J.drop 1, ?_⟩
    show (((Db.reopen r.2.file r.1).ops (more.map .write)).close t).file = _
    rw [hcl, this.1, ← enc_append]; simp
  obtain ⟨J', hy⟩ := hy
  have hnl : ∀ l ∈ [49] :: (ls ++ more), 10 ∉ l := by
    intro l hl
    rw [← List.cons_append] at hl
    rcases List.mem_append.1 hl with hl | hl
    · exact h3 l hl
    · exact (hmore l hl).1
  have hmark : hasMark (enc ([49] :: (ls ++ more))) = false := by
    rw [← List.cons_append, enc_append, hasMark_append, h4, hasMark_enc more hmore]
    cases more with
    | nil => simp [enc_nil]
    | cons m ms =>
      have := (hmore m (List.mem_cons_self ..)).2
      cases m with
      | nil => simp [enc]
      | cons c m => simpa [enc] using fun _ => this
  refine ⟨?_, ?_, ?_, ?_⟩
  · rw [h1']; exact stored_enc' _ (by simp) h3 h4 junk
  · rw [hy]; exact stored_enc' _ (by simp) hnl hmark J'
  · intro n; rw [h1']
    exact (reads_of_file ls junk (fun l hl => h3 l (List.mem_cons_of_mem _ hl)) h4 n).1
  · intro n; rw [hy]
    exact (reads_of_file (ls ++ more) J' (fun l hl => hnl l (List.mem_cons_of_mem _ hl)) hmark n).1

/- Non-vacuity: an old database with three lines, of which the first is accepted, then two
batches. -/
example :
    let r := ((Db.open (some (closedFile [[97], [98], [99]]))).ops [.expect [97], .expect [100]]).closeToReopen
    r.2.file = closedFile [[97], [100]] ∧
    (((Db.reopen r.2.file r.1).ops [.write [101], .write []]).close).file =
      closedFile [[97], [100], [101], []] := by decide +kernel

end Verif.Depdb
