import Verif.Timeout.Spec
/-!
# Timeouts of scripts: the model
-/

namespace Verif.Timeout

/-- Used by `parseTimeout` (libbuild2/script/timeout.cxx 12-27). -/
inductive Err where
  | invalid
  | overflow
deriving DecidableEq, Repr

/-- libbuild2/script/script.ixx 57-64, 74-81 `operator<`. -/
def less (x y : Deadline) : Bool :=
  if x.value ≠ y.value then x.value < y.value
  else !x.success && y.success

/-- libbuild2/script/timeout.ixx 17-50 `earlier`. -/
def earlier (x y : Option Deadline) : Option Deadline :=
  match x, y with
  | some x, some y => some (if less x y then x else y)
  | some x, none => some x
  | none, some y => some y
  | none, none => none

/-- The largest number of nanoseconds (signed, 64 bits).
Used by `parseTimeout` (libbuild2/script/timeout.cxx 12-27). -/
def maxRep : Nat := 2 ^ 63 - 1

/-- libbuild2/script/timeout.cxx 12-27 `parse_timeout`. Overflow is undefined
behavior. -/
def parseTimeout (num : List Char → Option Nat) (s : List Char) : Except Err (Option Nat) :=
  match num s with
  | none => .error .invalid
  | some n =>
    if n = 0 then .ok none
    else if n * second ≤ maxRep then .ok (some (n * second))
    else .error .overflow

/-- libbuild2/script/timeout.ixx 6-16 `parse_deadline`. -/
def parseDeadline (num : List Char → Option Nat) (s : List Char) (now : Nat) :
    Except Err (Option Nat) :=
  match parseTimeout num s with
  | .error e => .error e
  | .ok none => .ok none
  | .ok (some t) => if now + t ≤ maxRep then .ok (some (now + t)) else .error .overflow

/-- A test group: libbuild2/test/script/script.hxx 236-238. -/
structure Group where
  deadline : Option Deadline
  timeout : Option Deadline
deriving DecidableEq, Repr

/-- libbuild2/script/script.ixx 66-70, 83-87 `to_deadline`, `to_timeout`. -/
def toDeadline (t : Option Nat) (success : Bool) : Option Deadline := t.map fun t => ⟨t, success⟩

/-- libbuild2/test/script/script.cxx 585-617 `group::set_timeout`. -/
def setGroup (num : List Char → Option Nat) (g : Group) (t : List Char) (success : Bool)
    (now : Nat) : Except Err Group :=
  if '/' ∈ t then
    if t.length = 1 then .error .invalid
    else
      let a := t.takeWhile (· ≠ '/')
      let b := (t.dropWhile (· ≠ '/')).drop 1
      match (if a ≠ [] then (parseDeadline num a now).map (toDeadline · success)
             else .ok g.deadline) with
      | .error e => .error e
      | .ok d =>
        match (if b ≠ [] then (parseTimeout num b).map (toDeadline · success)
               else .ok g.timeout) with
        | .error e => .error e
        | .ok t => .ok ⟨d, t⟩
  else
    match parseDeadline num t now with
    | .error e => .error e
    | .ok d => .ok { g with deadline := toDeadline d success }

/-- The deadlines of a test and of what it is in. `op` and `cfg` are
`script::operation_deadline` and `script::test_timeout`
(libbuild2/test/script/script.cxx 236-244); the groups are by their level,
with the script at level 0; `cached` is `test::test_deadline`, `frag` is
`test::fragment_deadline`. -/
structure St where
  op : Option Deadline
  cfg : Option Deadline
  depth : Nat
  groups : Nat → Group
  frag : Option Deadline
  cached : Option (Option Deadline)

/-- libbuild2/test/script/script.cxx 340-344 and 619-625
`effective_deadline ()` of the script and of groups. -/
def groupDeadline (op : Option Deadline) (g : Nat → Group) : Nat → Option Deadline
  | 0 => earlier op (g 0).deadline
  | n + 1 => earlier (groupDeadline op g n) (g (n + 1)).deadline

/-- libbuild2/test/script/script.cxx 649-656: the loop over the groups. -/
def minTimeout (t : Option Deadline) (g : Nat → Group) : Nat → Option Deadline
  | 0 => earlier t (g 0).timeout
  | n + 1 => minTimeout (earlier t (g (n + 1)).timeout) g n

/-- libbuild2/test/script/script.cxx 638-667 `test::effective_deadline ()`. -/
def effective (s : St) (now : Nat) : St × Option Deadline :=
  match s.cached with
  | some d => (s, earlier d s.frag)
  | none =>
    let d := groupDeadline s.op s.groups s.depth
    let d := match minTimeout s.cfg s.groups s.depth with
      | none => d
      | some t => earlier d (some ⟨now + t.value, t.success⟩)
    ({ s with cached := some d }, earlier d s.frag)

/-- At the beginning.
Puts together `St` (libbuild2/test/script/script.cxx 236-244) and what goes with it; no function of its own in the code. -/
def init (op cfg : Option Deadline) (depth : Nat) : St :=
  ⟨op, cfg, depth, fun _ => ⟨none, none⟩, none, none⟩

/-- What happens: libbuild2/script/run.cxx 907-935 `timeout_builtin` with
libbuild2/test/script/script.cxx 585-617 and 629-636 `set_timeout ()`, and a
command. -/
def step (num : List Char → Option Nat) (s : St) : Event → Except Err St
  | .group l t success now =>
    match setGroup num (s.groups l) t success now with
    | .error e => .error e
    | .ok g => .ok { s with groups := fun i => if i = l then g else s.groups i }
  | .test t success now =>
    match parseDeadline num t now with
    | .error e => .error e
    | .ok d => .ok { s with frag := toDeadline d success }
  | .command now => .ok (effective s now).1

/-- One after another.
Puts together `step` (libbuild2/script/run.cxx 907-935) and what goes with it; no function of its own in the code. -/
def steps (num : List Char → Option Nat) (s : St) : List Event → Except Err St
  | [] => .ok s
  | e :: es =>
    match step num s e with
    | .error e => .error e
    | .ok s => steps num s es

/-! ## Pipelines -/

/-- libbuild2/script/run.cxx 2257-2264: the deadline of a command, given that
of the one on its left. -/
def cmdDeadline (dl : Option Deadline) (c : Cmd) : Option Deadline :=
  let dl := earlier dl c.env
  match c.timeout with
  | none => dl
  | some t =>
    let d : Deadline := ⟨c.started + t.value, t.success⟩
    match dl with
    | none => some d
    | some e => if less d e then some d else some e

/-- With their deadlines, left to right.
Used by `runPipe` (libbuild2/script/run.cxx 2562-2640). -/
def withDeadlines (dl : Option Deadline) : List Cmd → List (Cmd × Option Deadline)
  | [] => []
  | c :: cs => (c, cmdDeadline dl c) :: withDeadlines (cmdDeadline dl c) cs

/-- A command that is done: whether it is flagged as terminated, and how it
has exited. Used by `termPipe` (libbuild2/script/run.cxx 1375-1448). -/
structure Done where
  cmd : Cmd
  dl : Option Deadline
  terminated : Bool
  exit : Exit
deriving DecidableEq, Repr

/-- Two seconds. Used by `endOf` (libbuild2/script/run.cxx 1399-1418). -/
def grace : Nat := 2 * second

/-- Has exited by itself. Used by `endOf` (libbuild2/script/run.cxx 1399-1418). -/
def exited (c : Cmd) (now : Nat) : Bool :=
  match c.finish with
  | none => false
  | some f => f ≤ now

/-- libbuild2/script/run.cxx 1399-1418: a process that has been told to
terminate is waited for until the deadline and is then killed. When it
exits, and how. -/
def endOf (c : Cmd) (now : Nat) : Nat × Exit :=
  if exited c now then (now, c.exit)
  else
    match c.response with
    | .dies d => if d ≤ grace then (now + d, .sigterm) else (now + grace, .sigkill)
    | .exits d n => if d ≤ grace then (now + d, .code n) else (now + grace, .sigkill)
    | .ignores =>
      if exited c (now + grace) then (c.finish.getD 0, c.exit) else (now + grace, .sigkill)

/-- When a builtin finishes after everything else has been terminated.
Used by `termPipe` (libbuild2/script/run.cxx 1375-1448). -/
def builtinEnd (c : Cmd) (now : Nat) : Nat :=
  if exited c now then now
  else
    match c.response with
    | .dies d => now + d
    | .exits d _ => now + d
    | .ignores => now + grace + 1 -- Hangs.

/-- libbuild2/script/run.cxx 1375-1448 `term_pipe`: for these commands. The
time afterwards, or none if the build system aborts. -/
def termPipe (now : Nat) (cs : List (Cmd × Option Deadline)) : Option Nat × List Done :=
  let now1 := cs.foldl (fun t c => if c.1.builtin then t else max t (endOf c.1 now).1) now
  let bs := cs.filter fun c => c.1.builtin
  let now2 := bs.foldl (fun t c => max t (builtinEnd c.1 now1)) now1
  (if bs.all (fun c => builtinEnd c.1 now1 ≤ now1 + grace) then some now2 else none,
   cs.map fun c => ⟨c.1, c.2, true, if c.1.builtin then c.1.exit else (endOf c.1 now).2⟩)

/-- How waiting ends. Used by `waitPipe` (libbuild2/script/run.cxx 2648-2683). -/
inductive Wait where
  | done (now : Nat) (ds : List Done)
  | hangs
  | aborts
deriving DecidableEq, Repr

/-- Of one more that is done. Used by `waitPipe` (libbuild2/script/run.cxx 2648-2683). -/
def Wait.cons (d : Done) : Wait → Wait
  | .done now ds => .done now (d :: ds)
  | w => w

/-- libbuild2/script/run.cxx 2648-2683 `wait_pipe`: right to left. After
`term_pipe` the commands on the left have all exited. -/
def waitPipe (dl : Option Deadline) (now : Nat) : List (Cmd × Option Deadline) → Wait
  | [] => .done now []
  | c :: cs =>
    match dl with
    | none =>
      match c.1.finish with
      | none => .hangs
      | some f => (waitPipe none (max now f) cs).cons ⟨c.1, c.2, false, c.1.exit⟩
    | some d =>
      if exited c.1 (max now d.value) then
        (waitPipe (some d) (max now (c.1.finish.getD 0)) cs).cons ⟨c.1, c.2, false, c.1.exit⟩
      else
        match termPipe (max now d.value) (c :: cs) with
        | (some t, ds) => .done t ds
        | (none, _) => .aborts

/-- libbuild2/script/run.cxx 2694-2906 `complete_pipe`: left to right. -/
def complete : List Done → Bool × Bool
  | [] => (true, false)
  | d :: ds =>
    let r := complete ds
    let exit :=
      if d.cmd.builtin then
        if d.terminated then
          (match d.dl with
           | some l => if l.success then some (.code 0) else none
           | none => none)
        else some d.exit
      else if d.terminated ∧ d.exit = .sigterm then
        (match d.dl with
         | some l => if l.success then some (.code 0) else none
         | none => none)
      else some d.exit
    match exit with
    | none => (r.1, true)
    | some (.code n) => ((d.cmd.eq == (d.cmd.expected == n)) && r.1, r.2)
    | some _ => (false, true)

/-- libbuild2/script/run.cxx 2562-2640 `read_pipe` and what follows it.
`buffered` is whether the diagnostics of the commands is buffered, in which
case the whole pipeline is terminated if something is still running at the
deadline. That a stream is kept open by something else is left out, as are
the commands that are not run as a part of a pipeline. -/
def runPipe (buffered : Bool) (now : Nat) (cs : List Cmd) : Wait :=
  let rs := (withDeadlines none cs).reverse
  let dl := (rs.head?.map (·.2)).join
  match dl with
  | none => waitPipe none now rs
  | some d =>
    if buffered ∧ ¬ rs.all (fun c => exited c.1 (max now d.value)) then
      match termPipe (max now d.value) rs with
      | (some t, ds) => .done t ds
      | (none, _) => .aborts
    else waitPipe (some d) now rs

/-- The outcome. Built on `runPipe` (libbuild2/script/run.cxx 2562-2640). -/
def outcome (buffered : Bool) (now : Nat) (cs : List Cmd) : Outcome :=
  match runPipe buffered now cs with
  | .hangs => .hangs
  | .aborts => .aborts
  | .done _ ds =>
    let r := complete ds.reverse
    if r.2 then .fails else .result r.1

end Verif.Timeout
