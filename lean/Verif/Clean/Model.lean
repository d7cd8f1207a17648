import Verif.Clean.Spec

/-!
# The clean operation: model of the code

libbuild2/algorithm.cxx (matching and execution of prerequisites, `perform_clean_extra`,
`perform_clean_group_extra`), libbuild2/rule.cxx (`file_rule`, `alias_rule`, `fsdir_rule`) and
libbuild2/filesystem.{cxx,txx}.

Targets are matched and executed by any number of threads: what is pending can be done in any
order, and the steps of recipes are interleaved. Simplifications: dry runs, backlinks and ad hoc
recipes are left out; extra files and directories are as derived from the path (4594-4612).
-/

namespace Verif.Clean

/-- What recipes do to the filesystem. Used by `doAct` (filesystem.txx:8-47). -/
inductive Act
  | rm (p : Path)
  | rmr (d : Path)
  | rmdir (d : Path)
  deriving DecidableEq

instance (d p : Path) : Decidable (d <+: p) := decidable_of_iff _ List.isPrefixOf_iff_prefix

/-- What `rmdir(2)` checks. Used by `doAct` (filesystem.txx:8-47). -/
def empty (s : FS) (d : Path) : Bool :=
  !(s.files.any fun f => f.1 ≠ [] && f.1.dropLast = d) &&
  !(s.dirs.any fun e => e ≠ [] && e.dropLast = d)

/-- filesystem.txx:8-47 `rmfile`, filesystem.cxx:185-217 `rmdir_r`, filesystem.txx:49-106
`rmdir`. The result is `none` on error. -/
def doAct (cwd : Path) (s : FS) : Act → Option FS
  | .rm p => if p ∈ s.dirs then none else some { s with files := s.files.filter (·.1 ≠ p) }
  | .rmr d =>
    if d <+: cwd then some s
    else if s.files.any (·.1 = d) then none
    else some { files := s.files.filter (fun f => ¬ d <+: f.1),
                dirs := s.dirs.filter (fun e => ¬ d <+: e) }
  | .rmdir d =>
    if d <+: cwd then some s
    else if s.files.any (·.1 = d) then none
    else if empty s d then some { s with dirs := s.dirs.filter (· ≠ d) }
    else some s

/-- algorithm.cxx:4575-4650 `clean_extra`, in the order of files and directories. -/
def extra (ef ed : List Path) : List Act := ef.map .rm ++ ed.map .rmr

/-- algorithm.cxx:4652-4807 `perform_clean_extra`, 4810-4870 `perform_clean_group_extra`,
rule.cxx:376-396 `fsdir_rule::perform_clean` and 259-272 `alias_rule::apply`: before the
prerequisites are executed. -/
def acts (t : Target) : List Act :=
  match t.kind with
  | .source => []
  | .alias => []
  | .fsdir => [.rmdir t.dir]
  | .file f ef ed ms r =>
    (if f.isSome then extra ef ed else []) ++
    ms.flatMap (fun m => extra m.2.1 m.2.2 ++ if r then [.rm m.1] else []) ++
    (if r then f.toList.map .rm else [])
  | .group ef ms r => extra ef [] ++ if r then ms.reverse.map .rm else []

/-- algorithm.cxx:1914-1917 (with `parent` being true only for `fsdir_rule`, rule.cxx:237,
275): the directory. -/
def within (t : Target) : Path :=
  match t.kind with
  | .fsdir => t.dir.dropLast
  | _ => t.dir

/-- algorithm.cxx:1909-1960 `inject_fsdir_impl`. -/
def injected (g : Graph) (t : Nat) : Option Nat :=
  if g.out (within (g.target t)) then some (g.fsdir (within (g.target t)))
  else if (g.target t).pre.any fun p => p.1 = g.fsdir (within (g.target t)) then
    some (g.fsdir (within (g.target t)))
  else none

/-- algorithm.cxx:1741-1808 `match_prerequisite_range` as called from algorithm.ixx:759-783
(not limited to the project for an alias), after the directory has been injected. For a file
that nothing makes, rule.cxx:175-185 `file_rule::apply`: nothing. -/
def pre (g : Graph) (t : Nat) : List Nat :=
  match (g.target t).kind with
  | .source => []
  | .alias =>
    (injected g t).toList ++
    ((g.target t).pre.filter fun p => p.2 && some p.1 ≠ injected g t).map (·.1)
  | _ =>
    (injected g t).toList ++
    ((g.target t).pre.filter fun p => p.2 && some p.1 ≠ injected g t &&
      (g.target t).root <+: (g.target p.1).dir).map (·.1)

/-- The match phase: targets to match, the ones that have been, and `dependents`.
Used by `Match.Step` (algorithm.ixx:412-447). -/
structure Match where
  calls   : List Nat
  matched : List Nat
  count   : Nat → Nat

/-- One more dependent (algorithm.ixx:412-447, `match_inc_dependents`). -/
def bump (c : Nat → Nat) (t : Nat) : Nat → Nat := fun x => if x = t then c x + 1 else c x

/-- algorithm.ixx:412-447 (`match_inc_dependents`, `match_sync`) and algorithm.cxx
`match_impl`: any of the calls, where only the first one for a target applies a rule. -/
inductive Match.Step (g : Graph) : Match → Match → Prop
  | again {m l t r} : m.calls = l ++ t :: r → t ∈ m.matched →
      Match.Step g m { m with calls := l ++ r, count := bump m.count t }
  | first {m l t r} : m.calls = l ++ t :: r → t ∉ m.matched →
      Match.Step g m ⟨l ++ r ++ pre g t, t :: m.matched, bump m.count t⟩

/-- The execute phase: the filesystem, `dependents`, targets to execute, recipes being executed
(with what is left to do before prerequisites) and executed, and those that failed.
Used by `Exec.Step` (algorithm.cxx:2940-3035). -/
structure Exec where
  fs      : FS
  count   : Nat → Nat
  calls   : List Nat
  running : List (Nat × List Act)
  done    : List Nat
  failed  : List Nat

/-- One less dependent (algorithm.cxx:2959-2960). -/
def drop (c : Nat → Nat) (t : Nat) : Nat → Nat := fun x => if x = t then c x - 1 else c x

/-- algorithm.cxx:2940-3035 `execute_impl` (in the last execution mode, as for clean), and
recipes, which execute prerequisites in the end (4279-4322 `reverse_execute_members`). A recipe
can fail at any time. -/
inductive Exec.Step (g : Graph) : Exec → Exec → Prop
  | postpone {s l t r} : s.calls = l ++ t :: r → s.count t - 1 ≠ 0 →
      Exec.Step g s { s with calls := l ++ r, count := drop s.count t }
  | start {s l t r} : s.calls = l ++ t :: r → s.count t - 1 = 0 →
      Exec.Step g s { s with
        calls := l ++ r, count := drop s.count t,
        running := (t, acts (g.target t)) :: s.running }
  | act {s l t a as r f} : s.running = l ++ (t, a :: as) :: r → doAct g.cwd s.fs a = some f →
      Exec.Step g s { s with fs := f, running := l ++ (t, as) :: r }
  | finish {s l t r} : s.running = l ++ (t, []) :: r →
      Exec.Step g s { s with
        running := l ++ r, done := t :: s.done, calls := s.calls ++ (pre g t).reverse }
  | fail {s l t as r} : s.running = l ++ (t, as) :: r →
      Exec.Step g s { s with running := l ++ r, failed := t :: s.failed }

/-- Any number of steps. -/
inductive Star {α : Type} (R : α → α → Prop) : α → α → Prop
  | refl {a} : Star R a a
  | tail {a b c} : Star R a b → R b c → Star R a c

/-- The operation on these targets: matching until there is nothing left to match, then
executing.
Puts together `Exec.Step` (algorithm.cxx:2940-3035) and what goes with it; no function of its own in the code. -/
def Runs (g : Graph) (roots : List Nat) (fs : FS) (s : Exec) : Prop :=
  ∃ m, Star (Match.Step g) ⟨roots, [], fun _ => 0⟩ m ∧ m.calls = [] ∧
    Star (Exec.Step g) ⟨fs, m.count, roots, [], [], []⟩ s

/-- Nothing left to do. -/
def Exec.Over (s : Exec) : Prop := s.calls = [] ∧ s.running = []

end Verif.Clean
