import Verif.TestExec.Spec

/-!
# Execution of testscripts: model of the code

libbuild2/test/script/parser.cxx: `execute_impl` (2613-2624), `exec_scope_body` (2626-2959).

Each scope is executed by some thread, possibly by the one that executes the scope it is in (this
is a restriction on the order in which steps are made). The variables of a group are shared:
an inner scope sees what they are at the time. A sequence of commands is one step. Creating and
removing of working directories are left out (see Verif/Cleanup), so is the index of the line.
-/

namespace Verif.TestExec

variable {V : Type}

/-- Where the execution of a scope is.
Used by `afterSetup` (libbuild2/test/script/parser.cxx 2736-2744, 2944). -/
inductive Status (V : Type)
  /-- Not started. -/
  | idle
  /-- Handed off (2893-2916), or at the beginning. -/
  | ready
  /-- 2754-2929: what is left of the current chain, and the following ones. -/
  | loop (cur : List (Alt V)) (cs : List (Chain V))
  /-- 2931 or, if an exception is being thrown, the destructor of `wait_guard`. -/
  | wait (failed : Bool)
  /-- 2944. -/
  | tdown
  /-- `scope::state`. -/
  | done (ok : Bool)

/-- Used by `take` (libbuild2/test/script/parser.cxx 2881-2929). -/
structure State (V : Type) where
  st  : Nat → Status V
  /-- The variables of a group (with those that are visible in it). -/
  env : Nat → V
  /-- The scopes that it has started (that are left in `g->scopes`). -/
  started : Nat → List Nat
  /-- The latest first. -/
  log : List (Event V)

/-- Change of a function at one point.
Used by `take` (libbuild2/test/script/parser.cxx 2881-2929). -/
def upd {α : Type} (f : Nat → α) (n : Nat) (x : α) : Nat → α := fun m => if m = n then x else f m

/-- What variables are visible from the scope. -/
def vis (S : Script V) (v₀ : V) (s : State V) (n : Nat) : V :=
  match S.parent n with
  | none => v₀
  | some g => s.env g

/-- 2736-2744, 2944: after the setup. -/
def afterSetup (S : Script V) (n : Nat) : Body → Status V
  | .ok => .loop [] (S.chains n)
  | .exit => .tdown
  | .fail => .done false

/-- 2754-2760: the next chain. -/
def nextChain : List (Chain V) → Status V
  | [] => .wait false
  | c :: cs => if c.ignored then .loop [] cs else .loop c.alts cs

/-- 2881-2929: this one is selected. -/
def take (s : State V) (n : Nat) (a : Alt V) (cs : List (Chain V)) : State V :=
  if a.empty then { s with st := upd s.st n (.loop [] cs) }
  else { s with
    st := upd (upd s.st n (.loop [] cs)) a.node .ready
    started := upd s.started n (s.started n ++ [a.node]) }

/-- 2769-2879: a condition. -/
def condition (s : State V) (n : Nat) (a : Alt V) (as : List (Alt V)) (cs : List (Chain V)) :
    Cond × V → State V
  | (.yes, v) => take { s with env := upd s.env n v } n a cs
  | (.no, v) => { s with st := upd s.st n (.loop as cs), env := upd s.env n v }
  | (.exit, v) => { s with st := upd s.st n (.wait false), env := upd s.env n v }
  | (.fail, v) => { s with st := upd s.st n (.wait true), env := upd s.env n v }

/-- A step of the execution of scope `n`, where `kg` is whether to keep going.
Puts together `condition` (libbuild2/test/script/parser.cxx 2769-2879) and what goes with it; no function of its own in the code. -/
inductive Step (S : Script V) (v₀ : V) (kg : Bool) (n : Nat) : State V → State V → Prop
  /-- 2723-2731, with 2618-2623 if it fails, and 2958. -/
  | test {s} : s.st n = .ready → S.isTest n = true →
      Step S v₀ kg n s { s with
        st := upd s.st n (.done (S.test n (vis S v₀ s n)))
        log := .run n (vis S v₀ s n) :: s.log }
  /-- 2734-2744. -/
  | setup {s} : s.st n = .ready → S.isTest n = false →
      Step S v₀ kg n s { s with
        st := upd s.st n (afterSetup S n (S.setup n (vis S v₀ s n)).1)
        env := upd s.env n (S.setup n (vis S v₀ s n)).2
        log := .run n (vis S v₀ s n) :: s.log }
  /-- 2754. -/
  | chain {s cs} : s.st n = .loop [] cs →
      Step S v₀ kg n s { s with st := upd s.st n (nextChain cs) }
  /-- 2773-2777. -/
  | always {s a as cs} : s.st n = .loop (a :: as) cs → a.cond = none →
      Step S v₀ kg n s (take s n a cs)
  | cond {s a as cs f} : s.st n = .loop (a :: as) cs → a.cond = some f →
      Step S v₀ kg n s (condition s n a as cs (f (s.env n)))
  /-- 2918-2927: one that was executed synchronously has failed. -/
  | bail {s cs c} : s.st n = .loop [] cs → kg = false → c ∈ s.started n → s.st c = .done false →
      Step S v₀ kg n s { s with st := upd s.st n (.wait true) }
  /-- 2931-2942. -/
  | passed {s} : s.st n = .wait false → (∀ c ∈ s.started n, s.st c = .done true) →
      Step S v₀ kg n s { s with st := upd s.st n .tdown }
  | failed {s f c} : s.st n = .wait f → (∀ c ∈ s.started n, ∃ b, s.st c = .done b) →
      f = true ∨ (c ∈ s.started n ∧ s.st c = .done false) →
      Step S v₀ kg n s { s with st := upd s.st n (.done false) }
  /-- 2944-2950, 2958. -/
  | tdown {s} : s.st n = .tdown →
      Step S v₀ kg n s { s with
        st := upd s.st n (.done (S.tdown n (s.env n)))
        log := .tdown n (s.env n) :: s.log }

/-- At first only the outermost scope is to be executed. -/
def init (root : Nat) (v₀ : V) : State V :=
  ⟨fun n => if n = root then .ready else .idle, fun _ => v₀, fun _ => [], []⟩

/-- Reachable states, with the number of steps. -/
inductive Reach (S : Script V) (root : Nat) (v₀ : V) (kg : Bool) : Nat → State V → Prop
  | init : Reach S root v₀ kg 0 (init root v₀)
  | step {k s s' n} : Reach S root v₀ kg k s → Step S v₀ kg n s s' → Reach S root v₀ kg (k + 1) s'

end Verif.TestExec
