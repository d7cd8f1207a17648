/-!
# Execution of testscripts: specification

What is executed, with what variables, and whether it passes (doc/testscript.cli, "Model and
Execution"). Scopes are numbered; the variables that are visible in a scope are a value.
-/

namespace Verif.TestExec

/-- How the commands of a setup end: normally, with a successful `exit`, or they fail. -/
inductive Body | ok | exit | fail
  deriving DecidableEq

/-- The same for a condition. -/
inductive Cond | yes | no | exit | fail
  deriving DecidableEq

/-- One of the scopes of an if-else chain, with its condition unless it is unconditional. The
condition may change the variables of the scope that it is in. -/
structure Alt (V : Type) where
  cond  : Option (V → Cond × V)
  empty : Bool
  node  : Nat

/-- An if-else chain, or just a scope. It may be ignored (`config.test`). -/
structure Chain (V : Type) where
  ignored : Bool
  alts    : List (Alt V)

structure Script (V : Type) where
  /-- The scope that this one is in. -/
  parent : Nat → Option Nat
  isTest : Nat → Bool
  /-- Whether the commands of a test succeed, given the variables. -/
  test   : Nat → V → Bool
  /-- What the setup of a group comes to, and the variables after it. -/
  setup  : Nat → V → Body × V
  chains : Nat → List (Chain V)
  tdown  : Nat → V → Bool

/-- The scopes that are right in a group. -/
def Script.inner {V : Type} (S : Script V) (g : Nat) : List Nat :=
  ((S.chains g).map fun c => c.alts.map Alt.node).flatten

/-- Scopes are numbered as they are written; there are finitely many. -/
structure Script.Tree {V : Type} (S : Script V) (root size : Nat) : Prop where
  top : S.parent root = none
  parent : ∀ g, ∀ n ∈ S.inner g, S.parent n = some g ∧ g < n ∧ n < size
  once : ∀ g, (S.inner g).Nodup
  start : root < size

/-- Conditions do not set variables. -/
def Script.Pure {V : Type} (S : Script V) : Prop :=
  ∀ g, ∀ c ∈ S.chains g, ∀ a ∈ c.alts, ∀ f, a.cond = some f → ∀ v, (f v).2 = v

/-- What scopes are selected, with this chain (what is left of it) and the following ones, and
whether a condition fails: of each chain the first whose condition holds. After an exit, nothing. -/
inductive Picks {V : Type} (v : V) : List (Alt V) → List (Chain V) → List Nat → Bool → Prop
  | done : Picks v [] [] [] false
  | ignored {c cs ns f} : c.ignored = true → Picks v [] cs ns f → Picks v [] (c :: cs) ns f
  | chain {c cs ns f} : c.ignored = false → Picks v c.alts cs ns f → Picks v [] (c :: cs) ns f
  | no {a as cs ns f p} : a.cond = some p → (p v).1 = .no → Picks v as cs ns f →
      Picks v (a :: as) cs ns f
  | take {a as cs ns f} : (∀ p, a.cond = some p → (p v).1 = .yes) → a.empty = false →
      Picks v [] cs ns f → Picks v (a :: as) cs (a.node :: ns) f
  | takeEmpty {a as cs ns f} : (∀ p, a.cond = some p → (p v).1 = .yes) → a.empty = true →
      Picks v [] cs ns f → Picks v (a :: as) cs ns f
  | exit {a as cs p} : a.cond = some p → (p v).1 = .exit → Picks v (a :: as) cs [] false
  | fail {a as cs p} : a.cond = some p → (p v).1 = .fail → Picks v (a :: as) cs [] true

/-- Whether a scope passes: a test if its commands succeed; a group if its setup, everything that
is selected in it, and its teardown does. -/
inductive Passes {V : Type} (S : Script V) : Nat → V → Bool → Prop
  | test {n v} : S.isTest n = true → Passes S n v (S.test n v)
  | setupFail {n v v'} : S.isTest n = false → S.setup n v = (.fail, v') → Passes S n v false
  | setupExit {n v v'} : S.isTest n = false → S.setup n v = (.exit, v') →
      Passes S n v (S.tdown n v')
  | pass {n v v' ns} : S.isTest n = false → S.setup n v = (.ok, v') →
      Picks v' [] (S.chains n) ns false → (∀ c ∈ ns, Passes S c v' true) →
      Passes S n v (S.tdown n v')
  | condFail {n v v' ns} : S.isTest n = false → S.setup n v = (.ok, v') →
      Picks v' [] (S.chains n) ns true → Passes S n v false
  | innerFail {n v v' ns f c} : S.isTest n = false → S.setup n v = (.ok, v') →
      Picks v' [] (S.chains n) ns f → c ∈ ns → Passes S c v' false → Passes S n v false

/-- What scopes are executed, with what variables. -/
inductive Executed {V : Type} (S : Script V) (root : Nat) (v₀ : V) : Nat → V → Prop
  | root : Executed S root v₀ root v₀
  | inner {g v v' ns f n} : Executed S root v₀ g v → S.isTest g = false →
      S.setup g v = (.ok, v') → Picks v' [] (S.chains g) ns f → n ∈ ns → Executed S root v₀ n v'

/-- When the teardown of a group is executed, and with what variables: if the setup exits the
group successfully, or if everything in the group passes. -/
inductive Torn {V : Type} (S : Script V) (n : Nat) (v w : V) : Prop
  | exit : S.isTest n = false → S.setup n v = (.exit, w) → Torn S n v w
  | pass {ns} : S.isTest n = false → S.setup n v = (.ok, w) → Picks w [] (S.chains n) ns false →
      (∀ c ∈ ns, Passes S c w true) → Torn S n v w

/-- What happens: the commands of a test or of the setup of a group are executed with these
variables, or those of the teardown. -/
inductive Event (V : Type)
  | run (n : Nat) (v : V) | tdown (n : Nat) (v : V)

/-- In what order things happen (the latest is first): everything at most once; an inner scope
after the setup of the group and before the teardown of the group, to its own teardown. -/
def Nested {V : Type} (S : Script V) (log : List (Event V)) : Prop :=
  ∀ l₁ e l₂, log = l₁ ++ e :: l₂ →
    (∀ n v, e = .run n v → (∀ w, .run n w ∉ l₂) ∧ (∀ w, .tdown n w ∉ l₂) ∧
      ∀ g, S.parent n = some g → (∃ w, .run g w ∈ l₂) ∧ ∀ w, .tdown g w ∉ l₂) ∧
    (∀ n v, e = .tdown n v → (∃ w, .run n w ∈ l₂) ∧ (∀ w, .tdown n w ∉ l₂) ∧
      ∀ g, S.parent n = some g → ∀ w, .tdown g w ∉ l₂)

end Verif.TestExec
