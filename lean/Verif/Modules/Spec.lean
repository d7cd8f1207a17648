/-!
# Build system modules: specification

A project boots modules in its bootstrap file and uses others later; the initialization of a
module may use further ones.
-/

namespace Verif.Modules

/-- When a module that has been booted is to be initialized: in the first or the second batch
before `root.build`, otherwise before it, or after it. -/
inductive Mode
  | first | second | before | after
  deriving DecidableEq, Repr

/-- What is done: a module is booted, a module is initialized for a scope (for the first time in
this project or not), `root.build` is loaded. -/
inductive Ev
  | boot (m : Nat)
  | init (m sc : Nat) (first : Bool)
  | rootBuild
  deriving DecidableEq, Repr

/-- What can be wrong: there is no such module, the module could not be configured, it is to be
loaded during bootstrap or is not, the failure of a module, an assertion. Running out of fuel is
an artefact of the model: modules use one another to a greater depth. -/
inductive Err
  | unable (m : Nat)
  | notConfigured (m : Nat)
  | shouldBoot (m : Nat)
  | shouldNotBoot (m : Nat)
  | failed
  | assertion
  | fuel
  deriving DecidableEq, Repr

/-- What the initialization of a module, or a buildfile, does with modules: it uses a module for
a scope (optionally or not) and goes on according to whether that has been loaded and configured;
or does the same unless the module has been loaded for the scope or an outer one, optionally
(`tryLoad`) or not (`load`); or ends, having configured itself or not; or fails. -/
inductive Prog
  | done (configured : Bool)
  | fail
  | use (sc m : Nat) (opt : Bool) (k : Bool → Prog)
  | tryLoad (sc m : Nat) (k : Bool → Prog)
  | load (sc m : Nat) (k : Prog)

/-- A module: whether it is found; if it has a boot function, the modules that this boots and the
mode; what its initialization does for a scope, the first time or not, optionally or not. -/
structure Mod where
  found : Bool
  boot : Option (List Nat × Mode)
  init : Nat → Bool → Bool → Prog

/-- The modules, and the scopes from a scope to the root of the project (0). -/
structure Sys where
  mods : Nat → Mod
  chain : Nat → List Nat

/-- An initialization is said to be the first exactly if the module has not been initialized
before. -/
def FirstOk (log : List Ev) : Prop :=
  ∀ pre m sc f post, log = pre ++ .init m sc f :: post →
    (f = true ↔ ∀ sc' f', .init m sc' f' ∉ pre)

/-- A module has been initialized. -/
def Inited (log : List Ev) (m : Nat) : Prop := ∃ sc f, .init m sc f ∈ log

/-- The initializations: what module for what scope. -/
def inits (log : List Ev) : List (Nat × Nat) :=
  log.filterMap fun e => match e with
    | .init m sc _ => some (m, sc)
    | _ => none

/-- The modules that have been booted. -/
def boots (log : List Ev) : List Nat :=
  log.filterMap fun e => match e with
    | .boot m => some m
    | _ => none

/-- The program only uses modules that satisfy `P`, whatever it finds. -/
def Prog.Only (P : Nat → Prop) : Prog → Prop
  | .done _ => True
  | .fail => True
  | .use _ m _ k => P m ∧ ∀ b, (k b).Only P
  | .tryLoad _ m k => P m ∧ ∀ b, (k b).Only P
  | .load _ m k => P m ∧ k.Only P

/-- The program configures the module if it doesn't fail. -/
def Prog.Configures : Prog → Prop
  | .done c => c = true
  | .fail => True
  | .use _ _ _ k => ∀ b, (k b).Configures
  | .tryLoad _ _ k => ∀ b, (k b).Configures
  | .load _ _ k => k.Configures

/-- Modules don't use one another in cycles: each uses only those of a lower rank. -/
def Acyclic (S : Sys) (r : Nat → Nat) : Prop :=
  ∀ m sc f opt, ((S.mods m).init sc f opt).Only (fun m' => r m' < r m)

/-- Modules don't boot one another in cycles. -/
def BootAcyclic (S : Sys) (r : Nat → Nat) : Prop :=
  ∀ m ms v, (S.mods m).boot = some (ms, v) → ∀ m' ∈ ms, r m' < r m

/-- Modules that are not optional either are configured or fail. This is not required of modules
(module.hxx 122-128): one may remain unconfigured for as long as it is not used. -/
def Strict (S : Sys) : Prop := ∀ m sc f, ((S.mods m).init sc f false).Configures

/-- The mode of a module that has a boot function. -/
def Mod.mode (m : Mod) : Option Mode := m.boot.map Prod.snd

/-- The initializations of modules that have a boot function. -/
def bootInits (S : Sys) (log : List Ev) : List (Nat × Nat) :=
  (inits log).filter fun x => (S.mods x.1).boot.isSome

/-- No module uses one that has a boot function. -/
def NoUse (S : Sys) : Prop :=
  ∀ m sc f opt, ((S.mods m).init sc f opt).Only (fun m' => (S.mods m').boot = none)

/-- Those modules that are to be initialized in the given mode, in the given order. -/
def withMode (S : Sys) (ms : List Nat) (v : Mode) : List Nat :=
  ms.filter fun m => (S.mods m).mode == some v

end Verif.Modules
