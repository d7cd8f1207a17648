import Verif.Override.Model

/-!
# Saving the configuration: model

Models lookup_config() (libbuild2/config/utility.{txx,cxx}) and save_config()
(libbuild2/config/operation.cxx) for one configuration variable and a project with all its
amalgamations: project number 0 is the innermost one, number `n - 1` the outermost one and
number `n` stands for the global scope. Scopes between root scopes are left out.

Simplifications. Values are NULL or a list of names (what is written to the file is read back
as is: see the Quote component). The custom save functions (and so the save_base flag, which
is only used for config.config.environment), the comments, the warnings and the
`config.*.build.configured` variables are not modelled.
-/

namespace Verif.ConfigSave

open Verif.Lookup (Val)
open Verif.Override (Ov Sc Orig lookupOverride pass1 startInner)

variable {α : Type}

/-- config/utility.hxx:83-88: the flags of save_variable(). -/
structure Flags where
  defaultCommented : Bool := false
  defaultOmitted : Bool := false
  nullOmitted : Bool := false
  emptyOmitted : Bool := false
  falseOmitted : Bool := false

/-- config/utility.hxx:289-460 lookup_config(): how a project uses the variable: the saved
module it belongs to (config/module.cxx:13-50), the default value, if any, whether it overrides
the inherited value and the flags (absent if it is marked as unsaved). -/
structure Use (α : Type) where
  sname : Nat
  dflt : Option (Val α)
  defOvr : Bool := false
  flags : Option Flags

/-- config/module.hxx:120-180: the config module of a project: its saved modules, the name of
the one the variable would be added to, and whether config.config.persist says to save the
variable if it is unused (absent if there is no config.config.persist). -/
structure Mod where
  mods : List Nat
  unusedName : Nat
  persist : Option Bool

/-- libbuild2/scope.hxx:492-645 and config/init.cxx:130-330: what is used of a project: the value from its config.build, if any, the use of the variable,
if it is used, and the config module, if it has it. -/
structure Proj (α : Type) where
  file : Option (Val α)
  use : Option (Use α)
  mod : Option Mod

/-- scope.cxx:160-240: the outwards search of lookup_original(): the first that is there. -/
def nearest {β : Type} : List (Option β) → Option (Nat × β)
  | [] => none
  | some x :: _ => some (0, x)
  | none :: l => (nearest l).map (fun r => (r.1 + 1, r.2))

/-- config/utility.txx:62-78: the value in the scope of the project itself after
lookup_config() and whether it is the default. The `outer` are those of the amalgamations. -/
def own (p : Proj α) (outer : List (Option (Val α × Bool))) : Option (Val α × Bool) :=
  match p.file with
  | some v => some (v, false)
  | none =>
    match p.use with
    | none => none
    | some u =>
      match u.dflt with
      | none => none
      | some d => if (nearest outer).isNone || u.defOvr then some (d, true) else none

/-- Load all the projects, amalgamations first (libbuild2/file.cxx:1737-1790 load_root()). -/
def loadAll : List (Proj α) → List (Option (Val α × Bool))
  | [] => []
  | p :: ps => own p (loadAll ps) :: loadAll ps

/-- config/operation.cxx:253-259, 789-795: the parameters of save_config() and configure_project()
and everything they look at. The overrides: those on the command line and their values by the scope
and number. Then whether a project is configured, whether, when configuring the first project,
the second one was already configured, and whether the variable is one of the special ones. -/
structure Setup (α : Type) where
  projs : List (Proj α)
  ovs : List Ov
  ovr : Nat → Nat → Option (Val α)
  cfg : Nat → Bool
  done : Nat → Nat → Bool
  special : Bool
  isFalse : List α → Bool

namespace Setup

variable (S : Setup α)

/-- The number of projects. Used by `scopeAt` (scope.hxx:68-90). -/
abbrev n : Nat := S.projs.length

/-- libbuild2/scope.cxx:47-240 lookup_original(): the value, where it was found (counting from
this project) and whether it is the default. -/
def original (p : Nat) : Option (Nat × Val α × Bool) := nearest ((loadAll S.projs).drop p)

/-- scope.hxx:68-90: the root scope number `i`; the last one is the global scope. -/
def scopeAt (i : Nat) : Sc α := ⟨S.ovr i, if i < S.n then some i else none⟩

/-- scope.cxx:370-376 (parent_scope()): the root scopes from this one outwards. -/
def chainFrom (p : Nat) : List (Sc α) := (List.range' p (S.n + 1 - p)).map S.scopeAt

end Setup

/-- variable.hxx:577-625 lookup: a looked up value: where it is from, whether the original is the default value and whether
it is overridden. -/
structure Look (α : Type) where
  val : Val α
  loc : Nat
  dflt : Bool
  over : Bool

/-- variable.hxx:577-625 lookup: the result, including dereferencing a null pointer on the way. -/
inductive LookRes (α : Type)
  | crash
  | undef
  | found (l : Look α)

namespace Setup

variable (S : Setup α)

/-- scope.hxx:108 sub_root(): subprojects are the ones with lower numbers. -/
def sub (p q : Nat) : Bool := decide (q < p)

/-- config/operation.cxx:428-432: the value if the variable is not overridden. -/
def plainLook (p : Nat) : LookRes α :=
  match S.original p with
  | none => .undef
  | some (i, v, d) => .found ⟨v, p + i, d, false⟩

/-- scope.cxx:47-240: the original in the terms of the Override component. -/
def orig (p : Nat) : Option (Orig α) :=
  (S.original p).map (fun o => ⟨o.2.1, .plain o.1, o.1 + 1⟩)

/-- config/operation.cxx:428-432: the value if it is overridden. -/
def ovrLook (p : Nat) : LookRes α :=
  match pass1 sub false S.ovs.zipIdx (S.orig p) 0
      (startInner (S.chainFrom p) false false (S.orig p)) (S.chainFrom p),
    lookupOverride sub (S.chainFrom p) S.ovs (S.orig p) false false with
  | some ov, some r =>
    match r.val, r.loc with
    | some v, some l => .found ⟨v, p + l.pos, (S.original p).any (·.2.2), ov⟩
    | _, _ => .undef
  | _, _ => .crash

/-- config/operation.cxx:428-432: the value with the overrides. -/
def look (p : Nat) : LookRes α := if S.ovs.isEmpty then S.plainLook p else S.ovrLook p

/-- variable.hxx:588 lookup::defined(): something is found. -/
def defined (p : Nat) : Bool := match S.look p with | .found _ => true | _ => false

/-- config/operation.cxx:302-305: there is a value of the variable or of an override in the
scope. -/
def here (p : Nat) : Bool :=
  (((loadAll S.projs)[p]?).join).isSome || (List.range S.ovs.length).any (fun j => (S.ovr p j).isSome)

/-- config/utility.txx:18, utility.cxx:78-79: the mark left by lookup_config(). -/
def marked (p : Nat) (r : Proj α) : Option (Nat × Option Flags) :=
  match r.use with
  | none => none
  | some u => if u.dflt.isSome || S.defined p then some (u.sname, u.flags) else none

/-- config/operation.cxx:295-402: the same after marking unused variables. -/
def mark (p : Nat) (r : Proj α) (m : Mod) : Option (Nat × Option Flags) :=
  match S.marked p r with
  | some x => some x
  | none =>
    if S.here p && !S.special && m.persist == some true then some (m.unusedName, some {}) else none

/-- config/operation.cxx:441-445: the value is treated as undefined. -/
def omitted (f : Flags) (v : Val α) : Bool :=
  match v with
  | none => f.nullOmitted
  | some [] => f.emptyOmitted
  | some l => f.falseOmitted && S.isFalse l

/-- config/operation.cxx:510-528: the project saves this variable. -/
def saves (sname : Nat) (i : Nat) (r : Proj α) : Bool :=
  match r.mod with
  | none => false
  | some m =>
    m.mods.contains sname &&
      ((S.marked i r).any (fun x => x.1 == sname) || m.persist == some true)

/-- config/operation.cxx:497-584 find_inherited(): the loop; `none` if it fails. -/
def findLoop (p sname : Nat) (l : Look α) : List (Proj α × Nat) → Option Bool
  | [] => if l.loc = S.n then some false else none
  | (r, i) :: rest =>
    if l.loc = S.n ∨ l.loc = i then
      let found := S.saves sname i r
      if found && (decide (l.loc = S.n) || l.over) && !S.done p i then some false
      else if found || decide (l.loc ≠ S.n) then some found
      else findLoop p sname l rest
    else findLoop p sname l rest

/-- config/operation.cxx:459-586 find_inherited(). -/
def findInherited (p sname : Nat) (l : Look α) : Option Bool :=
  S.findLoop p sname l (S.projs.zipIdx.drop (p + 1))

end Setup

/-- config/operation.cxx:420-680: what is written for the variable: nothing, because of an error
or because it is not to be saved, or a value. -/
inductive Line (α : Type)
  | fail
  | skip
  | line (v : Val α)

/-- config/operation.cxx:652-675: the assignment in the file, if it is written. -/
def Line.value : Line α → Option (Val α)
  | .line v => some v
  | _ => none

namespace Setup

variable (S : Setup α)

/-- config/operation.cxx:640-650: the default value flags. -/
def skipDefault (f : Flags) (l : Look α) : Bool :=
  l.dflt && !l.over && (f.defaultCommented || f.defaultOmitted)

/-- config/operation.cxx:420-680: one variable; `inherit` is false for config.config.save. -/
def saveLine (inherit : Bool) (p : Nat) (r : Proj α) (m : Mod) : Line α :=
  match S.mark p r m with
  | none => .skip
  | some (_, none) => .skip
  | some (sname, some f) =>
    match S.look p with
    | .crash => .fail
    | .undef => .skip
    | .found l =>
      if S.omitted f l.val then .skip
      else
        match (if inherit && l.loc != p then S.findInherited p sname l else some false) with
        | none => .fail
        | some true => .skip
        | some false => if skipDefault f l then .skip else .line l.val

/-- config/operation.cxx:789-930 configure_project(): what is in config.build afterwards. -/
def newFile (p : Nat) (r : Proj α) : Option (Val α) :=
  if S.cfg p then
    match r.mod with
    | none => r.file
    | some m => (S.saveLine true p r m).value
  else r.file

/-- config/operation.cxx:789-930 configure_project(): the projects afterwards. -/
def reloaded : List (Proj α) := S.projs.zipIdx.map (fun x => { x.1 with file := S.newFile x.2 x.1 })

/-- libbuild2/file.cxx:1737-1790 load_root(), scope.cxx:47-240 lookup_original(): the value when
loaded again without overrides. -/
def reloadValue (p : Nat) : Option (Val α) :=
  (nearest ((loadAll S.reloaded).drop p)).map (·.2.1)

end Setup

/-! ## config.config.persist -/

/-- config/operation.cxx:176-199: the condition. -/
inductive Cond
  | unused | inherited | inheritedUsed | inheritedUnused

/-- config/operation.cxx:163-175: a config.config.persist entry: whether the pattern matches the variable, the condition and
the action: save (or drop) and warn. -/
structure Rule where
  pattern : Bool
  cond : Cond
  save : Bool
  warn : Bool

/-- config/operation.cxx:179-199: the condition applies. -/
def Cond.applies (inherited unused : Bool) : Cond → Bool
  | .unused => !(!unused || inherited)
  | .inherited => inherited
  | .inheritedUsed => !(!inherited || unused)
  | .inheritedUnused => !(!inherited || !unused)

/-- config/operation.cxx:163-230 save_config_variable(): the loop over the reversed list and the
defaults. -/
def persistLoop (inherited unused : Bool) : List Rule → Bool × Bool
  | [] =>
    if !inherited then (false, true)
    else if unused then (true, true)
    else (false, false)
  | r :: rs =>
    if !r.pattern then persistLoop inherited unused rs
    else if !r.cond.applies inherited unused then persistLoop inherited unused rs
    else (r.save, r.warn)

/-- config/operation.cxx:158-230 save_config_variable(). -/
def persistDecision (rules : List Rule) (inherited unused : Bool) : Bool × Bool :=
  persistLoop inherited unused rules.reverse

end Verif.ConfigSave
