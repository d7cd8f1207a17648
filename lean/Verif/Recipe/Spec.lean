/-!
# Changes that an ad hoc recipe depends on: specification

A target with an ad hoc recipe (buildscript) is up to date if its content is what the
recipe, executed now, would make of it. Here is what a recipe is and what it does.

What expressions, functions and programs compute is given (`Sem`); what matters is
what they are given to compute it from.
-/

namespace Verif.Recipe

/-- A string, as a list of bytes. -/
abbrev Str := List Nat

/-- A name. -/
structure Name where
  proj    : Option Str := none
  dir     : Str := []
  type    : Str := []
  value   : Str := []
  pair    : Nat := 0
  pattern : Option Nat := none
  deriving DecidableEq, Repr

/-- A value: its type (0 is none) and its representation as names unless it is NULL. -/
structure Val where
  ty   : Nat
  data : Option (List Name)
  deriving DecidableEq, Repr

/-- NULL. -/
def Val.null : Val := ⟨0, none⟩

/-- An expression. -/
inductive Expr
  | lit (v : Val)
  /-- `$n` -/
  | var (n : Str)
  /-- `$(e)` -/
  | computed (e : Expr)
  /-- Concatenation, comparison, subscript, sequence of names, etc. -/
  | op (k : Nat) (a b : Expr)
  /-- `$f(a)` -/
  | call (f : Str) (a : Expr)
  /-- `$(f)(a)` -/
  | callc (f a : Expr)
  /-- `(c ? a : b)` -/
  | cond (c a b : Expr)
  deriving Repr

/-- Lines of a script. -/
inductive Scr
  | skip
  | seq (a b : Scr)
  /-- `n = e` -/
  | assign (n : Str) (e : Expr)
  /-- `n += e` -/
  | append (n : Str) (e : Expr)
  /-- A command with its arguments. -/
  | cmd (e : Expr)
  /-- `e | set n` -/
  | set (e n : Expr)
  /-- `if c` with a command for the condition. -/
  | ite (c : Expr) (a b : Scr)
  /-- `while c` -/
  | loop (c : Expr) (b : Scr)
  /-- `for n: e` -/
  | each (n : Str) (e : Expr) (b : Scr)
  deriving Repr

/-- `depdb hash`, `depdb string`, `depdb env`. -/
inductive DKind | hash | string | env
  deriving DecidableEq, Repr

/-- A script, line by line. -/
inductive Top
  | line (s : Scr)
  /-- `depdb clear` -/
  | clear
  /-- The other `depdb` builtins. -/
  | depdb (k : DKind) (e : Expr)
  deriving Repr

/-- The variable is expanded somewhere in the expression. -/
inductive Expr.Uses : Expr → Str → Prop
  | var {n} : Expr.Uses (.var n) n
  | computed {e n} : Expr.Uses e n → Expr.Uses (.computed e) n
  | opl {k a b n} : Expr.Uses a n → Expr.Uses (.op k a b) n
  | opr {k a b n} : Expr.Uses b n → Expr.Uses (.op k a b) n
  | call {f a n} : Expr.Uses a n → Expr.Uses (.call f a) n
  | name {f a n} : Expr.Uses f n → Expr.Uses (.callc f a) n
  | arg {f a n} : Expr.Uses a n → Expr.Uses (.callc f a) n
  | cond {c a b n} : Expr.Uses c n → Expr.Uses (.cond c a b) n
  | yes {c a b n} : Expr.Uses a n → Expr.Uses (.cond c a b) n
  | no {c a b n} : Expr.Uses b n → Expr.Uses (.cond c a b) n

/-- The same for lines. -/
inductive Scr.Uses : Scr → Str → Prop
  | seql {a b n} : Scr.Uses a n → Scr.Uses (.seq a b) n
  | seqr {a b n} : Scr.Uses b n → Scr.Uses (.seq a b) n
  | assign {m e n} : e.Uses n → Scr.Uses (.assign m e) n
  | append {m e n} : e.Uses n → Scr.Uses (.append m e) n
  | cmd {e n} : e.Uses n → Scr.Uses (.cmd e) n
  | set {e m n} : e.Uses n → Scr.Uses (.set e m) n
  | setName {e m n} : m.Uses n → Scr.Uses (.set e m) n
  | cond {c a b n} : c.Uses n → Scr.Uses (.ite c a b) n
  | yes {c a b n} : Scr.Uses a n → Scr.Uses (.ite c a b) n
  | no {c a b n} : Scr.Uses b n → Scr.Uses (.ite c a b) n
  | while_ {c b n} : c.Uses n → Scr.Uses (.loop c b) n
  | loop {c b n} : Scr.Uses b n → Scr.Uses (.loop c b) n
  | over {m e b n} : e.Uses n → Scr.Uses (.each m e b) n
  | each {m e b n} : Scr.Uses b n → Scr.Uses (.each m e b) n

/-- The same for everything in a script. -/
inductive Top.Uses : Top → Str → Prop
  | line {s n} : s.Uses n → Top.Uses (.line s) n
  | depdb {k e n} : e.Uses n → Top.Uses (.depdb k e) n

/-- A function. An impure one can depend on external information. -/
inductive Fn (ξ : Type)
  | pure (f : Val → Option Val)
  | impure (f : ξ → Val → Option Val)

/-- What a program that is a prerequisite says about itself: its checksum, and the
environment variables it depends on, with their values. -/
structure Prog where
  sum  : Option Str
  envs : List (Str × Option Str)
  deriving DecidableEq, Repr

/-- What everything computes (`none` is an error). Programs work on files (`σ`). -/
structure Sem (σ ξ ρ : Type) where
  op    : Nat → Val → Val → Option Val
  add   : Val → Val → Option Val
  truth : Val → Option Bool
  name  : Val → Option Str
  str   : Val → Option Str
  items : Val → List Val
  fn    : Str → Option (Fn ξ)
  /-- A program, given those that are prerequisites: the files that it leaves, whether
  it succeeds, and its output. -/
  cmd   : List Prog → Val → σ → σ × Bool × Val
  /-- The content of the target. -/
  out   : σ → ρ

variable {σ ξ ρ : Type}

/-- A function call. -/
def Sem.call (S : Sem σ ξ ρ) (x : ξ) (f : Str) (a : Val) : Option Val :=
  match S.fn f with
  | some (.pure g) => g a
  | some (.impure g) => g x a
  | none => none

/-- The value of an expression; `look` is the value of a variable. -/
def eval (S : Sem σ ξ ρ) (x : ξ) (look : Str → Option Val) : Expr → Option Val
  | .lit v => some v
  | .var n => look n
  | .computed e => (eval S x look e).bind fun v => (S.name v).bind look
  | .op k a b => (eval S x look a).bind fun v => (eval S x look b).bind fun w => S.op k v w
  | .call f a => (eval S x look a).bind fun v => S.call x f v
  | .callc f a => (eval S x look f).bind fun v => (S.name v).bind fun n =>
      (eval S x look a).bind fun w => S.call x n w
  | .cond c a b => (eval S x look c).bind fun v => (S.truth v).bind fun t =>
      if t then eval S x look a else eval S x look b

/-- Variables of the script. -/
abbrev Loc := Str → Option Val

/-- Variables of the buildfile, as seen from the target. -/
abbrev Env := Str → Option Val

def Loc.put (l : Loc) (n : Str) (v : Val) : Loc := fun m => if m = n then some v else l m

/-- `$>`, `$<` and `$~`. -/
def special (n : Str) : Bool := n = [62] ∨ n = [60] ∨ n = [126]

/-- The outcome of a script. -/
inductive Res (σ : Type)
  | ok (l : Loc) (s : σ)
  | fail
  /-- Not finished. -/
  | stuck

def Res.bind {σ : Type} (r : Res σ) (k : Loc → σ → Res σ) : Res σ :=
  match r with
  | .ok l s => k l s
  | .fail => .fail
  | .stuck => .stuck

/-- A loop over values. -/
def iter {σ : Type} (body : Loc → σ → Res σ) (n : Str) : List Val → Loc → σ → Res σ
  | [], l, s => .ok l s
  | v :: vs, l, s => (body (l.put n v) s).bind (iter body n vs)

/-- A loop while a condition holds. -/
def while_ {σ : Type} (cond : Loc → σ → Option (σ × Bool)) (body : Loc → σ → Res σ) :
    Nat → Loc → σ → Res σ
  | 0, _, _ => .stuck
  | f + 1, l, s =>
    match cond l s with
    | none => .fail
    | some (s, true) => (body l s).bind (while_ cond body f)
    | some (s, false) => .ok l s

/-- In what a script is executed: the external information, the programs, the variables
of the buildfile, how variables are looked up, whether commands other than `set` are
allowed, and a bound on the iterations of a loop. -/
structure Ctx (ξ : Type) where
  ext  : ξ
  prog : List Prog
  env  : Env
  look : Loc → Str → Option Val
  cmds : Bool
  fuel : Nat

/-- Running a command. -/
def runCmd (S : Sem σ ξ ρ) (c : Ctx ξ) (e : Expr) (l : Loc) (s : σ) : Option (σ × Bool × Val) :=
  (eval S c.ext (c.look l) e).map fun v => S.cmd c.prog v s

/-- What a script does. -/
def exec (S : Sem σ ξ ρ) (c : Ctx ξ) : Scr → Loc → σ → Res σ
  | .skip, l, s => .ok l s
  | .seq a b, l, s => (exec S c a l s).bind (exec S c b)
  | .assign n e, l, s =>
    match eval S c.ext (c.look l) e with
    | some v => .ok (l.put n v) s
    | none => .fail
  | .append n e, l, s =>
    match eval S c.ext (c.look l) e with
    | some v =>
      match S.add (((l n).or (c.env n)).getD .null) v with
      | some w => .ok (l.put n w) s
      | none => .fail
    | none => .fail
  | .cmd e, l, s =>
    if c.cmds then
      match runCmd S c e l s with
      | some (s, true, _) => .ok l s
      | _ => .fail
    else .fail
  | .set e n, l, s =>
    match (eval S c.ext (c.look l) n).bind S.name with
    | some n =>
      if special n then .fail
      else
        match runCmd S c e l s with
        | some (s, true, v) => .ok (l.put n v) s
        | _ => .fail
    | none => .fail
  | .ite e a b, l, s =>
    match runCmd S c e l s with
    | some (s, true, _) => exec S c a l s
    | some (s, false, _) => exec S c b l s
    | none => .fail
  | .loop e b, l, s =>
    while_ (fun l s => (runCmd S c e l s).map fun r => (r.1, r.2.1)) (exec S c b) c.fuel l s
  | .each n e b, l, s =>
    match eval S c.ext (c.look l) e with
    | some v => iter (exec S c b) n (S.items v) l s
    | none => .fail

/-- The value of a variable. -/
def plainLook (env : Env) (l : Loc) (n : Str) : Option Val :=
  some (((l n).or (env n)).getD .null)

/-- A target: its path, if it has one, and its name, which is a pair if qualified. -/
structure Tgt where
  path  : Option Str
  names : List Name
  deriving DecidableEq, Repr

/-- A prerequisite: whether it is ad hoc, that is, not in `$<`; whether with
`update=unmatch`; and if it is a program, its checksum and the environment variables it
depends on. -/
structure Prq where
  tgt     : Tgt
  adhoc   : Bool := false
  unmatch : Bool := false
  sum     : Option Str := none
  envs    : List Str := []
  deriving DecidableEq, Repr

/-- Everything there is for a recipe other than the files. -/
structure Input (ξ : Type) where
  /-- The text of the recipe and the version of its syntax. -/
  text   : Nat
  syntx  : Nat
  env    : Env
  ext    : ξ
  tgts   : List Tgt
  prqs   : List Prq
  getenv : Str → Option Str
  tmp    : Val

def Input.progs (i : Input ξ) : List Prog :=
  i.prqs.map fun q => ⟨q.sum, q.envs.map fun n => (n, i.getenv n)⟩

/-- To begin with, there are `$>`, `$<` and `$~`. -/
def Input.start (i : Input ξ) : Loc := fun n =>
  if n = [62] then some ⟨0, some (i.tgts.flatMap (·.names))⟩
  else if n = [60] then
    some ⟨0, some ((i.prqs.filter (!·.adhoc)).flatMap (·.tgt.names))⟩
  else if n = [126] then some i.tmp
  else none

/-- One after the other. -/
def execs (S : Sem σ ξ ρ) (c : Ctx ξ) : List Scr → Loc → σ → Res σ
  | [], l, s => .ok l s
  | a :: as, l, s => (exec S c a l s).bind (execs S c as)

def Top.line? : Top → Option Scr
  | .line s => some s
  | _ => none

/-- What the recipe does. -/
def meaning (S : Sem σ ξ ρ) (fuel : Nat) (script : List Top) (i : Input ξ) (s : σ) : Res σ :=
  execs S ⟨i.ext, i.progs, i.env, plainLook i.env, true, fuel⟩ (script.filterMap Top.line?)
    i.start s

/-- What happens. -/
inductive Event (σ ξ : Type)
  /-- The buildfile is edited, or the environment is different, etc. -/
  | input (i : Input ξ)
  /-- Prerequisites are updated. -/
  | source (s : σ)
  | build

/-! ## What is not taken into account -/

/-- Nothing in the name that is unusual. -/
structure Name.Plain (n : Name) : Prop where
  proj : n.proj = none
  pat  : n.pattern = none
  dir  : 0 ∉ n.dir
  type : 0 ∉ n.type
  head : ∀ b r, n.type = b :: r → 3 < b
  val  : 0 ∉ n.value

/-- What does not change, between these inputs. -/
structure Steady (Is : Input ξ → Prop) : Prop where
  /-- The version of the syntax. -/
  syntx : ∃ v, ∀ i, Is i → i.syntx = v
  /-- The name of the temporary directory. -/
  tmp : ∃ v, ∀ i, Is i → i.tmp = v
  /-- The type of a variable (and its value is not unusual). -/
  types : ∃ τ : Str → Nat, ∀ i, Is i → ∀ n v, i.env n = some v → v.ty = τ n
  plain : ∀ i, Is i → ∀ n v ns, i.env n = some v → v.data = some ns → ∀ m ∈ ns, m.Plain
  /-- What target it is that has some path. -/
  names : ∃ f : Str → List Name, ∀ i, Is i → ∀ t ∈ i.tgts ++ i.prqs.map (·.tgt),
    ∃ p, t.path = some p ∧ 0 ∉ p ∧ t.names = f p
  /-- Whether the prerequisite with some path is ad hoc. -/
  adhoc : ∃ f : Str → Bool, ∀ i, Is i → ∀ q ∈ i.prqs, q.unmatch = false ∧
    ∀ p, q.tgt.path = some p → q.adhoc = f p
  /-- Whether it has a checksum, and on which environment variables it depends. -/
  progs : ∃ (f : Str → Bool) (g : Str → List Str), ∀ i, Is i → ∀ q ∈ i.prqs,
    ∀ p, q.tgt.path = some p → q.sum.isSome = f p ∧ q.envs = g p ∧
      (∀ c, q.sum = some c → 0 ∉ c) ∧ ∀ n ∈ q.envs, 0 ∉ n
  /-- Which environment variables are set. -/
  envs : ∃ f : Str → Bool, ∀ i, Is i → ∀ n, (i.getenv n).isSome = f n ∧
    ∀ v, i.getenv n = some v → 0 ∉ v

end Verif.Recipe
