import Verif.Recipe.Spec

/-!
# Changes that an ad hoc recipe depends on: model of the code

libbuild2/build/script/parser.cxx:44-172 `pre_parse`, 1026-1189 (`depdb`), 1586-1760
`exec_depdb_preamble`, 3703-3813 `lookup_variable` and `lookup_function`;
libbuild2/adhoc-rule-buildscript.cxx:28-132 (hashing), 1806-2058
`perform_update_file_or_group`; libbuild2/build/script/script.cxx:58-118
`set_special_variables`, 243-300 `lookup` and `append`; libbuild2/name.hxx:163-175
`to_checksum`.

Simplifications, throughout:
* for recipes of `perform(update)` of files (ad hoc groups included, explicit groups
  not), without `depdb dyndep` and `diag`;
* flow control is structured (see Verif/ScriptFlow for how it is executed), conditions
  are only of the `if`/`while` kind, pipelines and expressions are one command;
* qualified variables (which are not checked) are left out;
* a checksum is what has been appended to it, that is, there are no collisions, and
  the text is its own checksum;
* the dependency database is its list of lines, or `none` if it is not complete (see
  Verif/Depdb); whether prerequisites are newer is a flag (see Verif/OutOfDate).
-/

namespace Verif.Recipe

variable {σ ξ ρ : Type}

/-! ## Pre-parsing -/

/-- The expanded variables in order (lookup_variable with a non-empty name).
Used by `preLine` (build/script/parser.cxx:1026-1189). -/
def Expr.refs : Expr → List Str
  | .lit _ => []
  | .var n => [n]
  | .computed e => e.refs
  | .op _ a b => a.refs ++ b.refs
  | .call _ a => a.refs
  | .callc f a => f.refs ++ a.refs
  | .cond c a b => c.refs ++ a.refs ++ b.refs

/-- Whether lookup_variable is called with an empty name (parser.cxx:3747-3756). -/
def Expr.hasComputed : Expr → Bool
  | .lit _ => false
  | .var _ => false
  | .computed _ => true
  | .op _ a b => a.hasComputed || b.hasComputed
  | .call _ a => a.hasComputed
  | .callc f a => f.hasComputed || a.hasComputed
  | .cond c a b => c.hasComputed || a.hasComputed || b.hasComputed

/-- The names that lookup_function is called with. For a computed one the name is empty,
and so no function is found (parser.cxx:3800-3813). -/
def Expr.calls : Expr → List Str
  | .lit _ => []
  | .var _ => []
  | .computed e => e.calls
  | .op _ a b => a.calls ++ b.calls
  | .call f a => a.calls ++ [f]
  | .callc f a => f.calls ++ a.calls
  | .cond c a b => c.calls ++ a.calls ++ b.calls

/-- All the expressions in order. Used by `preLine` (build/script/parser.cxx:1026-1189). -/
def Scr.exprs : Scr → List Expr
  | .skip => []
  | .seq a b => a.exprs ++ b.exprs
  | .assign _ e => [e]
  | .append _ e => [e]
  | .cmd e => [e]
  | .set e n => [e, n]
  | .ite c a b => c :: (a.exprs ++ b.exprs)
  | .loop c b => c :: b.exprs
  | .each _ e b => e :: b.exprs

/-- The variables that are assigned literally (build/script/parser.cxx:3690-3701
`verify_variable_assignment` is called for these in pre-parse). -/
def Scr.assigned : Scr → List Str
  | .skip => []
  | .seq a b => a.assigned ++ b.assigned
  | .assign n _ => [n]
  | .append n _ => [n]
  | .cmd _ => []
  | .set _ _ => []
  | .ite _ a b => a.assigned ++ b.assigned
  | .loop _ b => b.assigned
  | .each n _ b => n :: b.assigned

/-- build/script/parser.cxx:3800-3813 `lookup_function`. -/
def impure (S : Sem σ ξ ρ) (f : Str) : Bool :=
  match S.fn f with
  | some (.impure _) => true
  | _ => false

/-- `script` (build/script/script.hxx:54-120) and the members of the parser that are
set in pre-parse (`impure_func_`, `computed_var_`, `depdb_clear_`, `depdb_value_`). -/
structure Script where
  vars     : List Str := []
  isImpure : Bool := false
  computed : Bool := false
  clear    : Bool := false
  value    : Bool := false
  preamble : List Top := []
  body     : List Scr := []

/-- build/script/parser.cxx:3731-3746: add the variables that are not special and that
have not been seen, unless there was `depdb clear`. -/
def addVars (clear : Bool) (vars : List Str) : List Str → List Str
  | [] => vars
  | n :: ns =>
    if special n || clear || vars.contains n then addVars clear vars ns
    else addVars clear (vars ++ [n]) ns

/-- Pre-parsing an expression. Used by `preLine` (build/script/parser.cxx:1026-1189). -/
def Script.note (S : Sem σ ξ ρ) (p : Script) (e : Expr) : Script :=
  { p with
    vars := addVars p.clear p.vars e.refs
    isImpure := p.isImpure || e.calls.any (impure S)
    computed := p.computed || e.hasComputed }

/-- build/script/parser.cxx:1026-1189 for the `depdb` builtins, and otherwise
pre_parse_line. The arguments of a builtin are parsed after everything before has
been moved to the preamble. -/
def preLine (S : Sem σ ξ ρ) (p : Script) : Top → Option Script
  | .line s =>
    if s.assigned.any special then none
    else
      let p := s.exprs.foldl (Script.note S) p
      some { p with body := p.body ++ [s] }
  | .clear =>
    if p.clear || !p.preamble.isEmpty then none
    else some { p with clear := true, vars := [] }
  | .depdb k e =>
    let p : Script := { p with
      value := p.value || (k == DKind.hash || k == DKind.string)
      preamble := p.preamble ++ p.body.map Top.line ++ [.depdb k e]
      body := []
      isImpure := false
      computed := false }
    some (p.note S e)

/-- The lines in order. Used by `preParse` (build/script/parser.cxx:44-172). -/
def preLines (S : Sem σ ξ ρ) : Script → List Top → Option Script
  | p, [] => some p
  | p, t :: ts =>
    match preLine S p t with
    | some p => preLines S p ts
    | none => none

/-- build/script/parser.cxx:44-172 `pre_parse`: impure functions and computed variables
are only allowed in the preamble. -/
def preParse (S : Sem σ ξ ρ) (ts : List Top) : Option Script :=
  match preLines S {} ts with
  | some p => if p.isImpure || p.computed then none else some p
  | none => none

/-! ## Execution -/

/-- build/script/parser.cxx:3757-3797 `lookup_variable` during execution and
build/script/script.cxx:243-276: an untracked variable of the buildfile is an error. -/
def guardedLook (p : Script) (env : Env) (l : Loc) (n : Str) : Option Val :=
  match l n with
  | some v => some v
  | none =>
    match env n with
    | some v =>
      if !p.clear && !p.value && !p.vars.contains n then none
      else some v
    | none => some .null

/-- In what it is executed: with the environment (script.cxx:30-118). -/
def ctx (fuel : Nat) (p : Script) (i : Input ξ) (cmds : Bool) : Ctx ξ :=
  ⟨i.ext, i.progs, i.env, guardedLook p i.env, cmds, fuel⟩

/-- `append (const string&)` of a checksum (libbutl, including the terminating zero).
Used by `nameSum` (name.hxx:163-175). -/
def str (s : Str) : List Nat := s ++ [0]

/-- name.hxx:163-175 `to_checksum`. -/
def nameSum (n : Name) : List Nat :=
  (match n.proj with | some p => str p | none => []) ++ str n.dir ++ str n.type ++
    str n.value ++ [n.pair] ++ (match n.pattern with | some c => [c] | none => [])

/-- Names, one after the other. Used by `valSum` (adhoc-rule-buildscript.cxx:43-56). -/
def namesSum (ns : List Name) : List Nat := ns.flatMap nameSum

/-- adhoc-rule-buildscript.cxx:43-56: undefined, NULL or the names. -/
def valSum : Option Val → List Nat
  | none => [1]
  | some ⟨_, none⟩ => [2]
  | some ⟨_, some ns⟩ => 3 :: namesSum ns

/-- adhoc-rule-buildscript.cxx:28-58 `hash_script_vars`. -/
def varsSum (env : Env) : List Str → List Nat
  | [] => []
  | n :: ns => str n ++ valSum (env n) ++ varsSum env ns

/-- adhoc-rule-buildscript.cxx:68-80 `hash_target`. -/
def targetSum (t : Tgt) : List Nat :=
  match t.path with
  | some p => str p
  | none => namesSum t.names

/-- libbuild2/utility.ixx:399-406 `hash_environment`. -/
def envSum (getenv : Str → Option Str) (n : Str) : List Nat :=
  str n ++ (match getenv n with | some v => str v | none => [])

/-- adhoc-rule-buildscript.cxx:120-124: the checksum of an executable. -/
def exeSum (q : Prq) : List Nat :=
  match q.sum with
  | some c => str c
  | none => []

/-- A line of the dependency database.
Used by `keyLines` (adhoc-rule-buildscript.cxx:1864-1954). -/
inductive Line
  | rule
  | text (t : Nat)
  | sum (s : List Nat)
  | entry (k : DKind) (s : List Nat)
  deriving DecidableEq, Repr

/-- adhoc-rule-buildscript.cxx:1845-1859: prerequisites with update=unmatch are
skipped. -/
def hashed (i : Input ξ) : List Prq := i.prqs.filter (!·.unmatch)

/-- adhoc-rule-buildscript.cxx:1864-1954: the lines in the dependency database before
those of the preamble. -/
def keyLines (p : Script) (i : Input ξ) : List Line :=
  [.rule, .text i.text] ++
  (if p.clear then []
   else
    [.sum (varsSum i.env p.vars),
     .sum (i.tgts.flatMap targetSum),
     .sum ((hashed i).flatMap (fun q => targetSum q.tgt)),
     .sum ((hashed i).flatMap exeSum),
     .sum ((hashed i).flatMap (fun q => q.envs.flatMap (envSum i.getenv)))])

/-- build/script/parser.cxx:1668-1721: what is recorded. -/
def record (S : Sem σ ξ ρ) (i : Input ξ) (k : DKind) (v : Val) : Option Line :=
  match k with
  | .hash => some (.entry .hash (namesSum (v.data.getD [])))
  | .string => (S.str v).map (.entry .string ·)
  | .env =>
    ((v.data.getD []).mapM fun n => S.str ⟨0, some [n]⟩).map fun ns =>
      .entry .env (ns.flatMap (envSum i.getenv))

/-- The outcome of the preamble, with what it has recorded.
Used by `preamble` (build/script/parser.cxx:1586-1760). -/
inductive Pre (σ : Type)
  | ok (l : Loc) (s : σ) (ls : List Line)
  | fail (ls : List Line)

/-- build/script/parser.cxx:1586-1760 `exec_depdb_preamble`, in which only variable
assignments are allowed. -/
def preamble (S : Sem σ ξ ρ) (fuel : Nat) (p : Script) (i : Input ξ) :
    List Top → Loc → σ → List Line → Pre σ
  | [], l, s, ls => .ok l s ls
  | .line a :: ts, l, s, ls =>
    match exec S (ctx fuel p i false) a l s with
    | .ok l s => preamble S fuel p i ts l s ls
    | _ => .fail ls
  | .clear :: ts, l, s, ls => preamble S fuel p i ts l s ls
  | .depdb k e :: ts, l, s, ls =>
    match (eval S i.ext (guardedLook p i.env l) e).bind (record S i k) with
    | some x => preamble S fuel p i ts l s (ls ++ [x])
    | none => .fail ls

/-- The target: the lines in its dependency database, its content if it exists and is
not older than the database, and whether any prerequisite is newer.
Used by `update` (adhoc-rule-buildscript.cxx:1806-2058). -/
structure State (ρ : Type) where
  lines : Option (List Line)
  done  : Option ρ
  newer : Bool

/-- Whether everything that is expected is there (depdb.ixx `expect`). -/
def matches_ (old : Option (List Line)) (ls : List Line) : Bool :=
  match old with
  | some o => ls.isPrefixOf o
  | none => false

/-- The outcome of an update (`target_state`).
Used by `update` (adhoc-rule-buildscript.cxx:1806-2058). -/
inductive Got | unchanged | changed | failed
  deriving DecidableEq, Repr

/-- adhoc-rule-buildscript.cxx:1806-2058 `perform_update_file_or_group` and 2188-2290
`execute_update_file`. If the body fails the target is removed; if
the preamble does then the database is not complete if anything has been written. -/
def update (S : Sem σ ξ ρ) (fuel : Nat) (p : Script) (i : Input ξ) (s : σ) (st : State ρ) :
    Got × State ρ :=
  match preamble S fuel p i p.preamble i.start s (keyLines p i) with
  | .fail ls => (.failed, { st with lines := if matches_ st.lines ls then st.lines else none })
  | .ok l s ls =>
    if matches_ st.lines ls && st.done.isSome && !st.newer then (.unchanged, st)
    else
      let lines := if matches_ st.lines ls then st.lines else some ls
      match execs S (ctx fuel p i true) p.body l s with
      | .ok _ s => (.changed, ⟨lines, some (S.out s), false⟩)
      | _ => (.failed, ⟨lines, none, st.newer⟩)

/-- Everything. Used by `step` (adhoc-rule-buildscript.cxx:134-222). -/
structure World (σ ξ ρ : Type) where
  inp : Input ξ
  src : σ
  st  : State ρ

/-- What happens. `parse` is what the text means with the given version of the syntax
(adhoc-rule-buildscript.cxx:134-222 `recipe_text`). -/
def step (S : Sem σ ξ ρ) (fuel : Nat) (parse : Nat → Nat → Option (List Top))
    (w : World σ ξ ρ) : Event σ ξ → Got × World σ ξ ρ
  | .input i => (.unchanged, { w with inp := i })
  | .source s => (.unchanged, { w with src := s, st := { w.st with newer := true } })
  | .build =>
    match (parse w.inp.text w.inp.syntx).bind (preParse S) with
    | some p =>
      let r := update S fuel p w.inp w.src w.st
      (r.1, { w with st := r.2 })
    | none => (.failed, w)

/-- One event after the other.
Puts together `step` (adhoc-rule-buildscript.cxx:134-222) and what goes with it; no function of its own in the code. -/
def run (S : Sem σ ξ ρ) (fuel : Nat) (parse : Nat → Nat → Option (List Top)) :
    World σ ξ ρ → List (Event σ ξ) → World σ ξ ρ
  | w, [] => w
  | w, e :: es => run S fuel parse (step S fuel parse w e).2 es

/-- To begin with, there is no target. -/
def World.init (i : Input ξ) (s : σ) : World σ ξ ρ := ⟨i, s, ⟨none, none, false⟩⟩

end Verif.Recipe
