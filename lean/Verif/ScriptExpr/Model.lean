import Verif.ScriptExpr.Spec

/-!
# Command expressions: model

Models run_expr() (libbuild2/script/run.cxx:3401-3460). A pipeline is of an arbitrary type with a
size (the number of commands); what run_pipe() does is a given function of the pipeline, the
number of its first command, whether to print diagnostics and the state. It returns true or false
or throws (exit or failed).
-/

namespace Verif.ScriptExpr

variable {P ε σ : Type}

/-- script/script.hxx:407-413 expr_operator. -/
inductive Op where
  | or | and
deriving DecidableEq, Repr

/-- script/script.hxx:409-415 expr_term and command_expr. -/
structure Term (P : Type) where
  op : Op
  pipe : P

/-- script/run.cxx:3419-3428: the position of trailing_ands: skip the terms with `&&` from the end.
base() of a reverse iterator is the position after the element it points to. -/
def trailingAnds (expr : List (Term P)) : Nat :=
  expr.length - (expr.reverse.takeWhile fun t => t.op == .and).length

/-- script/run.cxx:3430-3457: the loop, from position i on. -/
def loop (f : P → Nat → Bool → σ → Except ε (Bool × σ)) (size : P → Nat) (diag : Bool) (ta : Nat) :
    List (Term P) → Nat → Bool → Bool → Nat → σ → Except ε (Bool × σ)
  | [], _, r, _, _, s => .ok (r, s)
  | t :: ts, i, r, print, ci, s =>
    let print := if diag && i + 1 == ta then true else print
    let orOp := t.op == .or
    if !((orOp && r) || (!orOp && !r)) then
      match f t.pipe ci print s with
      | .ok (r', s') => loop f size diag ta ts (i + 1) r' print (ci + size t.pipe) s'
      | .error e => .error e
    else loop f size diag ta ts (i + 1) r print (ci + size t.pipe) s

/-- script/run.cxx:3412-3414: the number of the first command. -/
def first (size : P → Nat) (expr : List (Term P)) : Nat :=
  match expr with
  | [t] => if size t.pipe = 1 then 0 else 1
  | _ => 1

/-- script/run.cxx:3401-3460 run_expr(). -/
def runExpr (f : P → Nat → Bool → σ → Except ε (Bool × σ)) (size : P → Nat) (diag : Bool)
    (expr : List (Term P)) (s : σ) : Except ε (Bool × σ) :=
  loop f size diag (trailingAnds expr) expr 0 false false (first size expr) s

/-- script/parser.cxx:160-163, 960-975: the terms; the first one is OR-ed to an implied false. -/
def Expr.terms : Expr P → List (Term P)
  | .pipe p => [⟨.or, p⟩]
  | .and e p => e.terms ++ [⟨.and, p⟩]
  | .or e p => e.terms ++ [⟨.or, p⟩]

/-- script/run.cxx:3462-3485 run(): a failed expression fails the script (without diagnostics of
its own). -/
def runCmd (f : P → Nat → Bool → σ → Except ε (Bool × σ)) (size : P → Nat) (failed : σ → ε)
    (expr : List (Term P)) (s : σ) : Except ε σ :=
  match runExpr f size true expr s with
  | .ok (true, s') => .ok s'
  | .ok (false, s') => .error (failed s')
  | .error e => .error e

/-- script/run.cxx:3487-3507 run_cond(). -/
def runCond (f : P → Nat → Bool → σ → Except ε (Bool × σ)) (size : P → Nat)
    (expr : List (Term P)) (s : σ) : Except ε (Bool × σ) := runExpr f size false expr s

end Verif.ScriptExpr
