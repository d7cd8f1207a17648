/-!
# Command expressions: specification
-/

namespace Verif.ScriptExpr

/-- A command expression: pipelines combined with `&&` and `||`, which have the same precedence
and are left-associative. -/
inductive Expr (P : Type) where
  | pipe (p : P)
  | and (e : Expr P) (p : P)
  | or (e : Expr P) (p : P)

variable {P ε σ : Type}

/-- What an expression does, given what a pipeline does (returns whether it is successful or ends
the script): the right-hand side of `&&` is only run if the left-hand side is successful and that
of `||` only if it is not. -/
def Expr.eval (f : P → σ → Except ε (Bool × σ)) : Expr P → σ → Except ε (Bool × σ)
  | .pipe p, s => f p s
  | .and e p, s =>
    match e.eval f s with
    | .ok (true, s') => f p s'
    | r => r
  | .or e p, s =>
    match e.eval f s with
    | .ok (false, s') => f p s'
    | r => r

/-- The pipelines, from the left to the right. -/
def Expr.pipes : Expr P → List P
  | .pipe p => [p]
  | .and e p => e.pipes ++ [p]
  | .or e p => e.pipes ++ [p]

end Verif.ScriptExpr
