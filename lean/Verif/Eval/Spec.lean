/-!
# Evaluation contexts: specification

Expressions in `( ... )` as the manual describes them: the ternary operator, `||`, `&&`, the
comparisons and `!`, from the lowest precedence to the highest, with nested evaluation contexts and
function calls.
-/

namespace Verif.Eval

/-- The comparison operators. -/
inductive Op where
  | eq | ne | lt | le | gt | ge
deriving DecidableEq, Repr

mutual

/-- An expression. The values (literals, variable expansions) are of an arbitrary type `A` and the
function names of `F`. A value can be left out (`empty`). -/
inductive Ex (A F : Type) where
  | empty
  | atom (a : A)
  | sub (es : Exs A F)
  | call (g : F) (es : Exs A F)
  | not (e : Ex A F)
  | cmp (o : Op) (l r : Ex A F)
  | and (l r : Ex A F)
  | or (l r : Ex A F)
  | tern (c m r : Ex A F)

/-- Comma-separated expressions, possibly none. -/
inductive Exs (A F : Type) where
  | nil
  | cons (e : Ex A F) (es : Exs A F)

end

/-- What the values and the functions are; arbitrary. `σ` is everything that evaluating a value or
calling a function can change (think of diagnostics, running processes). None is failure. -/
structure Sem (A F W σ : Type) where
  /-- Evaluate a value. -/
  atom : A → σ → Option (W × σ)
  /-- Call a function. -/
  call : F → List W → σ → Option (W × σ)
  /-- Convert to bool. -/
  truth : W → Option Bool
  /-- A bool value. -/
  ofBool : Bool → W
  /-- Compare. -/
  comp : Op → W → W → Option Bool
  /-- The empty value. -/
  none : W
  /-- A bool value converts to the bool it is. -/
  truth_ofBool : ∀ b, truth (ofBool b) = some b

variable {A F W σ : Type}

mutual

/-- What an expression evaluates to: the operands are evaluated from the left to the right, the
right-hand side of `||` only if the left-hand side is false, that of `&&` only if it is true, and
only one of the two alternatives of the ternary operator. -/
def Ex.eval (c : Sem A F W σ) : Ex A F → σ → Option (W × σ)
  | .empty, s => some (c.none, s)
  | .atom a, s => c.atom a s
  | .sub es, s =>
    match es.eval c s with
    | some ([], s') => some (c.none, s')
    | some ([v], s') => some (v, s')
    | _ => none
  | .call g es, s =>
    match es.eval c s with
    | some (vs, s') => c.call g vs s'
    | none => none
  | .not e, s =>
    match e.eval c s with
    | some (v, s') => (c.truth v).map fun b => (c.ofBool !b, s')
    | none => none
  | .cmp o l r, s =>
    match l.eval c s with
    | some (v, s') =>
      match r.eval c s' with
      | some (w, s'') => (c.comp o v w).map fun b => (c.ofBool b, s'')
      | none => none
    | none => none
  | .and l r, s =>
    match l.eval c s with
    | some (v, s') =>
      match c.truth v with
      | some true =>
        match r.eval c s' with
        | some (w, s'') => (c.truth w).map fun b => (c.ofBool b, s'')
        | none => none
      | some false => some (v, s')
      | none => none
    | none => none
  | .or l r, s =>
    match l.eval c s with
    | some (v, s') =>
      match c.truth v with
      | some false =>
        match r.eval c s' with
        | some (w, s'') => (c.truth w).map fun b => (c.ofBool b, s'')
        | none => none
      | some true => some (v, s')
      | none => none
    | none => none
  | .tern q m r, s =>
    match q.eval c s with
    | some (v, s') =>
      match c.truth v with
      | some true => m.eval c s'
      | some false => r.eval c s'
      | none => none
    | none => none

/-- The values of the comma-separated expressions. -/
def Exs.eval (c : Sem A F W σ) : Exs A F → σ → Option (List W × σ)
  | .nil, s => some ([], s)
  | .cons e es, s =>
    match e.eval c s with
    | some (v, s') => (es.eval c s').map fun x => (v :: x.1, x.2)
    | none => none

end

/-! ## How expressions are written -/

/-- The tokens. `fn` is `$` and the name of the function. -/
inductive Tok (A F : Type) where
  | atom (a : A)
  | fn (g : F)
  | lp | rp | question | colon | comma | or | and | not
  | cmp (o : Op)

/-- The levels of precedence. -/
inductive Level where
  | tern | or | and | cmp | val

mutual

/-- The ways to write an expression at a level of precedence. -/
inductive Written : Level → Ex A F → List (Tok A F) → Prop where
  | tern {q m r : Ex A F} {t t' t'' : List (Tok A F)} (hq : Written .or q t)
      (hm : Written .tern m t') (hr : Written .tern r t'') :
      Written .tern (.tern q m r) (t ++ .question :: (t' ++ .colon :: t''))
  | or {l r : Ex A F} {t t' : List (Tok A F)} (hl : Written .or l t) (hr : Written .and r t') :
      Written .or (.or l r) (t ++ .or :: t')
  | and {l r : Ex A F} {t t' : List (Tok A F)} (hl : Written .and l t) (hr : Written .cmp r t') :
      Written .and (.and l r) (t ++ .and :: t')
  | cmp {o : Op} {l r : Ex A F} {t t' : List (Tok A F)} (hl : Written .cmp l t)
      (hr : Written .val r t') : Written .cmp (.cmp o l r) (t ++ .cmp o :: t')
  | not {e : Ex A F} {t : List (Tok A F)} (h : Written .val e t) : Written .val (.not e) (.not :: t)
  | empty : Written .val .empty []
  | atom (a : A) : Written .val (.atom a) [.atom a]
  | sub {es : Exs A F} {t : List (Tok A F)} (h : WrittenAll es t) :
      Written .val (.sub es) (.lp :: (t ++ [.rp]))
  | call {g : F} {es : Exs A F} {t : List (Tok A F)} (h : WrittenAll es t) :
      Written .val (.call g es) (.fn g :: .lp :: (t ++ [.rp]))
  | orTern {e : Ex A F} {t : List (Tok A F)} (h : Written .or e t) : Written .tern e t
  | andOr {e : Ex A F} {t : List (Tok A F)} (h : Written .and e t) : Written .or e t
  | cmpAnd {e : Ex A F} {t : List (Tok A F)} (h : Written .cmp e t) : Written .and e t
  | valCmp {e : Ex A F} {t : List (Tok A F)} (h : Written .val e t) : Written .cmp e t

/-- The ways to write what is between the parentheses: nothing at all, or expressions separated
with commas. -/
inductive WrittenAll : Exs A F → List (Tok A F) → Prop where
  | nil : WrittenAll .nil []
  | some {e : Ex A F} {es : Exs A F} {t : List (Tok A F)} (h : WrittenSome (.cons e es) t)
      (ht : t ≠ []) : WrittenAll (.cons e es) t

/-- The ways to write one or more expressions. -/
inductive WrittenSome : Exs A F → List (Tok A F) → Prop where
  | one {e : Ex A F} {t : List (Tok A F)} (h : Written .tern e t) : WrittenSome (.cons e .nil) t
  | more {e : Ex A F} {es : Exs A F} {t t' : List (Tok A F)} (h : Written .tern e t)
      (h' : WrittenSome es t') : WrittenSome (.cons e es) (t ++ .comma :: t')

end

end Verif.Eval
