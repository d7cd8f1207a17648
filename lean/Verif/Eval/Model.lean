import Verif.Eval.Spec

/-!
# Evaluation contexts: model

Models parser::parse_eval() and the functions it calls (libbuild2/parser.cxx:7277-7636), and how
it is called for nested evaluation contexts and function calls (9700-9720, 9748-9771).

Simplifications. A value (parse_value()) is one token of an arbitrary type, a nested evaluation
context or a function call; what evaluating it does is given (so concatenation, names, variable
expansion and subscripts are not modelled). Attributes are left out, and so is the special case of
a target-qualified name, `(<target>: <name>)`: `:` after the very first value. Failing is none.
pre_parse_ is an argument: every function restores it. A moved-from `lhs` is taken to keep its
value (convert<bool>(), libbuild2/variable.cxx:476-493 and variable.txx:33-51, does not change what
it is given).
-/

namespace Verif.Eval

variable {A F W σ : Type}

/-- parser.cxx:7548-7565: the tokens before which the value is empty. -/
def Tok.ends : Tok A F → Bool
  | .colon => true
  | .question => true
  | .comma => true
  | .rp => true
  | .cmp _ => true
  | .or => true
  | .and => true
  | _ => false

mutual

/-- parser.cxx:7277-7297 parse_eval(), including the closing parenthesis. -/
def pEval (c : Sem A F W σ) : Nat → Bool → List (Tok A F) → σ → Option (List W × List (Tok A F) × σ)
  | 0, _, _, _ => none
  | f + 1, pp, ts, s =>
    match ts with
    | .rp :: r => some ([], r, s)
    | ts =>
      match pComma c f pp ts s with
      | some (vs, .rp :: r, s') => some (vs, r, s')
      | _ => none
termination_by structural f => f

/-- parser.cxx:7299-7325 parse_eval_comma() (the loop as recursion). -/
def pComma (c : Sem A F W σ) : Nat → Bool → List (Tok A F) → σ → Option (List W × List (Tok A F) × σ)
  | 0, _, _, _ => none
  | f + 1, pp, ts, s =>
    match pTern c f pp ts s with
    | some (v, .comma :: r, s') =>
      match pComma c f pp r s' with
      | some (vs, r', s'') => some (if pp then vs else v :: vs, r', s'')
      | none => none
    | some (v, r, s') => some (if pp then [] else [v], r, s')
    | none => none
termination_by structural f => f

/-- parser.cxx:7327-7390 parse_eval_ternary(). -/
def pTern (c : Sem A F W σ) : Nat → Bool → List (Tok A F) → σ → Option (W × List (Tok A F) × σ)
  | 0, _, _, _ => none
  | f + 1, pp, ts, s =>
    match pOr c f pp ts s with
    | some (v, .question :: r, s') =>
      match (if pp then some true else c.truth v) with
      | none => none
      | some q =>
        match pTern c f (if pp then pp else !q) r s' with
        | some (m, .colon :: r', s'') =>
          match pTern c f (if pp then pp else q) r' s'' with
          | some (w, r'', s''') => some (if q then m else w, r'', s''')
          | none => none
        | _ => none
    | o => o
termination_by structural f => f

/-- parser.cxx:7392-7431 parse_eval_or(). -/
def pOr (c : Sem A F W σ) : Nat → Bool → List (Tok A F) → σ → Option (W × List (Tok A F) × σ)
  | 0, _, _, _ => none
  | f + 1, pp, ts, s =>
    match pAnd c f pp ts s with
    | some (v, r, s') => pOrLoop c f pp v r s'
    | none => none
termination_by structural f => f

/-- parser.cxx:7409-7428: the loop; pp is the current pre_parse_. -/
def pOrLoop (c : Sem A F W σ) : Nat → Bool → W → List (Tok A F) → σ → Option (W × List (Tok A F) × σ)
  | 0, _, _, _, _ => none
  | f + 1, pp, lhs, ts, s =>
    match ts with
    | .or :: r =>
      match (if pp then some false else c.truth lhs) with
      | none => none
      | some b =>
        match pAnd c f (pp || b) r s with
        | some (rhs, r', s') =>
          if pp || b then pOrLoop c f (pp || b) lhs r' s'
          else
            match c.truth rhs with
            | some b' => pOrLoop c f (pp || b) (c.ofBool b') r' s'
            | none => none
        | none => none
    | ts => some (lhs, ts, s)
termination_by structural f => f

/-- parser.cxx:7433-7472 parse_eval_and(). -/
def pAnd (c : Sem A F W σ) : Nat → Bool → List (Tok A F) → σ → Option (W × List (Tok A F) × σ)
  | 0, _, _, _ => none
  | f + 1, pp, ts, s =>
    match pCmp c f pp ts s with
    | some (v, r, s') => pAndLoop c f pp v r s'
    | none => none
termination_by structural f => f

/-- parser.cxx:7450-7469: the loop; pp is the current pre_parse_. -/
def pAndLoop (c : Sem A F W σ) : Nat → Bool → W → List (Tok A F) → σ → Option (W × List (Tok A F) × σ)
  | 0, _, _, _, _ => none
  | f + 1, pp, lhs, ts, s =>
    match ts with
    | .and :: r =>
      match (if pp then some true else c.truth lhs) with
      | none => none
      | some b =>
        match pCmp c f (pp || !b) r s with
        | some (rhs, r', s') =>
          if pp || !b then pAndLoop c f (pp || !b) lhs r' s'
          else
            match c.truth rhs with
            | some b' => pAndLoop c f (pp || !b) (c.ofBool b') r' s'
            | none => none
        | none => none
    | ts => some (lhs, ts, s)
termination_by structural f => f

/-- parser.cxx:7474-7507 parse_eval_comp(). -/
def pCmp (c : Sem A F W σ) : Nat → Bool → List (Tok A F) → σ → Option (W × List (Tok A F) × σ)
  | 0, _, _, _ => none
  | f + 1, pp, ts, s =>
    match pVal c f pp ts s with
    | some (v, r, s') => pCmpLoop c f pp v r s'
    | none => none
termination_by structural f => f

/-- parser.cxx:7484-7504: the loop. -/
def pCmpLoop (c : Sem A F W σ) : Nat → Bool → W → List (Tok A F) → σ → Option (W × List (Tok A F) × σ)
  | 0, _, _, _, _ => none
  | f + 1, pp, lhs, ts, s =>
    match ts with
    | .cmp o :: r =>
      match pVal c f pp r s with
      | some (rhs, r', s') =>
        if pp then pCmpLoop c f pp lhs r' s'
        else
          match c.comp o lhs rhs with
          | some b => pCmpLoop c f pp (c.ofBool b) r' s'
          | none => none
      | none => none
    | ts => some (lhs, ts, s)
termination_by structural f => f

/-- parser.cxx:7509-7636 parse_eval_value() and 9700-9720, 9748-9771 parse_names(): a value. -/
def pVal (c : Sem A F W σ) : Nat → Bool → List (Tok A F) → σ → Option (W × List (Tok A F) × σ)
  | 0, _, _, _ => none
  | f + 1, pp, ts, s =>
    match ts with
    | .not :: r =>
      match pVal c f pp r s with
      | some (v, r', s') =>
        if pp then some (c.none, r', s')
        else
          match c.truth v with
          | some b => some (c.ofBool !b, r', s')
          | none => none
      | none => none
    | .atom a :: r =>
      if pp then some (c.none, r, s) else (c.atom a s).map fun x => (x.1, r, x.2)
    | .lp :: r =>
      match pEval c f pp r s with
      | some (vs, r', s') =>
        if pp then some (c.none, r', s')
        else
          match vs with
          | [] => some (c.none, r', s')
          | [v] => some (v, r', s')
          | _ => none
      | none => none
    | .fn g :: .lp :: r =>
      match pEval c f pp r s with
      | some (vs, r', s') =>
        if pp then some (c.none, r', s') else (c.call g vs s').map fun x => (x.1, r', x.2)
      | none => none
    | t :: r => if t.ends then some (c.none, t :: r, s) else none
    | [] => none
termination_by structural f => f

end

end Verif.Eval
