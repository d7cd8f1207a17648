import Verif.BuildFlow.Spec

/-!
# Conditions, switches and loops in buildfiles: model

Models the flow control directives of libbuild2/parser.cxx: parse_clause() (639-) and
parse_clause_block() (2069-2089), parse_if_else() (5352-5549), parse_switch() (5571-5930),
parse_for() (5932-6315), parse_while() (6317-6472), skip_line() and skip_block() (10203-10238).

Simplifications. The source is a list of lines instead of tokens, so a line that is not flow
control is executed as a whole and takes one line (directory scopes, target blocks and recipes,
which take more, are left out), comments and empty lines are not there, and skipping a line cannot
fail (in the code the tokens of the skipped lines must be valid, for example, the quotes must be
balanced). What a line, a condition, an expression or a pattern does is given. Failing is an
outcome, as is breaking out of or continuing a loop (in the code both are exceptions). Re-lexing
the saved text of the body of a loop is parsing its lines again. The multi-curly variants (recipes)
are left out.
-/

namespace Verif.BuildFlow

variable {L : Lang}

/-- What parsing ends with; a normal end also has the lines that are left.
Used by `pClause` (parser.cxx:639). -/
inductive Res (L : Lang) where
  | ok (r : List (Ln L)) (s : L.S)
  | brk (s : L.S)
  | cont (s : L.S)
  | fail

/-- parser.cxx:10209-10238 skip_block(): the lines that are skipped and those that are left. -/
def skipBlock : Nat → List (Ln L) → List (Ln L) × List (Ln L)
  | _, [] => ([], [])
  | b, .lb :: r => (.lb :: (skipBlock (b + 1) r).1, (skipBlock (b + 1) r).2)
  | 0, .rb :: r => ([], .rb :: r)
  | b + 1, .rb :: r => (.rb :: (skipBlock b r).1, (skipBlock b r).2)
  | b, l :: r => (l :: (skipBlock b r).1, (skipBlock b r).2)

/-- parser.cxx:5605-5643: the values of the switch expressions. -/
def pVals (c : Sem L) : List L.X → List L.V → L.S → Option (List L.V × L.S)
  | [], acc, s => some (acc, s)
  | x :: xs, acc, s =>
    match c.val x s with
    | some (v, s') => pVals c xs (acc ++ [v]) s'
    | none => none

/-- parser.cxx:5762-5817: the alternatives of one pattern; the first is there. -/
def pAlts (c : Sem L) (v : L.V) (q : L.Q) : List L.Q → L.S → Option (Bool × L.V × L.S)
  | qs, s =>
    match c.alt v q s with
    | none => none
    | some (take, v', s') =>
      match qs with
      | [] => some (take, v', s')
      | q' :: qs' => if take then some (true, v', s') else pAlts c v' q' qs' s'

/-- parser.cxx:5748-5837: the patterns of one case starting from the i-th. exprs[i] is changed in
place. -/
def pPats (c : Sem L) (vs : List L.V) (i : Nat) (p : L.Q × List L.Q) :
    List (L.Q × List L.Q) → L.S → Option (Bool × List L.V × L.S)
  | ps, s =>
    match vs[i]? with
    | none => none
    | some v =>
      match pAlts c v p.1 p.2 s with
      | none => none
      | some (take, v', s') =>
        if !take then some (false, vs.set i v', s')
        else
          match ps with
          | [] => some (true, vs.set i v', s')
          | p' :: ps' => pPats c (vs.set i v') (i + 1) p' ps' s'

/-- parser.cxx:5667-5710 special(): whether the line is a case or a default, and seen_default after
it; none is failure. -/
def special (seen : Bool) : List (Ln L) → Option (Bool × Bool)
  | .case _ :: _ => if seen then none else some (true, seen)
  | .dflt :: _ => if seen then none else some (true, true)
  | _ => some (false, seen)

/-- parser.cxx:5858-5865: skip the special lines that follow; the first is there. -/
def skipSpecial (seen : Bool) : List (Ln L) → Option (List (Ln L) × Bool)
  | [] => some ([], seen)
  | _ :: r =>
    match special seen r with
    | none => none
    | some (false, seen') => some (r, seen')
    | some (true, seen') => skipSpecial seen' r

/-- parser.cxx:6176-6210 and 6356-6383: the body of a loop: whether it is a block, its lines and
the lines after it; none is failure. -/
def takeBody : List (Ln L) → Option (Bool × List (Ln L) × List (Ln L))
  | .lb :: r =>
    match skipBlock 0 r with
    | (body, .rb :: r') => some (true, body ++ [.rb], r')
    | _ => none
  | [] => some (false, [], [])
  | l :: r => some (false, [l], r)

/-- parser.cxx:6288-6290 and 6466-6468: what the body of a loop must end with. -/
def ends (block : Bool) : List (Ln L) → Bool
  | [] => !block
  | .rb :: _ => block
  | _ => false

mutual

/-- parser.cxx:639-, parse_clause(): statements up to something that does not start one. -/
def pClause (c : Sem L) : Nat → Bool → List (Ln L) → L.S → Option (Res L)
  | 0, _, _, _ => none
  | f + 1, lp, ls, s =>
    match ls with
    | [] => some (.ok [] s)
    | .rb :: r => some (.ok (.rb :: r) s)
    | ls =>
      match pStmt c f lp ls s with
      | some (.ok r s') => pClause c f lp r s'
      | o => o
termination_by structural f => f

/-- parser.cxx:697-845: one statement (parse_clause() with `one`). -/
def pStmt (c : Sem L) : Nat → Bool → List (Ln L) → L.S → Option (Res L)
  | 0, _, _, _ => none
  | f + 1, lp, ls, s =>
    match ls with
    | .plain p :: r =>
      match c.run p s with
      | some s' => some (.ok r s')
      | none => some .fail
    | .brk :: _ => some (if lp then .brk s else .fail)
    | .cont :: _ => some (if lp then .cont s else .fail)
    | .ift q :: r => pChain c f lp false (.ift q :: r) s
    | .switch x xs :: r =>
      match pVals c (x :: xs) [] s with
      | none => some .fail
      | some (vs, s') =>
        match r with
        | .lb :: r' => pCases c f lp vs false false r' s'
        | _ => some .fail
    | .for_ i :: r =>
      match c.elems i s with
      | none => some .fail
      | some (es, s') =>
        match takeBody r with
        | none => some .fail
        | some (block, body, r') =>
          match pIter c f i block body es s' with
          | some (.ok _ s'') => some (.ok r' s'')
          | o => o
    | .while_ q :: r =>
      match takeBody r with
      | none => some .fail
      | some (block, body, r') =>
        match pWhile c f q block body s with
        | some (.ok _ s'') => some (.ok r' s'')
        | o => o
    | _ => some .fail
termination_by structural f => f

/-- parser.cxx:5456-5521 and 5868-5920: a block or a line that is taken or skipped. -/
def pBranch (c : Sem L) : Nat → Bool → Bool → List (Ln L) → L.S → Option (Res L)
  | 0, _, _, _, _ => none
  | f + 1, lp, take, ls, s =>
    match ls with
    | .lb :: r =>
      if take then
        match pClause c f lp r s with
        | some (.ok (.rb :: r') s') => some (.ok r' s')
        | some (.ok _ _) => some .fail
        | o => o
      else
        match skipBlock 0 r with
        | (_, .rb :: r') => some (.ok r' s)
        | _ => some .fail
    | [] => some (if take then .fail else .ok [] s)
    | .rb :: r => some (if take then .fail else .ok r s)
    | l :: r => if take then pStmt c f lp (l :: r) s else some (.ok r s)
termination_by structural f => f

/-- parser.cxx:5364-5548: an if-else chain from the if, elif or else line that is first. -/
def pChain (c : Sem L) : Nat → Bool → Bool → List (Ln L) → L.S → Option (Res L)
  | 0, _, _, _, _ => none
  | f + 1, lp, taken, ls, s =>
    match ls with
    | .ift q :: r => pLink c f lp taken (if taken then some (false, s) else c.cond q s) r
    | .elif q :: r => pLink c f lp taken (if taken then some (false, s) else c.cond q s) r
    | .els :: r => pBranch c f lp (!taken) r s
    | _ => some .fail
termination_by structural f => f

/-- parser.cxx:5440-5521: the rest of an if or an elif, given whether it is taken. -/
def pLink (c : Sem L) : Nat → Bool → Bool → Option (Bool × L.S) → List (Ln L) → Option (Res L)
  | 0, _, _, _, _ => none
  | f + 1, lp, taken, t, r =>
    match t with
    | none => some .fail
    | some (take, s') =>
      match pBranch c f lp take r s' with
      | some (.ok r' s'') => pNext c f lp (taken || take) r' s''
      | o => o
termination_by structural f => f

/-- parser.cxx:5523-5547: see if there is another elif or else. -/
def pNext (c : Sem L) : Nat → Bool → Bool → List (Ln L) → L.S → Option (Res L)
  | 0, _, _, _, _ => none
  | f + 1, lp, taken, ls, s =>
    match ls with
    | .elif q :: r => pChain c f lp taken (.elif q :: r) s
    | .els :: r => pChain c f lp taken (.els :: r) s
    | ls => some (.ok ls s)
termination_by structural f => f

/-- parser.cxx:5712-5927: the contents of a switch up to and including the closing brace. -/
def pCases (c : Sem L) : Nat → Bool → List L.V → Bool → Bool → List (Ln L) → L.S → Option (Res L)
  | 0, _, _, _, _, _, _ => none
  | f + 1, lp, vs, taken, seen, ls, s =>
    match ls with
    | [] => some .fail
    | .rb :: r => some (.ok r s)
    | .case k :: r =>
      if seen then some .fail
      else if taken then pArm c f lp vs taken false seen r s
      else
        match pPats c vs 0 k.pat k.pats s with
        | none => some .fail
        | some (take, vs', s') => pArm c f lp vs' taken take seen r s'
    | .dflt :: r =>
      if seen then some .fail else pArm c f lp vs taken (!taken) true r s
    | _ => some .fail
termination_by structural f => f

/-- parser.cxx:5840-5921: what follows a case or a default, given whether it is taken. -/
def pArm (c : Sem L) :
    Nat → Bool → List L.V → Bool → Bool → Bool → List (Ln L) → L.S → Option (Res L)
  | 0, _, _, _, _, _, _, _ => none
  | f + 1, lp, vs, taken, take, seen, r, s =>
    match special seen r with
    | none => some .fail
    | some (true, seen') =>
      if !take && !taken then pCases c f lp vs taken false r s
      else
        match skipSpecial seen' r with
        | none => some .fail
        | some (r', seen'') => pArmBody c f lp vs taken take seen'' r' s
    | some (false, seen') => pArmBody c f lp vs taken take seen' r s
termination_by structural f => f

/-- parser.cxx:5868-5921: the block or line of an arm, and then the next one. -/
def pArmBody (c : Sem L) :
    Nat → Bool → List L.V → Bool → Bool → Bool → List (Ln L) → L.S → Option (Res L)
  | 0, _, _, _, _, _, _, _ => none
  | f + 1, lp, vs, taken, take, seen, r, s =>
    match pBranch c f lp take r s with
    | some (.ok r' s') => pCases c f lp vs (taken || take) seen r' s'
    | o => o
termination_by structural f => f

/-- parser.cxx:6227-6310: the iterations of a for-loop. -/
def pIter (c : Sem L) : Nat → L.I → Bool → List (Ln L) → List L.E → L.S → Option (Res L)
  | 0, _, _, _, _, _ => none
  | f + 1, i, block, body, es, s =>
    match es with
    | [] => some (.ok [] s)
    | e :: es =>
      match c.set i e s with
      | none => some .fail
      | some s1 =>
        match pClause c f true body s1 with
        | some (.ok r s2) => if ends block r then pIter c f i block body es s2 else some .fail
        | some (.cont s2) => pIter c f i block body es s2
        | some (.brk s2) => some (.ok [] s2)
        | some .fail => some .fail
        | none => none
termination_by structural f => f

/-- parser.cxx:6385-6471: the iterations of a while-loop. -/
def pWhile (c : Sem L) : Nat → L.C → Bool → List (Ln L) → L.S → Option (Res L)
  | 0, _, _, _, _ => none
  | f + 1, q, block, body, s =>
    match c.cond q s with
    | none => some .fail
    | some (false, s1) => some (.ok [] s1)
    | some (true, s1) =>
      match pClause c f true body s1 with
      | some (.ok r s2) => if ends block r then pWhile c f q block body s2 else some .fail
      | some (.cont s2) => pWhile c f q block body s2
      | some (.brk s2) => some (.ok [] s2)
      | some .fail => some .fail
      | none => none
termination_by structural f => f

end

/-- parser.cxx:385-400 parse_buildfile(): the whole file, which must be parsed to its end. -/
def pFile (c : Sem L) (f : Nat) (ls : List (Ln L)) (s : L.S) : Option (Out L.S) :=
  match pClause c f false ls s with
  | some (.ok [] s') => some (.ok s')
  | some _ => some .fail
  | none => none

end Verif.BuildFlow
