import Verif.Flow.Spec

/-!
# Control flow in buildfiles: model of the code

libbuild2/parser.cxx (`parse_clause`, `parse_clause_block`, `parse_if_else`, `parse_switch`,
`parse_for`, `parse_while`, `skip_line`, `skip_block`).

The input is a list of lines, each ending with a newline, rather than of tokens. Simplifications:
attributes, the ifn and ife variants (these are conditions), recipes with headers and in
multi-curly if-else and switch; a value that is converted to the type of a pattern stays as it
was for other patterns. Loops can go on forever, so functions have a limit on the depth of calls
and are `none` when it is reached.
-/

namespace Verif.Flow

/-- How something ends, with the lines after it. `brk` and `cont` stand for the `loop_control`
exception (parser.hxx), `err` for `fail`. -/
inductive Out (σ : Type)
  | ok (s : σ) (rest : List Line) | brk (s : σ) | cont (s : σ) | err (s : σ)

/-- parser.cxx:8535-8543 `start_names` as used at 681: whether `parse_clause` stops here. -/
def stops : List Line → Bool
  | [] => true
  | .rcb :: _ => true
  | .mlcb :: _ => true
  | .mrcb :: _ => true
  | _ => false

/-- 10210-10238 `skip_block`, with what is skipped (for `lexer::save_guard`) and what is after
the closing brace. -/
def skipBlock : Nat → List Line → Option (List Line × List Line)
  | _, [] => none
  | b, .lcb :: r => (skipBlock (b + 1) r).map fun x => (.lcb :: x.1, x.2)
  | 0, .rcb :: r => some ([], r)
  | b + 1, .rcb :: r => (skipBlock b r).map fun x => (.rcb :: x.1, x.2)
  | b, l :: r => (skipBlock b r).map fun x => (l :: x.1, x.2)

/-- 6178-6210, 6355-6382: the body of a loop, whether it is a block, and what is after it. -/
def getBody : List Line → Option (Bool × List Line × List Line)
  | .lcb :: r => (skipBlock 0 r).map fun x => (true, x.1 ++ [.rcb], x.2)
  | l :: r => some (false, [l], r)
  | [] => some (false, [], [])

/-- 6286-6288, 6466-6468: whether the body has been executed to the end. What is `}}` is two `}`
outside of recipes (lexer.cxx:684 is only for the foreign mode). -/
def atEnd (block : Bool) : List Line → Bool
  | [] => !block
  | .rcb :: _ => block
  | .mrcb :: _ => block
  | _ => false

/-- 2501-2530 (`parse_recipe`, in the foreign lexer mode): the text of a recipe and what is after
it. -/
def recipeText : List Line → Option (List Line × List Line)
  | [] => none
  | .mrcb :: r => some ([], r)
  | l :: r => (recipeText r).map fun x => (l :: x.1, x.2)

/-- 5522-5540: another branch. -/
def isElse : List Line → Bool
  | .elif _ _ :: _ => true
  | .els :: _ => true
  | _ => false

/-- 5762-5813: the alternatives. -/
def altMatch {σ V : Type} (S : Sem σ V) (s : σ) (v : V) : List Nat → Option Bool
  | [] => some false
  | p :: ps =>
    match S.hit v p s with
    | none => none
    | some true => some true
    | some false => altMatch S s v ps

/-- 5746-5840: the patterns. -/
def rowMatch {σ V : Type} (S : Sem σ V) (s : σ) : List V → List (List Nat) → Option Bool
  | _, [] => some true
  | [], _ :: _ => none
  | v :: vs, p :: ps =>
    match altMatch S s v p with
    | none => none
    | some false => some false
    | some true => rowMatch S s vs ps

/-- 5673-5712 `special`, 5722-5866: one or more lines with `case` or `default`. The result is
whether to take what is after them, whether there has been `default`, and what is after them.
Once the case is taken, or has been earlier (`taken`), lines are skipped. -/
def pick {σ V : Type} (S : Sem σ V) (s : σ) (vs : List V) (taken : Bool) :
    Bool → Bool → List Line → Option (Bool × Bool × List Line)
  | seen, take, .case_ p :: r =>
    if seen then none
    else if taken || take then pick S s vs taken seen take r
    else match rowMatch S s vs p with
      | none => none
      | some t => pick S s vs taken seen t r
  | seen, take, .dflt :: r =>
    if seen then none else pick S s vs taken true (take || !taken) r
  | seen, take, r => some (take, seen, r)

/-- 5673-5712 `special`: whether there is such a line. -/
def isSpecial : List Line → Bool
  | .case_ _ :: _ => true
  | .dflt :: _ => true
  | _ => false

/-- The end of a line that does not have others after it as a part of it (1999-2036, 2062). -/
def Out.of {σ : Type} (r : List Line) : Except σ σ → Out σ
  | .ok s => .ok s r
  | .error s => .err s

/-- 2041-2062 (`enter_scope`, which is undone in its destructor). -/
def Out.leave {σ : Type} (f : σ → σ) : Out σ → Out σ
  | .ok s r => .ok (f s) r
  | .brk s => .brk (f s)
  | .cont s => .cont (f s)
  | .err s => .err (f s)

/-- After the statements of a block: 2083-2088, 2051-2056. -/
def closeBlock {σ : Type} : Out σ → Out σ
  | .ok s (.rcb :: r) => .ok s r
  | .ok s _ => .err s
  | o => o

mutual
/-- 639-2067 `parse_clause`. -/
def clause {σ V : Type} (S : Sem σ V) : Nat → Bool → List Line → σ → Option (Out σ)
  | 0, _, _, _ => none
  | n + 1, l, ls, s =>
    if stops ls then some (.ok s ls)
    else match stmt S n l ls s with
      | some (.ok s' r) => clause S n l r s'
      | o => o
/-- The body of its loop: 660-2062. -/
def stmt {σ V : Type} (S : Sem σ V) : Nat → Bool → List Line → σ → Option (Out σ)
  | 0, _, _, _ => none
  | n + 1, l, ls, s =>
    match ls with
    | .text k :: r => some (.of r (S.text k s))
    | .decl k :: .mlcb :: r =>
      match recipeText r with
      | none => some (.err s)
      | some (c, r') => some (.of r' (S.recipe k c s))
    | .decl k :: r => some (.of r (S.text k s))
    | .ifk _ _ :: _ => chain S n l false ls s
    | .switch e :: r =>
      match S.vals e s with
      | none => some (.err s)
      | some vs =>
        match r with
        | .lcb :: r' => cases S n l vs false false r' s
        | _ => some (.err s)
    | .for_ x v :: r =>
      match S.items v s with
      | none => some (.err s)
      | some vs =>
        match getBody r with
        | none => some (.err s)
        | some (b, ls', r') =>
          match each S n x vs b ls' (S.declare x s) with
          | some (.ok s' _) => some (.ok s' r')
          | o => o
    | .while_ neg c :: r =>
      match getBody r with
      | none => some (.err s)
      | some (b, ls', r') =>
        match rep S n neg c b ls' s with
        | some (.ok s' _) => some (.ok s' r')
        | o => o
    | .brk :: _ => some (if l then .brk s else .err s)
    | .cont :: _ => some (if l then .cont s else .err s)
    | .dir d :: .lcb :: r =>
      match S.enter d s with
      | none => some (.err s)
      | some s1 => ((clause S n l r s1).map closeBlock).map (Out.leave (S.leave s))
    | _ => some (.err s)
/-- 5353-5549 `parse_if_else`. -/
def chain {σ V : Type} (S : Sem σ V) : Nat → Bool → Bool → List Line → σ → Option (Out σ)
  | 0, _, _, _, _ => none
  | n + 1, l, taken, ls, s =>
    match ls with
    | .ifk neg c :: r => link S n l taken neg c r s
    | .elif neg c :: r => link S n l taken neg c r s
    | .els :: r => branch S n l false (!taken) r s
    | _ => some (.err s)
/-- The iteration of its loop for other than `else`: 5380-5540. -/
def link {σ V : Type} (S : Sem σ V) :
    Nat → Bool → Bool → Bool → Nat → List Line → σ → Option (Out σ)
  | 0, _, _, _, _, _, _ => none
  | n + 1, l, taken, neg, c, r, s =>
    match (if taken then some false else (S.cond c s).map (· != neg)) with
    | none => some (.err s)
    | some take =>
      match branch S n l false take r s with
      | some (.ok s' r') =>
        if isElse r' then chain S n l (taken || take) r' s' else some (.ok s' r')
      | o => o
/-- 5460-5520 (and 5868-5920 for switch): a block or a line. -/
def branch {σ V : Type} (S : Sem σ V) :
    Nat → Bool → Bool → Bool → List Line → σ → Option (Out σ)
  | 0, _, _, _, _, _ => none
  | n + 1, l, sw, take, ls, s =>
    match ls with
    | .lcb :: r =>
      if take then (clause S n l r s).map closeBlock
      else match skipBlock 0 r with
        | none => some (.err s)
        | some (_, r') => some (.ok s r')
    | .mlcb :: r => some (if sw && !take then .ok s r else .err s)
    | [] => some (if take then .err s else .ok s [])
    | x :: r =>
      if take then (if stops (x :: r) then some (.err s) else stmt S n l (x :: r) s)
      else some (.ok s r)
/-- 5715-5924: the loop of `parse_switch`. -/
def cases {σ V : Type} (S : Sem σ V) :
    Nat → Bool → List V → Bool → Bool → List Line → σ → Option (Out σ)
  | 0, _, _, _, _, _, _ => none
  | n + 1, l, vs, taken, seen, ls, s =>
    match ls with
    | .rcb :: r => some (.ok s r)
    | _ =>
      if isSpecial ls then
        match pick S s vs taken seen false ls with
        | none => some (.err s)
        | some (take, seen', r) =>
          match branch S n l true take r s with
          | some (.ok s' r') => cases S n l vs (taken || take) seen' r' s'
          | o => o
      else some (.err s)
/-- 6220-6312: the iterations of `parse_for`. -/
def each {σ V : Type} (S : Sem σ V) :
    Nat → Nat → List V → Bool → List Line → σ → Option (Out σ)
  | 0, _, _, _, _, _ => none
  | n + 1, x, vs, b, body, s =>
    match vs with
    | [] => some (.ok s [])
    | v :: vs' =>
      match S.set x v s with
      | none => some (.err s)
      | some s1 =>
        match clause S n true body s1 with
        | some (.ok s2 r) => if atEnd b r then each S n x vs' b body s2 else some (.err s2)
        | some (.cont s2) => each S n x vs' b body s2
        | some (.brk s2) => some (.ok s2 [])
        | o => o
/-- 6384-6472: the iterations of `parse_while`. -/
def rep {σ V : Type} (S : Sem σ V) :
    Nat → Bool → Nat → Bool → List Line → σ → Option (Out σ)
  | 0, _, _, _, _, _ => none
  | n + 1, neg, c, b, body, s =>
    match S.cond c s with
    | none => some (.err s)
    | some e =>
      if e == neg then some (.ok s [])
      else match clause S n true body s with
        | some (.ok s2 r) => if atEnd b r then rep S n neg c b body s2 else some (.err s2)
        | some (.cont s2) => rep S n neg c b body s2
        | some (.brk s2) => some (.ok s2 [])
        | o => o
end

/-- 372-403 `parse_buildfile`: all of the file has to be used. -/
def file {σ V : Type} (S : Sem σ V) (n : Nat) (ls : List Line) (s : σ) : Option (Out σ) :=
  match clause S n false ls s with
  | some (.ok s' (_ :: _)) => some (.err s')
  | o => o

end Verif.Flow
