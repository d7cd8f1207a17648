import Verif.ScriptFlow.Model

/-!
# Script flow control: model of the pre-parser

Models how the source of an ad hoc recipe is turned into the lines
(libbuild2/build/script/parser.cxx:174-868), for both syntax versions.

Simplifications. The source is given as the logical lines (here-documents included), already
classified by their first words (script/parser.cxx:2150-2265 pre_parse_line_start(), and
build/script/parser.cxx:336-443, 497-503 for the for-loops), and the lines with a single `{` or
`}`. Failing is none. The `depdb` and `diag` builtins (which are not allowed inside of the
constructs and are moved elsewhere) are not modelled.
-/

namespace Verif.ScriptFlow

variable {A : Type}

/-- build/script/parser.cxx:191-216: a line of the source: starting with `{`, with `}`, or a line
of the script. -/
inductive Src (A : Type) where
  | line (l : Line A)
  | lb
  | rb

/-- build/script/parser.cxx:694-703: `elif` (all its forms) or `else`. -/
def Line.isElse : Line A → Bool
  | .elifc .. => true
  | .els => true
  | _ => false

/-- build/script/parser.cxx:731: `else`. -/
def Line.isEls : Line A → Bool
  | .els => true
  | _ => false

mutual

/-- build/script/parser.cxx:252-558 pre_parse_line() and script/parser.cxx:2255-2257, syntax
version 2: the line `l` followed by `r`, at loop level lv. Returns the lines added and the rest of
the source. -/
def parseLine : Nat → Nat → Line A → List (Src A) → Option (List (Line A) × List (Src A))
  | 0, _, _, _ => none
  | f + 1, lv, l, r =>
    match l with
    | .var _ => some ([l], r)
    | .cmd _ => some ([l], r)
    | .cont => if lv = 0 then none else some ([l], r)
    | .brk => if lv = 0 then none else some ([l], r)
    | .ifc .. => (parseChain f lv false r).map fun x => (l :: x.1, x.2)
    | .whl _ => (parseBlk f (lv + 1) r).map fun x => (l :: (x.1 ++ [.fin]), x.2)
    | .forS _ => (parseBlk f (lv + 1) r).map fun x => (l :: (x.1 ++ [.fin]), x.2)
    | .forA _ => (parseBlk f (lv + 1) r).map fun x => (l :: (x.1 ++ [.fin]), x.2)
    | .elifc .. => none
    | .els => none
    | .fin => none
termination_by structural f => f

/-- build/script/parser.cxx:685-689, 826-829 and 560-582 pre_parse_block_line(): a block or a
single line. -/
def parseBlk : Nat → Nat → List (Src A) → Option (List (Line A) × List (Src A))
  | 0, _, _ => none
  | f + 1, lv, .lb :: r => parseBlock f lv r
  | f + 1, lv, .line l :: r => parseLine f lv l r
  | _ + 1, _, .rb :: _ => none
  | _ + 1, _, [] => none
termination_by structural f => f

/-- build/script/parser.cxx:584-616 pre_parse_block(), after the `{`. -/
def parseBlock : Nat → Nat → List (Src A) → Option (List (Line A) × List (Src A))
  | 0, _, _ => none
  | _ + 1, _, .rb :: r => some ([], r)
  | f + 1, lv, .line l :: r =>
    match parseLine f lv l r with
    | none => none
    | some (ls, r') => (parseBlock f lv r').map fun x => (ls ++ x.1, x.2)
  | _ + 1, _, .lb :: _ => none
  | _ + 1, _, [] => none
termination_by structural f => f

/-- build/script/parser.cxx:668-744 pre_parse_if_else(): the blocks from here on; `els` is whether
the current one is the one of `else`. -/
def parseChain : Nat → Nat → Bool → List (Src A) → Option (List (Line A) × List (Src A))
  | 0, _, _, _ => none
  | f + 1, lv, els, src =>
    match parseBlk f lv src with
    | none => none
    | some (ls, .line l :: r) =>
      if l.isElse then
        if els then none
        else (parseChain f lv l.isEls r).map fun x => (ls ++ l :: x.1, x.2)
      else some (ls ++ [.fin], .line l :: r)
    | some (ls, r) => some (ls ++ [.fin], r)
termination_by structural f => f

end

/-- build/script/parser.cxx:174-216 pre_parse_script(). -/
def parseScript : Nat → List (Src A) → Option (List (Line A))
  | 0, _ => none
  | _ + 1, [] => some []
  | f + 1, .line l :: r =>
    match parseLine f 0 l r with
    | none => none
    | some (ls, r') => (parseScript f r').map fun x => ls ++ x
  | _ + 1, .lb :: _ => none
  | _ + 1, .rb :: _ => none

/-- The whole of a source, syntax version 2. -/
def parse2 (src : List (Src A)) : Option (List (Line A)) := parseScript (4 * src.length + 4) src

mutual

/-- build/script/parser.cxx:252-558 pre_parse_line() and script/parser.cxx:2255-2257, syntax
version 1: the line `l` followed by `r`, at loop level lv, inside of an if-else construct (some
true), of a loop (some false) or of nothing. Returns the rest of the source (the lines are added
as they are). -/
def parseLine1 : Nat → Nat → Option Bool → Line A → List (Line A) → Option (List (Line A))
  | 0, _, _, _, _ => none
  | f + 1, lv, fct, l, r =>
    match l with
    | .var _ => some r
    | .cmd _ => some r
    | .cont => if lv = 0 then none else some r
    | .brk => if lv = 0 then none else some r
    | .ifc .. => parseChain1 f lv false r
    | .whl _ => parseLoop1 f (lv + 1) r
    | .forS _ => parseLoop1 f (lv + 1) r
    | .forA _ => parseLoop1 f (lv + 1) r
    | .elifc .. => if fct = some true then some r else none
    | .els => if fct = some true then some r else none
    | .fin => if fct.isSome then some r else none
termination_by structural f => f

/-- build/script/parser.cxx:746-806 pre_parse_if_else_v1() and 618-664
pre_parse_block_line_v1(). -/
def parseChain1 : Nat → Nat → Bool → List (Line A) → Option (List (Line A))
  | 0, _, _, _ => none
  | _ + 1, _, _, [] => none
  | f + 1, lv, els, l :: r =>
    match parseLine1 f lv (some true) l r with
    | none => none
    | some r' =>
      if l.isFin then some r'
      else if els && l.isElse then none
      else parseChain1 f lv (if l.isElse then l.isEls else els) r'
termination_by structural f => f

/-- build/script/parser.cxx:838-866 pre_parse_loop_v1(), after the loop level has been
incremented. -/
def parseLoop1 : Nat → Nat → List (Line A) → Option (List (Line A))
  | 0, _, _ => none
  | _ + 1, _, [] => none
  | f + 1, lv, l :: r =>
    match parseLine1 f lv (some false) l r with
    | none => none
    | some r' => if l.isFin then some r' else parseLoop1 f lv r'
termination_by structural f => f

end

/-- build/script/parser.cxx:174-216 pre_parse_script(), syntax version 1. -/
def parseScript1 : Nat → List (Line A) → Bool
  | 0, _ => false
  | _ + 1, [] => true
  | f + 1, l :: r =>
    match parseLine1 f 0 none l r with
    | none => false
    | some r' => parseScript1 f r'

/-- The whole of a source, syntax version 1. -/
def parse1 (src : List (Line A)) : Bool := parseScript1 (4 * src.length + 4) src

/-! ## The grammar -/

/-- One sequence of statements after another. -/
def Prog.app : Prog A → Prog A → Prog A
  | .nil, q => q
  | .var a r, q => .var a (r.app q)
  | .cmd a r, q => .cmd a (r.app q)
  | .ifc k neg a t e r, q => .ifc k neg a t e (r.app q)
  | .whl a b r, q => .whl a b (r.app q)
  | .forS a b r, q => .forS a b (r.app q)
  | .forA a b r, q => .forA a b (r.app q)
  | .cont r, q => .cont (r.app q)
  | .brk r, q => .brk (r.app q)

/-- What is written: a statement, a sequence of statements, a block, the blocks of an if-else
construct. -/
inductive GT (A : Type) where
  | stmt (p : Prog A)
  | seq (p : Prog A)
  | blk (p : Prog A)
  | chain (t : Prog A) (e : Else A)

/-- The ways to write a script in syntax version 2. The Boolean is whether what is written ends
with an `if` that an `elif` or an `else` right after it would belong to (so, as always, an `else`
belongs to the nearest `if`). -/
inductive Written : GT A → Bool → List (Src A) → Prop where
  | var (a : A) : Written (.stmt (.var a .nil)) false [.line (.var a)]
  | cmd (a : A) : Written (.stmt (.cmd a .nil)) false [.line (.cmd a)]
  | cont : Written (.stmt (.cont .nil)) false [.line .cont]
  | brk : Written (.stmt (.brk .nil)) false [.line .brk]
  | ifc {k : Kind} {neg : Bool} {a : A} {t : Prog A} {e : Else A} {o : Bool} {s : List (Src A)}
      (h : Written (.chain t e) o s) :
      Written (.stmt (.ifc k neg a t e .nil)) true (.line (.ifc k neg a) :: s)
  | whl {a : A} {b : Prog A} {o : Bool} {s : List (Src A)} (h : Written (.blk b) o s) :
      Written (.stmt (.whl a b .nil)) o (.line (.whl a) :: s)
  | forS {a : A} {b : Prog A} {o : Bool} {s : List (Src A)} (h : Written (.blk b) o s) :
      Written (.stmt (.forS a b .nil)) o (.line (.forS a) :: s)
  | forA {a : A} {b : Prog A} {o : Bool} {s : List (Src A)} (h : Written (.blk b) o s) :
      Written (.stmt (.forA a b .nil)) o (.line (.forA a) :: s)
  | nil : Written (.seq .nil) false []
  | cons {p r : Prog A} {o o' : Bool} {s s' : List (Src A)} (h : Written (.stmt p) o s)
      (h' : Written (.seq r) o' s') : Written (.seq (p.app r)) false (s ++ s')
  | single {p : Prog A} {o : Bool} {s : List (Src A)} (h : Written (.stmt p) o s) :
      Written (.blk p) o s
  | braces {p : Prog A} {o : Bool} {s : List (Src A)} (h : Written (.seq p) o s) :
      Written (.blk p) false (.lb :: (s ++ [.rb]))
  | chainNone {t : Prog A} {o : Bool} {s : List (Src A)} (h : Written (.blk t) o s) :
      Written (.chain t .none) true s
  | chainEls {t b : Prog A} {o : Bool} {s s' : List (Src A)} (h : Written (.blk t) false s)
      (h' : Written (.blk b) o s') : Written (.chain t (.els b)) true (s ++ .line .els :: s')
  | chainElif {k : Kind} {neg : Bool} {a : A} {t t' : Prog A} {e : Else A} {o : Bool}
      {s s' : List (Src A)} (h : Written (.blk t) false s) (h' : Written (.chain t' e) o s') :
      Written (.chain t (.elifc k neg a t' e)) true (s ++ .line (.elifc k neg a) :: s')

end Verif.ScriptFlow
