import Verif.ScriptFlow.Spec

/-!
# Script flow control: model

Models build2::script::parser::exec_lines() (libbuild2/script/parser.cxx:2320-3152), which
executes the lines of an ad hoc recipe, a testscript test/setup/teardown or a shell script, and
the pre-parser of the ad hoc recipe scripts (libbuild2/build/script/parser.cxx:174-868), which
turns the source into the lines.

Simplifications. A line is its type and a text of an arbitrary type; what it does is given by
the callbacks (exec_set, exec_cmd, exec_cond and exec_for, parse_value_null/empty(), the
evaluation of the value in `for x: ...`) as a function of the text and the state, with the
iteration indexes, the line index and the `single` flag as they are passed there. A callback
returns, throws exit or fails. The elements that a for-loop reads from its stdin are taken to be
known when the loop starts (in the code the process at the other end of the pipe runs
concurrently with the loop). Executing without end is running out of the fuel whatever it is.
-/

namespace Verif.ScriptFlow

variable {A V σ β : Type}

/-- script/script.hxx:28-70 line_type and line: the lines. The conditions are
cmd_{if,elif}{,n}{,_null,_empty}: the kind and whether it is negated. -/
inductive Line (A : Type) where
  | var (a : A)
  | cmd (a : A)
  | ifc (k : Kind) (neg : Bool) (a : A)
  | elifc (k : Kind) (neg : Bool) (a : A)
  | els
  | whl (a : A)
  | forS (a : A)
  | forA (a : A)
  | cont
  | brk
  | fin
deriving DecidableEq

/-- script/parser.cxx:2364-2373: the line starts a construct. -/
def Line.opens : Line A → Bool
  | .ifc .. => true
  | .whl _ => true
  | .forS _ => true
  | .forA _ => true
  | _ => false

/-- script/parser.cxx:2381-2393: the line ends the search at the surface. -/
def Line.stops (e : Bool) : Line A → Bool
  | .elifc .. => !e
  | .els => !e
  | .fin => true
  | _ => false

/-- script/parser.cxx:2396, 2563, 2573: cmd_end. -/
def Line.isFin : Line A → Bool
  | .fin => true
  | _ => false

/-- script/parser.cxx:2399-2419: the line is counted when it is skipped. -/
def Line.counts : Line A → Bool
  | .cmd _ => true
  | .ifc .. => true
  | .elifc .. => true
  | .forS _ => true
  | .whl _ => true
  | _ => false

/-- What fcend() returns: the lines before the one found, the one found, the ones after it and
the line index. Used by `fcend` (script/parser.cxx:2352-2424). -/
structure Found (A : Type) where
  before : List (Line A)
  line : Line A
  after : List (Line A)
  li : Nat

/-- script/parser.cxx:2352-2424 fcend(): find the end of the construct (`e`) or of its block,
starting from the given lines (which are the ones after j), at nesting level n; if `skip`, then
count the lines. None is the failed assertion (missing end). -/
def fcend (e skip : Bool) : Nat → Nat → List (Line A) → Option (Found A)
  | _, _, [] => none
  | n, li, j :: r =>
    if (if j.opens then n + 1 else n) = 0 ∧ j.stops e = true then
      some ⟨[], j, r, li⟩
    else
      (fcend e skip
        ((if j.opens then n + 1 else n) - (if j.isFin then 1 else 0))
        (li + if skip && j.counts then 1 else 0) r).map
        fun f => { f with before := j :: f.before }

/-- script/parser.hxx:253-305: the callbacks: exec_set(), exec_cmd() (with the iteration and line
indexes and the single flag), exec_cond(), parse_value_null() and parse_value_empty(), exec_cmd()
with the function that runs the for-loop, the value of the `for x: ...` line and
set_variable()/exec_for(). -/
structure Exec (A V σ : Type) where
  set : A → σ → Res σ Unit
  cmd : A → List Nat → Nat → Bool → σ → Res σ Unit
  cond : A → List Nat → Nat → σ → Res σ Bool
  value : Kind → A → σ → Res σ Bool
  stream : A → List Nat → Nat → σ → Res σ (List V)
  args : A → σ → Res σ (List V)
  assign : A → V → σ → Res σ Unit

/-- script/parser.cxx:2457-2468: `single`: this is the first command and only variable
assignments follow. -/
def single (li : Nat) (rest : List (Line A)) : Bool :=
  li == 1 && rest.all fun l => match l with | .var _ => true | _ => false

/-- script/parser.cxx:3139-3151: the exit exception is caught by the innermost exec_lines(),
which throws failed for a non-zero code if told so and returns the code otherwise; on a returned
code every enclosing exec_lines() returns it. -/
def Res.go (tof : Bool) (li : Nat) (r : Res σ β) (k : β → σ → Option (Out σ × Nat)) :
    Option (Out σ × Nat) :=
  match r with
  | .ok b s => k b s
  | .exit c s => some (if c ≠ 0 ∧ tof then .failed s else .exited c s, li)
  | .fail s => some (.failed s, li)

/-- script/parser.cxx:2492-2516: the value of the condition. -/
def Exec.decide (x : Exec A V σ) (k : Kind) (a : A) (ii : List Nat) (li : Nat) (s : σ) :
    Res σ Bool :=
  match k with
  | .cmd => x.cond a ii li s
  | k => x.value k a s

/-- script/parser.cxx:2496 (li++), 2502, 2509: the line index after the condition. -/
def Kind.next (k : Kind) (li : Nat) : Nat :=
  match k with
  | .cmd => li + 1
  | _ => li

mutual

/-- script/parser.cxx:2337-3152 exec_lines(): execute the lines with the iteration indexes ii
starting with the line index li. Returns how it ended and the line index (by reference in the
code). -/
def exec (x : Exec A V σ) (tof : Bool) :
    Nat → List (Line A) → List Nat → Nat → σ → Option (Out σ × Nat)
  | 0, _, _, _, _ => none
  | _ + 1, [], _, li, s => some (.normal s, li)
  | f + 1, l :: r, ii, li, s =>
    match l with
    | .var a => (x.set a s).go tof li fun _ s' => exec x tof f r ii li s'
    | .cmd a => (x.cmd a ii li (single li r) s).go tof li fun _ s' => exec x tof f r ii (li + 1) s'
    | .ifc k neg a =>
      (x.decide k a ii li s).go tof li fun b s' => branch x tof f (b != neg) r ii (k.next li) s'
    | .elifc k neg a =>
      (x.decide k a ii li s).go tof li fun b s' => branch x tof f (b != neg) r ii (k.next li) s'
    | .els => branch x tof f true r ii li s
    | .whl a => whileLoop x tof f a r ii li 1 s
    | .forS a =>
      (x.stream a ii li s).go tof li fun vs s' => forLoop x tof f a r ii (li + 1) vs 1 false (li + 1) s'
    | .forA a =>
      (x.args a s).go tof li fun vs s' => forLoop x tof f a r ii li vs 1 false li s'
    | .cont => some (.cont s, li)
    | .brk => some (.brk s, li)
    | .fin => some (.bad, li)
termination_by structural f => f

/-- script/parser.cxx:2535-2577: take or skip the branch; `r` are the lines after the condition
line. -/
def branch (x : Exec A V σ) (tof : Bool) :
    Nat → Bool → List (Line A) → List Nat → Nat → σ → Option (Out σ × Nat)
  | 0, _, _, _, _, _ => none
  | f + 1, true, r, ii, li, s =>
    match fcend false false 0 li r with
    | none => some (.bad, li)
    | some j =>
      match exec x tof f j.before ii li s with
      | some (.normal s', li') =>
        if j.line.isFin then exec x tof f j.after ii li' s'
        else
          match fcend true true 0 li' j.after with
          | none => some (.bad, li')
          | some j' => exec x tof f j'.after ii j'.li s'
      | o => o
  | f + 1, false, r, ii, li, s =>
    match fcend false true 0 li r with
    | none => some (.bad, li)
    | some j =>
      if j.line.isFin then exec x tof f j.after ii j.li s
      else exec x tof f (j.line :: j.after) ii j.li s
termination_by structural f => f

/-- script/parser.cxx:2579-2664: the iterations of a while-loop from number k on; li is the index
of the condition line (wli) and `r` are the lines after it. -/
def whileLoop (x : Exec A V σ) (tof : Bool) :
    Nat → A → List (Line A) → List Nat → Nat → Nat → σ → Option (Out σ × Nat)
  | 0, _, _, _, _, _, _ => none
  | f + 1, a, r, ii, li, k, s =>
    (x.cond a (k :: ii) li s).go tof li fun b s' =>
      if b then
        match fcend true false 0 li r with
        | none => some (.bad, li)
        | some j =>
          match exec x tof f j.before (k :: ii) (li + 1) s' with
          | some (.normal s'', _) => whileLoop x tof f a r ii li (k + 1) s''
          | some (.cont s'', _) => whileLoop x tof f a r ii li (k + 1) s''
          | some (.brk s'', _) =>
            match fcend true true 0 (li + 1) r with
            | none => some (.bad, li)
            | some j' => exec x tof f j'.after ii j'.li s''
          | o => o
      else
        match fcend true true 0 (li + 1) r with
        | none => some (.bad, li)
        | some j' => exec x tof f j'.after ii j'.li s'
termination_by structural f => f

/-- script/parser.cxx:2760-2889 and 2993-3118: the iterations of a for-loop from number k on;
fli is the index of the line after the `for` line, `fe` is whether the end of the construct has
been found (so there has been an iteration) and li is the current index, 0 if it is to be
recalculated. -/
def forLoop (x : Exec A V σ) (tof : Bool) :
    Nat → A → List (Line A) → List Nat → Nat → List V → Nat → Bool → Nat → σ →
      Option (Out σ × Nat)
  | 0, _, _, _, _, _, _, _, _, _ => none
  | f + 1, a, r, ii, fli, v :: vs, k, _, li, s =>
    (x.assign a v s).go tof li fun _ s' =>
      match fcend true false 0 fli r with
      | none => some (.bad, fli)
      | some j =>
        match exec x tof f j.before (k :: ii) fli s' with
        | some (.normal s'', li') => forLoop x tof f a r ii fli vs (k + 1) true li' s''
        | some (.cont s'', _) => forLoop x tof f a r ii fli vs (k + 1) true 0 s''
        | some (.brk s'', _) => forLoop x tof f a r ii fli [] (k + 1) true 0 s''
        | o => o
  | f + 1, _, r, ii, fli, [], _, fe, li, s =>
    if li = 0 ∨ fe = false then
      match fcend true true 0 (if li = 0 then fli else li) r with
      | none => some (.bad, fli)
      | some j => exec x tof f j.after ii j.li s
    else
      match fcend true false 0 li r with
      | none => some (.bad, li)
      | some j => exec x tof f j.after ii li s
termination_by structural f => f

end

mutual

/-- build/script/parser.cxx:668-743, 810-836: the lines of a script: every construct is followed
by an `end` line. -/
def Prog.lines : Prog A → List (Line A)
  | .nil => []
  | .var a r => .var a :: r.lines
  | .cmd a r => .cmd a :: r.lines
  | .ifc k neg a t e r => .ifc k neg a :: (t.lines ++ (e.lines ++ .fin :: r.lines))
  | .whl a b r => .whl a :: (b.lines ++ .fin :: r.lines)
  | .forS a b r => .forS a :: (b.lines ++ .fin :: r.lines)
  | .forA a b r => .forA a :: (b.lines ++ .fin :: r.lines)
  | .cont r => .cont :: r.lines
  | .brk r => .brk :: r.lines

/-- build/script/parser.cxx:668-743: the lines of the `elif`/`else` part. -/
def Else.lines : Else A → List (Line A)
  | .none => []
  | .els b => .els :: b.lines
  | .elifc k neg a t e => .elifc k neg a :: (t.lines ++ e.lines)

end

/-- build/script/parser.cxx: the callbacks that do not look at the line index or `single`: those
are only used to name the files that the standard streams are saved to (script/run.cxx:2074-2113
std_path()). -/
def Calls.exec (c : Calls A V σ) : Exec A V σ where
  set := c.set
  cmd a ii _ _ s := c.cmd a ii s
  cond a ii _ s := c.cond a ii s
  value := c.value
  stream a ii _ s := c.stream a ii s
  args := c.args
  assign := c.assign

end Verif.ScriptFlow
