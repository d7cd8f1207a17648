/-!
# Script flow control: specification

A script as the user thinks of it: a sequence of statements with nested `if`, `while` and `for`
constructs, and what running it means. Nothing here mentions lines, line indexes or how the end
of a construct is found.
-/

namespace Verif.ScriptFlow

/-- How an `if`/`elif` decides: by running a command (`if`), or by a value being NULL (`ifn`) or
empty (`ife`). -/
inductive Kind where
  | cmd | null | empty
deriving DecidableEq, Repr

mutual

/-- A sequence of statements; the last argument of each is what follows it. The texts of the
lines are of an arbitrary type `A`. The Boolean is whether the condition is negated. -/
inductive Prog (A : Type) where
  | nil
  | var (a : A) (rest : Prog A)
  | cmd (a : A) (rest : Prog A)
  | ifc (k : Kind) (neg : Bool) (a : A) (thn : Prog A) (els : Else A) (rest : Prog A)
  | whl (a : A) (body rest : Prog A)
  | forS (a : A) (body rest : Prog A)
  | forA (a : A) (body rest : Prog A)
  | cont (rest : Prog A)
  | brk (rest : Prog A)

/-- What an `if` goes on with: nothing, an `else` or an `elif`. -/
inductive Else (A : Type) where
  | none
  | els (b : Prog A)
  | elifc (k : Kind) (neg : Bool) (a : A) (thn : Prog A) (e : Else A)

end

/-- What executing a single line can do: return something, exit the script with a code (the
`exit` builtin) or fail. The state can be changed in any case. -/
inductive Res (σ β : Type) where
  | ok (b : β) (s : σ)
  | exit (code : Nat) (s : σ)
  | fail (s : σ)

/-- How the execution of a sequence of statements ends: normally, having exited with a code,
having failed, or at a `continue` or a `break`. `bad` is a failed assertion. -/
inductive Out (σ : Type) where
  | normal (s : σ)
  | exited (code : Nat) (s : σ)
  | failed (s : σ)
  | cont (s : σ)
  | brk (s : σ)
  | bad

/-- What the lines do; arbitrary. The list of numbers are the numbers of the current iterations
of the enclosing loops, the innermost one first. -/
structure Calls (A V σ : Type) where
  /-- A variable assignment. -/
  set : A → σ → Res σ Unit
  /-- A command. -/
  cmd : A → List Nat → σ → Res σ Unit
  /-- The command of a condition. -/
  cond : A → List Nat → σ → Res σ Bool
  /-- The value of an `ifn` (is it NULL?) or `ife` (is it empty?) condition. -/
  value : Kind → A → σ → Res σ Bool
  /-- The elements that a `... | for x` or `for x <...` line reads. -/
  stream : A → List Nat → σ → Res σ (List V)
  /-- The elements of the value of a `for x: ...` line. -/
  args : A → σ → Res σ (List V)
  /-- Setting the variable of a `for` line. -/
  assign : A → V → σ → Res σ Unit

variable {A V σ β : Type}

/-- Go on with the result unless the line has exited or failed. If the script is to fail on a
non-zero exit code (`tof`), then exiting with one is a failure. -/
def Res.thn (tof : Bool) (r : Res σ β) (k : β → σ → Option (Out σ)) : Option (Out σ) :=
  match r with
  | .ok b s => k b s
  | .exit c s => some (if c ≠ 0 ∧ tof then .failed s else .exited c s)
  | .fail s => some (.failed s)

/-- Go on if what is before has ended normally. -/
def seq (o : Option (Out σ)) (k : σ → Option (Out σ)) : Option (Out σ) :=
  match o with
  | some (.normal s) => k s
  | o => o

/-- A loop goes on with the next iteration after `continue`, ends after `break`, and whatever
else ends the body ends everything. -/
def iter (o : Option (Out σ)) (next : σ → Option (Out σ)) : Option (Out σ) :=
  match o with
  | some (.normal s) => next s
  | some (.cont s) => next s
  | some (.brk s) => some (.normal s)
  | o => o

/-- At most `n` evaluations of the condition of a `while` loop; `k` is the number of the
iteration. -/
def whileRun (tof : Bool) (cond : Nat → σ → Res σ Bool) (body : Nat → σ → Option (Out σ)) :
    Nat → Nat → σ → Option (Out σ)
  | 0, _, _ => none
  | n + 1, k, s =>
    (cond k s).thn tof fun b s' =>
      if b then iter (body k s') (fun s'' => whileRun tof cond body n (k + 1) s'')
      else some (.normal s')

/-- A `for` loop over the elements. -/
def forRun (tof : Bool) (assign : V → σ → Res σ Unit) (body : Nat → σ → Option (Out σ)) :
    List V → Nat → σ → Option (Out σ)
  | [], _, s => some (.normal s)
  | v :: vs, k, s =>
    (assign v s).thn tof fun _ s' =>
      iter (body k s') (fun s'' => forRun tof assign body vs (k + 1) s'')

/-- The value of a condition. -/
def Calls.decide (c : Calls A V σ) (k : Kind) (a : A) (ii : List Nat) (s : σ) : Res σ Bool :=
  match k with
  | .cmd => c.cond a ii s
  | k => c.value k a s

mutual

/-- What running a script does: `none` if a loop has not ended after `n` evaluations of its
condition. -/
def run (c : Calls A V σ) (tof : Bool) (n : Nat) :
    Prog A → List Nat → σ → Option (Out σ)
  | .nil, _, s => some (.normal s)
  | .var a r, ii, s => (c.set a s).thn tof fun _ s' => run c tof n r ii s'
  | .cmd a r, ii, s => (c.cmd a ii s).thn tof fun _ s' => run c tof n r ii s'
  | .ifc k neg a t e r, ii, s =>
    (c.decide k a ii s).thn tof fun b s' =>
      seq (if b != neg then run c tof n t ii s' else runElse c tof n e ii s')
        (fun s'' => run c tof n r ii s'')
  | .whl a b r, ii, s =>
    seq (whileRun tof (fun k => c.cond a (k :: ii)) (fun k => run c tof n b (k :: ii)) n 1 s)
      (fun s' => run c tof n r ii s')
  | .forS a b r, ii, s =>
    (c.stream a ii s).thn tof fun vs s' =>
      seq (forRun tof (c.assign a) (fun k => run c tof n b (k :: ii)) vs 1 s')
        (fun s'' => run c tof n r ii s'')
  | .forA a b r, ii, s =>
    (c.args a s).thn tof fun vs s' =>
      seq (forRun tof (c.assign a) (fun k => run c tof n b (k :: ii)) vs 1 s')
        (fun s'' => run c tof n r ii s'')
  | .cont _, _, s => some (.cont s)
  | .brk _, _, s => some (.brk s)

/-- What running the `elif`/`else` part does. -/
def runElse (c : Calls A V σ) (tof : Bool) (n : Nat) :
    Else A → List Nat → σ → Option (Out σ)
  | .none, _, s => some (.normal s)
  | .els b, ii, s => run c tof n b ii s
  | .elifc k neg a t e, ii, s =>
    (c.decide k a ii s).thn tof fun b s' =>
      if b != neg then run c tof n t ii s' else runElse c tof n e ii s'

end

mutual

/-- Every `break` and `continue` is inside a loop (`inl`: the sequence itself is). -/
def Prog.scoped : Bool → Prog A → Prop
  | _, .nil => True
  | inl, .var _ r => r.scoped inl
  | inl, .cmd _ r => r.scoped inl
  | inl, .ifc _ _ _ t e r => t.scoped inl ∧ e.scoped inl ∧ r.scoped inl
  | inl, .whl _ b r => b.scoped true ∧ r.scoped inl
  | inl, .forS _ b r => b.scoped true ∧ r.scoped inl
  | inl, .forA _ b r => b.scoped true ∧ r.scoped inl
  | inl, .cont r => inl = true ∧ r.scoped inl
  | inl, .brk r => inl = true ∧ r.scoped inl

/-- The same for an `elif`/`else` part. -/
def Else.scoped : Bool → Else A → Prop
  | _, .none => True
  | inl, .els b => b.scoped inl
  | inl, .elifc _ _ _ t e => t.scoped inl ∧ e.scoped inl

end

/-! ## Numbering the commands -/

mutual

/-- The number of commands in a script: everything that runs a command, so neither variable
assignments nor `else` nor `for x: ...`. -/
def Prog.count : Prog A → Nat
  | .nil => 0
  | .var _ r => r.count
  | .cmd _ r => 1 + r.count
  | .ifc _ _ _ t e r => 1 + t.count + e.count + r.count
  | .whl _ b r => 1 + b.count + r.count
  | .forS _ b r => 1 + b.count + r.count
  | .forA _ b r => b.count + r.count
  | .cont r => r.count
  | .brk r => r.count

/-- The same for an `elif`/`else` part. -/
def Else.count : Else A → Nat
  | .none => 0
  | .els b => b.count
  | .elifc _ _ _ t e => 1 + t.count + e.count

end

mutual

/-- Number the commands of a script in the order they are written, starting with `l` (what is
not a command gets the number of the next one, which is not used). -/
def Prog.number (l : Nat) : Prog A → Prog (A × Nat)
  | .nil => .nil
  | .var a r => .var (a, l) (r.number l)
  | .cmd a r => .cmd (a, l) (r.number (l + 1))
  | .ifc k neg a t e r =>
    .ifc k neg (a, l) (t.number (l + 1)) (e.number (l + 1 + t.count))
      (r.number (l + 1 + t.count + e.count))
  | .whl a b r => .whl (a, l) (b.number (l + 1)) (r.number (l + 1 + b.count))
  | .forS a b r => .forS (a, l) (b.number (l + 1)) (r.number (l + 1 + b.count))
  | .forA a b r => .forA (a, l) (b.number l) (r.number (l + b.count))
  | .cont r => .cont (r.number l)
  | .brk r => .brk (r.number l)

/-- The same for an `elif`/`else` part. -/
def Else.number (l : Nat) : Else A → Else (A × Nat)
  | .none => .none
  | .els b => .els (b.number l)
  | .elifc k neg a t e =>
    .elifc k neg (a, l) (t.number (l + 1)) (e.number (l + 1 + t.count))

end

mutual

/-- Scripts without `elif` and with no condition other than commands. -/
def Prog.plain : Prog A → Prop
  | .nil => True
  | .var _ r => r.plain
  | .cmd _ r => r.plain
  | .ifc k _ _ t e r => k = .cmd ∧ t.plain ∧ e.plain ∧ r.plain
  | .whl _ b r => b.plain ∧ r.plain
  | .forS _ b r => b.plain ∧ r.plain
  | .forA _ b r => b.plain ∧ r.plain
  | .cont r => r.plain
  | .brk r => r.plain

/-- The same for an `elif`/`else` part. -/
def Else.plain : Else A → Prop
  | .none => True
  | .els b => b.plain
  | .elifc _ _ _ _ _ => False

end

end Verif.ScriptFlow
