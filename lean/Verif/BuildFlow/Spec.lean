/-!
# Conditions, switches and loops in buildfiles: specification

Statements as the manual describes them (if-else chains, switch, for, while, break and continue)
and what executing them does.
-/

namespace Verif.BuildFlow

/-- The kinds of things that are arbitrary here: lines without flow control, conditions, switch
expressions, patterns, for-loop headers, values, elements and states. -/
structure Lang where
  P : Type
  C : Type
  X : Type
  Q : Type
  I : Type
  V : Type
  E : Type
  S : Type

/-- What they do, also arbitrary; none is failure. -/
structure Sem (L : Lang) where
  /-- Execute a line. -/
  run : L.P → L.S → Option L.S
  /-- Evaluate a condition. -/
  cond : L.C → L.S → Option (Bool × L.S)
  /-- Evaluate a switch expression. -/
  val : L.X → L.S → Option (L.V × L.S)
  /-- Evaluate a pattern and match it against the value of a switch expression. The value can be
  changed by that (it may become typed). -/
  alt : L.V → L.Q → L.S → Option (Bool × L.V × L.S)
  /-- The elements to iterate over. -/
  elems : L.I → L.S → Option (List L.E × L.S)
  /-- Assign an element to the variable of the loop. -/
  set : L.I → L.E → L.S → Option L.S

/-- A case: a pattern (which is one or more alternatives) for one or more of the expressions. -/
structure Case (Q : Type) where
  pat : Q × List Q
  pats : List (Q × List Q)

/-- A statement on one line. -/
inductive Simple (L : Lang) where
  | plain (p : L.P)
  | brk
  | cont

mutual

/-- A statement. -/
inductive Stmt (L : Lang) where
  | simple (s : Simple L)
  | cond (c : L.C) (b : Body L) (rest : Elifs L)
  | switch (x : L.X) (xs : List L.X) (arms : Arms L)
  | for_ (i : L.I) (b : Body L)
  | while_ (c : L.C) (b : Body L)

/-- A body is a line or a block. -/
inductive Body (L : Lang) where
  | one (s : Simple L)
  | block (ss : Stmts L)

/-- The rest of an if-else chain. -/
inductive Elifs (L : Lang) where
  | nil
  | els (b : Body L)
  | elif (c : L.C) (b : Body L) (rest : Elifs L)

/-- The contents of a switch: arms with one or more cases, and possibly a default (which cases can
precede) as the last one. -/
inductive Arms (L : Lang) where
  | nil
  | dflt (cs : List (Case L.Q)) (b : Body L)
  | arm (c : Case L.Q) (cs : List (Case L.Q)) (b : Body L) (rest : Arms L)

/-- A sequence of statements. -/
inductive Stmts (L : Lang) where
  | nil
  | cons (s : Stmt L) (ss : Stmts L)

end

/-! ## What executing them does -/

/-- How an execution ends: it goes on to the next statement, breaks out of or continues a loop, or
fails. -/
inductive Out (S : Type) where
  | ok (s : S)
  | brk (s : S)
  | cont (s : S)
  | fail

/-- Evaluate the switch expressions. -/
def vals {L : Lang} (c : Sem L) : List L.X → L.S → Option (List L.V × L.S)
  | [], s => some ([], s)
  | x :: xs, s =>
    match c.val x s with
    | some (v, s1) =>
      match vals c xs s1 with
      | some (vs, s2) => some (v :: vs, s2)
      | none => none
    | none => none

/-- Match a value against a pattern: the alternatives are tried in order up to the first that
matches. -/
def matchAlts {L : Lang} (c : Sem L) : L.V → List L.Q → L.S → Option (Bool × L.V × L.S)
  | v, [], s => some (false, v, s)
  | v, q :: qs, s =>
    match c.alt v q s with
    | some (true, v', s') => some (true, v', s')
    | some (false, v', s') => matchAlts c v' qs s'
    | none => none

/-- Match the values against the patterns of a case: up to the first that does not match. Values
without a pattern match; a pattern without a value is an error. -/
def matchPats {L : Lang} (c : Sem L) :
    List L.V → List (L.Q × List L.Q) → L.S → Option (Bool × List L.V × L.S)
  | vs, [], s => some (true, vs, s)
  | [], _ :: _, _ => none
  | v :: vs, p :: ps, s =>
    match matchAlts c v (p.1 :: p.2) s with
    | some (true, v', s') =>
      match matchPats c vs ps s' with
      | some (b, vs', s'') => some (b, v' :: vs', s'')
      | none => none
    | some (false, v', s') => some (false, v' :: vs, s')
    | none => none

/-- Match the cases of an arm: up to the first that matches. -/
def matchCases {L : Lang} (c : Sem L) :
    List L.V → List (Case L.Q) → L.S → Option (Bool × List L.V × L.S)
  | vs, [], s => some (false, vs, s)
  | vs, k :: ks, s =>
    match matchPats c vs (k.pat :: k.pats) s with
    | some (true, vs', s') => some (true, vs', s')
    | some (false, vs', s') => matchCases c vs' ks s'
    | none => none

/-- What can be executed. -/
inductive Job (L : Lang) where
  | simple (s : Simple L)
  | stmt (s : Stmt L)
  | stmts (ss : Stmts L)
  | body (b : Body L)
  | elifs (e : Elifs L)
  | arms (vs : List L.V) (a : Arms L)
  | iter (i : L.I) (es : List L.E) (b : Body L)

/-- The execution does not go on to the next statement. -/
def Out.stops {S : Type} : Out S → Prop
  | .ok _ => False
  | _ => True

/-- The loop goes on to the next iteration. -/
def Out.goes {S : Type} (o : Out S) (s : S) : Prop := o = .ok s ∨ o = .cont s

/-- Executing; the argument says whether this is in a loop. -/
inductive Exec {L : Lang} (c : Sem L) : Bool → Job L → L.S → Out L.S → Prop where
  | plain {lp : Bool} {p : L.P} {s s' : L.S} (h : c.run p s = some s') :
      Exec c lp (.simple (.plain p)) s (.ok s')
  | plainFail {lp : Bool} {p : L.P} {s : L.S} (h : c.run p s = none) :
      Exec c lp (.simple (.plain p)) s .fail
  | brk {s : L.S} : Exec c true (.simple .brk) s (.brk s)
  | cont {s : L.S} : Exec c true (.simple .cont) s (.cont s)
  | brkFail {s : L.S} : Exec c false (.simple .brk) s .fail
  | contFail {s : L.S} : Exec c false (.simple .cont) s .fail
  | simple {lp : Bool} {x : Simple L} {s : L.S} {o : Out L.S} (h : Exec c lp (.simple x) s o) :
      Exec c lp (.stmt (.simple x)) s o
  -- Sequences.
  | nil {lp : Bool} {s : L.S} : Exec c lp (.stmts .nil) s (.ok s)
  | consOk {lp : Bool} {a : Stmt L} {as : Stmts L} {s s' : L.S} {o : Out L.S}
      (h : Exec c lp (.stmt a) s (.ok s')) (h' : Exec c lp (.stmts as) s' o) :
      Exec c lp (.stmts (.cons a as)) s o
  | consStop {lp : Bool} {a : Stmt L} {as : Stmts L} {s : L.S} {o : Out L.S}
      (h : Exec c lp (.stmt a) s o) (ho : o.stops) : Exec c lp (.stmts (.cons a as)) s o
  | one {lp : Bool} {x : Simple L} {s : L.S} {o : Out L.S} (h : Exec c lp (.simple x) s o) :
      Exec c lp (.body (.one x)) s o
  | block {lp : Bool} {ss : Stmts L} {s : L.S} {o : Out L.S} (h : Exec c lp (.stmts ss) s o) :
      Exec c lp (.body (.block ss)) s o
  -- If-else chains.
  | condFail {lp : Bool} {q : L.C} {b : Body L} {r : Elifs L} {s : L.S} (h : c.cond q s = none) :
      Exec c lp (.stmt (.cond q b r)) s .fail
  | condTrue {lp : Bool} {q : L.C} {b : Body L} {r : Elifs L} {s s' : L.S} {o : Out L.S}
      (h : c.cond q s = some (true, s')) (h' : Exec c lp (.body b) s' o) :
      Exec c lp (.stmt (.cond q b r)) s o
  | condFalse {lp : Bool} {q : L.C} {b : Body L} {r : Elifs L} {s s' : L.S} {o : Out L.S}
      (h : c.cond q s = some (false, s')) (h' : Exec c lp (.elifs r) s' o) :
      Exec c lp (.stmt (.cond q b r)) s o
  | elifsNil {lp : Bool} {s : L.S} : Exec c lp (.elifs .nil) s (.ok s)
  | els {lp : Bool} {b : Body L} {s : L.S} {o : Out L.S} (h : Exec c lp (.body b) s o) :
      Exec c lp (.elifs (.els b)) s o
  | elifFail {lp : Bool} {q : L.C} {b : Body L} {r : Elifs L} {s : L.S} (h : c.cond q s = none) :
      Exec c lp (.elifs (.elif q b r)) s .fail
  | elifTrue {lp : Bool} {q : L.C} {b : Body L} {r : Elifs L} {s s' : L.S} {o : Out L.S}
      (h : c.cond q s = some (true, s')) (h' : Exec c lp (.body b) s' o) :
      Exec c lp (.elifs (.elif q b r)) s o
  | elifFalse {lp : Bool} {q : L.C} {b : Body L} {r : Elifs L} {s s' : L.S} {o : Out L.S}
      (h : c.cond q s = some (false, s')) (h' : Exec c lp (.elifs r) s' o) :
      Exec c lp (.elifs (.elif q b r)) s o
  -- Switches.
  | switchFail {lp : Bool} {x : L.X} {xs : List L.X} {a : Arms L} {s : L.S}
      (h : vals c (x :: xs) s = none) : Exec c lp (.stmt (.switch x xs a)) s .fail
  | switch {lp : Bool} {x : L.X} {xs : List L.X} {a : Arms L} {s s' : L.S} {vs : List L.V}
      {o : Out L.S} (h : vals c (x :: xs) s = some (vs, s')) (h' : Exec c lp (.arms vs a) s' o) :
      Exec c lp (.stmt (.switch x xs a)) s o
  | armsNil {lp : Bool} {vs : List L.V} {s : L.S} : Exec c lp (.arms vs .nil) s (.ok s)
  | dfltFail {lp : Bool} {vs : List L.V} {cs : List (Case L.Q)} {b : Body L} {s : L.S}
      (h : matchCases c vs cs s = none) : Exec c lp (.arms vs (.dflt cs b)) s .fail
  | dflt {lp : Bool} {vs vs' : List L.V} {cs : List (Case L.Q)} {b : Body L} {s s' : L.S} {m : Bool}
      {o : Out L.S} (h : matchCases c vs cs s = some (m, vs', s')) (h' : Exec c lp (.body b) s' o) :
      Exec c lp (.arms vs (.dflt cs b)) s o
  | armFail {lp : Bool} {vs : List L.V} {k : Case L.Q} {cs : List (Case L.Q)} {b : Body L}
      {r : Arms L} {s : L.S} (h : matchCases c vs (k :: cs) s = none) :
      Exec c lp (.arms vs (.arm k cs b r)) s .fail
  | armTrue {lp : Bool} {vs vs' : List L.V} {k : Case L.Q} {cs : List (Case L.Q)} {b : Body L}
      {r : Arms L} {s s' : L.S} {o : Out L.S}
      (h : matchCases c vs (k :: cs) s = some (true, vs', s')) (h' : Exec c lp (.body b) s' o) :
      Exec c lp (.arms vs (.arm k cs b r)) s o
  | armFalse {lp : Bool} {vs vs' : List L.V} {k : Case L.Q} {cs : List (Case L.Q)} {b : Body L}
      {r : Arms L} {s s' : L.S} {o : Out L.S}
      (h : matchCases c vs (k :: cs) s = some (false, vs', s')) (h' : Exec c lp (.arms vs' r) s' o) :
      Exec c lp (.arms vs (.arm k cs b r)) s o
  -- Loops.
  | forFail {lp : Bool} {i : L.I} {b : Body L} {s : L.S} (h : c.elems i s = none) :
      Exec c lp (.stmt (.for_ i b)) s .fail
  | for_ {lp : Bool} {i : L.I} {b : Body L} {s s' : L.S} {es : List L.E} {o : Out L.S}
      (h : c.elems i s = some (es, s')) (h' : Exec c lp (.iter i es b) s' o) :
      Exec c lp (.stmt (.for_ i b)) s o
  | iterNil {lp : Bool} {i : L.I} {b : Body L} {s : L.S} : Exec c lp (.iter i [] b) s (.ok s)
  | iterFail {lp : Bool} {i : L.I} {b : Body L} {e : L.E} {es : List L.E} {s : L.S}
      (h : c.set i e s = none) : Exec c lp (.iter i (e :: es) b) s .fail
  | iterNext {lp : Bool} {i : L.I} {b : Body L} {e : L.E} {es : List L.E} {s s1 s2 : L.S}
      {o : Out L.S} (h : c.set i e s = some s1)
      {o1 : Out L.S} (h1 : Exec c true (.body b) s1 o1) (ho : o1.goes s2)
      (h2 : Exec c lp (.iter i es b) s2 o) : Exec c lp (.iter i (e :: es) b) s o
  | iterBrk {lp : Bool} {i : L.I} {b : Body L} {e : L.E} {es : List L.E} {s s1 s2 : L.S}
      (h : c.set i e s = some s1) (h1 : Exec c true (.body b) s1 (.brk s2)) :
      Exec c lp (.iter i (e :: es) b) s (.ok s2)
  | iterStop {lp : Bool} {i : L.I} {b : Body L} {e : L.E} {es : List L.E} {s s1 : L.S}
      (h : c.set i e s = some s1) (h1 : Exec c true (.body b) s1 .fail) :
      Exec c lp (.iter i (e :: es) b) s .fail
  | whileFail {lp : Bool} {q : L.C} {b : Body L} {s : L.S} (h : c.cond q s = none) :
      Exec c lp (.stmt (.while_ q b)) s .fail
  | whileFalse {lp : Bool} {q : L.C} {b : Body L} {s s' : L.S} (h : c.cond q s = some (false, s')) :
      Exec c lp (.stmt (.while_ q b)) s (.ok s')
  | whileNext {lp : Bool} {q : L.C} {b : Body L} {s s1 s2 : L.S} {o : Out L.S}
      (h : c.cond q s = some (true, s1))
      {o1 : Out L.S} (h1 : Exec c true (.body b) s1 o1) (ho : o1.goes s2)
      (h2 : Exec c lp (.stmt (.while_ q b)) s2 o) : Exec c lp (.stmt (.while_ q b)) s o
  | whileBrk {lp : Bool} {q : L.C} {b : Body L} {s s1 s2 : L.S} (h : c.cond q s = some (true, s1))
      (h1 : Exec c true (.body b) s1 (.brk s2)) : Exec c lp (.stmt (.while_ q b)) s (.ok s2)
  | whileStop {lp : Bool} {q : L.C} {b : Body L} {s s1 : L.S} (h : c.cond q s = some (true, s1))
      (h1 : Exec c true (.body b) s1 .fail) : Exec c lp (.stmt (.while_ q b)) s .fail

/-! ## How they are written -/

/-- The lines of a buildfile. The braces are those that are alone on their lines. -/
inductive Ln (L : Lang) where
  | plain (p : L.P)
  | brk
  | cont
  | ift (c : L.C)
  | elif (c : L.C)
  | els
  | switch (x : L.X) (xs : List L.X)
  | case (k : Case L.Q)
  | dflt
  | for_ (i : L.I)
  | while_ (c : L.C)
  | lb
  | rb

/-- The line of a statement. -/
def Simple.line {L : Lang} : Simple L → Ln L
  | .plain p => .plain p
  | .brk => .brk
  | .cont => .cont

mutual

/-- The lines of a statement. -/
def Stmt.lines {L : Lang} : Stmt L → List (Ln L)
  | .simple s => [s.line]
  | .cond c b r => .ift c :: (b.lines ++ r.lines)
  | .switch x xs a => .switch x xs :: .lb :: (a.lines ++ [.rb])
  | .for_ i b => .for_ i :: b.lines
  | .while_ c b => .while_ c :: b.lines

/-- The lines of a body. -/
def Body.lines {L : Lang} : Body L → List (Ln L)
  | .one s => [s.line]
  | .block ss => .lb :: (ss.lines ++ [.rb])

/-- The lines of the rest of a chain. -/
def Elifs.lines {L : Lang} : Elifs L → List (Ln L)
  | .nil => []
  | .els b => .els :: b.lines
  | .elif c b r => .elif c :: (b.lines ++ r.lines)

/-- The lines of the contents of a switch. -/
def Arms.lines {L : Lang} : Arms L → List (Ln L)
  | .nil => []
  | .dflt cs b => cs.map .case ++ .dflt :: b.lines
  | .arm c cs b r => .case c :: (cs.map .case ++ (b.lines ++ r.lines))

/-- The lines of statements. -/
def Stmts.lines {L : Lang} : Stmts L → List (Ln L)
  | .nil => []
  | .cons s ss => s.lines ++ ss.lines

end

end Verif.BuildFlow
