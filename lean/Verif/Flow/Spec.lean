/-!
# Control flow in buildfiles: specification

Buildfiles as trees of conditions, switches, loops and directory scopes, how they are written as
lines, and what they do.
-/

namespace Verif.Flow

/-- A line, by what it begins with. Expressions, patterns, variables, directories and everything
else that is written on lines are numbered. -/
inductive Line
  | lcb | rcb
  /-- `{{` and `}}`. -/
  | mlcb | mrcb
  | text (n : Nat)
  /-- A declaration that can have a recipe. -/
  | decl (n : Nat)
  /-- With whether it is `if!`. -/
  | ifk (neg : Bool) (c : Nat)
  | elif (neg : Bool) (c : Nat)
  | els
  | switch (e : Nat)
  /-- Patterns separated by commas, as alternatives. -/
  | case_ (p : List (List Nat))
  | dflt
  | for_ (x v : Nat)
  | while_ (neg : Bool) (c : Nat)
  | brk | cont
  | dir (d : Nat)
  deriving DecidableEq

/-- The meaning of what is on lines, for the current state of the build: things that are done,
conditions, values to switch on, whether a value matches a pattern, elements to iterate over,
the variable of a loop, and scopes. Any of these can be an error. -/
structure Sem (σ V : Type) where
  text    : Nat → σ → Except σ σ
  recipe  : Nat → List Line → σ → Except σ σ
  cond    : Nat → σ → Option Bool
  vals    : Nat → σ → Option (List V)
  hit     : V → Nat → σ → Option Bool
  items   : Nat → σ → Option (List V)
  declare : Nat → σ → σ
  set     : Nat → V → σ → Option σ
  enter   : Nat → σ → Option σ
  /-- Back in the scope of an earlier state. -/
  leave   : σ → σ → σ

mutual
inductive Stmt
  | text (n : Nat)
  | rule (n : Nat) (content : List Line)
  | ite (neg : Bool) (c : Nat) (b : Body) (e : Else)
  | switch (e : Nat) (cs : Cases)
  | for_ (x v : Nat) (b : Body)
  | while_ (neg : Bool) (c : Nat) (b : Body)
  | brk
  | cont
  | dir (d : Nat) (ss : Stmts)
inductive Else
  | none
  | elif (neg : Bool) (c : Nat) (b : Body) (e : Else)
  | els (b : Body)
inductive Body
  | line (s : Stmt)
  | block (ss : Stmts)
inductive Stmts
  | nil
  | cons (s : Stmt) (ss : Stmts)
/-- Cases with one or more lines of patterns each, possibly with a default in the end (which can
have patterns before it, too). -/
inductive Cases
  | nil
  | case_ (p : List (List Nat)) (ps : List (List (List Nat))) (b : Body) (cs : Cases)
  | dflt (ps : List (List (List Nat))) (b : Body)
end

/-! ## How it is written -/

mutual
def Stmt.print : Stmt → List Line
  | .text n => [.text n]
  | .rule n content => .decl n :: .mlcb :: content ++ [.mrcb]
  | .ite neg c b e => .ifk neg c :: b.print ++ e.print
  | .switch e cs => .switch e :: .lcb :: cs.print ++ [.rcb]
  | .for_ x v b => .for_ x v :: b.print
  | .while_ neg c b => .while_ neg c :: b.print
  | .brk => [.brk]
  | .cont => [.cont]
  | .dir d ss => .dir d :: .lcb :: ss.print ++ [.rcb]
def Else.print : Else → List Line
  | .none => []
  | .elif neg c b e => .elif neg c :: b.print ++ e.print
  | .els b => .els :: b.print
def Body.print : Body → List Line
  | .line s => s.print
  | .block ss => .lcb :: ss.print ++ [.rcb]
def Stmts.print : Stmts → List Line
  | .nil => []
  | .cons s ss => s.print ++ ss.print
def Cases.print : Cases → List Line
  | .nil => []
  | .case_ p ps b cs => .case_ p :: ps.map .case_ ++ b.print ++ cs.print
  | .dflt ps b => ps.map .case_ ++ .dflt :: b.print
end

/-- Lines with as many `{` as `}`, in order. -/
inductive Balanced : List Line → Prop
  | nil : Balanced []
  | line {l ls} : l ≠ .lcb → l ≠ .rcb → Balanced ls → Balanced (l :: ls)
  | block {as bs} : Balanced as → Balanced bs → Balanced (.lcb :: as ++ .rcb :: bs)

/-- What takes one line. -/
def Stmt.Short : Stmt → Prop
  | .text _ => True
  | .brk => True
  | .cont => True
  | _ => False

/- Where there is one line instead of a block it is really one line, and recipes end where they
are written to and have balanced braces. -/
mutual
def Stmt.Ok : Stmt → Prop
  | .rule _ content => .mrcb ∉ content ∧ Balanced content
  | .ite _ _ b e => b.Ok ∧ e.Ok
  | .switch _ cs => cs.Ok
  | .for_ _ _ b => b.Ok
  | .while_ _ _ b => b.Ok
  | .dir _ ss => ss.Ok
  | _ => True
def Else.Ok : Else → Prop
  | .none => True
  | .elif _ _ b e => b.Ok ∧ e.Ok
  | .els b => b.Ok
def Body.Ok : Body → Prop
  | .line s => s.Short
  | .block ss => ss.Ok
def Stmts.Ok : Stmts → Prop
  | .nil => True
  | .cons s ss => s.Ok ∧ ss.Ok
def Cases.Ok : Cases → Prop
  | .nil => True
  | .case_ _ _ b cs => b.Ok ∧ cs.Ok
  | .dflt _ b => b.Ok
end

/-! ## What it does -/

/-- How something ends. -/
inductive Res (σ : Type)
  | ok (s : σ) | brk (s : σ) | cont (s : σ) | err (s : σ)

def Res.map {σ : Type} (f : σ → σ) : Res σ → Res σ
  | .ok s => .ok (f s)
  | .brk s => .brk (f s)
  | .cont s => .cont (f s)
  | .err s => .err (f s)

def Res.of {σ : Type} : Except σ σ → Res σ
  | .ok s => .ok s
  | .error s => .err s

/-- Whether a value matches one of the alternatives: they are tried in turn. -/
inductive Alts {σ V : Type} (S : Sem σ V) (s : σ) (v : V) : List Nat → Option Bool → Prop
  | nil : Alts S s v [] (some false)
  | hit {p ps} : S.hit v p s = some true → Alts S s v (p :: ps) (some true)
  | miss {p ps r} : S.hit v p s = some false → Alts S s v ps r → Alts S s v (p :: ps) r
  | bad {p ps} : S.hit v p s = none → Alts S s v (p :: ps) none

/-- Whether values match: each pattern is for the respective value, and there cannot be more of
them (this is only found when they are needed). -/
inductive Row {σ V : Type} (S : Sem σ V) (s : σ) : List V → List (List Nat) → Option Bool → Prop
  | nil {vs} : Row S s vs [] (some true)
  | more {p ps} : Row S s [] (p :: ps) none
  | hit {v vs p ps r} : Alts S s v p (some true) → Row S s vs ps r → Row S s (v :: vs) (p :: ps) r
  | miss {v vs p ps} : Alts S s v p (some false) → Row S s (v :: vs) (p :: ps) (some false)
  | bad {v vs p ps} : Alts S s v p none → Row S s (v :: vs) (p :: ps) none

/-- Whether they match any of several lines of patterns. -/
inductive Rows {σ V : Type} (S : Sem σ V) (s : σ) (vs : List V) :
    List (List (List Nat)) → Option Bool → Prop
  | nil : Rows S s vs [] (some false)
  | hit {p ps} : Row S s vs p (some true) → Rows S s vs (p :: ps) (some true)
  | miss {p ps r} : Row S s vs p (some false) → Rows S s vs ps r → Rows S s vs (p :: ps) r
  | bad {p ps} : Row S s vs p none → Rows S s vs (p :: ps) none

/-- What is executed. -/
inductive Code (V : Type)
  | stmt (s : Stmt)
  | stmts (ss : Stmts)
  | body (b : Body)
  | els (e : Else)
  | cases (vs : List V) (cs : Cases)
  | each (x : Nat) (vs : List V) (b : Body)
  | rep (neg : Bool) (c : Nat) (b : Body)

/-- Execution, in a loop or not. -/
inductive Run {σ V : Type} (S : Sem σ V) : Bool → Code V → σ → Res σ → Prop
  -- One after another.
  | nil {l s} : Run S l (.stmts .nil) s (.ok s)
  | cons {l x xs s s' r} : Run S l (.stmt x) s (.ok s') → Run S l (.stmts xs) s' r →
      Run S l (.stmts (.cons x xs)) s r
  | stop {l x xs s r} : Run S l (.stmt x) s r → (∀ s', r ≠ .ok s') →
      Run S l (.stmts (.cons x xs)) s r
  | line {l x s r} : Run S l (.stmt x) s r → Run S l (.body (.line x)) s r
  | block {l xs s r} : Run S l (.stmts xs) s r → Run S l (.body (.block xs)) s r
  -- Other things.
  | text {l n s} : Run S l (.stmt (.text n)) s (.of (S.text n s))
  | rule {l n c s} : Run S l (.stmt (.rule n c)) s (.of (S.recipe n c s))
  -- Conditions.
  | iteBad {l neg c b e s} : S.cond c s = none → Run S l (.stmt (.ite neg c b e)) s (.err s)
  | iteTrue {l neg c b e s r} : S.cond c s = some (!neg) → Run S l (.body b) s r →
      Run S l (.stmt (.ite neg c b e)) s r
  | iteFalse {l neg c b e s r} : S.cond c s = some neg → Run S l (.els e) s r →
      Run S l (.stmt (.ite neg c b e)) s r
  | none {l s} : Run S l (.els .none) s (.ok s)
  | elifBad {l neg c b e s} : S.cond c s = none → Run S l (.els (.elif neg c b e)) s (.err s)
  | elifTrue {l neg c b e s r} : S.cond c s = some (!neg) → Run S l (.body b) s r →
      Run S l (.els (.elif neg c b e)) s r
  | elifFalse {l neg c b e s r} : S.cond c s = some neg → Run S l (.els e) s r →
      Run S l (.els (.elif neg c b e)) s r
  | els {l b s r} : Run S l (.body b) s r → Run S l (.els (.els b)) s r
  -- Switches.
  | switchBad {l e cs s} : S.vals e s = none → Run S l (.stmt (.switch e cs)) s (.err s)
  | switch {l e cs s vs r} : S.vals e s = some vs → Run S l (.cases vs cs) s r →
      Run S l (.stmt (.switch e cs)) s r
  | noCase {l vs s} : Run S l (.cases vs .nil) s (.ok s)
  | caseBad {l vs p ps b cs s} : Rows S s vs (p :: ps) none →
      Run S l (.cases vs (.case_ p ps b cs)) s (.err s)
  | caseHit {l vs p ps b cs s r} : Rows S s vs (p :: ps) (some true) → Run S l (.body b) s r →
      Run S l (.cases vs (.case_ p ps b cs)) s r
  | caseMiss {l vs p ps b cs s r} : Rows S s vs (p :: ps) (some false) →
      Run S l (.cases vs cs) s r → Run S l (.cases vs (.case_ p ps b cs)) s r
  | dfltBad {l vs ps b s} : Rows S s vs ps none → Run S l (.cases vs (.dflt ps b)) s (.err s)
  | dflt {l vs ps b s h r} : Rows S s vs ps (some h) → Run S l (.body b) s r →
      Run S l (.cases vs (.dflt ps b)) s r
  -- Loops.
  | forBad {l x v b s} : S.items v s = none → Run S l (.stmt (.for_ x v b)) s (.err s)
  | for_ {l x v b s vs r} : S.items v s = some vs → Run S l (.each x vs b) (S.declare x s) r →
      Run S l (.stmt (.for_ x v b)) s r
  | eachNil {l x b s} : Run S l (.each x [] b) s (.ok s)
  | eachBad {l x v vs b s} : S.set x v s = none → Run S l (.each x (v :: vs) b) s (.err s)
  | eachOk {l x v vs b s s1 s2 r} : S.set x v s = some s1 →
      (Run S true (.body b) s1 (.ok s2)) → Run S l (.each x vs b) s2 r →
      Run S l (.each x (v :: vs) b) s r
  | eachCont {l x v vs b s s1 s2 r} : S.set x v s = some s1 →
      (Run S true (.body b) s1 (.cont s2)) → Run S l (.each x vs b) s2 r →
      Run S l (.each x (v :: vs) b) s r
  | eachBrk {l x v vs b s s1 s2} : S.set x v s = some s1 → Run S true (.body b) s1 (.brk s2) →
      Run S l (.each x (v :: vs) b) s (.ok s2)
  | eachErr {l x v vs b s s1 s2} : S.set x v s = some s1 → Run S true (.body b) s1 (.err s2) →
      Run S l (.each x (v :: vs) b) s (.err s2)
  | while_ {l neg c b s r} : Run S l (.rep neg c b) s r → Run S l (.stmt (.while_ neg c b)) s r
  | repBad {l neg c b s} : S.cond c s = none → Run S l (.rep neg c b) s (.err s)
  | repEnd {l neg c b s} : S.cond c s = some neg → Run S l (.rep neg c b) s (.ok s)
  | repOk {l neg c b s s2 r} : S.cond c s = some (!neg) → Run S true (.body b) s (.ok s2) →
      Run S l (.rep neg c b) s2 r → Run S l (.rep neg c b) s r
  | repCont {l neg c b s s2 r} : S.cond c s = some (!neg) → Run S true (.body b) s (.cont s2) →
      Run S l (.rep neg c b) s2 r → Run S l (.rep neg c b) s r
  | repBrk {l neg c b s s2} : S.cond c s = some (!neg) → Run S true (.body b) s (.brk s2) →
      Run S l (.rep neg c b) s (.ok s2)
  | repErr {l neg c b s s2} : S.cond c s = some (!neg) → Run S true (.body b) s (.err s2) →
      Run S l (.rep neg c b) s (.err s2)
  | brk {s} : Run S true (.stmt .brk) s (.brk s)
  | brkBad {s} : Run S false (.stmt .brk) s (.err s)
  | cont {s} : Run S true (.stmt .cont) s (.cont s)
  | contBad {s} : Run S false (.stmt .cont) s (.err s)
  -- Scopes.
  | dirBad {l d ss s} : S.enter d s = none → Run S l (.stmt (.dir d ss)) s (.err s)
  | dir {l d ss s s1 r} : S.enter d s = some s1 → Run S l (.stmts ss) s1 r →
      Run S l (.stmt (.dir d ss)) s (r.map (S.leave s))

end Verif.Flow
