/-!
# Build specifications: the specification

What a build specification is, what it spells, and what is executed for it.
-/

namespace Verif.BuildSpec

/-- A name; `pair` if it is the first half of a pair. -/
structure Name where
  proj : Option String
  dir : String
  type : String
  value : String
  pair : Option Char
deriving DecidableEq, Repr

/-- A parameter of an operation or meta-operation. -/
abbrev Val := List Name

/-- A target with its source directory, if given. -/
structure Target where
  srcBase : String
  name : Name
deriving DecidableEq, Repr

/-- An operation on targets; no name for the default operation and no
targets for the default target. -/
structure OpSpec where
  name : String
  params : List Val
  targets : List Target
deriving DecidableEq, Repr

/-- A meta-operation on operations; no name for the default one. -/
structure MetaSpec where
  name : String
  params : List Val
  ops : List OpSpec
deriving DecidableEq, Repr

/-- Like an identifier but with dashes. -/
def isIdent (s : String) : Bool :=
  match s.toList with
  | [] => false
  | c :: cs => (c = '-' ∨ c.isAlpha) ∧ cs.all fun c => c = '-' ∨ c.isAlphanum

/-- The name of an operation or meta-operation. -/
def isOp (n : Name) : Bool :=
  n.pair = none ∧ n.proj = none ∧ n.dir = "" ∧ n.type = "" ∧ isIdent n.value

/-- What is written: names, and names applied to what is in parentheses,
with parameters after commas. `omitted` if nothing follows the last
comma. -/
inductive Written where
  | nil
  | names (ns : List Name) (rest : Written)
  | apply (ns : List Name) (body : Written) (params : List Val) (omitted : Bool)
      (rest : Written)

/-- What it consists of. -/
inductive Chunk where
  | «meta» (m : MetaSpec)
  | op (o : OpSpec)
  | target (t : Target)
deriving DecidableEq, Repr

/-- Names outside of parentheses: operations, targets, and pairs of source
directories and targets. -/
def named (join : String → String → String) : List Name → Option (List Chunk)
  | [] => some []
  | n :: ns =>
    if n.proj ≠ none then none
    else if isOp n then do some (.op ⟨n.value, [], []⟩ :: (← named join ns))
    else
      match n.pair with
      | none => do some (.target ⟨"", n⟩ :: (← named join ns))
      | some c =>
        if c ≠ '@' ∨ n.type ≠ "" then none
        else
          match ns with
          | [] => none
          | m :: ns =>
            do some (.target ⟨if n.value = "" then n.dir else join n.dir n.value, m⟩ ::
              (← named join ns))

def Chunk.isMeta : Chunk → Bool
  | .meta _ => true
  | _ => false

def Chunk.isOp : Chunk → Bool
  | .op _ => true
  | _ => false

/-- The operations: adjacent targets are for one default operation. -/
def ops : List Chunk → List OpSpec
  | [] => []
  | .meta _ :: cs => ops cs
  | .op o :: cs => o :: ops cs
  | .target t :: cs =>
    match cs, ops cs with
    | .target _ :: _, o :: os => { o with targets := t :: o.targets } :: os
    | _, os => ⟨"", [], [t]⟩ :: os

/-- The leading operations and targets, and the rest. -/
def leading : List Chunk → List Chunk × List Chunk
  | [] => ([], [])
  | .meta m :: cs => ([], .meta m :: cs)
  | c :: cs => (c :: (leading cs).1, (leading cs).2)

theorem leading_length (cs : List Chunk) : (leading cs).2.length ≤ cs.length := by
  induction cs with
  | nil => simp [leading]
  | cons c cs ih => cases c <;> simp [leading] <;> omega

/-- The meta-operations: adjacent operations and targets are for one default
meta-operation. -/
def metas : List Chunk → List MetaSpec
  | [] => []
  | .meta m :: cs => m :: metas cs
  | c :: cs => ⟨"", [], ops (c :: (leading cs).1)⟩ :: metas (leading cs).2
termination_by cs => cs.length
decreasing_by
  · simp
  · have := leading_length cs
    simp
    omega

/-- The targets. -/
def targets : List Chunk → List Target
  | [] => []
  | .target t :: cs => t :: targets cs
  | _ :: cs => targets cs

/-- What a build specification spells, if it is valid. Names in front of
parentheses are meta-operations if there are operations inside and
operations otherwise, and what is inside is subject to every one of them. -/
def spells (join : String → String → String) : Written → Option (List Chunk)
  | .nil => some []
  | .names ns rest => do
    if ns = [] then none else some ((← named join ns) ++ (← spells join rest))
  | .apply ns body params omitted rest => do
    let inside ← spells join body
    let after ← spells join rest
    let ps := params ++ (if omitted then [[]] else [])
    if ns = [] ∨ inside = [] ∨ ¬ ns.all isOp ∨ inside.any Chunk.isMeta then none
    else if inside.any Chunk.isOp then
      some (ns.map (fun n => .meta ⟨n.value, ps, ops inside⟩) ++ after)
    else
      some (ns.map (fun n => .op ⟨n.value, ps, targets inside⟩) ++ after)

/-! ## Execution -/

/-- What is observed. -/
inductive Event where
  | newContext
  | begin («meta» : String) (params : List Val)
  | run (op : String) (params : List Val) (targets : List Target)
  | done («meta» : String)
deriving DecidableEq, Repr

/-- What is known: the built-in meta-operations, all the meta-operations,
and the operations. -/
structure Known where
  early : String → Bool
  late : String → Bool
  op : String → Bool

/-- A meta-operation with its operations. -/
structure Batch where
  name : String
  params : List Val
  ops : List OpSpec
deriving DecidableEq, Repr

/-- The operations of the default meta-operation: those that are
meta-operations are on their own. -/
def split (k : Known) : List OpSpec → List Batch
  | [] => []
  | o :: os =>
    if o.name ≠ "" ∧ k.late o.name then ⟨o.name, o.params, [⟨"", [], o.targets⟩]⟩ :: split k os
    else
      match os, split k os with
      | p :: _, b :: bs =>
        if p.name ≠ "" ∧ k.late p.name then ⟨"", [], [o]⟩ :: b :: bs
        else ⟨"", [], o :: b.ops⟩ :: bs
      | _, bs => ⟨"", [], [o]⟩ :: bs

/-- The batches of a meta-operation. -/
def batches (k : Known) (m : MetaSpec) : List Batch :=
  let os := if m.ops = [] then [⟨"", [], []⟩] else m.ops
  if m.name = "" then
    (split k os).map fun b => if b.name = "" then { b with params := m.params } else b
  else [⟨m.name, m.params, os⟩]

/-- No targets stand for the default one. -/
def dflt (ts : List Target) : List Target :=
  if ts = [] then [⟨"", ⟨none, "", "dir", "", none⟩⟩] else ts

/-- The events of a batch. -/
def Batch.events (b : Batch) : List Event :=
  let m := if b.name = "" then "perform" else b.name
  .begin m b.params ::
  b.ops.map (fun o => .run (if o.name = "" then "default" else o.name) o.params (dflt o.targets)) ++
  [.done m]

/-- The events of batches: each in a new context. -/
def events : List Batch → List Event
  | [] => []
  | [b] => b.events
  | b :: bs => b.events ++ .newContext :: events bs

/-- The names are known, and there are no meta-operations in
meta-operations. -/
def MetaSpec.Valid (k : Known) (m : MetaSpec) : Prop :=
  (m.name = "" ∨ k.late m.name = true) ∧
  ∀ o ∈ m.ops, o.name = "" ∨
    (if k.late o.name then m.name = "" else k.op o.name = true)

end Verif.BuildSpec
