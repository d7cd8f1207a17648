import Verif.BuildSpec.Spec
/-!
# Build specifications: the model

The parser of build specifications (`parse_buildspec` and
`parse_buildspec_clause` in `libbuild2/parser.cxx`) and the loop over
meta-operations and operations of the driver (`b/b.cxx`).
-/

namespace Verif.BuildSpec

/-- The tokens as this parser sees them: `names` is what one call of
`parse_names ()` gives. Used by `parseParams` (libbuild2/parser.cxx 10450-10463). -/
inductive Tok where
  | names (ns : List Name)
  | lparen
  | rparen
  | comma
deriving DecidableEq, Repr

/-- Used by `addNames` (libbuild2/parser.cxx 10541-10578). -/
inductive Err where
  | expectedSpec | noNames | expectedOp | expectedRparen | trailing
  | nestedMeta | qualified | pairStyle | typedBase
  | assertHalf | assertMetas | assertOps
  | unknownMeta | unknownOp
  | fuel
deriving DecidableEq, Repr

/-- `back ()` is changed. Used by `addTarget` (libbuild2/parser.cxx 10571-10576). -/
def updLast {α : Type} (f : α → α) : List α → List α
  | [] => []
  | [a] => [f a]
  | a :: b :: as => a :: updLast f (b :: as)

/-- libbuild2/parser.cxx 10378-10396 `opname`. -/
def opname (n : Name) : Bool :=
  if n.pair ≠ none ∨ ¬ (n.proj = none ∧ n.type = "" ∧ n.dir = "") ∨ n.value = "" then false
  else
    match n.value.toList with
    | [] => false
    | c :: cs => !(c ≠ '-' && !c.isAlpha) && cs.all fun c => !(c ≠ '-' && !c.isAlphanum)

/-- libbuild2/parser.cxx 10520-10521, 10536-10537: the last one is the
default meta-operation. -/
def ensureMeta (bs : List MetaSpec) : List MetaSpec :=
  match bs.getLast? with
  | none => bs ++ [⟨"", [], []⟩]
  | some m => if m.name ≠ "" then bs ++ [⟨"", [], []⟩] else bs

/-- libbuild2/parser.cxx 10571-10576: a target is added to the last
operation if it is the default one and to a new one otherwise. -/
def addTarget (os : List OpSpec) (t : Target) : List OpSpec :=
  let os :=
    match os.getLast? with
    | none => os ++ [⟨"", [], []⟩]
    | some o => if o.name ≠ "" then os ++ [⟨"", [], []⟩] else os
  updLast (fun o => { o with targets := o.targets ++ [t] }) os

/-- libbuild2/parser.cxx 10541-10578: the loop over the names. `join` is the
combination of a directory with a name. -/
def addNames (join : String → String → String) (os : List OpSpec) :
    List Name → Except Err (List OpSpec)
  | [] => .ok os
  | n :: ns =>
    if n.proj ≠ none then .error .qualified
    else if opname n then addNames join (os ++ [⟨n.value, [], []⟩]) ns
    else
      match n.pair with
      | none => addNames join (addTarget os ⟨"", n⟩) ns
      | some c =>
        if c ≠ '@' then .error .pairStyle
        else if n.type ≠ "" then .error .typedBase
        else
          match ns with
          | [] => .error .assertHalf
          | m :: ns =>
            addNames join
              (addTarget os ⟨if n.value = "" then n.dir else join n.dir n.value, m⟩) ns

/-- libbuild2/parser.cxx 10531-10579: targets. -/
def addAll (join : String → String → String) (bs : List MetaSpec) (ns : List Name) :
    Except Err (List MetaSpec) := do
  let bs := ensureMeta bs
  let os ← addNames join ((bs.getLast?.map (·.ops)).getD []) ns
  .ok (updLast (fun m => { m with ops := os }) bs)

/-- libbuild2/parser.cxx 10470-10530: the nested specification is merged. -/
def merge (bs : List MetaSpec) (ns : List Name) (nbs : List MetaSpec) (params : List Val) :
    Except Err (List MetaSpec) :=
  if nbs.any fun m => m.name ≠ "" then .error .nestedMeta
  else
    match nbs with
    | [nmo] =>
      if nmo.ops.any fun o => o.name ≠ "" then
        .ok (bs ++ ns.map fun n => { nmo with name := n.value, params := params })
      else
        match nmo.ops with
        | [nos] =>
          let add := ns.map fun n => { nos with name := n.value, params := params }
          .ok (updLast (fun m => { m with ops := m.ops ++ add }) (ensureMeta bs))
        | _ => .error .assertOps
    | _ => .error .assertMetas

/-- libbuild2/parser.cxx 10450-10463: the parameters. -/
def parseParams (ps : List Val) : List Tok → List Val × List Tok
  | .comma :: .rparen :: ts => (ps ++ [[]], .rparen :: ts)
  | .comma :: .names ns :: ts => parseParams (ps ++ [ns]) ts
  | ts => (ps, ts)

/-- libbuild2/parser.cxx 10397-10584 `parse_buildspec_clause`: the loop. A
comma that is followed by neither a name nor a closing parenthesis is left
(`parse_value ()` fails). -/
def clause (join : String → String → String) :
    Nat → Bool → List MetaSpec → List Tok → Except Err (List MetaSpec × List Tok)
  | 0, _, _, _ => .error .fuel
  | f + 1, first, bs, toks =>
    match toks with
    | .names ns :: ts =>
      if ns = [] then .error .noNames
      else
        match ts with
        | .lparen :: ts =>
          if ¬ ns.all opname then .error .expectedOp
          else
            match clause join f true [] ts with
            | .error e => .error e
            | .ok (nbs, ts) =>
              match parseParams [] ts with
              | (ps, .rparen :: ts) =>
                match merge bs ns nbs ps with
                | .error e => .error e
                | .ok bs => clause join f false bs ts
              | _ => .error .expectedRparen
        | _ =>
          match addAll join bs ns with
          | .error e => .error e
          | .ok bs => clause join f false bs ts
    | _ => if first then .error .expectedSpec else .ok (bs, toks)

/-- libbuild2/parser.cxx 10339-10377 `parse_buildspec`. -/
def parse (join : String → String → String) (toks : List Tok) : Except Err (List MetaSpec) :=
  if toks = [] then .ok []
  else
    match clause join (toks.length + 1) true [] toks with
    | .error e => .error e
    | .ok (bs, []) => .ok bs
    | .ok (_, _ :: _) => .error .trailing

/-! ## The driver -/

/-- How the loop over the operations ends. Used by `opLoop` (b/b.cxx 972-1933). -/
inductive End where
  | all
  | lifted (os : OpSpec) (skip : Nat)
  | failed (e : Err)
deriving DecidableEq, Repr

/-- b/b.cxx 972-1933: the loop over the operations of a meta-operation with
this name. `isLifted` if it is for a lifted operation, `pos` is the position
of the operation, and `mid` is whether the batch has been started. Targets
are assumed to agree on what is supported, so only the first one matters;
what an operation does (with its pre-operation and post-operation) is one
event. -/
def opLoop (k : Known) (mname : String) (mparams : List Val) (isLifted : Bool) :
    Nat → Bool → List OpSpec → List Event × Bool × End
  | _, mid, [] => ([], mid, .all)
  | pos, mid, os :: rest =>
    let oparams := if isLifted then [] else os.params
    let oname := if isLifted then "" else os.name
    if oname ≠ "" ∧ k.early oname then -- Early lift.
      if mname ≠ "" then ([], mid, .failed .nestedMeta)
      else ([], mid, .lifted os (pos + 1))
    else if oname ≠ "" ∧ k.late oname then -- Lift after bootstrap.
      if mname ≠ "" then ([], mid, .failed .nestedMeta)
      else ([], mid, .lifted os (pos + 1))
    else if mname ≠ "" ∧ ¬ k.late mname then ([], mid, .failed .unknownMeta)
    else if oname ≠ "" ∧ ¬ k.op oname then ([], mid, .failed .unknownOp)
    else
      let m := if mname = "" then "perform" else mname
      let start := if mid then [] else [.begin m mparams]
      let run := .run (if oname = "" then "default" else oname) oparams (dflt os.targets)
      let r := opLoop k mname mparams false (pos + 1) true rest
      (start ++ run :: r.1, r.2)

/-- b/b.cxx 896-1939: the loop over the meta-operations, with `lifted` and
`skip`. A new context is created if something was executed in the current
one. Pre-processing of operations by meta-operations (for example, by
create) is left out. -/
def metaLoop (k : Known) :
    Nat → List MetaSpec → Option OpSpec → Nat → Bool → List Event × Option Err
  | 0, _, _, _, _ => ([], some .fuel)
  | _ + 1, [], _, _, _ => ([], none)
  | f + 1, ms :: rest, lifted, skip, dirty =>
    let os := if ms.ops = [] then [⟨"", [], []⟩] else ms.ops
    let opspecs := match lifted with
      | none => os.drop skip
      | some o => [o]
    let skip' := match lifted with
      | none => 0
      | some _ => skip
    if lifted = none ∧ opspecs = [] then metaLoop k f rest none 0 dirty
    else
      let ctx := if dirty then [Event.newContext] else []
      let mparams := match lifted with
        | none => ms.params
        | some o => o.params
      let mname := match lifted with
        | none => ms.name
        | some o => o.name
      let r := opLoop k mname mparams lifted.isSome skip false opspecs
      let fin := if r.2.1 then [Event.done (if mname = "" then "perform" else mname)] else []
      match r.2.2 with
      | .failed e => (ctx ++ r.1, some e)
      | .lifted o s =>
        let q := metaLoop k f (ms :: rest) (some o) s r.2.1
        (ctx ++ r.1 ++ fin ++ q.1, q.2)
      | .all =>
        let q := if skip' = 0 then metaLoop k f rest none 0 r.2.1
          else metaLoop k f (ms :: rest) none skip' r.2.1
        (ctx ++ r.1 ++ fin ++ q.1, q.2)

/-- How many steps there can be at most. Used by `drive` (b/b.cxx 896-1939). -/
def steps : List MetaSpec → Nat
  | [] => 1
  | m :: ms => 2 * m.ops.length + 3 + steps ms

/-- b/b.cxx 896-1939. -/
def drive (k : Known) (bs : List MetaSpec) : List Event × Option Err :=
  metaLoop k (steps bs) bs none 0 false

end Verif.BuildSpec
