import Verif.NameFilter.Spec

/-!
# Filtering of names by target type: model

`libbuild2/functions-name.cxx` 23-32 (`to_target_type`), 94-122 (`is_a`), 124-184 (`filter`),
`libbuild2/target-type.hxx` 132-140 (`is_a`), `libbuild2/scope.cxx` 692-770 (`find_target_type`).

Not modelled: calls out of scope; how the type of an untyped name is found (`Env.guess`).
-/

namespace Verif.NameFilter

/-- `target_type::is_a` (target-type.hxx 132-140). -/
def isA (t u : Ty) : Bool :=
  match t with
  | .root i => i == u.id
  | .derived i b => if i == u.id then true else isA b u

/-- The calls of `fail` (functions-name.cxx 27, 103, 117, 137, 140, 144, 168; scope.cxx 752, 761); `half` for
a list that ends with the first half of a pair, which is undefined (functions-name.cxx 161). -/
inductive Err
  | pair
  | unknown
  | invalid
  | typeName
  | half
  deriving DecidableEq, Repr

/-- `name::directory` (name.hxx 105-110). -/
def isDir (n : Nm) : Bool := !n.proj && n.type == "" && n.value == "" && n.dir != ""

/-- `scope::find_target_type` (scope.cxx 692-770): the target type, or none if it is unknown. -/
def findTargetType (env : Env) (n : Nm) : Except Err (Option Ty) :=
  if n.type ≠ "" then
    match env.find n.type with
    | none => .ok none
    | some t => if env.bad t n.value then .error .invalid else .ok (some t)
  else
    match env.guess n with
    | none => .error .invalid
    | some t => .ok (some t)

/-- `to_target_type` (functions-name.cxx 23-32). -/
def toTargetType (env : Env) (n o : Nm) : Except Err (Option Ty) :=
  if n.pair && !isDir o then .error .pair else findTargetType env n

/-- `$is_a()` (functions-name.cxx 94-122). -/
def nameIsA (env : Env) (n o : Nm) (t : String) : Except Err Bool :=
  match env.find t with
  | none => .error .unknown
  | some tt =>
    match toTargetType env n o with
    | .error e => .error e
    | .ok none => if n.proj then .ok false else .error .unknown
    | .ok (some u) => .ok (isA u tt)

/-- The loop over the names of target types (functions-name.cxx 131-147). -/
def typesLoop (env : Env) : List Nm → Except Err (List Ty)
  | [] => .ok []
  | n :: ns =>
    if !(!n.proj && n.type == "" && n.dir == "") then .error .typeName
    else if n.pair then .error .typeName
    else
      match env.find n.value with
      | none => .error .unknown
      | some t =>
        match typesLoop env ns with
        | .error e => .error e
        | .ok ts => .ok (t :: ts)

/-- The copy of the name (functions-name.cxx 159): of a typed one just the type. -/
def copy (n : Nm) : Nm := if n.type ≠ "" then { type := n.type } else n

/-- Whether a name is kept (functions-name.cxx 159-181). -/
def keep (env : Env) (tts : List Ty) (out : Bool) (n o : Nm) : Except Err Bool :=
  match toTargetType env (copy n) o with
  | .error e => .error e
  | .ok none => if !n.proj then .error .unknown else .ok out
  | .ok (some t) => .ok (tts.any (isA t) != out)

/-- The loop over names (functions-name.cxx 149-183). -/
def filterLoop (env : Env) (tts : List Ty) (out : Bool) : List Nm → Except Err (List Nm)
  | [] => .ok []
  | n :: ns =>
    if n.pair then
      match ns with
      | [] => .error .half
      | o :: ns =>
        match keep env tts out n o with
        | .error e => .error e
        | .ok b =>
          match filterLoop env tts out ns with
          | .error e => .error e
          | .ok r => .ok (if b then n :: o :: r else r)
    else
      match keep env tts out n {} with
      | .error e => .error e
      | .ok b =>
        match filterLoop env tts out ns with
        | .error e => .error e
        | .ok r => .ok (if b then n :: r else r)

/-- `$filter()`, or `$filter_out()` if `out` (functions-name.cxx 124-184). -/
def filter (env : Env) (ns ts : List Nm) (out : Bool) : Except Err (List Nm) :=
  match typesLoop env ts with
  | .error e => .error e
  | .ok tts => filterLoop env tts out ns

end Verif.NameFilter
