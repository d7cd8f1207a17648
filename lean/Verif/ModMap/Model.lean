import Verif.ModMap.Spec

/-!
# Modules and their binary interfaces: model of the code

libbuild2/cc/compile-rule.cxx, `search_modules` and what it is called with.

Simplifications: characters are ASCII and the directory separator is `/`; arithmetic on
indexes is on natural numbers (they do not go below zero). Libraries are given by the modules
in them that have a name, in the order in which `find` (5972-6052) considers them.
-/

namespace Verif.ModMap

/-- compile-rule.cxx:5633-5640 `char_sep`. -/
def charSep (c : Char) : Bool := c == '_' || c == '-' || c == '.' || c == '/'

/-- compile-rule.cxx:5642-5647 `case_sep`, where the first one can be `\0`. A letter is the same
after `ucase` exactly if it is an upper case one. -/
def caseSep (c1 : Option Char) (c2 : Char) : Bool :=
  match c1 with
  | some c1 => c1.isAlpha && c2.isAlpha && (c1.isUpper != c2.isUpper)
  | none => false

/-- compile-rule.cxx:5649 `mod_sep`. -/
def modSep (c : Char) : Bool := c == '.' || c == ':'

/-- Where the scan stops: what is left of the names (reversed), `fsep`, `msep` and `match`.
Used by `scan` (compile-rule.cxx:5664-5718). -/
structure Stop where
  f     : Str
  m     : Str
  fsep  : Bool
  msep  : Bool
  found : Bool

/-- compile-rule.cxx:5664-5718: the loop, on reversed names, with the previous characters. -/
def scan (fp mp : Option Char) (fsep msep found : Bool) : (f m : Str) → Stop
  | [], m => ⟨[], m, fsep, msep, found⟩
  | f, [] => ⟨f, [], fsep, msep, found⟩
  | fc :: f, mc :: m =>
    if fc.toLower = mc.toLower then scan (some fc) (some mc) false false found f m
    else
      let fs := charSep fc
      let ms := modSep mc || mc == '_'
      if fs && ms then scan (some fc) (some mc) true true (found || modSep mc) f m
      else if fs || ms then
        if fs then
          if caseSep mp mc then
            scan (some fc) (some mc) true msep (found || modSep mc) f (mc :: m)
          else ⟨fc :: f, mc :: m, fsep, msep, found⟩
        else
          if caseSep fp fc then
            scan (some fc) (some mc) fsep true (found || modSep mc) (fc :: f) m
          else ⟨fc :: f, mc :: m, fsep, msep, found⟩
      else ⟨fc :: f, mc :: m, fsep, msep, found⟩
termination_by f m => f.length + m.length

/-- compile-rule.cxx:5741-5751: what is left of the name, for a partition. The loop goes on to
the next dot. -/
def short (m : Str) : Str := m.dropWhile (· ≠ '.')

/-- compile-rule.cxx:5720-5726: whether this is a match. -/
def hit (s : Stop) : Bool :=
  s.found || s.m.isEmpty || (s.f.isEmpty && s.m.head?.any modSep)

/-- compile-rule.cxx:5753-5755: what is left of the name of the file. -/
def fileLeft (s : Stop) : Nat := if s.fsep then s.f.length + 1 else s.f.length

/-- compile-rule.cxx:5741-5756: what is left of the name of the module. -/
def nameLeft (s : Stop) : Nat :=
  if s.f.isEmpty && s.m.head? == some ':' then
    let rest := short s.m.tail
    if rest.isEmpty then rest.length + 1 else rest.length + 2
  else if s.msep then s.m.length + 1
  else s.m.length

/-- compile-rule.cxx:5764-5773: the strength of separation. -/
def strength (file : Str) (fi : Nat) : Nat :=
  if fi = 0 then 9
  else
    match file[fi - 1]? with
    | some c =>
      if charSep c then (if c = '/' then 8 else 7)
      else if fi ≠ file.length ∧ caseSep file[fi]? c then 7
      else 0
    | none => 0

/-- compile-rule.cxx:5625-5780 `match`. -/
def score (file name : Str) : Nat :=
  let s := scan none none false false false file.reverse name.reverse
  if hit s then
    ((name.length - nameLeft s) * 100000 + strength file (fileLeft s) * 10000 +
      (2 ^ 64 + 9999 - fileLeft s)) % 2 ^ 64
  else 0

/-- compile-rule.cxx:5606-5623 `match_max`. -/
def matchMax (name : Str) : Nat := name.length * 100000 + 99999

/-- compile-rule.cxx:5530-5537 `std_module_name`. -/
def stdName (n : Str) : Bool :=
  n.take 3 == "std".toList && (n.length == 3 || n[3]? == some '.')

/-- An import with its score and what it is resolved to: `imports` and `pts`.
Used by `checkFuzzy` (compile-rule.cxx:5908-5931). -/
structure Slot where
  name     : Str
  exported : Bool
  score    : Nat
  target   : Option Nat

/-- compile-rule.cxx:5908-5931 `check_fuzzy`. -/
def checkFuzzy (b : Nat) (f : Str) (is : List Slot) : List Slot :=
  is.map fun i =>
    if stdName i.name then i
    else if i.score > matchMax i.name then i
    else if score f i.name > i.score then { i with target := some b, score := score f i.name }
    else i

/-- compile-rule.cxx:5936-5970 `check_exact`, with `r` being whether it has been resolved. The
result is `none` if the assertion fails. Otherwise, it is also whether it is done. -/
def checkExact (n : Str) (b : Nat) : (r : Bool) → List Slot → Option (List Slot × Bool)
  | _, [] => some ([], true)
  | r, i :: is =>
    if i.score > matchMax i.name then
      match checkExact n b r is with
      | some (is, d) => some (i :: is, d)
      | none => none
    else if r = false then
      if n = i.name then
        match checkExact n b true is with
        | some (is, d) => some ({ i with target := some b, score := matchMax i.name + 1 } :: is, d)
        | none => none
      else
        match checkExact n b false is with
        | some (is, _) => some (i :: is, false)
        | none => none
    else if n = i.name then none
    else
      match checkExact n b true is with
      | some (is, _) => some (i :: is, false)
      | none => none

/-- What goes wrong. Used by `stdResolve` (compile-rule.cxx:6054-6180). -/
inductive Err
  | assert | std | unresolved | guess | cycle
  deriving DecidableEq

/-- compile-rule.cxx:6054-6180: modules of the standard library. -/
def stdResolve (std : List (Str × Nat)) : List Slot → Except Err (List Slot × Bool)
  | [] => .ok ([], true)
  | i :: is =>
    if stdName i.name then
      match std.find? fun s => s.1 = i.name with
      | none => .error .std
      | some s =>
        match stdResolve std is with
        | .ok (is, d) =>
          .ok ({ i with target := some s.2, score := matchMax i.name + 1 } :: is, d)
        | .error e => .error e
    else
      match stdResolve std is with
      | .ok (is, _) => .ok (i :: is, false)
      | .error e => .error e

/-- compile-rule.cxx:6188-6303: the prerequisites. -/
def poolResolve : List Entry → List Slot → Except Err (List Slot × Bool)
  | [], is => .ok (is, false)
  | .known n b :: es, is =>
    match checkExact n b false is with
    | none => .error .assert
    | some (is, true) => .ok (is, true)
    | some (is, false) => poolResolve es is
  | .file f b :: es, is => poolResolve es (checkFuzzy b f is)

/-- compile-rule.cxx:6054-6347: all of the resolution, with unresolved modules diagnosed. -/
def resolve (std : List (Str × Nat)) (pool : List Entry) (is : List Slot) :
    Except Err (List Slot) :=
  match stdResolve std is with
  | .error e => .error e
  | .ok (is, true) => .ok is
  | .ok (is, false) =>
    match poolResolve pool is with
    | .error e => .error e
    | .ok (is, true) => .ok is
    | .ok (is, false) =>
      if is.any fun i => i.target.isNone && !stdName i.name then .error .unresolved else .ok is

/-- compile-rule.cxx:5430-5439 and 5878-5883: imports, including the implied one, with those
that are re-exported at the end. Note that `sort` does not say in which order the others are. -/
def importsOf (u : Unit) : List Slot :=
  let is := (if u.impl then (u.name.toList.map fun n => (n, false)) else []) ++ u.imports
  let is := is.filter (fun i => !i.2) ++ is.filter (·.2)
  is.map fun i => ⟨i.1, i.2, 0, none⟩

/-- `cc.module_name` of a binary interface: not set for an implementation unit nor if the
information could not be extracted (5510-5527). -/
def bmiName (w : World) (b : Nat) : Option Str :=
  if (w.unit b).impl then none else (w.unit b).name

/-- compile-rule.cxx:6418-6455: copying what a binary interface needs, unless there is one for
this module already. -/
def copy (w : World) : List (Str × Nat) → List (Str × Nat) → List (Str × Nat)
  | l, [] => l
  | l, (_, b) :: bs =>
    match bmiName w b with
    | some n => if l.any fun x => x.1 = n then copy w l bs else copy w (l ++ [(n, b)]) bs
    | none => copy w l bs

/-- compile-rule.cxx:6358-6457: verify the guesses and copy. `get` is what the binary interface
needs. -/
def post (w : World) (get : Nat → List (Str × Nat)) : List Slot → List (Str × Nat) →
    Except Err (List (Str × Nat))
  | [], l => .ok l
  | i :: is, l =>
    match i.target with
    | none => post w get is l
    | some b =>
      if i.score ≤ matchMax i.name ∧ (bmiName w b).any (· ≠ i.name) then .error .guess
      else post w get is (copy w l (get b))

/-- The first of the errors (6351 `match_members`).
Used by `modules` (compile-rule.cxx:5542-6470). -/
def failed (f : Nat → Except Err (List (Str × Nat))) : List Nat → Option Err
  | [] => none
  | b :: bs =>
    match f b with
    | .ok _ => failed f bs
    | .error e => some e

/-- The list, if there is one. Used by `modules` (compile-rule.cxx:5542-6470). -/
def value (e : Except Err (List (Str × Nat))) : List (Str × Nat) :=
  match e with
  | .ok l => l
  | .error _ => []

/-- compile-rule.cxx:5542-6470 `search_modules`: the names of modules and the binary
interfaces, direct and indirect, as passed to the compiler (5484-5503, 7105-7165). The first
argument bounds the depth; imports that never end are a cycle of dependencies. -/
def modules (w : World) : Nat → Nat → Except Err (List (Str × Nat))
  | 0, _ => .error .cycle
  | k + 1, t =>
    match resolve w.std (w.unit t).pool (importsOf (w.unit t)) with
    | .error e => .error e
    | .ok is =>
      match failed (modules w k) (is.filterMap (·.target)) with
      | some e => .error e
      | none =>
        post w (fun b => value (modules w k b)) is
          (is.filterMap fun i => i.target.map fun b => (i.name, b))

end Verif.ModMap
