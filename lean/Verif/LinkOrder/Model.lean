import Verif.LinkOrder.Spec

/-!
# Link order of libraries: model

Models common::process_libraries_impl() (libbuild2/cc/common.cxx:133-812) as called by
link_rule::append_libraries() (libbuild2/cc/link-rule.cxx:2462-2830) and appended_libraries
(libbuild2/cc/link-rule.hxx:82-207).

Simplifications. Linking an executable or a shared library (the link type is not static library).
Libraries are resolved to the targets, which are up to date and compatible in for-install. A value
that is null is empty. Paths are those that are passed (relative, the import library on Windows). The
check whether a library renders the target out of date is left out. The sizes are less than 2^64.
-/

namespace Verif.LinkOrder

/-- The result: success, a dependency cycle is diagnosed, a range that is not valid is rotated, or the
recursion depth is exceeded (which is not in the code).
Used by `hoist` (link-rule.hxx:177-206). -/
inductive Res (α : Type) where
  | ok (a : α)
  | cycle
  | ub
  | deep

/-- appended_library::end: npos from which something has been subtracted, or a position.
Used by `Ent` (link-rule.hxx:82-96). -/
inductive End where
  | npos (minus : Nat)
  | at (k : Nat)
deriving DecidableEq

/-- appended_library (link-rule.hxx:82-96). The key is a library target (as if not whole) or up to two
words. -/
structure Ent (n : Nat) where
  key : Dep n
  b : Nat
  e : End
deriving DecidableEq

/-- What is hashed. Used by `hoist` (link-rule.hxx:177-206). -/
inductive Hashed where
  | str (s : Str)
  | file (whole : Bool) (path : Str)
deriving DecidableEq

/-- The appended libraries, the arguments and the hash.
Used by `hoist` (link-rule.hxx:177-206). -/
structure St (n : Nat) where
  ls : List (Ent n)
  args : List Str
  cs : List Hashed

variable {n : Nat}

/-- appended_libraries::find() (link-rule.hxx:103-137). -/
def find (ls : List (Ent n)) (d : Dep n) : Option (Ent n) := ls.find? fun x => x.key == d

/-- appended_libraries::append() (link-rule.hxx:142-172). -/
def append (ls : List (Ent n)) (d : Dep n) (b : Nat) : List (Ent n) × Ent n :=
  match find ls d with
  | some x => (ls, x)
  | none => (ls ++ [⟨d, b, .npos 0⟩], ⟨d, b, .npos 0⟩)

/-- The subtraction of n from end (link-rule.hxx:199). -/
def End.sub (e : End) (k : Nat) : End :=
  match e with
  | .npos m => .npos (m + k)
  | .at j => .at (j - k)

/-- Change the entry. Used by `hoist` (link-rule.hxx:177-206). -/
def update (ls : List (Ent n)) (d : Dep n) (f : Ent n → Ent n) : List (Ent n) :=
  ls.map fun x => if x.key == d then f x else x

/-- appended_libraries::hoist() (link-rule.hxx:177-206). -/
def hoist (s : St n) (x : Ent n) : Res (St n) :=
  match x.e with
  | .npos _ => .ub
  | .at e =>
    if x.b = e then .ok s
    else if e < x.b ∨ s.args.length < e then .ub
    else
      let args := s.args.take x.b ++ s.args.drop e ++ (s.args.take e).drop x.b
      let k := e - x.b
      let ls := s.ls.map fun y => if e ≤ y.b then { y with b := y.b - k, e := y.e.sub k } else y
      .ok { s with
        args := args
        ls := update ls x.key fun y => { y with b := args.length - k, e := .at args.length } }

/-- The opt callback (link-rule.cxx:2776-2821) for a call with exp being true. -/
def opt (s : St n) (i : Fin n) (opts : List Str) : St n :=
  let (ls, x) := append s.ls (.lib i false) s.args.length
  if x.e ≠ .npos 0 then { s with ls := ls }
  else { ls := ls, args := s.args ++ opts, cs := s.cs ++ opts.map .str }

/-- Close (link-rule.cxx:2769-2771). -/
def close (s : St n) (d : Dep n) : St n :=
  { s with ls := update s.ls d fun x => { x with e := .at s.args.length } }

/-- The lib callback (link-rule.cxx:2504-2774) for words. -/
def libWords (s : St n) (c : List Str) : Res (St n) :=
  let add (s : St n) : St n := { s with args := s.args ++ c, cs := s.cs ++ c.map .str }
  if c.length > 2 then .ok (add s)
  else
    let (ls, x) := append s.ls (.words c) s.args.length
    let s := { s with ls := ls }
    if x.e ≠ .npos 0 then hoist s x
    else .ok (close (add s) (.words c))

/-- The arguments for a file (link-rule.cxx:2734-2759). -/
def addFile (p : Tsys) (path : Str) (whole : Bool) : List Str :=
  if whole then
    match p with
    | .msvc => ["/WHOLEARCHIVE:".toList ++ path]
    | .darwin => ["-Wl,-force_load,".toList ++ path]
    | .other => ["-Wl,--whole-archive".toList, path, "-Wl,--no-whole-archive".toList]
  else if path = [] then [] else [path]

/-- The part of the lib callback that adds the library (link-rule.cxx:2588-2767). The chain is without
this library. -/
def libBody (p : Tsys) (g : Libs n) (chain : List (Fin n)) (s : St n) (i : Fin n) (w : Bool) : St n :=
  if (g i).util && chain.any (fun j => !(g j).util) then s
  else if (g i).binless then s
  else { s with args := s.args ++ addFile p (g i).path w, cs := s.cs ++ [.file w (g i).path] }

/-- The lib callback (link-rule.cxx:2504-2774) for a library target; whether to continue. -/
def libTarget (p : Tsys) (g : Libs n) (chain : List (Fin n)) (s : St n) (i : Fin n) (w : Bool) :
    Res (St n × Bool) :=
  if w then .ok (libBody p g chain s i w, true)
  else
    let (ls, x) := append s.ls (.lib i false) s.args.length
    let s := { s with ls := ls }
    if x.e ≠ .npos 0 then
      if (g i).recBinless then .ok (s, false)
      else
        match hoist s x with
        | .ok s => .ok (s, true)
        | .cycle => .cycle
        | .ub => .ub
        | .deep => .deep
    else .ok (close (libBody p g chain s i w) (.lib i false), true)

/-- c_e_libs.defined () || x_e_libs.defined () with impl being true (common.cxx:207-243). -/
def explicit (l : Lib n) : Bool :=
  (l.lang != .unknown && l.cImpl.isSome) || (l.lang == .x && l.xImpl.isSome)

/-- Process options (common.cxx:245-297). -/
def options (s : St n) (l : Lib n) (i : Fin n) : St n :=
  match l.lang with
  | .unknown => s
  | .cc => opt s i l.cOpts
  | .x =>
    if l.static then
      if explicit l then opt (opt s i l.xOpts) i l.cOpts else s
    else opt (opt s i l.xOpts) i l.cOpts

/-- sense_fragment (common.cxx:455-510): the length, with 0 for until the end. -/
def sense (p : Tsys) (s : Str) : Nat :=
  match p with
  | .msvc => if s.head? = some '/' then 0 else 1
  | _ =>
    if s.head? = some '-' then
      if s.tail.head? = some 'l' || s = "-pthread".toList then
        if s.length = 2 then 2 else 1
      else if p = .darwin && s = "-framework".toList then 2
      else 0
    else 1

/-- The words of a fragment (common.cxx:541-548, 703-709): at most this many unless 0 is left. -/
def takeWords : Option Nat → List (Elem n) → List Str
  | _, [] => []
  | some 0, _ => []
  | some (k + 1), .word s :: es => s :: takeWords (some k) es
  | none, .word s :: es => s :: takeWords none es
  | _, .lib _ :: _ => []

/-- proc_intf and proc_impl (common.cxx:512-724) without the processing of what is found. The first
argument is the number of elements at most. -/
def parts (p : Tsys) (g : Libs n) : Nat → List (Elem n) → List (Dep n)
  | 0, _ => []
  | _ + 1, [] => []
  | f + 1, .lib i :: es => .lib i (g i).whole :: parts p g f es
  | f + 1, .word s :: es =>
    let k := if sense p s = 0 then none else some (sense p s)
    let c := takeWords k (.word s :: es)
    .words c :: parts p g f ((.word s :: es).drop c.length)

/-- The parts of an export if it is defined. Used by `deps` (common.cxx:373-424, 726-804). -/
def partsOf (p : Tsys) (g : Libs n) (es : Option (List (Elem n))) : List (Dep n) :=
  match es with
  | none => []
  | some es => parts p g es.length es

/-- What is processed for a library after itself (common.cxx:373-424, 726-804). -/
def deps (p : Tsys) (g : Libs n) (l : Lib n) : List (Dep n) :=
  (if l.static && !explicit l then l.prereqs.map fun q => .lib q.1 q.2 else []) ++
  match l.lang with
  | .unknown => []
  | .cc => if l.static then partsOf p g l.cImpl else partsOf p g l.cIntf
  | .x =>
    if l.static then
      if explicit l then partsOf p g l.cImpl ++ partsOf p g l.xImpl
      else partsOf p g (some (l.cLibs.map .word)) ++ partsOf p g (some (l.xLibs.map .word))
    else partsOf p g l.cIntf ++ partsOf p g l.xIntf

/-- Process what has been found (common.cxx:386-423, 533-688), with duplicates among what has been
seen since `st` left out if this is an interface (common.cxx:584-602). -/
def loop (rec : Fin n → Bool → Option (List (Fin n)) → St n → Res (St n × Option (List (Fin n))))
    (st : Nat) : List (Dep n) → Option (List (Fin n)) → St n → Res (St n × Option (List (Fin n)))
  | [], dd, s => .ok (s, dd)
  | .words c :: ds, dd, s =>
    match libWords s c with
    | .ok s => loop rec st ds dd s
    | .cycle => .cycle
    | .ub => .ub
    | .deep => .deep
  | .lib j w :: ds, some dd, s =>
    if (dd.drop st).contains j then loop rec st ds (some dd) s
    else
      match rec j w (some (dd ++ [j])) s with
      | .ok (s, dd) => loop rec st ds dd s
      | .cycle => .cycle
      | .ub => .ub
      | .deep => .deep
  | .lib j w :: ds, none, s =>
    match rec j w none s with
    | .ok (s, _) => loop rec st ds none s
    | .cycle => .cycle
    | .ub => .ub
    | .deep => .deep

/-- process_libraries_impl() (common.cxx:133-812). -/
def visit (p : Tsys) (g : Libs n) : Nat → List (Fin n) → Fin n → Bool → Option (List (Fin n)) → St n →
    Res (St n × Option (List (Fin n)))
  | 0, _, _, _, _, _ => .deep
  | f + 1, chain, i, w, dd, s =>
    if chain.contains i then .cycle
    else
      match libTarget p g chain (options s (g i) i) i w with
      | .cycle => .cycle
      | .ub => .ub
      | .deep => .deep
      | .ok (s, false) => .ok (s, dd)
      | .ok (s, true) =>
        if (g i).static then
          match loop (visit p g f (i :: chain)) 0 (deps p g (g i)) none s with
          | .ok (s, _) => .ok (s, dd)
          | .cycle => .cycle
          | .ub => .ub
          | .deep => .deep
        else
          match loop (visit p g f (i :: chain)) (dd.getD []).length (deps p g (g i))
            (some (dd.getD [])) s with
          | .ok (s, dd') => .ok (s, if dd.isSome then dd' else none)
          | .cycle => .cycle
          | .ub => .ub
          | .deep => .deep

/-- The libraries that follow each other in the prerequisites (link-rule.cxx:3911-3996), with the
appended libraries cleared by an object file. The depth is one that cannot be exceeded. -/
def linkLibs (p : Tsys) (g : Libs n) : List (Fin n × Bool) → St n → Res (St n)
  | [], s => .ok s
  | (i, w) :: ts, s =>
    match visit p g (n + 1) [] i w none s with
    | .ok (s, _) => linkLibs p g ts s
    | .cycle => .cycle
    | .ub => .ub
    | .deep => .deep

/-- The loop over the prerequisites (link-rule.cxx:3911-4010). -/
def link (p : Tsys) (g : Libs n) : List (Top n) → St n → Res (St n)
  | [], s => .ok s
  | .obj o :: ts, s => link p g ts ⟨[], s.args ++ [o], s.cs ++ [.file false o]⟩
  | .lib i w :: ts, s =>
    match visit p g (n + 1) [] i w none s with
    | .ok (s, _) => link p g ts s
    | .cycle => .cycle
    | .ub => .ub
    | .deep => .deep

end Verif.LinkOrder
