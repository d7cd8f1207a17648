/-!
# Link order of libraries: specification

What is linked when an executable or a shared library depends on libraries that depend on other
libraries, and in which order.
-/

namespace Verif.LinkOrder

/-- A text. -/
abbrev Str := List Char

/-- A target system, as far as it matters for the command line. -/
inductive Tsys where
  | msvc | darwin | other
deriving DecidableEq

/-- The language of a library: not known, some language of the C family, or a particular one. -/
inductive Lang where
  | unknown | cc | x
deriving DecidableEq

/-- An element of `*.export.libs` and `*.export.impl_libs`: a library target or a word, for example
`-lm`. -/
inductive Elem (n : Nat) where
  | lib (i : Fin n)
  | word (s : Str)
deriving DecidableEq

/-- A library target. There are `n` of them. -/
structure Lib (n : Nat) where
  /-- This is a static or a utility library. -/
  static : Bool
  /-- This is a utility library. -/
  util : Bool
  lang : Lang
  /-- There is no file to link. -/
  binless : Bool
  /-- The same holds for all it depends on. -/
  recBinless : Bool
  /-- The file to link. -/
  path : Str
  /-- This is a static library that is to be linked whole if mentioned in an export. -/
  whole : Bool
  /-- Prerequisite libraries and whether they are to be linked whole. -/
  prereqs : List (Fin n × Bool)
  /-- `cc.libs` and `<lang>.libs`. -/
  cLibs : List Str
  xLibs : List Str
  /-- `cc.export.impl_libs` and `<lang>.export.impl_libs`, if defined. -/
  cImpl : Option (List (Elem n))
  xImpl : Option (List (Elem n))
  /-- `cc.export.libs` and `<lang>.export.libs`, if defined. -/
  cIntf : Option (List (Elem n))
  xIntf : Option (List (Elem n))
  /-- `cc.export.loptions` and `<lang>.export.loptions`. -/
  cOpts : List Str
  xOpts : List Str

/-- The libraries. -/
abbrev Libs (n : Nat) := Fin n → Lib n

/-- What can be linked: a library target, perhaps whole, or one or several words. -/
inductive Dep (n : Nat) where
  | lib (i : Fin n) (whole : Bool)
  | words (c : List Str)
deriving DecidableEq

/-- How many words there are in what starts with this one: one (`-lm`, `-pthread`, a path), two
(`-l m` and, on Mac OS, `-framework Foo`), or all of them (any other option). -/
inductive Takes (p : Tsys) (s : Str) : Option Nat → Prop
  | msvcOption : p = .msvc → s.head? = some '/' → Takes p s none
  | msvcPath : p = .msvc → s.head? ≠ some '/' → Takes p s (some 1)
  | path : p ≠ .msvc → s.head? ≠ some '-' → Takes p s (some 1)
  | l {t : Str} : p ≠ .msvc → s = '-' :: 'l' :: t → t ≠ [] → Takes p s (some 1)
  | lSpace : p ≠ .msvc → s = "-l".toList → Takes p s (some 2)
  | pthread : p ≠ .msvc → s = "-pthread".toList → Takes p s (some 1)
  | framework : p = .darwin → s = "-framework".toList → Takes p s (some 2)
  | option : p ≠ .msvc → s.head? = some '-' → (∀ t, s ≠ '-' :: 'l' :: t) → s ≠ "-pthread".toList →
      (p = .darwin → s ≠ "-framework".toList) → Takes p s none

/-- An export as what is to be linked. Words that belong together may be cut short by the end or by a
target. -/
inductive Parts (p : Tsys) {n : Nat} (g : Libs n) : List (Elem n) → List (Dep n) → Prop
  | nil : Parts p g [] []
  | lib {i : Fin n} {es : List (Elem n)} {ds : List (Dep n)} : Parts p g es ds →
      Parts p g (.lib i :: es) (.lib i (g i).whole :: ds)
  | words {s : Str} {c : List Str} {k : Option Nat} {es : List (Elem n)} {ds : List (Dep n)} :
      Takes p s k → (∀ m, k = some m → (s :: c).length ≤ m) →
      ((∃ m, k = some m ∧ (s :: c).length = m) ∨ es = [] ∨ ∃ i es', es = .lib i :: es') →
      Parts p g es ds → Parts p g ((s :: c).map .word ++ es) (.words (s :: c) :: ds)

/-- What is exported explicitly for static linking. -/
def Lib.explicit {n : Nat} (l : Lib n) : Prop :=
  (l.lang ≠ .unknown ∧ l.cImpl ≠ none) ∨ (l.lang = .x ∧ l.xImpl ≠ none)

/-- What a library depends on. For a static library: what is exported for static linking or, by
default, its prerequisites and what it is itself linked with. For a shared library, what is exported.
If the language is not known, then only the prerequisites. -/
inductive Uses (p : Tsys) {n : Nat} (g : Libs n) (l : Lib n) : Dep n → Prop
  | prereq {i : Fin n} {w : Bool} : l.static = true → ¬ l.explicit → (i, w) ∈ l.prereqs →
      Uses p g l (.lib i w)
  | cLibs {ds : List (Dep n)} {d : Dep n} : l.static = true → ¬ l.explicit → l.lang = .x →
      Parts p g (l.cLibs.map .word) ds → d ∈ ds → Uses p g l d
  | xLibs {ds : List (Dep n)} {d : Dep n} : l.static = true → ¬ l.explicit → l.lang = .x →
      Parts p g (l.xLibs.map .word) ds → d ∈ ds → Uses p g l d
  | cImpl {es : List (Elem n)} {ds : List (Dep n)} {d : Dep n} : l.static = true →
      l.lang ≠ .unknown → l.cImpl = some es → Parts p g es ds → d ∈ ds → Uses p g l d
  | xImpl {es : List (Elem n)} {ds : List (Dep n)} {d : Dep n} : l.static = true →
      l.lang = .x → l.xImpl = some es → Parts p g es ds → d ∈ ds → Uses p g l d
  | cIntf {es : List (Elem n)} {ds : List (Dep n)} {d : Dep n} : l.static = false →
      l.lang ≠ .unknown → l.cIntf = some es → Parts p g es ds → d ∈ ds → Uses p g l d
  | xIntf {es : List (Elem n)} {ds : List (Dep n)} {d : Dep n} : l.static = false →
      l.lang = .x → l.xIntf = some es → Parts p g es ds → d ∈ ds → Uses p g l d

/-- What is needed by the libraries that are linked directly. -/
inductive Needed (p : Tsys) {n : Nat} (g : Libs n) (tops : List (Fin n × Bool)) : Dep n → Prop
  | top {i : Fin n} {w : Bool} : (i, w) ∈ tops → Needed p g tops (.lib i w)
  | step {i : Fin n} {w : Bool} {d : Dep n} : Needed p g tops (.lib i w) → Uses p g (g i) d →
      Needed p g tops d

/-- The library is needed through utility libraries only (`true`), or through some other library. -/
inductive Via (p : Tsys) {n : Nat} (g : Libs n) (tops : List (Fin n × Bool)) : Bool → Fin n → Prop
  | top {i : Fin n} {w : Bool} : (i, w) ∈ tops → Via p g tops true i
  | step {b : Bool} {i j : Fin n} {w : Bool} : Via p g tops b i → Uses p g (g i) (.lib j w) →
      Via p g tops (b && (g i).util) j

/-- One library depends on another, perhaps through others. -/
inductive Leads (p : Tsys) {n : Nat} (g : Libs n) : Fin n → Fin n → Prop
  | one {i j : Fin n} {w : Bool} : Uses p g (g i) (.lib j w) → Leads p g i j
  | more {i j k : Fin n} {w : Bool} : Uses p g (g i) (.lib j w) → Leads p g j k → Leads p g i k

/-- Options of this library are passed. -/
def Lib.exports {n : Nat} (l : Lib n) : Prop :=
  l.lang = .cc ∨ (l.lang = .x ∧ (l.static = false ∨ l.explicit))

/-- The file on the command line. -/
def fileArgs (p : Tsys) (path : Str) (whole : Bool) : List Str :=
  if whole then
    match p with
    | .msvc => ["/WHOLEARCHIVE:".toList ++ path]
    | .darwin => ["-Wl,-force_load,".toList ++ path]
    | .other => ["-Wl,--whole-archive".toList, path, "-Wl,--no-whole-archive".toList]
  else if path = [] then [] else [path]

/-- The options of a library. -/
def Options {n : Nat} (l : Lib n) (o : List Str) : Prop :=
  (¬ l.exports ∧ o = []) ∨ (l.exports ∧ l.lang = .cc ∧ o = l.cOpts) ∨
  (l.exports ∧ l.lang = .x ∧ o = l.xOpts ++ l.cOpts)

/-- What may be passed for something: its options, if exported, and its file, if there is one. A
utility library that is needed through some other library is a part of that library. -/
inductive Passed (p : Tsys) {n : Nat} (g : Libs n) (tops : List (Fin n × Bool)) :
    Dep n → List Str → Prop
  | words {c : List Str} : Passed p g tops (.words c) c
  | file {i : Fin n} {w : Bool} {o : List Str} : Options (g i) o → (g i).binless = false →
      ((g i).util = true → Via p g tops true i) →
      Passed p g tops (.lib i w) (o ++ fileArgs p (g i).path w)
  | binless {i : Fin n} {w : Bool} {o : List Str} : Options (g i) o → (g i).binless = true →
      Passed p g tops (.lib i w) o
  | part {i : Fin n} {w : Bool} {o : List Str} : Options (g i) o → (g i).util = true →
      Via p g tops false i → Passed p g tops (.lib i w) o

/-- What is passed once: all but what is linked whole and options that are not understood. -/
def Dep.once {n : Nat} : Dep n → Bool
  | .lib _ w => !w
  | .words c => decide (c.length ≤ 2)

/-- There is nothing to link. -/
def Dep.recBinless {n : Nat} (g : Libs n) : Dep n → Bool
  | .lib i _ => (g i).recBinless
  | .words _ => false

/-- The second is after the first wherever that is. -/
def After {n : Nat} (o : List (Dep n)) (x y : Dep n) : Prop :=
  ∀ a b, o = a ++ x :: b → y ∈ b

/-- The command line for the libraries that are linked directly: everything that is needed, once
unless whole or not understood, and each after what depends on it. -/
def Layout (p : Tsys) {n : Nat} (g : Libs n) (tops : List (Fin n × Bool)) (args : List Str) : Prop :=
  ∃ order : List (Dep n × List Str),
    args = order.flatMap (·.2) ∧
    (∀ d, d ∈ order.map (·.1) ↔ Needed p g tops d) ∧
    ((order.map (·.1)).filter Dep.once).Nodup ∧
    (∀ d f, (d, f) ∈ order → Passed p g tops d f) ∧
    ∀ i w d, Needed p g tops (.lib i w) → Uses p g (g i) d → (g i).recBinless = false →
      d.recBinless g = false → After (order.map (·.1)) (.lib i w) d

/-- A prerequisite of what is linked. -/
inductive Top (n : Nat) where
  | obj (path : Str)
  | lib (i : Fin n) (whole : Bool)

/-- The libraries among the prerequisites. -/
def Direct {n : Nat} (ts : List (Top n)) : List (Fin n × Bool) :=
  ts.filterMap fun
    | .obj _ => none
    | .lib i w => some (i, w)

/-- The command line for object files and libraries: an object file after libraries may depend on
these, thus such a sequence of libraries is by itself. -/
inductive Command (p : Tsys) {n : Nat} (g : Libs n) : List (Top n) → List Str → Prop
  | libs {ls : List (Fin n × Bool)} {args : List Str} : Layout p g ls args →
      Command p g (ls.map fun q => .lib q.1 q.2) args
  | obj {ls : List (Fin n × Bool)} {args rest : List Str} {o : Str} {ts : List (Top n)} :
      Layout p g ls args → Command p g ts rest →
      Command p g ((ls.map fun q => .lib q.1 q.2) ++ .obj o :: ts) (args ++ o :: rest)

/-- A library depends on itself. -/
def Cyclic (p : Tsys) {n : Nat} (g : Libs n) (tops : List (Fin n × Bool)) : Prop :=
  ∃ k w, Needed p g tops (.lib k w) ∧ Leads p g k k

end Verif.LinkOrder
