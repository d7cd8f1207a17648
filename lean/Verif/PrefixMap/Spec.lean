/-!
# Headers that do not exist yet: specification

Directories are sequences of components. The compiler looks for an included header in each of
the include directories, in order.
-/

namespace Verif.PrefixMap

abbrev Dir := List String

/-- What files exist: in what directory and with what name. -/
abbrev Files := Dir → String → Prop

/-- The files and another one. -/
def Files.add (fs : Files) (d : Dir) (f : String) : Files := fun d' f' => fs d' f' ∨ (d' = d ∧ f' = f)

/-- The compiler finds header `r/f` in this include directory. -/
def Finds (dirs : List Dir) (fs : Files) (r : Dir) (f : String) (D : Dir) : Prop :=
  ∃ pre post, dirs = pre ++ D :: post ∧ fs (D ++ r) f ∧ ∀ E ∈ pre, ¬ fs (E ++ r) f

/-- An include directory (`-I`): for which target it is specified (the target that is compiled, or
a library that exports it) and the root of the project of this target. -/
structure Opt where
  target : Dir
  root   : Dir
  dir    : Dir
  deriving DecidableEq

/-- By the include directory inside of the project, prefix `p` leads to where the target is or
what is `n` levels above it. No prefix always leads somewhere. -/
inductive Leads (o : Opt) (p : Dir) : Nat → Prop
  | above {rest} : o.root <+: o.dir → o.target = o.dir ++ p ++ rest → Leads o p rest.length
  | elsewhere : o.root <+: o.dir → ¬ o.dir <+: o.target → p = [] → Leads o p 0

/-- This is the closest one of those that satisfy a condition, and the first of these. -/
def Closest (P : Dir → Prop) (opts : List Opt) (p : Dir) (D : Dir) (n : Nat) : Prop :=
  ∃ pre o post, opts = pre ++ o :: post ∧ o.dir = D ∧ P D ∧ Leads o p n ∧
    (∀ o' ∈ pre, ∀ n', Leads o' p n' → P o'.dir → n < n') ∧
    (∀ o' ∈ post, ∀ n', Leads o' p n' → P o'.dir → n ≤ n')

/-- In which of the include directories `d/f` is going to be, where `decl` is whether the target
is declared in the buildfiles and `new` whether it may otherwise be entered. With the longest
prefix of the directory that leads somewhere it is the closest of these. Without a prefix it is the
closest of those where it is declared. -/
inductive Mapped (decl new : Dir → String → Bool) (opts : List Opt) (d : Dir) (f : String)
    (D : Dir) : Prop
  | prefixed {p n} : p ≠ [] → p <+: d →
      (∀ q, q <+: d → p.length < q.length → ∀ o ∈ opts, ∀ n, ¬ Leads o q n) →
      Closest (fun _ => True) opts p D n → (decl (D ++ d) f ∨ new (D ++ d) f) →
      Mapped decl new opts d f D
  | prefixless {n} : (∀ q, q <+: d → q ≠ [] → ∀ o ∈ opts, ∀ n, ¬ Leads o q n) →
      Closest (fun E => decl (E ++ d) f = true) opts [] D n → Mapped decl new opts d f D

/-- What directory (or file) a path refers to, starting from a directory. -/
def walk (D : Dir) (path : List String) : Dir :=
  path.foldl (fun d c => if c = "." then d else if c = ".." then d.dropLast else d ++ [c]) D

/-- A source directory that corresponds to an output directory. -/
structure Base where
  out : Dir
  src : Dir
  deriving DecidableEq

end Verif.PrefixMap
