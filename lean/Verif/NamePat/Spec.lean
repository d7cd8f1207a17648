import Verif.Name.Model
import Verif.Name.Spec

/-!
# Name patterns: specification

A name pattern in a group, for example `cxx{f* +b* -foo}`: the first pattern and the inclusions and
exclusions that follow it (doc/manual.cli, Name Patterns).
-/

namespace Verif.NamePat

/-- A text. -/
abbrev Str := List Char

/-- The filesystem and the wildcards; arbitrary. -/
structure Fs where
  /-- The entries that a pattern finds, directories with trailing slashes. -/
  found : Str → List Str
  /-- Whether an entry matches a pattern. -/
  matches_ : Str → Str → Bool
  /-- Whether this contains wildcards. -/
  wild : Str → Bool
  /-- The number of recursive wildcards. -/
  recursive : Str → Nat
  /-- Whether a file has an extension. -/
  hasExt : Str → Bool

/-- What is assumed of the search: with at most one recursive wildcard an entry is found once; what
is found for a pattern that ends with an extension without wildcards ends with it; what is found for
a pattern with a trailing slash has one and what is found for one without does not. -/
structure Fs.Ok (fs : Fs) : Prop where
  once : ∀ p, fs.recursive p ≤ 1 → (fs.found p).Nodup
  ends : ∀ p e f, e ≠ [] → fs.wild e = false → f ∈ fs.found (p ++ '.' :: e) → ∃ v, f = v ++ '.' :: e
  dir : ∀ p f, f ∈ fs.found p → (f.getLast? = some '/' ↔ p.getLast? = some '/')

/-- The target types: those for which patterns have nothing added, directories, and files with a
default extension, which may be unknown. -/
inductive Kind where
  | plain
  | dirs
  | ext (d : Option Str)
deriving DecidableEq

/-- The default extension. -/
def Kind.dflt : Kind → Option Str
  | .ext d => d
  | _ => none

/-- Inclusion or exclusion. -/
inductive Sign where
  | plus | minus
deriving DecidableEq

/-- The first pattern (an inclusion) or an inclusion or exclusion that follows. -/
structure Item where
  sign : Sign
  text : Str
deriving DecidableEq

/-- A name in the group: its type, its value or directory, and whether it is one of these two. -/
structure Nm where
  type : Str
  text : Str
  simple : Bool
deriving DecidableEq

/-- What a name in the group is. The first is an inclusion. The others are made inclusions or
exclusions by the sign that they start with or, as the group of names in `+{...}` and `-{...}`, by
having it as the type. -/
inductive Means : Bool → Nm → Item → Prop
  | first {n : Nm} : (n.type = [] ∨ n.type = ['+']) → n.text ≠ [] → n.simple = true →
      Means true n ⟨.plus, n.text⟩
  | plusGroup {n : Nm} : n.type = ['+'] → n.text ≠ [] → n.simple = true →
      Means false n ⟨.plus, n.text⟩
  | minusGroup {n : Nm} : n.type = ['-'] → n.text ≠ [] → n.simple = true →
      Means false n ⟨.minus, n.text⟩
  | plus {n : Nm} {v : Str} : n.type = [] → n.text = '+' :: v → v ≠ [] → n.simple = true →
      Means false n ⟨.plus, v⟩
  | minus {n : Nm} {v : Str} : n.type = [] → n.text = '-' :: v → v ≠ [] → n.simple = true →
      Means false n ⟨.minus, v⟩

/-- What the names in the group are. -/
inductive MeansAll : Bool → List Nm → List Item → Prop
  | nil {first : Bool} : MeansAll first [] []
  | cons {first : Bool} {n : Nm} {i : Item} {ns : List Nm} {is : List Item} : Means first n i →
      MeansAll false ns is → MeansAll first (n :: ns) (i :: is)

/-- An extension as it is in a file name. -/
def extPart : Option Str → Str
  | some (c :: e) => '.' :: c :: e
  | _ => []

/-- The extension if specified or the default one. -/
def orDflt (x d : Option Str) : Option Str :=
  match x with
  | some x => some x
  | none => d

/-- What an item stands for: whether it is a directory, the pattern or entry with what the target
type adds, and whether what is found must have no extension. -/
inductive Stands (k : Kind) (t : Str) : Bool → Str → Bool → Prop
  | dirAdd : k = .dirs → t.getLast? ≠ some '/' → Stands k t true (t ++ ['/']) false
  | dirKeep : k = .dirs → t.getLast? = some '/' → Stands k t true t false
  | plainDir : k = .plain → t.getLast? = some '/' → Stands k t true t false
  | file {n : Str} {x : Option Str} : k ≠ .dirs → t.getLast? ≠ some '/' → Name.split t = .ok n x →
      Stands k t false (n ++ extPart (orDflt x k.dflt)) (decide (orDflt x k.dflt = some []))

/-- The entry is found by an inclusion. -/
def Includes (fs : Fs) (k : Kind) (t f : Str) : Prop :=
  ∃ d full noExt, Stands k t d full noExt ∧ f ∈ fs.found full ∧ (noExt = true → fs.hasExt f = false)

/-- The entry is removed by an exclusion. -/
def Excludes (fs : Fs) (k : Kind) (t f : Str) : Prop :=
  ∃ d full noExt, Stands k t d full noExt ∧
    if fs.wild full then fs.matches_ f full = true else f = full

/-- The entry is in the result: some item includes it and none after that excludes it. -/
def Listed (fs : Fs) (k : Kind) (is : List Item) (f : Str) : Prop :=
  ∃ pre i post, is = pre ++ i :: post ∧ i.sign = .plus ∧ Includes fs k i.text f ∧
    ∀ j ∈ post, j.sign = .minus → ¬ Excludes fs k j.text f

/-- An item is valid: it stands for something and its extension has no wildcards. -/
def Valid (fs : Fs) (k : Kind) (t : Str) (d : Bool) : Prop :=
  ∃ full noExt, Stands k t d full noExt ∧
    ∀ n x, d = false → Name.split t = .ok n x → ∀ e, orDflt x k.dflt = some e → e ≠ [] →
      fs.wild e = false

/-- The entry that a name denotes in a target type: a file name can leave out the extension, which is
then the default one. -/
def Denotes (d : Option Str) (w f : Str) : Prop :=
  ∃ n x, Name.split w = .ok n x ∧ f = n ++ extPart (orDflt x d)

/-- The extension that an item stands for. -/
def itemExt (k : Kind) (t : Str) : Option Str :=
  match Name.split t with
  | .ok _ x => orDflt x k.dflt
  | _ => none

/-- Without the extension there is something other than dots in the file name, and there is no dot
before the extension dot. -/
def Nameable (e : Option Str) (f : Str) : Prop :=
  ∃ dir leaf, f = dir ++ leaf ++ extPart e ∧ '/' ∉ leaf ∧ (dir = [] ∨ dir.getLast? = some '/') ∧
    (∃ c ∈ leaf, c ≠ '.') ∧ (extPart e ≠ [] → leaf.getLast? ≠ some '.')

/-- The file name does not start with a dot and has no dots next to each other. -/
def Tidy (f : Str) : Prop :=
  ∃ dir leaf, Name.IsLeaf f dir leaf ∧ leaf ≠ [] ∧ leaf.head? ≠ some '.' ∧
    ∀ a b, leaf ≠ a ++ '.' :: '.' :: b

end Verif.NamePat
