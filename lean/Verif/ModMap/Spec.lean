/-!
# Modules and their binary interfaces: specification

An imported module is resolved among the modules that are available: those with a known name,
and those for which the name of the file tells. What a translation unit needs are the modules
it imports and, in turn, what these import.
-/

namespace Verif.ModMap

abbrev Str := List Char

/-! ## Names of modules and of files -/

/-- The same letter, or another character. -/
def Same (a b : Char) : Prop := a.toLower = b.toLower

/-- Separators in the names of files. -/
def FileSep (c : Char) : Prop := c = '_' ∨ c = '-' ∨ c = '.' ∨ c = '/'

/-- Separators of components in the names of modules. -/
def NameSep (c : Char) : Prop := c = '.' ∨ c = ':'

/-- Other separators in the names of modules. -/
def WordSep (c : Char) : Prop := NameSep c ∨ c = '_'

/-- The case of letters changes, which is taken for a separator. -/
def Change (a b : Char) : Prop :=
  a.isAlpha = true ∧ b.isAlpha = true ∧ a.isUpper ≠ b.isUpper

/-- A file name spells the name of a module. -/
inductive Spells : Str → Str → Prop
  | nil : Spells [] []
  | char {a b f m} : Same a b → Spells f m → Spells (a :: f) (b :: m)
  | sep {a b f m} : FileSep a → WordSep b → Spells f m → Spells (a :: f) (b :: m)
  /-- `fooBar` for `foo.bar` -/
  | fileCase {a a' b s f m} : Same a b → WordSep s → Change a a' → Spells (a' :: f) m →
      Spells (a :: a' :: f) (b :: s :: m)
  /-- `foo-bar` for `fooBar` -/
  | nameCase {a s b b' f m} : Same a b → FileSep s → Change b b' → Spells f (b' :: m) →
      Spells (a :: s :: f) (b :: b' :: m)

/-- It does so from the first letter on. -/
def SpellsAll (f m : Str) : Prop :=
  Spells f m ∧ ∃ a f' b m', f = a :: f' ∧ m = b :: m' ∧ Same a b

/-- It does so in its last part, for at least the last component of the module. If this is not
all of the module then there has to be something that separates it in the file as well. Note
that a dot does not if the module has a dot there too. -/
def SpellsEnd (f m : Str) : Prop :=
  ∃ f1 f2 m1 m2, f = f1 ++ f2 ∧ m = m1 ++ m2 ∧ Spells f2 m2 ∧
    (m1 = [] ∨ ∃ m0 s, m1 = m0 ++ [s] ∧ NameSep s ∧
      (f1 = [] ∨ ∃ f0 c, f1 = f0 ++ [c] ∧
        ((FileSep c ∧ c ≠ s) ∨ ∃ a f', f2 = a :: f' ∧ Change c a)))

instance (c : Char) : Decidable (FileSep c) := by unfold FileSep; infer_instance
instance (a b : Char) : Decidable (Change a b) := by unfold Change; infer_instance

/-- How well the part of a file name that spells the module is separated from what is before
it: there is nothing, it is another directory, there is a separator or a change of case, or
there is no separation. -/
def separation (before after : Str) : Nat :=
  match before.getLast?, after.head? with
  | none, _ => 3
  | some c, a =>
    if c = '/' then 2
    else if FileSep c ∨ ∃ b, a = some b ∧ Change c b then 1
    else 0

/-! ## Resolution -/

/-- What is available, in the order in which it is considered: a module the name of which is
known, or a file. -/
inductive Entry
  | known (name : Str) (bmi : Nat)
  | file (file : Str) (bmi : Nat)

/-- The modules of the standard library. -/
def Std (n : Str) : Prop := n = "std".toList ∨ ∃ r, n = "std.".toList ++ r

/-- What a module is resolved to: the first one that is known by this name, whatever the names
of files. Otherwise the first one of those with the best name of the file. -/
def Resolves (score : Str → Str → Nat) (pool : List Entry) (n : Str) (b : Nat) : Prop :=
  (∃ p r, pool = p ++ .known n b :: r ∧ ∀ b', .known n b' ∉ p) ∨
  ((∀ b', .known n b' ∉ pool) ∧ ∃ p f r, pool = p ++ .file f b :: r ∧ score f n ≠ 0 ∧
    (∀ f' b', .file f' b' ∈ p → score f' n < score f n) ∧
    ∀ f' b', .file f' b' ∈ r → score f' n ≤ score f n)

/-- The one that is first in a list of modules with names. -/
def Named (l : List (Str × Nat)) (n : Str) (b : Nat) : Prop :=
  ∃ p r, l = p ++ (n, b) :: r ∧ ∀ b', (n, b') ∉ p

/-- What is chosen for an import. -/
def Chosen (score : Str → Str → Nat) (std : List (Str × Nat)) (pool : List Entry) (n : Str)
    (b : Nat) : Prop :=
  (Std n ∧ Named std n b) ∨ (¬ Std n ∧ Resolves score pool n b)

/-! ## Translation units -/

/-- A translation unit, which is built into a binary interface unless it is not for one. It
declares this module, if anything; an implementation unit implies the import of its own
module. The second part of an import is whether it is re-exported. -/
structure Unit where
  name    : Option Str
  impl    : Bool
  imports : List (Str × Bool)
  pool    : List Entry

/-- All of them, and where the modules of the standard library are. -/
structure World where
  unit : Nat → Unit
  std  : List (Str × Nat)

/-- What is imported. -/
def Unit.Imports (u : Unit) (n : Str) : Prop :=
  (u.impl = true ∧ u.name = some n) ∨ ∃ e, (n, e) ∈ u.imports

/-- The module that a binary interface is for. -/
def World.IsFor (w : World) (b : Nat) (n : Str) : Prop :=
  (w.unit b).impl = false ∧ (w.unit b).name = some n

/-- What is imported, directly or not. -/
inductive World.Needs (w : World) : Nat → Str → Prop
  | direct {t n} : (w.unit t).Imports n → w.Needs t n
  | indirect {t n b n'} : (w.unit t).Imports n → w.IsFor b n → w.Needs b n' → w.Needs t n'

/-- What is said to be the name of a module is. -/
def World.Honest (w : World) : Prop :=
  (∀ t n b, .known n b ∈ (w.unit t).pool → w.IsFor b n) ∧
  ∀ n b, (n, b) ∈ w.std → w.IsFor b n

/-- The module that a file is for is known once it has been looked into. -/
def World.Extracted (w : World) : Prop :=
  ∀ t f b, .file f b ∈ (w.unit t).pool → ∃ n, w.IsFor b n

/-- Names that are not too long. -/
def World.Short (w : World) : Prop :=
  ∀ t, (∀ f b, .file f b ∈ (w.unit t).pool → f.length < 9998) ∧
    ∀ n, (w.unit t).Imports n → n.length < 9998

/-- Only one is for a given module. -/
def World.Unique (w : World) : Prop := ∀ n b b', w.IsFor b n → w.IsFor b' n → b = b'

/-- No module is mentioned twice in a unit. -/
def Unit.Once (u : Unit) : Prop :=
  (u.imports.map (·.1)).Nodup ∧ (u.impl = true → ∀ n, u.name = some n → n ∉ u.imports.map (·.1))

end Verif.ModMap
