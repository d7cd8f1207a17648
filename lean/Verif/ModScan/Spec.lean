import Verif.CcLex.Model

/-!
# Modules of a translation unit: specification

Which module a translation unit belongs to and what it imports. The tokens are those of
Verif/CcLex: each one is of some kind and is perhaps the first one on its line.
-/

namespace Verif.ModScan

open CcLex (Tok Kind Str)

/-- The class of the compiler, which decides on how it spells the keywords in its
preprocessed output. -/
inductive Compiler
  | gcc | clang | msvc | icc
  deriving DecidableEq

/-- The first keyword of a declaration. -/
inductive Word
  | module | import
  deriving DecidableEq

/-- Spellings. -/
inductive Spelled (c : Compiler) : Word → Str → Prop
  | module : Spelled c .module "module".toList
  | preprocessed : c = .clang ∨ c = .msvc → Spelled c .module "__preprocessed_module".toList
  | import : Spelled c .import "import".toList
  | preprocessedImport : c = .clang → Spelled c .import "__preprocessed_import".toList

/-- The beginning of a declaration: a keyword that is the first one on a line, perhaps with
`export` before it, in which case that one is the first. -/
inductive Lead (c : Compiler) : Word → Bool → List Tok → Prop
  | plain {w t} : t.kind = .identifier → t.first = true → Spelled c w t.value →
      Lead c w false [t]
  | exported {w e t} : e.kind = .identifier → e.first = true → e.value = "export".toList →
      t.kind = .identifier → t.first = false → Spelled c w t.value → Lead c w true [e, t]

/-- What can follow the keyword. -/
def Word.Followed : Word → Kind → Prop
  | .module, k => k = .semi ∨ k = .identifier
  | .import, k => k = .less ∨ k = .colon ∨ k = .string ∨ k = .identifier

/-- These tokens begin with a declaration, whether or not it is a valid one: something that
can follow the keyword does so, on the same line. -/
def Begins (c : Compiler) (ts : List Tok) : Prop :=
  ∃ w ex l u r, ts = l ++ u :: r ∧ Lead c w ex l ∧ u.first = false ∧ w.Followed u.kind

/-- Identifiers with dots in between, all on the same line. -/
inductive Dotted : List Tok → Str → Prop
  | one {t} : t.kind = .identifier → t.first = false → Dotted [t] t.value
  | more {t d ts n} : t.kind = .identifier → t.first = false → d.kind = .dot → d.first = false →
      Dotted ts n → Dotted (t :: d :: ts) (t.value ++ '.' :: n)

/-- Attributes and the semicolon, all on the same line. They do not begin with what would
continue the name. -/
def Rest (cont : Kind → Prop) (ts : List Tok) : Prop :=
  ∃ as s, ts = as ++ [s] ∧ (∀ a ∈ as, a.kind ≠ .semi ∧ a.first = false) ∧ s.kind = .semi ∧
    s.first = false ∧ ∀ a, as.head? = some a → ¬ cont a.kind

/-- A declaration. -/
inductive Decl
  /-- `module;` -/
  | marker
  /-- `[export] module base[:part];` -/
  | module (ex : Bool) (base : Str) (part : Option Str)
  /-- `[export] import name;` -/
  | import (ex : Bool) (name : Str)
  /-- `[export] import :part;` -/
  | importPart (ex : Bool) (part : Str)
  /-- `[export] import <header>;` or the same with quotes. -/
  | header

/-- How declarations are written. -/
inductive Declares (c : Compiler) : List Tok → Decl → Prop
  | marker {l s} : Lead c .module false l → s.kind = .semi → s.first = false →
      Declares c (l ++ [s]) .marker
  | module {ex l n base r} : Lead c .module ex l → Dotted n base →
      Rest (fun k => k = .dot ∨ k = .colon) r → Declares c (l ++ n ++ r) (.module ex base none)
  | part {ex l n base k p part r} : Lead c .module ex l → Dotted n base → k.kind = .colon →
      k.first = false → Dotted p part → Rest (· = .dot) r →
      Declares c (l ++ n ++ k :: p ++ r) (.module ex base (some part))
  | import {ex l n name r} : Lead c .import ex l → Dotted n name → Rest (· = .dot) r →
      Declares c (l ++ n ++ r) (.import ex name)
  | importPart {ex l k p part r} : Lead c .import ex l → k.kind = .colon → k.first = false →
      Dotted p part → Rest (· = .dot) r → Declares c (l ++ k :: p ++ r) (.importPart ex part)
  | quoted {ex l s r} : Lead c .import ex l → s.kind = .string → s.first = false →
      Rest (fun _ => False) r → Declares c (l ++ s :: r) .header
  /-- Note that the closing bracket can be on another line. -/
  | angled {ex l b h g r} : Lead c .import ex l → b.kind = .less → b.first = false →
      (∀ x ∈ h, x.kind ≠ .greater ∧ x.first = false) → g.kind = .greater →
      Rest (fun _ => False) r → Declares c (l ++ b :: h ++ g :: r) .header

/-- The declarations among some tokens, which are inside of this many braces. Only those
outside of braces count. Everything after an extraneous `}` is ignored. -/
inductive Scan (c : Compiler) : Nat → List Tok → List Decl → Prop
  | nil {d} : Scan c d [] []
  | enter {d t ts ds} : t.kind = .lcbrace → Scan c (d + 1) ts ds → Scan c d (t :: ts) ds
  | leave {d t ts ds} : t.kind = .rcbrace → Scan c d ts ds → Scan c (d + 1) (t :: ts) ds
  | stray {t ts} : t.kind = .rcbrace → Scan c 0 (t :: ts) []
  | decl {l d r ds} : Declares c l d → Scan c 0 r ds → Scan c 0 (l ++ r) (d :: ds)
  | other {d t ts ds} : t.kind ≠ .lcbrace → t.kind ≠ .rcbrace →
      ¬ (d = 0 ∧ Begins c (t :: ts)) → Scan c d ts ds → Scan c d (t :: ts) ds

/-- The kinds of units. -/
inductive UType
  | nonModular | intf | impl | intfPart | implPart | header
  deriving DecidableEq

/-- An import: of a partition or not, the name, and whether it is re-exported. -/
structure Import where
  part     : Bool
  name     : Str
  exported : Bool
  deriving DecidableEq

/-- What is known about a unit. -/
structure Info where
  type    : UType
  name    : Str
  imports : List Import
  deriving DecidableEq

/-- It declares the module. -/
def Decl.isModule : Decl → Prop
  | .module .. => True
  | _ => False

/-- The kind of a module unit. -/
def unitType (ex part : Bool) : UType :=
  match ex, part with
  | true, false => .intf
  | false, false => .impl
  | true, true => .intfPart
  | false, true => .implPart

/-- A name and a partition. -/
def fullName (base : Str) : Option Str → Str
  | none => base
  | some p => base ++ ':' :: p

/-- The (first part of the) name of the module. -/
def baseOf : List Decl → Str
  | .module _ b _ :: _ => b
  | _ :: ds => baseOf ds
  | [] => []

/-- What is imported, with the module of a partition being the unit's own one. Header units
do not take part. -/
def Decl.imported (base : Str) : Decl → Option Import
  | .import ex n => some ⟨false, n, ex⟩
  | .importPart ex p => some ⟨true, base ++ ':' :: p, ex⟩
  | _ => none

/-- The first occurrence of everything. -/
def firsts : List Str → List Str
  | [] => []
  | a :: l => a :: (firsts l).filter fun b => b ≠ a

/-- What a unit with these declarations is. There is at most one module declaration; there
is one after `module;`, and one before any import of a partition. Every module is imported
once, in the order in which they are first mentioned, and is re-exported if any of its imports
is. -/
structure Makes (ds : List Decl) (u : Info) : Prop where
  unit : (u.type = .nonModular ∧ u.name = [] ∧ ∀ d ∈ ds, ¬ d.isModule) ∨
    ∃ a ex base part b, ds = a ++ .module ex base part :: b ∧
      (∀ d ∈ a, ¬ d.isModule) ∧ (∀ d ∈ b, ¬ d.isModule) ∧
      u.type = unitType ex part.isSome ∧ u.name = fullName base part
  marker : Decl.marker ∈ ds → ∃ d ∈ ds, d.isModule
  purview : ∀ a ex p b, ds = a ++ .importPart ex p :: b → ∃ d ∈ a, d.isModule
  names : u.imports.map (·.name) = firsts ((ds.filterMap (Decl.imported (baseOf ds))).map (·.name))
  kinds : ∀ i ∈ u.imports, ∃ j ∈ ds.filterMap (Decl.imported (baseOf ds)),
    j.name = i.name ∧ j.part = i.part
  exported : ∀ i ∈ u.imports, i.exported = true ↔
    ∃ j ∈ ds.filterMap (Decl.imported (baseOf ds)), j.name = i.name ∧ j.exported = true

/-- Identifiers are what they are. -/
def Words (ts : List Tok) : Prop :=
  ∀ t ∈ ts, t.kind = .identifier → t.value ≠ [] ∧ ∀ c ∈ t.value, CcLex.isWord c = true

/-- Braces are balanced. -/
inductive Balanced : List Tok → Prop
  | nil : Balanced []
  | other {t ts} : t.kind ≠ .lcbrace → t.kind ≠ .rcbrace → Balanced ts → Balanced (t :: ts)
  | braces {b ts e us} : b.kind = .lcbrace → Balanced ts → e.kind = .rcbrace → Balanced us →
      Balanced (b :: ts ++ e :: us)

/-- A token that could begin a declaration. -/
def Keyword (c : Compiler) (t : Tok) : Prop :=
  t.kind = .identifier ∧ (t.value = "export".toList ∨ ∃ w, Spelled c w t.value)

/-- The name of a module, or of a partition if there is a colon. -/
def Named (n : Str) (part : Bool) : Prop :=
  n ≠ [] ∧ (∀ c ∈ n, CcLex.isWord c = true ∨ c = '.' ∨ c = ':') ∧ (':' ∈ n ↔ part = true)

/-- What is known about a unit is as it should be. A header unit is named by its path. -/
def Info.Proper (u : Info) : Prop :=
  (match u.type with
   | .nonModular => u.name = []
   | .header => u.name ≠ [] ∧ '"' ∉ u.name
   | .intf => Named u.name false
   | .impl => Named u.name false
   | .intfPart => Named u.name true
   | .implPart => Named u.name true) ∧
  ∀ i ∈ u.imports, Named i.name i.part

end Verif.ModScan
