/-!
# Names as the user writes them

A specification of the name syntax of buildfiles and scripts, written
without reference to the parser: the abstract syntax of a sequence of
names, and what names such a sequence stands for.

The syntax covers plain names (`foo`, `dir/foo`, `dir/`, `proj%foo`),
groups (`{a b}`, `dir/type{a b}`, `proj%type{a b}`), crosses of groups
(`{hxx cxx}{a b}`), expansions that stand for a list of names (`$x`,
`$f(..)`, `(..)`), and pairs (`a@b`, `a@{b c}`, `a@`, `@b`).
-/

namespace Verif.NameGroup

abbrev Str := List Char

/-- A name: an optional project, a directory (empty if none), a target
type (empty if none), and a value. -/
structure Name where
  proj : Option Str
  dir : Str
  type : Str
  value : Str
deriving DecidableEq, Repr

/-- A simple name. -/
def Name.plain (v : Str) : Name := ⟨none, [], [], v⟩

/-- An element of a list of names: one name or two names that form a
pair. -/
inductive Elem where
  | single (n : Name)
  | pair (a b : Name)
deriving DecidableEq, Repr

/-- A list of elements as build2 stores it: every name carries a flag that
says that it forms a pair with the next one. -/
def flat : List Elem → List (Name × Bool)
  | [] => []
  | .single n :: es => (n, false) :: flat es
  | .pair a b :: es => (a, true) :: (b, false) :: flat es

/-- What is asked of the operating system's paths and of project names;
nothing is assumed about any of these. -/
structure Env where
  /-- Is this non-empty string a valid project name? -/
  validProj : Str → Bool
  /-- The directory that a string names, if it is a valid path. -/
  mkDir : Str → Option Str
  /-- The directory of which the string is the exact representation. -/
  exactDir : Str → Option Str
  /-- A directory inside another one, if the combination is valid. -/
  join : Str → Str → Option Str
  /-- Is this directory absolute? -/
  absolute : Str → Bool

/-- The qualification that the enclosing groups give to a name. -/
structure Ctx where
  proj : Option Str
  dir : Option Str
  type : Option Str
deriving DecidableEq, Repr

/-- No qualification. -/
def Ctx.none : Ctx := ⟨.none, .none, .none⟩

/-- At most one of the two gives something. -/
def atMostOne : Option Str → Option Str → Option (Option Str)
  | some _, some _ => none
  | some a, none => some (some a)
  | none, b => some b

/-- A name with a target type must have a directory or a value. -/
def Name.ok (n : Name) : Bool := n.type = [] || n.dir ≠ [] || n.value ≠ []

/-- The name if it is acceptable. -/
def accept (n : Name) : Option Name := if n.ok then some n else none

/-- A directory relative to the one of the qualification, if any. -/
def inDir (e : Env) (base : Option Str) (d : Str) : Option Str :=
  match base with
  | none => some d
  | some b => e.join b d

/-- The directory of a name inside the qualification. -/
def insideDir (e : Env) (c : Ctx) (n : Name) : Option Str :=
  if n.dir = [] then some (c.dir.getD [])
  else if c.dir ≠ none ∧ e.absolute n.dir then none
  else inDir e c.dir n.dir

/-- The type of a name inside the qualification. -/
def insideType (c : Ctx) (n : Name) : Option Str :=
  if n.type = [] then some (c.type.getD [])
  else if c.type = none then some n.type else none

/-- The name `n` inside the qualification `c`: at most one of the two may
have a project and at most one of the two a type; the directory of the
name is taken relative to the one of the qualification. -/
def inside (e : Env) (c : Ctx) (n : Name) : Option Name := do
  let p ← atMostOne c.proj n.proj
  let d ← insideDir e c n
  let t ← insideType c n
  accept ⟨p, d, t, n.value⟩

/-- What an expansion stands for. -/
def insideElem (e : Env) (c : Ctx) : Elem → Option Elem
  | .single n => (inside e c n).map .single
  | .pair a b => do
    let a ← inside e c a
    let b ← inside e c b
    some (.pair a b)

/-- The same for all the elements. -/
def insideAll (e : Env) (c : Ctx) : List Elem → Option (List Elem)
  | [] => some []
  | x :: es => do
    let y ← insideElem e c x
    let ys ← insideAll e c es
    some (y :: ys)

/-- The project qualifier `proj%` of a word. -/
abbrev Proj := Option Str

/-- A part of a word: a literal, possibly quoted, or an expansion of a null
value, of an empty one, of a simple name, or of a directory. -/
inductive Part where
  | lit (s : Str) (quoted : Bool)
  | null
  | empty
  | name (s : Str)
  | dir (d : Str)

/-- The text of a part. -/
def Part.text : Part → Str
  | .lit s _ => s
  | .null => []
  | .empty => []
  | .name s => s
  | .dir d => d

/-- The concatenation. -/
def joined : List Part → Str
  | [] => []
  | p :: ps => p.text ++ joined ps

/-- `proj%` -/
def projText : Option Str → Str
  | none => []
  | some p => p ++ ['%']

/-- A plain word, `[proj%]text`, and how it is written. -/
structure Word where
  proj : Option Str
  text : Str
  parts : List Part

/-- The prefix of a group, `[proj%][dir/][type]`, and how it is written. -/
structure Pre where
  proj : Option Str
  /-- The directory without its trailing slash. -/
  dir : Option Str
  type : Option Str
  parts : List Part

/-- `[proj%]text` -/
def Word.str (w : Word) : Str := projText w.proj ++ w.text

/-- `[dir/][type]` -/
def Pre.rest (p : Pre) : Str :=
  (match p.dir with
   | none => []
   | some d => d ++ ['/']) ++ p.type.getD []

/-- `[proj%][dir/][type]` -/
def Pre.str (p : Pre) : Str := projText p.proj ++ p.rest

mutual
/-- An item of a sequence of names. -/
inductive Item where
  /-- The missing side of a pair. -/
  | absent
  | word (w : Word)
  /-- An expansion that stands for the given elements (`none`: null). -/
  | exp (v : Option (List Elem))
  /-- A group, possibly with a prefix, possibly crossed with others. -/
  | group (pre : Option Pre) (gs : Groups)
  /-- `l@r` -/
  | pair (l r : Item)
/-- A sequence of items. -/
inductive Seq where
  | nil
  | cons (i : Item) (s : Seq)
/-- One or more adjacent groups: `{..}{..}{..}`. -/
inductive Groups where
  | one (s : Seq)
  | more (gs : Groups) (s : Seq)
end

/-- Does the text end with a slash? -/
def endsSlash (s : Str) : Bool := s.getLast? = some '/'

/-- The name of a plain word: a word that is the exact representation of a
directory is that directory, any other is a value. -/
def wordName (e : Env) (c : Ctx) (w : Word) : Option Name := do
  let p ← atMostOne c.proj w.proj
  match (if endsSlash w.text then e.exactDir w.text else none) with
  | some d =>
    let d ← inDir e c.dir d
    accept ⟨p, d, c.type.getD [], []⟩
  | none => accept ⟨p, c.dir.getD [], c.type.getD [], w.text⟩

/-- The directory inside a group with a prefix. -/
def preDir (e : Env) (c : Ctx) (p : Pre) : Option (Option Str) :=
  match p.dir with
  | none => some c.dir
  | some s => do
    let d ← inDir e c.dir (← e.mkDir (s ++ ['/']))
    some (some d)

/-- The qualification inside a group with a prefix. -/
def preCtx (e : Env) (c : Ctx) (p : Pre) : Option Ctx := do
  let j ← atMostOne c.proj p.proj
  let d ← preDir e c p
  let t ← atMostOne c.type p.type
  some ⟨j, d, t⟩

/-- The empty name inside a qualification. -/
def emptyName (c : Ctx) : Option Name :=
  accept ⟨c.proj, c.dir.getD [], c.type.getD [], []⟩

/-- The qualification that the left hand side of a cross gives to the
right hand side: its value, if any, is the target type. -/
def crossCtx (n : Name) : Option Ctx :=
  let d := if n.dir = [] then none else some n.dir
  if n.value = [] then
    some ⟨n.proj, d, if n.type = [] then none else some n.type⟩
  else if n.type = [] then some ⟨n.proj, d, some n.value⟩
  else none

/-- All the names or nothing. -/
def singles : List Elem → Option (List Name)
  | [] => some []
  | .single n :: es => (singles es).map (n :: ·)
  | .pair _ _ :: _ => none

/-- Map and concatenate, all or nothing. -/
def concatAll {α : Type} (f : α → Option (List Elem)) : List α →
    Option (List Elem)
  | [] => some []
  | a :: as => do
    let x ← f a
    let y ← concatAll f as
    some (x ++ y)

/-- The left hand side of a pair is one name; nothing stands for the empty
name. -/
def lhsName (c : Ctx) : List Elem → Option Name
  | [] => emptyName c
  | [.single n] => some n
  | _ => none

mutual
/-- What an item stands for inside a qualification; `none`: it is an
error. -/
def Item.den (e : Env) (c : Ctx) : Item → Option (List Elem)
  | .absent => (emptyName c).map fun n => [.single n]
  | .word w => (wordName e c w).map fun n => [.single n]
  | .exp none => some []
  | .exp (some es) => insideAll e c es
  | .group none gs => gs.den e c
  | .group (some p) gs => do gs.den e (← preCtx e c p)
  | .pair l r => do
    let a ← lhsName c (← l.den e c)
    -- It forms a pair with each name of the right hand side.
    let bs ← singles (← r.den e c)
    some (bs.map (Elem.pair a))
/-- What a sequence stands for. -/
def Seq.den (e : Env) (c : Ctx) : Seq → Option (List Elem)
  | .nil => some []
  | .cons i s => do
    let x ← i.den e c
    let y ← s.den e c
    some (x ++ y)
/-- What the inside of a group stands for: `{}` is the empty name. -/
def Seq.body (e : Env) (c : Ctx) : Seq → Option (List Elem)
  | .nil => (emptyName c).map fun n => [.single n]
  | .cons i s => do
    let x ← i.den e c
    let y ← s.den e c
    some (x ++ y)
/-- What adjacent groups stand for: every name of the left hand side
qualifies every name of the right hand side. -/
def Groups.den (e : Env) (c : Ctx) : Groups → Option (List Elem)
  | .one s => s.body e c
  | .more gs s => do
    let ls ← singles (← gs.den e c)
    match ls with
    -- Nothing to cross with; what follows must still make sense.
    | [] => (s.body e Ctx.none).map fun _ => []
    | _ => concatAll (fun n => do s.body e (← crossCtx n)) ls
end

/-! ## What is not covered -/

/-- A valid project qualifier: without `%`, and empty or a valid project
name. -/
def Proj.wf (e : Env) : Proj → Prop
  | none => True
  | some p => p = [] ∨ e.validProj p = true

/-- The parts of a concatenation make sense. -/
def Part.wf : Part → Prop
  | .dir d => d ≠ []
  | _ => True

/-- One literal, or several parts. -/
def written : List Part → Prop
  | [] => False
  | [.lit _ _] => True
  | [_] => False
  | _ => True

def Word.wf (e : Env) (w : Word) : Prop :=
  Proj.wf e w.proj ∧ '%' ∉ w.text ∧ written w.parts ∧ (∀ p ∈ w.parts, p.wf) ∧
  joined w.parts = w.str

/-- A prefix has a directory or a type; see `project_only` for the rest. -/
def Pre.wf (e : Env) (p : Pre) : Prop :=
  Proj.wf e p.proj ∧ (p.dir = none → p.type ≠ none) ∧
  (∀ d, p.dir = some d → '%' ∉ d) ∧
  (∀ t, p.type = some t → t ≠ [] ∧ '%' ∉ t ∧ '/' ∉ t) ∧
  p.parts ≠ [] ∧ (∀ q ∈ p.parts, q.wf) ∧ joined p.parts = p.str

/-- No pairs. -/
def noPairs : List Elem → Bool
  | [] => true
  | .single _ :: es => noPairs es
  | .pair _ _ :: _ => false

mutual
/-- No pair is written here. -/
def Item.simple : Item → Bool
  | .absent => true
  | .word _ => true
  | .exp none => true
  | .exp (some es) => noPairs es
  | .group _ gs => gs.simple
  | .pair _ _ => false
def Seq.simple : Seq → Bool
  | .nil => true
  | .cons i s => i.simple && s.simple
def Groups.simple : Groups → Bool
  | .one s => s.simple
  | .more gs s => gs.simple && s.simple
end

/-- An item that may be a side of a pair: not a pair itself, and if it is
an expansion, one of exactly one name. -/
def Item.side : Item → Bool
  | .absent => true
  | .word _ => true
  | .exp (some [.single _]) => true
  | .exp _ => false
  | .group _ _ => true
  | .pair _ _ => false

/-- Something is written. -/
def Item.present : Item → Bool
  | .absent => false
  | _ => true

mutual
/-- The items the theorems are about; `cross`: crosses are allowed here
(they are not recognized inside of groups). -/
def Item.wf (e : Env) (cross : Bool) : Item → Prop
  | .absent => True
  | .word w => w.wf e
  | .exp _ => True
  | .group none gs => gs.wf e cross
  | .group (some p) gs => p.wf e ∧ gs.wf e cross
  | .pair l r => l.side = true ∧ r.side = true ∧ l.wf e cross ∧ r.wf e cross
def Seq.wf (e : Env) (cross : Bool) : Seq → Prop
  | .nil => True
  | .cons i s => i.present = true ∧ i.wf e cross ∧ s.wf e cross
def Groups.wf (e : Env) (cross : Bool) : Groups → Prop
  | .one s => s.wf e false
  | .more gs s => cross = true ∧ gs.wf e cross ∧ gs.simple = true ∧
      s.wf e false
end

end Verif.NameGroup
