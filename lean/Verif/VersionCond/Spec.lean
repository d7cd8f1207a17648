/-!
# Version constraints of dependencies: specification

What a standard version is, how two of them are ordered and what it means to satisfy a
version constraint, in the terms of the manual.  Also what a C preprocessor makes of a
conditional.
-/

namespace Verif.VersionCond

/-! ## Versions -/

/-- How far along a version is: `-a.N`, `-b.N` or the release itself. -/
inductive Stage
  | alpha (n : Nat)
  | beta (n : Nat)
  | release
  deriving DecidableEq, Repr

/-- Stage order: alphas by number, then betas by number, then the release. -/
def Stage.Before : Stage → Stage → Prop
  | .alpha a, .alpha b => a < b
  | .alpha _, .beta _ => True
  | .beta a, .beta b => a < b
  | .alpha _, .release => True
  | .beta _, .release => True
  | _, _ => False

/-- A standard version.  `snap` is the snapshot number with zero for "not a snapshot" and
`rev` the revision with zero for none. -/
structure Version where
  major : Nat
  minor : Nat
  patch : Nat
  stage : Stage := .release
  snap : Nat := 0
  rev : Nat := 0
  deriving DecidableEq, Repr

/-- The components are within their limits; only a pre-release can be a snapshot; number
zero is only for snapshots; there is no `0.0.0`. -/
def Version.Ok (v : Version) : Prop :=
  v.major ≤ 99999 ∧ v.minor ≤ 99999 ∧ v.patch ≤ 99999 ∧
  ¬ (v.major = 0 ∧ v.minor = 0 ∧ v.patch = 0) ∧
  match v.stage with
  | .alpha n => n ≤ 499 ∧ (n = 0 → v.snap ≠ 0)
  | .beta n => n ≤ 499 ∧ (n = 0 → v.snap ≠ 0)
  | .release => v.snap = 0

/-- `major.minor.patch` of one is before that of the other. -/
def TripleBefore (a b c a' b' c' : Nat) : Prop :=
  a < a' ∨ (a = a' ∧ (b < b' ∨ (b = b' ∧ c < c')))

/-- The same version up to the revision. -/
def Version.Same (v w : Version) : Prop :=
  v.major = w.major ∧ v.minor = w.minor ∧ v.patch = w.patch ∧ v.stage = w.stage ∧
    v.snap = w.snap

/-- One version is before the other, revisions aside: by major, minor, patch, then by the
stage; a snapshot is after the pre-release it carries the name of and snapshots of the same
pre-release are ordered by their numbers. -/
def Version.Before (v w : Version) : Prop :=
  TripleBefore v.major v.minor v.patch w.major w.minor w.patch ∨
  (v.major = w.major ∧ v.minor = w.minor ∧ v.patch = w.patch ∧
    (v.stage.Before w.stage ∨ (v.stage = w.stage ∧ v.snap < w.snap)))

/-! ## Constraints -/

/-- An endpoint: a version or `X.Y.Z-`, the point before all the pre-releases of
`X.Y.Z`. -/
inductive Bound
  | ver (v : Version)
  | earliest (major minor patch : Nat)
  deriving DecidableEq, Repr

/-- The endpoint is well-formed. -/
def Bound.Ok : Bound → Prop
  | .ver v => v.Ok
  | .earliest a b c => a ≤ 99999 ∧ b ≤ 99999 ∧ c ≤ 99999 ∧ ¬ (a = 0 ∧ b = 0 ∧ c = 0)

/-- The version is before the endpoint.  Revisions matter only if the endpoint has one. -/
def Bound.Above (d : Version) : Bound → Prop
  | .ver v => d.Before v ∨ (v.rev ≠ 0 ∧ d.Same v ∧ d.rev < v.rev)
  | .earliest a b c => TripleBefore d.major d.minor d.patch a b c

/-- The version is after the endpoint. -/
def Bound.Below (d : Version) : Bound → Prop
  | .ver v => v.Before d ∨ (v.rev ≠ 0 ∧ d.Same v ∧ v.rev < d.rev)
  | .earliest a b c => ¬ TripleBefore d.major d.minor d.patch a b c

/-- The version is the endpoint. -/
def Bound.At (d : Version) : Bound → Prop
  | .ver v => d.Same v ∧ (v.rev ≠ 0 → d.rev = v.rev)
  | .earliest _ _ _ => False

/-- A version constraint: the optional endpoints and whether each is excluded.  `== V` is
`[V V]`, `~V` and `^V` are ranges with an excluded `X.Y.Z-` as the upper endpoint. -/
structure Constraint where
  lo : Option Bound
  loOpen : Bool
  hi : Option Bound
  hiOpen : Bool
  deriving Repr

/-- The version satisfies the constraint. -/
def Constraint.Sat (c : Constraint) (d : Version) : Prop :=
  (∀ b, c.lo = some b → b.Below d ∨ (c.loOpen = false ∧ b.At d)) ∧
  (∀ b, c.hi = some b → b.Above d ∨ (c.hiOpen = false ∧ b.At d))

/-- What a parsed constraint meets: it has an endpoint, the endpoints are well-formed,
`X.Y.Z-` is only included below and excluded above, and a range of one version includes
it. -/
structure Constraint.Ok (c : Constraint) : Prop where
  some : c.lo ≠ none ∨ c.hi ≠ none
  lo : ∀ b, c.lo = Option.some b → b.Ok
  hi : ∀ b, c.hi = Option.some b → b.Ok
  loEarliest : ∀ x y z, c.lo = Option.some (.earliest x y z) → c.loOpen = false
  hiEarliest : ∀ x y z, c.hi = Option.some (.earliest x y z) → c.hiOpen = true
  single : c.lo ≠ none → c.lo = c.hi → c.loOpen = false ∧ c.hiOpen = false

/-- No endpoint mentions a revision. -/
def Constraint.NoRevision (c : Constraint) : Prop :=
  (∀ v, c.lo = some (.ver v) → v.rev = 0) ∧ (∀ v, c.hi = some (.ver v) → v.rev = 0)

/-- An endpoint is a snapshot. -/
def Constraint.Snapshot (c : Constraint) : Prop :=
  (∃ v, c.lo = some (.ver v) ∧ v.snap ≠ 0) ∨ (∃ v, c.hi = some (.ver v) ∧ v.snap ≠ 0)

/-! ## The number of a version

`AAAAABBBBBCCCCCDDDE`, the form in which versions are given to the C preprocessor. -/

/-- `DDD` and whether it is a pre-release. -/
def Stage.digits : Stage → Nat
  | .alpha n => n
  | .beta n => n + 500
  | .release => 0

/-- The number of a version: one is subtracted from the first fifteen digits for a
pre-release, `DDD` is the alpha or beta number, the latter with 500 added, and the last
digit is one for a snapshot. -/
def Version.number (v : Version) : Nat :=
  let abc := (v.major * 100000 + v.minor) * 100000 + v.patch
  (if v.stage = .release then abc else abc - 1) * 10000 + v.stage.digits * 10 +
    (if v.snap = 0 then 0 else 1)

/-! ## The C preprocessor -/

/-- Tokens of conditions. -/
inductive Tok
  | id (s : List Char)
  | num (n : Nat)
  | lt | le | gt | ge | eq
  | and | or | not
  | lp | rp
  deriving DecidableEq, Repr

/-- The macros that are defined, as numbers. -/
abbrev Env := List Char → Option Nat

/-- Levels of the grammar, from the loosest binding operator. -/
inductive Level
  | or | and | cmp | unary

/-- The value of a comparison, unless the token is not one. -/
def Tok.compare : Tok → Nat → Nat → Option Bool
  | .lt, a, b => some (decide (a < b))
  | .le, a, b => some (decide (a ≤ b))
  | .gt, a, b => some (decide (a > b))
  | .ge, a, b => some (decide (a ≥ b))
  | .eq, a, b => some (decide (a = b))
  | _, _, _ => none

/-- Truth as a number. -/
def truth (b : Bool) : Nat := if b then 1 else 0

/-- Recursive descent over the C expression grammar: `||` binds looser than `&&`, `&&`
than comparisons and those than `!`.  Unknown identifiers are zero.  Comparisons of
comparisons are left out of the grammar.  The number bounds the depth of the descent. -/
def parse (env : Env) : Nat → Level → List Tok → Option (Nat × List Tok)
  | 0, _, _ => none
  | f + 1, .or, ts =>
    match parse env f .and ts with
    | some (a, .or :: rest) =>
      match parse env f .or rest with
      | some (b, r) => some (truth (a != 0 || b != 0), r)
      | none => none
    | r => r
  | f + 1, .and, ts =>
    match parse env f .cmp ts with
    | some (a, .and :: rest) =>
      match parse env f .and rest with
      | some (b, r) => some (truth (a != 0 && b != 0), r)
      | none => none
    | r => r
  | f + 1, .cmp, ts =>
    match parse env f .unary ts with
    | some (a, t :: rest) =>
      match t.compare 0 0 with
      | none => some (a, t :: rest)
      | some _ =>
        match parse env f .unary rest with
        | some (b, r) => some (truth ((t.compare a b).getD false), r)
        | none => none
    | r => r
  | f + 1, .unary, .not :: ts =>
    match parse env f .unary ts with
    | some (a, r) => some (truth (a == 0), r)
    | none => none
  | f + 1, .unary, .lp :: ts =>
    match parse env f .or ts with
    | some (a, .rp :: r) => some (a, r)
    | _ => none
  | _ + 1, .unary, .id s :: ts => some ((env s).getD 0, ts)
  | _ + 1, .unary, .num n :: ts => some (n, ts)
  | _ + 1, .unary, _ => none

/-- Value of an expression, `none` if it is not one.  The descent goes down at most four
levels for every token. -/
def eval (env : Env) (ts : List Tok) : Option Nat :=
  match parse env (4 * ts.length + 4) .or ts with
  | some (a, []) => some a
  | _ => none

/-- Lines of a header, as far as they matter here. -/
inductive Line
  | ifdef (m : List Char)
  | if_ (e : List Tok)
  | error
  | endif
  deriving DecidableEq, Repr

/-- Whether the preprocessor reaches an `#error`, `none` if the input is ill-formed.  The
list says for each open conditional whether its lines are taken. -/
def errorIn (env : Env) : List Bool → List Line → Option Bool
  | [], [] => some false
  | _ :: _, [] => none
  | st, .ifdef m :: ls => errorIn env ((st.all id && (env m).isSome) :: st) ls
  | st, .if_ e :: ls =>
    if st.all id then
      match eval env e with
      | some v => errorIn env ((v != 0) :: st) ls
      | none => none
    else errorIn env (false :: st) ls
  | st, .error :: ls => if st.all id then some true else errorIn env st ls
  | _ :: st, .endif :: ls => errorIn env st ls
  | [], .endif :: _ => none

/-! ## Names of macros -/

/-- Blank characters. -/
def Blank (c : Char) : Prop := c = ' ' ∨ c = '\t' ∨ c = '\n' ∨ c = '\r'

/-- The text is the name with blanks around it. -/
def Padded (s m : List Char) : Prop :=
  ∃ l r, s = l ++ m ++ r ∧ (∀ c ∈ l, Blank c) ∧ (∀ c ∈ r, Blank c)

/-- A name of a macro, as far as it matters here: not empty, without blanks, commas and
parentheses. -/
def MacroName (m : List Char) : Prop :=
  m ≠ [] ∧ ∀ c ∈ m, ¬ Blank c ∧ c ≠ ',' ∧ c ≠ ')'

end Verif.VersionCond
