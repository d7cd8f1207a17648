import Verif.VersionCond.Spec

/-!
# Version constraints of dependencies: model

`in_rule::lookup()` of the `version` module, `libbuild2/version/rule.cxx`.
-/

namespace Verif.VersionCond

/-- `standard_version` as far as it is used here: the number, the snapshot number (zero if
not a snapshot) and the revision.  `libbuild2/version/rule.cxx` 222-233, the members
`version`, `snapshot_sn` and `snapshot ()`.  Simplified: the epoch and the snapshot id are
left out. -/
structure SV where
  version : Nat
  snapshotSn : Nat
  revision : Nat
  deriving DecidableEq, Repr

/-- `standard_version::snapshot ()`, `libbuild2/version/rule.cxx` 230-232. -/
def SV.snapshot (v : SV) : Bool := v.snapshotSn != 0

/-- `standard_version_constraint`, `libbuild2/version/rule.cxx` 225-229. -/
structure SVC where
  minVersion : Option SV
  minOpen : Bool
  maxVersion : Option SV
  maxOpen : Bool
  deriving Repr

/-- What the constraint parser makes of an endpoint: the number of the version, as given
in `doc/manual.cli` 7468-7495.  `X.Y.Z-` is `X.Y.Z-a.0` with the snapshot digit set but
without a snapshot number. -/
def encode : Bound → SV
  | .ver v => ⟨v.number, v.snap, v.rev⟩
  | .earliest a b c => ⟨((a * 100000 + b) * 100000 + c - 1) * 10000 + 1, 0, 0⟩

/-- `standard_version_constraint (dp.constraint, m.version)`,
`libbuild2/version/rule.cxx` 186-190.  Simplified: the constraint is already parsed. -/
def parseConstraint (c : Constraint) : SVC :=
  ⟨c.lo.map encode, c.loOpen, c.hi.map encode, c.hiOpen⟩

/-- `cmp`, `libbuild2/version/rule.cxx` 235-238.  Simplified: tokens for text. -/
def cmp (m : List Char) (o : Tok) (v : Nat) : List Tok := [.id m, o, .num v]

/-- `if (p) r += '('`, `libbuild2/version/rule.cxx` 250 and 270. -/
def opening (p : Bool) : List Tok := if p then [.lp] else []

/-- `if (p) r += ')'`, `libbuild2/version/rule.cxx` 256 and 276. -/
def closing (p : Bool) : List Tok := if p then [.rp] else []

/-- `max_cmp`, `libbuild2/version/rule.cxx` 244-262. -/
def maxCmp (vm sm : List Char) (mao : Bool) (mav : SV) (p : Bool) : List Tok :=
  if mav.snapshot then
    opening p ++
    cmp vm .lt mav.version ++ [.or, .lp] ++
    cmp vm .eq mav.version ++ [.and] ++
    cmp sm (if mao then .lt else .le) mav.snapshotSn ++ [.rp] ++
    closing p
  else
    cmp vm (if mao then .lt else .le) mav.version

/-- `min_cmp`, `libbuild2/version/rule.cxx` 264-282. -/
def minCmp (vm sm : List Char) (mio : Bool) (miv : SV) (p : Bool) : List Tok :=
  if miv.snapshot then
    opening p ++
    cmp vm .gt miv.version ++ [.or, .lp] ++
    cmp vm .eq miv.version ++ [.and] ++
    cmp sm (if mio then .gt else .ge) miv.snapshotSn ++ [.rp] ++
    closing p
  else
    cmp vm (if mio then .gt else .ge) miv.version

/-- The optional version is a snapshot, `libbuild2/version/rule.cxx` 231-232. -/
def snapshotOf (v : Option SV) : Bool :=
  match v with
  | some v => v.snapshot
  | none => false

/-- `cond`, `libbuild2/version/rule.cxx` 222-309; `none` is the failure.  A constraint
without endpoints is not something `standard_version_constraint` can hold here. -/
def cond (vm sm : List Char) (dc : SVC) : Option (List Tok) :=
  if sm.isEmpty && (snapshotOf dc.minVersion || snapshotOf dc.maxVersion) then none
  else
    match dc.minVersion, dc.maxVersion with
    | none, none => none
    | none, some mav => some (maxCmp vm sm dc.maxOpen mav false)
    | some miv, none => some (minCmp vm sm dc.minOpen miv false)
    | some miv, some mav =>
      if miv = mav then
        some (cmp vm .eq miv.version ++
          (if miv.snapshot then .and :: cmp sm .eq miv.snapshotSn else []))
      else
        some (minCmp vm sm dc.minOpen miv true ++ [.and] ++
          maxCmp vm sm dc.maxOpen mav true)

/-- The `check` substitution, `libbuild2/version/rule.cxx` 314-327.  Simplified: lines for
text, without the message. -/
def check (vm sm : List Char) (dc : SVC) : Option (List Line) :=
  (cond vm sm dc).map fun c =>
    [.ifdef vm, .if_ ([.not, .lp] ++ c ++ [.rp]), .error, .endif, .endif]

/-- Which of the two it is, `libbuild2/version/rule.cxx` 206-207 and 311. -/
inductive Kind
  | check
  | condition
  deriving DecidableEq, Repr

/-- The blanks that `trim ()` removes, `libbuild2/version/rule.cxx` 219-220. -/
def isBlank (c : Char) : Bool := c == ' ' || c == '\t' || c == '\n' || c == '\r'

/-- `trim ()`, `libbuild2/version/rule.cxx` 219-220. -/
def trim (s : List Char) : List Char :=
  ((s.dropWhile isBlank).reverse.dropWhile isBlank).reverse

/-- The name up to the opening parenthesis and the rest,
`libbuild2/version/rule.cxx` 206-207. -/
def kindOf (vn : List Char) : Option (Kind × List Char) :=
  if "check(".toList.isPrefixOf vn then some (.check, vn.drop 6)
  else if "condition(".toList.isPrefixOf vn then some (.condition, vn.drop 10)
  else none

/-- Not one of `,)`, `libbuild2/version/rule.cxx` 209. -/
def isName (c : Char) : Bool := !(c == ',' || c == ')')

/-- The macros between the parentheses, `libbuild2/version/rule.cxx` 209-220; `none` is
the failure.  The text is what follows the opening parenthesis. -/
def macros (s : List Char) : Option (List Char × List Char) :=
  match s.dropWhile isName with
  | [] => none
  | c :: r =>
    let vm := trim (s.takeWhile isName)
    if c = ',' then
      if r.getLast? = some ')' then some (vm, trim r.dropLast) else none
    else some (vm, [])

end Verif.VersionCond
