import Verif.RulePat.Spec

/-!
# Ad hoc pattern rules: model of the code

libbuild2/adhoc-rule-regex-pattern.cxx:14-128 (constructor), 130-293 `match`.

Simplifications: std::regex is modelled as a backtracking matcher, in the order of
preference of ECMAScript, without anchors, assertions and lazy quantifiers, and without
resetting captures in every iteration. A regular expression is not text but, since `|`
binds the least, the list of its alternatives; groups in it are numbered from 1, left to
right (the concatenation of texts is then numbered through). Finding prerequisites through
groups, the name of a target and whether a prerequisite is included are given.
-/

namespace Verif.RulePat

/-! ## Matching -/

/-- The prefix of a string that is equal to another, if any, and what is left.
Used by `matchRule` (adhoc-rule-regex-pattern.cxx:130-293). -/
def dropPrefix (fold : Nat → Nat) : Str → Str → Option Str
  | [], s => some s
  | _ :: _, [] => none
  | c :: cs, d :: s => if fold c = fold d then dropPrefix fold cs s else none

/-- Iterations: every one of them consumes something. `n` is a bound on their number.
Used by `matchRule` (adhoc-rule-regex-pattern.cxx:130-293). -/
def iters (f : Env → Str → List (Env × Str)) : Nat → Env → Str → List (Env × Str)
  | 0, e, s => [(e, s)]
  | n + 1, e, s =>
    ((f e s).filter fun r => r.2.length < s.length).flatMap (fun r => iters f n r.1 r.2) ++
      [(e, s)]

/-- std::regex_match: all the ways in which an expression matches a prefix, in the order of
preference, with what is left. Used by `matchRule` (adhoc-rule-regex-pattern.cxx:130-293). -/
def ways (fold : Nat → Nat) : Re → Env → Str → List (Env × Str)
  | .eps, e, s => [(e, s)]
  | .chr p, e, s =>
    match s with
    | c :: s => if p (fold c) then [(e, s)] else []
    | [] => []
  | .seq a b, e, s => (ways fold a e s).flatMap fun r => ways fold b r.1 r.2
  | .alt a b, e, s => ways fold a e s ++ ways fold b e s
  | .star r, e, s => iters (ways fold r) s.length e s
  | .grp i r, e, s =>
    (ways fold r e s).map fun x => (x.1.put i (s.take (s.length - x.2.length)), x.2)
  | .ref i, e, s =>
    match dropPrefix fold ((e i).getD []) s with
    | some s => [(e, s)]
    | none => []

/-- The ways in which it matches all of the string.
Used by `matchRule` (adhoc-rule-regex-pattern.cxx:130-293). -/
def full (fold : Nat → Nat) (r : Re) (e : Env) (s : Str) : List Env :=
  ((ways fold r e s).filter fun x => x.2.isEmpty).map (·.1)

/-! ## The pattern -/

/-- An element: its type and, if it is a pattern, its alternatives and flags `i` and `e`.
Used by `collect` (adhoc-rule-regex-pattern.cxx:243-257, 263-280). -/
structure MElem where
  type : Nat
  pat  : Option (List Re × Bool × Bool)

/-- `targets_` and `prereqs_`. Used by `compile` (adhoc-rule-regex-pattern.cxx:14-128). -/
structure MPattern where
  self    : MElem
  members : List MElem
  prqs    : List MElem

/-- The number of groups in the alternatives.
Used by `joined` (adhoc-rule-regex-pattern.cxx:36-74). -/
def groupsOf : List Re → Nat
  | [] => 0
  | r :: rs => r.groups + groupsOf rs

/-- The patterns in order. Used by `compile` (adhoc-rule-regex-pattern.cxx:14-128). -/
def MPattern.pats (p : MPattern) : List (List Re × Bool × Bool) :=
  (p.self :: (p.members ++ p.prqs)).filterMap (·.pat)

/-- adhoc-rule-regex-pattern.cxx:36-74 `append_pattern`: the texts are concatenated with
`/` in between, here as alternatives: the last one of what is before is continued by the
first one of what is after. `k` groups are before. -/
def joined (k : Nat) : List (List Re) → List Re
  | [] => []
  | [a] => a.map (Re.shift k)
  | a :: as =>
    let x := a.map (Re.shift k)
    let y := joined (k + groupsOf a) as
    x.dropLast ++
      [.seq (x.getLast?.getD .eps) (.seq (.chr (· == 47)) (y.head?.getD .eps))] ++ y.tail

/-- The alternatives as one expression.
Used by `compile` (adhoc-rule-regex-pattern.cxx:14-128). -/
def alts : List Re → Re
  | [] => .eps
  | [r] => r
  | r :: rs => .alt r (alts rs)

/-- adhoc-rule-regex-pattern.cxx:14-128 (constructor): the regular expression and whether
it ignores case, unless flags are inconsistent. -/
def compile (p : MPattern) : Option (Re × Bool) :=
  match p.pats with
  | [] => none
  | (a, i, x) :: ps =>
    if ps.all fun q => q.2.1 == i then
      some (alts (joined 0 (((a, i, x) :: ps).map (·.1))), i)
    else none

/-! ## Matching of a rule -/

/-- algorithm.ixx:380-393 `find_adhoc_member`. -/
def findMember (isA : IsA) : List Thing → Nat → Option Thing
  | [], _ => none
  | t :: ts, type => if isA t.type type then some t else findMember isA ts type

/-- adhoc-rule-regex-pattern.cxx:157-181 `find_prereq`. -/
def findPrereq (isA : IsA) : List (Thing × Bool) → Nat → Option Thing
  | [], _ => none
  | t :: ts, type =>
    if t.2 && isA t.1.type type then some t.1 else findPrereq isA ts type

/-- adhoc-rule-regex-pattern.cxx:243-257, 263-280: the names of what the patterns are for. -/
def collect (find : Nat → Option Thing) : List MElem → Option (List Str)
  | [] => some []
  | e :: es =>
    match e.pat with
    | none => collect find es
    | some (_, _, x) =>
      match find e.type with
      | some t => (collect find es).map (t.name x :: ·)
      | none => none

/-- The names with `/` in between (adhoc-rule-regex-pattern.cxx:225-236 `append_name`). -/
def signature : List Str → Str
  | [] => []
  | [n] => n
  | n :: ns => n ++ 47 :: signature ns

/-- adhoc-rule-regex-pattern.cxx:130-293 `match`: what has been captured, if it matches.
(That there is a prerequisite for the first pattern is checked before anything else.) -/
def matchRule (lower : Nat → Nat) (isA : IsA) (p : MPattern) (d : Decl) : Option Env :=
  match p.self.pat, compile p with
  | some (_, _, x), some (r, i) =>
    match collect (findPrereq isA d.prqs) (p.prqs.filter (·.pat.isSome) |>.take 1) with
    | none => none
    | some _ =>
      match collect (findMember isA d.members) p.members with
      | none => none
      | some ms =>
        match collect (findPrereq isA d.prqs) p.prqs with
        | none => none
        | some ps =>
          (full (if i then lower else id) r (fun _ => none)
            (signature (d.self.name x :: (ms ++ ps)))).head?
  | _, _ => none

end Verif.RulePat
