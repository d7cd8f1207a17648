import Verif.RuleMatch.Spec

/-!
# Rule matching: model

Models rule maps (libbuild2/rule-map.hxx), rule hints (libbuild2/target.{hxx,ixx}) and
match_rule_impl() and match_adhoc_recipe() in libbuild2/algorithm.cxx.

Simplifications. Whether a rule matches is given as a function of the rule, the hint and
whether it is matched as a fallback, so that matching has no effects. Names and hints are
lists of the dot-separated components, which makes prefix_map::find_sub() (in libbutl, not
part of the repository) the prefix relation; the order of names in the map is arbitrary.
The match options, the project environment and tracing are not modelled.
-/

namespace Verif.RuleMatch

/-- action.hxx:157-192: perform_id. -/
def performId : Nat := 2
/-- action.hxx:157-192: configure_id. -/
def configureId : Nat := 3
/-- action.hxx:157-192: dist_id. -/
def distId : Nat := 6
/-- action.hxx:157-192: default_id. -/
def defaultId : Nat := 1
/-- action.hxx:157-192: update_id. -/
def updateId : Nat := 2
/-- action.hxx:157-192: clean_id. -/
def cleanId : Nat := 3

/-- An ad hoc rule that may provide a fallback for the reverse operation: the function is
adhoc_rule::reverse_fallback() with the meta-operation, operation and target type.
Used by `emplace` (rule-map.hxx:37-48). -/
structure Reverse where
  cand : Cand
  reverse : Nat → Nat → Nat → Bool

/-- A registered rule. For adhoc_rule_pattern::fallback_rule also its rules.
Used by `emplace` (rule-map.hxx:37-48). -/
structure Entry where
  cand : Cand
  fallback : Option (List Reverse)

/-! ## Rule maps -/

/-- rule-map.hxx:37-48 name_rule_map and its emplace(): an existing name stays. The order is
arbitrary: `lt`. -/
def emplace (lt : Name → Name → Bool) (e : Entry) : List Entry → List Entry × Bool
  | [] => ([e], true)
  | x :: xs =>
    if x.cand.name = e.cand.name then (x :: xs, false)
    else if lt e.cand.name x.cand.name && !(xs.any (fun y => y.cand.name = e.cand.name)) then
      (e :: x :: xs, true)
    else
      let (ys, b) := emplace lt e xs
      (x :: ys, b)

/-- rule-map.hxx:50 target_type_rule_map: `map_[&tt]` followed by emplace(). -/
def insertType (lt : Name → Name → Bool) (tt : Nat) (e : Entry) :
    List (Nat × List Entry) → List (Nat × List Entry) × Bool
  | [] => ([(tt, (emplace lt e []).1)], (emplace lt e []).2)
  | (x, es) :: xs =>
    if x = tt then ((x, (emplace lt e es).1) :: xs, (emplace lt e es).2)
    else ((x, es) :: (insertType lt tt e xs).1, (insertType lt tt e xs).2)

/-- The map for one meta-operation: indexed by the operation.
Used by `resizeOp` (rule-map.hxx:69-70). -/
abbrev OpMap := List (List (Nat × List Entry))

/-- rule-map.hxx:69-70: resize. -/
def resizeOp (m : OpMap) (o : Nat) : OpMap :=
  if o ≥ m.length then m ++ List.replicate ((if o < 3 then 3 else o) + 1 - m.length) [] else m

/-- rule-map.hxx:60-73 operation_rule_map::insert(). -/
def insertOp (lt : Name → Name → Bool) (o tt : Nat) (e : Entry) (m : OpMap) : OpMap × Bool :=
  let m := resizeOp m o
  (m.set o (insertType lt tt e (m[o]?.getD [])).1, (insertType lt tt e (m[o]?.getD [])).2)

/-- rule-map.hxx:97-180 rule_map: the linked list. -/
abbrev RuleMap := List (Nat × OpMap)

/-- rule-map.hxx:172: the node for perform. -/
def RuleMap.init : RuleMap := [(performId, [])]

/-- rule-map.hxx:122-141 rule_map::insert(). -/
def insertRule (lt : Name → Name → Bool) (mo o tt : Nat) (e : Entry) : RuleMap → RuleMap × Bool
  | [] => ([(mo, (insertOp lt o tt e []).1)], (insertOp lt o tt e []).2)
  | (x, m) :: ms =>
    if x = mo then ((x, (insertOp lt o tt e m).1) :: ms, (insertOp lt o tt e m).2)
    else ((x, m) :: (insertRule lt mo o tt e ms).1, (insertRule lt mo o tt e ms).2)

/-- rule-map.hxx:163-167, 77-81 operator[], algorithm.cxx:781-805: the rules for the
meta-operation, operation and type, none if there is no entry. -/
def entries (m : RuleMap) (mo oi tt : Nat) : List Entry :=
  match m.find? (fun x => x.1 == mo) with
  | none => []
  | some (_, om) =>
    match om[oi]? with
    | none => []
    | some ttm =>
      match ttm.find? (fun x => x.1 == tt) with
      | none => []
      | some (_, es) => es

/-! ## Hints -/

/-- target.hxx:166-171 rule_hints::value_type. The hint is not empty. -/
structure Hint where
  type : Option Nat
  op : Nat
  hint : Name
deriving DecidableEq

/-- target.ixx:63-65 rule_hints::find(): the hint is for this type or without a type. -/
def hintApplies (types : List Nat) (ut : Bool) (t : Option Nat) : Bool :=
  match t with
  | none => ut
  | some tt => types.contains tt

/-- target.ixx:59-80 rule_hints::find(): the loop. The `types` are those of the target. -/
def findHintLoop (types : List Nat) (o : Nat) (ut : Bool) : List Hint → Option Name → Name
  | [], f => f.getD []
  | v :: vs, f =>
    if !hintApplies types ut v.type then
      findHintLoop types o ut vs f
    else if v.op = o then v.hint
    else if f.isNone && v.op == defaultId && (o == updateId || o == cleanId) then
      findHintLoop types o ut vs (some v.hint)
    else findHintLoop types o ut vs f

/-- target.ixx:58-80 rule_hints::find(). -/
def findHints (hs : List Hint) (types : List Nat) (o : Nat) (ut : Bool) : Name :=
  findHintLoop types o ut hs none

/-- target.ixx:82-95 rule_hints::insert(). -/
def insertHint (h : Hint) : List Hint → List Hint
  | [] => [h]
  | x :: xs => if x.op = h.op ∧ x.type = h.type then h :: xs else x :: insertHint h xs

/-- target.ixx:97-134 find_hint(). The group, if any, is its hints and whether its type
has the member_hint flag. -/
def findHint (types : List Nat) (memberHint : Bool) (hs : List Hint)
    (group : Option (Bool × List Hint)) (o : Nat) : Name :=
  let r := if !hs.isEmpty then findHints hs types o (!memberHint) else []
  if r ≠ [] then r
  else
    match group with
    | none => []
    | some (mh, ghs) => if !ghs.isEmpty then findHints ghs types o mh else []

/-! ## Matching rules -/

/-- Whether a rule (object) matches with this hint and this fallback flag.
Used by `Env` (algorithm.cxx:634-640, 742-768). -/
abbrev Matches := Nat → Name → Bool → Bool

/-- algorithm.cxx:824-845: the rule behind a fallback rule. -/
def resolve (mo o tt oi : Nat) (e : Entry) : Option Cand :=
  if oi = 0 then
    match e.fallback with
    | some rs => (rs.find? (fun r => r.reverse mo o tt)).map (·.cand)
    | none => some e.cand
  else some e.cand

/-- algorithm.cxx:634-640, 742-768: what does not change during the search. -/
structure Env where
  mo : Nat
  o : Nat
  hint : Name
  locked : Bool
  skip : Option Nat
  m : Matches

/-- algorithm.cxx:872-914: this one also matches. -/
def alsoMatches (v : Env) (tt oi : Nat) (e : Entry) : Bool :=
  match resolve v.mo v.o tt oi e with
  | none => false
  | some c => if !v.locked && !c.adhoc then false else v.m c.obj v.hint (oi = 0)

/-- algorithm.cxx:814-941: the rules for a type in a scope for an operation. -/
def scan (v : Env) (tt oi : Nat) : List Entry → Outcome
  | [] => .none
  | e :: es =>
    match resolve v.mo v.o tt oi e with
    | none => scan v tt oi es
    | some c =>
      if !v.locked && !c.adhoc then scan v tt oi es
      else if some c.obj = v.skip then scan v tt oi es
      else if !v.m c.obj v.hint (oi = 0) then scan v tt oi es
      else if es.any (alsoMatches v tt oi) then .ambiguous
      else .matched c

/-- algorithm.cxx:808-812: filter against the hint. -/
def filterHint (hint : Name) (es : List Entry) : List Entry :=
  if hint = [] then es else es.filter (fun e => hint.isPrefixOf e.cand.name)

/-- algorithm.cxx:770-944: the nested loops continue with the next one if nothing matched. -/
def Outcome.orElse (r : Outcome) (f : Unit → Outcome) : Outcome :=
  match r with
  | .none => f ()
  | r => r

/-- algorithm.cxx:787-942: the operation and then the wildcard. -/
def searchOps (v : Env) (tt : Nat) (s : RuleMap) : List Nat → Outcome
  | [] => .none
  | oi :: ois =>
    (scan v tt oi (filterHint v.hint (entries s v.mo oi tt))).orElse
      (fun _ => searchOps v tt s ois)

/-- algorithm.cxx:789: the values of `oi`. -/
def opsOf (o : Nat) : List Nat := if o = 0 then [] else [o, 0]

/-- algorithm.cxx:775-943: scopes outwards. -/
def searchScopes (v : Env) (tt : Nat) : List RuleMap → Outcome
  | [] => .none
  | s :: ss => (searchOps v tt s (opsOf v.o)).orElse (fun _ => searchScopes v tt ss)

/-- algorithm.cxx:770-944: the type and its bases. -/
def searchTypes (v : Env) (ss : List RuleMap) : List Nat → Outcome
  | [] => .none
  | tt :: tts => (searchScopes v tt ss).orElse (fun _ => searchTypes v ss tts)

/-- A scope: its rules and whether it is a root scope.
Used by `walk` (algorithm.cxx:775-777). -/
structure Scope where
  rules : RuleMap
  root : Bool

/-- algorithm.cxx:775-777: the scopes outwards, from the base scope (first) to the global
scope (last), stopping at the project root and going to the global scope from there. -/
def walk : List Scope → List RuleMap
  | [] => []
  | s :: ss =>
    s.rules ::
      (if s.root then
        match ss.getLast? with
        | none => []
        | some g => [g.rules]
      else walk ss)

/-- algorithm.cxx:775: for retry, starting from the root scope. -/
def fromRoot : List Scope → List Scope
  | [] => []
  | s :: ss => if s.root then s :: ss else fromRoot ss

/-- algorithm.cxx:764-948: the search and, for meta-operations other than perform, the
second one without the hint. -/
def searchRules (mo o : Nat) (hint : Name) (locked : Bool) (skip : Option Nat) (m : Matches)
    (types : List Nat) (scopes : List Scope) : Outcome :=
  (searchTypes ⟨mo, o, hint, locked, skip, m⟩ (walk scopes) types).orElse (fun _ =>
    if mo = performId ∨ hint = [] then .none
    else searchTypes ⟨mo, o, [], locked, skip, m⟩ (walk (fromRoot scopes)) types)

/-! ## Ad hoc recipes -/

/-- An ad hoc recipe and the actions (meta-operation and operation) it is for.
Used by `findMatch` (algorithm.cxx:537-582). -/
structure Recipe where
  cand : Cand
  actions : List (Nat × Nat)
  reverse : Nat → Nat → Nat → Bool

/-- algorithm.cxx:537-582 find_match(): the recipe and whether it was found. -/
def findMatch (m : Matches) (tt : Nat) (rs : List Recipe) (ca : Nat × Nat) :
    Option Cand × Bool :=
  match rs.find? (fun r => r.actions.contains ca) with
  | some r => (if m r.cand.obj [] false then some r.cand else none, true)
  | none =>
    match rs.find? (fun r => r.reverse ca.1 ca.2 tt) with
    | some r => (if m r.cand.obj [] true then some r.cand else none, true)
    | none => (none, false)

/-- algorithm.cxx:504-608 match_adhoc_recipe(). The operation is already the outer one for
an outer action. -/
def matchRecipe (m : Matches) (tt : Nat) (rs : List Recipe) (mo o : Nat) : Option Cand :=
  let r := findMatch m tt rs (mo, o)
  if r.1.isNone && !r.2 && (mo == configureId || mo == distId) then
    (findMatch m tt rs (performId, o)).1
  else r.1

/-! ## Targets -/

/-- algorithm.cxx:634-1009: what is used of a target. -/
structure Info where
  /-- Its type and the bases. -/
  types : List Nat
  scopes : List Scope
  recipes : List Recipe
  /-- find_hint(). -/
  hint : Nat → Name
  m : Matches

/-- algorithm.cxx:659-711: a target and its group, if any. -/
inductive Target
  | plain (i : Info)
  /-- A member of a group: whether the group's type has the dyn_members flag, whether it is
  a group{} and the rule if it is already matched. -/
  | member (i : Info) (dyn explicit : Bool) (rule : Option Cand) (group : Target)

/-- algorithm.cxx:634-1009: what is used of the target itself (`t`) rather than its group. -/
def Target.info : Target → Info
  | .plain i => i
  | .member i _ _ _ _ => i

/-- algorithm.cxx:718-954: the recipes and the rules. -/
def matchInfo (mo o : Nat) (locked : Bool) (skip : Option Nat) (i : Info) : Outcome :=
  match (if i.recipes.isEmpty then none else matchRecipe i.m (i.types.headD 0) i.recipes mo o) with
  | some c => .matched c
  | none => searchRules mo o (i.hint o) locked skip i.m i.types i.scopes

/-- algorithm.cxx:634-1009 match_rule_impl(). -/
def matchRule (mo o : Nat) (locked : Bool) (skip : Option Nat) : Target → Outcome
  | .plain i => matchInfo mo o locked skip i
  | .member i dyn explicit rule g =>
    match (if dyn then rule else none) with
    | some c => .matched c
    | none =>
      if explicit then
        (matchRule mo o false skip g).orElse (fun _ => matchInfo mo o locked skip i)
      else matchInfo mo o locked skip i

end Verif.RuleMatch
