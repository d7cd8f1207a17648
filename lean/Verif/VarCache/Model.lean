import Verif.VarCache.Spec
import Verif.Lookup.Model

/-!
# Cached variable values: model of the code

libbuild2/variable.txx:1432-1515 `variable_cache::insert`,
libbuild2/scope.cxx:46-239 `scope::lookup_original` (`pre_app` in particular),
libbuild2/scope.cxx:242-641 `scope::lookup_override_info`,
libbuild2/variable.cxx:3130-3187 (versions of the variables).

Simplifications, throughout:
* one variable, of global visibility, without aliases; its values are untyped (a
  NULL or list of names), so that nothing is typified;
* variables are not undefined (`erase()`), and overrides have been entered before
  anything is looked up;
* a call to `insert()` including the computation of the value, which is done with
  the lock held, is atomic. The entry is looked for twice, first with the shared
  lock, but what has been found there is only used if it is a hit;
* the caches of all the projects are one, since the set of variables the value is
  cached for has a project;
* a failed assertion is `none`;
* a null project in `applies` (scope.cxx:321) is not a subproject: see the model of
  the overrides (Verif/Override) for what else can happen then.
-/

namespace Verif.VarCache

open Verif.Lookup (Val Kind)
open Verif.Override (Ov OVis OKind)

variable {α : Type}

/-- `variable_map::value_data` (variable.hxx:1838-1847): a value, with what is in
`extra` as its kind, and its version. -/
structure Cell (α : Type) where
  kind : Kind
  val  : Val α
  ver  : Nat
  deriving DecidableEq, Repr

/-- All the `variable_map`s, as far as the variable is concerned.
Used by `Maps.set` (variable.cxx:3160-3184). -/
abbrev Maps (α : Type) := Vars → Option (Cell α)

/-- variable.cxx:3160-3184 `variable_map::insert`, 3131-3145 `lookup_to_modify` and
variable.hxx:1953-1961 `modify`, and the assignment to the value that is returned:
the version of a new value is 1, and is otherwise incremented. -/
def Maps.set (maps : Maps α) (m : Vars) (k : Kind) (v : Val α) : Maps α := fun m' =>
  if m' = m then
    some ⟨k, v, match maps m with | some c => c.ver + 1 | none => 1⟩
  else maps m'

/-- `variable_cache::entry_type` (variable.hxx:2123-2153). -/
structure Entry (α : Type) where
  val   : Val α
  ver   : Nat
  bver  : Nat
  svars : Option Vars
  sver  : Nat
  deriving DecidableEq, Repr

/-- `variable_cache::m_` (variable.hxx:2155-2157). -/
abbrev Cache (κ α : Type) := κ → Option (Entry α)

/-- An entry is added or updated. Used by `insert` (variable.txx:1432-1515). -/
def Cache.put {κ : Type} [DecidableEq κ] (c : Cache κ α) (k : κ) (e : Entry α) : Cache κ α :=
  fun k' => if k' = k then some e else c k'

/-- variable.txx:1432-1515 `variable_cache::insert` and, if the lock is returned, the
assignment of the value `v`. Returned is the value in the cache and its version. -/
def insert {κ : Type} [DecidableEq κ] (c : Cache κ α) (k : κ) (svars : Option Vars)
    (sver bver : Nat) (v : Val α) : Option (Val α × Nat × Cache κ α) :=
  match c k with
  | none => some (v, 1, c.put k ⟨v, 1, bver, svars, sver⟩)
  | some e =>
    if e.bver = bver ∧ e.svars = svars ∧ e.sver = sver then some (e.val, e.ver, c)
    else if bver < e.bver then none
    else if e.svars = svars ∧ sver < e.sver then none
    else some (v, e.ver + 1, c.put k ⟨v, e.ver + 1, bver, svars, sver⟩)

/-- Which object a value is: in a `variable_map`, in the cache for target
type/pattern-specific prepend/append (by the value, that is, the map it is in, and
the target type and name; scope.cxx:94), or in the cache for overrides (by the
innermost map, scope.cxx:509). -/
inductive Store | map (m : Vars) | pattern (m : Vars) (k : Nat) | override (m : Vars)
  deriving DecidableEq, Repr

/-- `lookup` (variable.hxx:560-625): the object that `value` points to, its current
value and version, and `vars`. -/
structure Ref (α : Type) where
  store : Store
  val   : Val α
  ver   : Nat
  vars  : Vars
  deriving DecidableEq, Repr

/-- `target_vars.cache` of all the scopes (variable.hxx:2281-2292). -/
abbrev PCache (α : Type) := Cache (Vars × Nat) α

/-- variable.cxx:3250-3345 `variable_type_map::find`: the first pattern that matches
and has a value. (See Verif/VarPattern for which patterns are tried.) -/
def findPat (w : World α) (maps : Maps α) (s k : Nat) : List Nat → Option (Vars × Cell α)
  | [] => none
  | n :: ns =>
    if w.pm s n k then
      match maps (.pattern s n) with
      | some c => some (.pattern s n, c)
      | none => findPat w maps s k ns
    else findPat w maps s k ns

/-- variable.txx:1442-1445: the version of the stem. -/
def stemVer (r : Option (Ref α)) : Nat :=
  match r with
  | some x => x.ver
  | none => 0

/-- scope.cxx:144-218: one scope, with the keys that are still to be tried; see
`Lookup.stemIn` for the arguments. In case of a prepend/append (scope.cxx:65-134),
first the stem is looked up, and then the value in the cache. -/
def origIn (w : World α) (maps : Maps α) (s : Nat)
    (out : List Nat → PCache α → Option (Option (Ref α) × PCache α)) (cur : List Nat) :
    List Nat → PCache α → Option (Option (Ref α) × PCache α)
  | [], pc =>
    match maps (.plain s) with
    | some c => some (some ⟨.map (.plain s), c.val, c.ver, .plain s⟩, pc)
    | none => out cur pc
  | k :: ks, pc =>
    match findPat w maps s k (w.pats s) with
    | some (m, c) =>
      if c.kind ≠ .assign then
        (origIn w maps s out (k :: ks) ks pc).bind fun (stem, pc) =>
          (insert pc (m, k) (stem.map (·.vars)) (stemVer stem) c.ver
            (Lookup.add c.kind (stem.map (·.val)) c.val)).map fun (v, ver, pc) =>
              (some ⟨.pattern m k, v, ver, m⟩, pc)
      else some (some ⟨.map m, c.val, c.ver, m⟩, pc)
    | none => origIn w maps s out cur ks pc

/-- scope.cxx:144-239: the loop over the scopes. -/
def origChain (w : World α) (maps : Maps α) :
    List Nat → List Nat → PCache α → Option (Option (Ref α) × PCache α)
  | [], _, pc => some (none, pc)
  | s :: rest, ks, pc => origIn w maps s (fun cur pc => origChain w maps rest cur pc) ks ks pc

/-- libbuild2/target.cxx:142-233 `target::lookup_original`, 271-295: the variables of
the rule, the target and its group, if not NULL. -/
def ownOf (maps : Maps α) : List Nat → Option (Ref α)
  | [] => none
  | t :: ts =>
    match maps (.target t) with
    | some ⟨_, some l, ver⟩ => some ⟨.map (.target t), some l, ver, .target t⟩
    | _ => ownOf maps ts

/-- target.cxx:142-233, 271-295 and scope.cxx:46-239: the original. -/
def original (w : World α) (maps : Maps α) (o : Origin) (pc : PCache α) :
    Option (Option (Ref α) × PCache α) :=
  match ownOf maps o.own with
  | some r => some (some r, pc)
  | none => origChain w maps (w.chain o.base) o.keys pc

/-- scope.cxx:448, 555: the number of target/rule-specific lookups. -/
def Origin.baseDepth (o : Origin) : Nat :=
  if o.keys = [] then 0 else if o.rule then 3 else 2

/-- The position of a scope in a chain. Used by `origDepth` (target.cxx:146-225). -/
def pos (s : Nat) : List Nat → Nat
  | [] => 0
  | x :: l => if x = s then 0 else pos s l + 1

/-- The depth at which the original has been found: target.cxx:146-225 (for NULL
there is no offset), 275-292, scope.cxx:150, 167, 209. Simplification: which of the
target-specific lookups found it makes no difference, so for these it is 1. -/
def origDepth (w : World α) (o : Origin) (r : Ref α) : Nat :=
  let off := if r.val.isSome then o.baseDepth else 0
  match r.vars with
  | .target _ => 1
  | .plain s =>
    if o.keys = [] then pos s (w.chain o.base) + 1
    else off + 3 * pos s (w.chain o.base) + 3
  | .pattern s n =>
    off + 3 * pos s (w.chain o.base) +
      (match o.keys with | k :: _ => if w.pm s n k then 1 else 2 | [] => 1)

/-- scope.cxx:278-289 `targetspec`. -/
def targetspec (w : World α) (o : Origin) (r : Ref α) : Bool :=
  decide (o.keys ≠ []) && decide (origDepth w o r ≤ o.baseDepth)

/-- scope.cxx:300-335 `applies`. -/
def applies (w : World α) (o : Ov) (s : Nat) (vars : Vars) (proj : Option Nat) : Bool :=
  match o.vis with
  | .scope => vars == .plain s
  | .project =>
    match w.proj s, proj with
    | some rs, some p => !w.sub rs p
    | _, _ => true
  | .global => true

/-- scope.cxx:355-367 `belongs`. -/
def belongs (o : Origin) (s : Nat) : Vars → Bool
  | .plain s' => s' == s
  | .pattern s' _ => decide (o.keys ≠ []) && s' == s
  | .target _ => false

/-- scope.cxx:381-386: the innermost value, if it is the original. -/
def innerAt (w : World α) (o : Origin) (orig : Option (Ref α)) (s : Nat)
    (inner : Option (Vars × Option Nat)) : Option (Vars × Option Nat) :=
  match inner with
  | some x => some x
  | none =>
    match orig with
    | some r => if belongs o s r.vars then some (r.vars, w.proj s) else none
    | none => none

/-- scope.cxx:392: whether an override that is set applies. -/
def appliesTo (w : World α) (o : Ov) (s : Nat) : Option (Vars × Option Nat) → Bool
  | some (vars, proj) => applies w o s vars proj
  | none => true

/-- scope.cxx:388-409: whether there is an override in this scope that applies. -/
def setIn (w : World α) (s : Nat) (inner : Option (Vars × Option Nat)) : Bool :=
  w.ovs.zipIdx.any fun p => appliesTo w p.1 s inner && (w.ovr s p.2).isSome

/-- scope.cxx:374-415: the first pass. Returned is the innermost set of variables
(`inner_vars`) if any override applies. -/
def pass1 (w : World α) (o : Origin) (orig : Option (Ref α)) :
    List Nat → Option (Vars × Option Nat) → Option Vars
  | [], _ => none
  | s :: rest, inner =>
    let inner := innerAt w o orig s inner
    if setIn w s inner then
      some (match inner with | some x => x.1 | none => .plain s)
    else pass1 w o orig rest inner

/-- scope.cxx:428-444: the stem, its project, its depth, and the override, with the
scope it is in. -/
structure Stem (α : Type) where
  val   : Val α
  ver   : Nat
  vars  : Vars
  depth : Nat
  proj  : Option Nat
  ovr   : Option (Nat × Nat)
  deriving DecidableEq, Repr

/-- The original as the stem (scope.cxx:438-444, 455-462). -/
def Stem.orig (w : World α) (o : Origin) (r : Ref α) (proj : Option Nat) : Stem α :=
  ⟨r.val, r.ver, r.vars, origDepth w o r, proj, none⟩

/-- scope.cxx:471-492: the last `__override` on the command line that is set in this
scope and applies. Overrides have been set once (context.cxx:972-978), so their
version is 1. -/
def replaceIn (w : World α) (s d : Nat) (stem : Option (Stem α)) :
    List (Ov × Nat) → Option (Stem α)
  | [] => none
  | (o, j) :: l =>
    if appliesTo w o s (stem.map (fun x => (x.vars, x.proj))) && o.kind == .replace then
      match w.ovr s j with
      | some v => some ⟨v, 1, .plain s, d, w.proj s, some (s, j)⟩
      | none => replaceIn w s d stem l
    else replaceIn w s d stem l

/-- scope.cxx:455-462. -/
def stemAt (w : World α) (o : Origin) (orig : Option (Ref α)) (s : Nat)
    (stem : Option (Stem α)) : Option (Stem α) :=
  match orig with
  | some r => if belongs o s r.vars then some (Stem.orig w o r (w.proj s)) else stem
  | none => stem

/-- scope.cxx:450-496: the second pass; `d` is `ovr_depth`. -/
def pass2 (w : World α) (o : Origin) (orig : Option (Ref α)) :
    List Nat → Nat → Option (Stem α) → Option (Stem α)
  | [], _, stem => stem
  | s :: rest, d, stem =>
    let stem := stemAt w o orig s stem
    match replaceIn w s (d + 1) stem w.ovs.zipIdx.reverse with
    | some x => some x
    | none => pass2 w o orig rest (d + 1) stem

/-- The variables of the third pass (scope.cxx:521-552). -/
structure St (α : Type) where
  cv    : Val α
  vars  : Option Vars
  proj  : Option Nat
  depth : Nat
  deriving DecidableEq, Repr

/-- variable.cxx `value::prepend`, `value::append` of untyped names. -/
def addTo (k : OKind) (cv : Val α) (ns : List α) : Val α :=
  match k with
  | .prefix => some (match cv with | none => ns | some l => ns ++ l)
  | _       => some (match cv with | none => ns | some l => l ++ ns)

/-- scope.cxx:594-635: a prefix/suffix that applies. -/
def addOne (w : World α) (s d : Nat) (st : St α) (o : Ov) (j : Nat) : St α :=
  if o.kind == .replace then st
  else
    match w.ovr s j with
    | none => st
    | some v =>
      let cv := match v with | some ns => addTo o.kind st.cv ns | none => st.cv
      match st.vars with
      | none => ⟨cv, some (.plain s), w.proj s, d⟩
      | some _ =>
        if d < st.depth then ⟨cv, some (.plain s), st.proj, d⟩
        else { st with cv := cv }

/-- scope.cxx:569-636: the loop over the overrides in the command line order; `skip`
is set until after the `__override`, if it is in this scope. -/
def addIn (w : World α) (s d : Nat) (sovr : Option (Nat × Nat)) :
    Bool → St α → List (Ov × Nat) → St α
  | _, st, [] => st
  | skip, st, (o, j) :: l =>
    if skip then addIn w s d sovr (if sovr == some (s, j) then false else skip) st l
    else if appliesTo w o s (st.vars.map (·, st.proj)) then
      addIn w s d sovr skip (addOne w s d st o j) l
    else addIn w s d sovr skip st l

/-- scope.cxx:567: whether the `__override` is in this scope, that is, its depth is
that of this scope. -/
def skips (sovr : Option (Nat × Nat)) (s : Nat) : Bool :=
  match sovr with
  | some (s', _) => s' == s
  | none => false

/-- scope.cxx:557-637: the third pass. -/
def pass3 (w : World α) (sovr : Option (Nat × Nat)) : List Nat → Nat → St α → St α
  | [], _, st => st
  | s :: rest, d, st =>
    pass3 w sovr rest (d + 1) (addIn w s (d + 1) sovr (skips sovr s) st w.ovs.zipIdx)

/-- scope.cxx:521-552: copy the stem. -/
def startSt (stem : Option (Stem α)) : St α :=
  match stem with
  | some x => ⟨x.val, some x.vars, x.proj, x.depth⟩
  | none => ⟨none, none, none, 0⟩

/-- scope.cxx:436 `stem_ovr`. -/
def stemOvr (stem : Option (Stem α)) : Option (Nat × Nat) :=
  match stem with
  | some x => x.ovr
  | none => none

/-- variable.txx:1442-1445: the version of the stem. -/
def stemVerO (stem : Option (Stem α)) : Nat :=
  match stem with
  | some x => x.ver
  | none => 0

/-- The caches and the variables. Used by `lookup` (libbuild2/target.hxx:795-803, 1011-1019). -/
structure State (α : Type) where
  maps : Maps α
  pc   : PCache α
  oc   : Cache Vars α

/-- To begin with, there is nothing. -/
def State.init : State α := ⟨fun _ => none, fun _ => none, fun _ => none⟩

/-- The result of a lookup: the object and its value. Used by `override` (scope.cxx:242-641). -/
abbrev Result (α : Type) := Option (Store × Val α)

/-- scope.cxx:284-289 and 438-444: if the original is target-specific. -/
def spec (w : World α) (o : Origin) (orig : Option (Ref α)) : Option (Ref α) :=
  match orig with
  | some r => if targetspec w o r then some r else none
  | none => none

/-- scope.cxx:284-289: the innermost value to start with. -/
def startInner (w : World α) (o : Origin) (orig : Option (Ref α)) :
    Option (Vars × Option Nat) :=
  (spec w o orig).map fun r => (r.vars, w.proj o.base)

/-- scope.cxx:438-444: the stem to start with. -/
def startStem (w : World α) (o : Origin) (orig : Option (Ref α)) : Option (Stem α) :=
  (spec w o orig).map fun r => Stem.orig w o r (w.proj o.base)

/-- scope.cxx:242-641 `scope::lookup_override_info`. -/
def override (w : World α) (o : Origin) (orig : Option (Ref α)) (oc : Cache Vars α) :
    Option (Result α × Cache Vars α) :=
  match pass1 w o orig (w.chain o.base) (startInner w o orig) with
  | none => some (orig.map (fun r => (r.store, r.val)), oc)
  | some inner =>
    let stem := pass2 w o orig (w.chain o.base) o.baseDepth (startStem w o orig)
    let cv := (pass3 w (stemOvr stem) (w.chain o.base) o.baseDepth (startSt stem)).cv
    (insert oc inner (stem.map (·.vars)) (stemVerO stem) 0 cv).map fun (v, _, oc) =>
      (some (.override inner, v), oc)

/-- libbuild2/target.hxx:795-803, 1011-1019 and libbuild2/scope.hxx:180-187:
`lookup()`. -/
def lookup (w : World α) (st : State α) (o : Origin) : Option (Result α × State α) :=
  match original w st.maps o st.pc with
  | none => none
  | some (orig, pc) =>
    if w.ovs = [] then some (orig.map (fun r => (r.store, r.val)), { st with pc := pc })
    else
      match override w o orig st.oc with
      | none => none
      | some (r, oc) => some (r, { st with pc := pc, oc := oc })

/-- An assignment or a lookup.
Puts together `lookup` (libbuild2/target.hxx:795-803, 1011-1019) and what goes with it; no function of its own in the code. -/
def step (w : World α) (st : State α) : Op α → Option (State α)
  | .set m k v => some { st with maps := st.maps.set m k v }
  | .look o => (lookup w st o).map (·.2)

/-- A sequence of them. -/
def run (w : World α) : State α → List (Op α) → Option (State α)
  | st, [] => some st
  | st, op :: ops =>
    match step w st op with
    | some st => run w st ops
    | none => none

/-- What an object holds. Built on `override` (scope.cxx:242-641). -/
def State.read (st : State α) : Store → Option (Val α)
  | .map m => (st.maps m).map (·.val)
  | .pattern m k => (st.pc (m, k)).map (·.val)
  | .override m => (st.oc m).map (·.val)

end Verif.VarCache
