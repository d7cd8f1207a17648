import Verif.Override.Spec

/-!
# Command line overrides: model of the code

libbuild2/scope.cxx:242-641 `scope::lookup_override_info`.

Simplifications, throughout:
* values are untyped (NULL or names), so typification does nothing;
* the override cache is not modelled: the value is always recomputed (`cl` is
  true), and so the first pass is only about whether any override applies;
* scopes are identified by their number in the chain (this scope and its parents),
  variable maps by `Loc` and root scopes by numbers; the override list is given in
  the command line order with numbers, `var.overrides` links it in the reverse
  order and `aliases` (starting from `var.overrides->aliases`) in this order
  (libbuild2/variable.hxx:477-520);
* a null pointer dereference is `none`.
-/

namespace Verif.Override

open Verif.Lookup (Val)

variable {α : Type}

/-- scope.cxx:296-335 `applies`; `i`, `s` is the scope being tried and `none` means
that `proj` was null and has been dereferenced (scope.cxx:321). -/
def applies (sub : Nat → Nat → Bool) (o : Ov) (i : Nat) (s : Sc α) (vars : Loc)
    (proj : Option Nat) : Option Bool :=
  match o.vis with
  | .scope => some (vars == .plain i)
  | .project =>
    match s.proj with
    | none => some true
    | some rs =>
      match proj with
      | none => none
      | some p => some (!sub rs p)
  | .global => some true

/-- scope.cxx:392, 478: `inner_vars != nullptr && !applies (o, inner_vars,
inner_proj)` and the same for `stem`. -/
def skips (sub : Nat → Nat → Bool) (o : Ov) (i : Nat) (s : Sc α) :
    Option (Loc × Option Nat) → Option Bool
  | some (vars, proj) => (applies sub o i s vars proj).map (!·)
  | none => some false

/-- scope.cxx:355-367 `belongs`. -/
def belongs (target : Bool) (i : Nat) (l : Loc) : Bool :=
  (target && l == .pattern i) || l == .plain i

/-- scope.cxx:388-409: the loop over the overrides of the first pass; whether there
is one that applies to `inner`. -/
def anyIn (sub : Nat → Nat → Bool) (i : Nat) (s : Sc α)
    (inner : Option (Loc × Option Nat)) : List (Ov × Nat) → Option Bool
  | [] => some false
  | (o, j) :: l => do
    if ← skips sub o i s inner then anyIn sub i s inner l
    else if (s.ovr j).isSome then some true
    else anyIn sub i s inner l

/-- scope.cxx:381-386: if the original comes from this scope. -/
def innerAt (target : Bool) (orig : Option (Orig α)) (i : Nat) (s : Sc α)
    (inner : Option (Loc × Option Nat)) : Option (Loc × Option Nat) :=
  match inner with
  | some x => some x
  | none =>
    match orig with
    | some g => if belongs target i g.loc then some (g.loc, s.proj) else none
    | none => none

/-- scope.cxx:374-415: the first pass; whether any override applies (`apply`). Note
that if an override is found then the innermost value is known as well and the
loop is left. -/
def pass1 (sub : Nat → Nat → Bool) (target : Bool) (ovs : List (Ov × Nat))
    (orig : Option (Orig α)) : Nat → Option (Loc × Option Nat) → List (Sc α) → Option Bool
  | _, _, [] => some false
  | i, inner, s :: rest => do
    let inner := innerAt target orig i s inner
    let found ← anyIn sub i s inner ovs.reverse
    if found then some true
    else pass1 sub target ovs orig (i + 1) inner rest

/-- scope.cxx:428-436: `stem`, `stem_depth`, `stem_proj` and `stem_ovr`. -/
structure Stem (α : Type) where
  val   : Val α
  loc   : Loc
  depth : Nat
  proj  : Option Nat
  ovr   : Option Nat
  deriving DecidableEq, Repr

/-- scope.cxx:471-492: look for an `__override` in this scope that applies. -/
def replaceIn (sub : Nat → Nat → Bool) (i : Nat) (s : Sc α) (d : Nat)
    (stem : Option (Stem α)) : List (Ov × Nat) → Option (Option (Stem α))
  | [] => some none
  | (o, j) :: l => do
    if ← skips sub o i s (stem.map (fun st => (st.loc, st.proj))) then replaceIn sub i s d stem l
    else if o.kind == .replace then
      match s.ovr j with
      | some v => some (some ⟨v, .plain i, d, s.proj, some j⟩)
      | none => replaceIn sub i s d stem l
    else replaceIn sub i s d stem l

/-- scope.cxx:455-462: the original, if it is from this scope. -/
def stemAt (target : Bool) (orig : Option (Orig α)) (i : Nat) (s : Sc α)
    (stem : Option (Stem α)) : Option (Stem α) :=
  match orig with
  | some g =>
    if belongs target i g.loc then some ⟨g.val, g.loc, g.depth, s.proj, none⟩ else stem
  | none => stem

/-- scope.cxx:450-496: the second pass; `d` is `ovr_depth`. -/
def pass2 (sub : Nat → Nat → Bool) (target : Bool) (ovs : List (Ov × Nat))
    (orig : Option (Orig α)) :
    Nat → Nat → Option (Stem α) → List (Sc α) → Option (Option (Stem α))
  | _, _, stem, [] => some stem
  | i, d, stem, s :: rest => do
    let stem := stemAt target orig i s stem
    match ← replaceIn sub i s (d + 1) stem ovs.reverse with
    | some st => some (some st)
    | none => pass2 sub target ovs orig (i + 1) (d + 1) stem rest

/-- The variables of the third pass: the value `cv`, `vars`, `proj` and `depth`
(scope.cxx:519-553). -/
structure St (α : Type) where
  cv    : Val α
  vars  : Option Loc
  proj  : Option Nat
  depth : Nat
  deriving DecidableEq, Repr

/-- libbuild2/variable.cxx `value::prepend`, `value::append` of untyped names. -/
def addTo (k : OKind) (cv : Val α) (ns : List α) : Val α :=
  match k with
  | .prefix => some (match cv with | none => ns | some l => ns ++ l)
  | _       => some (match cv with | none => ns | some l => l ++ ns)

/-- scope.cxx:594-635: a prefix/suffix that applies. -/
def addOne (i : Nat) (s : Sc α) (d : Nat) (st : St α) (o : Ov) (j : Nat) : St α :=
  if o.kind == .replace then st
  else
    match s.ovr j with
    | none => st
    | some v =>
      let cv := match v with | some ns => addTo o.kind st.cv ns | none => st.cv
      match st.vars with
      | none => ⟨cv, some (.plain i), s.proj, d⟩
      | some _ =>
        if d < st.depth then ⟨cv, some (.plain i), st.proj, d⟩
        else { st with cv := cv }

/-- scope.cxx:569-636: the loop over the overrides in the command line order; `skip`
as there and `sovr` is `stem_ovr`. -/
def addIn (sub : Nat → Nat → Bool) (i : Nat) (s : Sc α) (d : Nat) (sovr : Option Nat) :
    Bool → St α → List (Ov × Nat) → Option (St α)
  | _, st, [] => some st
  | skip, st, (o, j) :: l =>
    if skip then addIn sub i s d sovr (if sovr == some j then false else skip) st l
    else do
      let ok ← (match st.vars with
        | some vars => applies sub o i s vars st.proj
        | none => some true)
      if ok then addIn sub i s d sovr skip (addOne i s d st o j) l
      else addIn sub i s d sovr skip st l

/-- scope.cxx:557-637: the third pass; `d` is `ovr_depth`. -/
def pass3 (sub : Nat → Nat → Bool) (ovs : List (Ov × Nat)) (sovr : Option Nat) (sdepth : Nat) :
    Nat → Nat → St α → List (Sc α) → Option (St α)
  | _, _, st, [] => some st
  | i, d, st, s :: rest => do
    let skip := sovr.isSome && sdepth == d + 1
    let st ← addIn sub i s (d + 1) sovr skip st ovs
    pass3 sub ovs sovr sdepth (i + 1) (d + 1) st rest

/-- The result: `override_info` (libbuild2/scope.hxx:222-226). -/
structure Info (α : Type) where
  val      : Option (Val α)
  loc      : Option Loc
  depth    : Option Nat
  original : Bool
  deriving DecidableEq, Repr

/-- scope.cxx:278-292: whether the original is target/rule-specific. -/
def targetspec (target rule : Bool) (orig : Option (Orig α)) : Bool :=
  target && (match orig with
    | some g => g.depth == 1 || g.depth == 2 || (rule && g.depth == 3)
    | none => false)

/-- scope.cxx:281, 442 `root_scope ()` of this scope. -/
def rootScope (chain : List (Sc α)) : Option Nat :=
  match chain with
  | s :: _ => s.proj
  | [] => none

/-- scope.cxx:284-289: the innermost location to start with. -/
def startInner (chain : List (Sc α)) (target rule : Bool) (orig : Option (Orig α)) :
    Option (Loc × Option Nat) :=
  match orig with
  | some g =>
    if targetspec target rule (some g) then some (g.loc, rootScope chain) else none
  | none => none

/-- scope.cxx:438-444: the stem to start with. -/
def startStem (chain : List (Sc α)) (target rule : Bool) (orig : Option (Orig α)) :
    Option (Stem α) :=
  match orig with
  | some g =>
    if targetspec target rule (some g)
    then some ⟨g.val, g.loc, g.depth, rootScope chain, none⟩ else none
  | none => none

/-- scope.cxx:449, 556: the initial `ovr_depth`. -/
def baseDepth (target rule : Bool) : Nat := if target then (if rule then 3 else 2) else 0

/-- scope.cxx:519-553: the variables of the third pass to start with (copy the stem
into the cache, etc). -/
def startSt (stem : Option (Stem α)) : St α :=
  match stem with
  | some x => ⟨x.val, some x.loc, x.proj, x.depth⟩
  | none => ⟨none, none, none, 0⟩

/-- scope.cxx:436 `stem_ovr`. -/
def stemOvr (stem : Option (Stem α)) : Option Nat :=
  match stem with
  | some x => x.ovr
  | none => none

/-- scope.cxx:434 `stem_depth`. -/
def stemDepth (stem : Option (Stem α)) : Nat :=
  match stem with
  | some x => x.depth
  | none => 0

/-- scope.cxx:498-640: the third pass and the result for a given stem. -/
def finish (sub : Nat → Nat → Bool) (chain : List (Sc α)) (ovs : List Ov) (base : Nat)
    (stem : Option (Stem α)) : Option (Info α) := do
  let st ← pass3 sub ovs.zipIdx (stemOvr stem) (stemDepth stem) 0 base (startSt stem) chain
  some ⟨some st.cv, st.vars, some st.depth, stem.isSome && (stemOvr stem).isNone⟩

/-- scope.cxx:417-418: the original as the result. -/
def unchangedInfo (orig : Option (Orig α)) : Info α :=
  ⟨orig.map (·.val), orig.map (·.loc), orig.map (·.depth), orig.isSome⟩

/-- scope.cxx:242-641 `scope::lookup_override_info`; the chain is this scope and its
parents. -/
def lookupOverride (sub : Nat → Nat → Bool) (chain : List (Sc α)) (ovs : List Ov)
    (orig : Option (Orig α)) (target rule : Bool) : Option (Info α) := do
  if ← pass1 sub target ovs.zipIdx orig 0 (startInner chain target rule orig) chain then
    let stem ← pass2 sub target ovs.zipIdx orig 0 (baseDepth target rule)
      (startStem chain target rule orig) chain
    finish sub chain ovs (baseDepth target rule) stem
  else
    some (unchangedInfo orig)

end Verif.Override
