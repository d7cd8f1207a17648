import Verif.Value.Spec

/-!
# Appending to and prepending to values: model

libbuild2/variable.cxx (value::assign, append, prepend, typify) and the value type
callbacks in libbuild2/variable.txx and variable.ixx; libbuild2/scope.cxx and target.cxx
(append).

A NULL value is `none`. The conversion of a single name or pair of names to an element is
a parameter. Moves and memory management are not modelled.
-/

namespace Verif.Value

/-- Outcome of an operation: the new value, a diagnosed failure (`fail`) or undefined
behavior. Used by `VType` (variable.hxx:57-116). -/
inductive Res (α : Type)
  | ok (x : α)
  | fail
  | undef
deriving DecidableEq, Repr

/-- Used by `assign` (variable.cxx:163-179). -/
def Res.bind {α β : Type} : Res α → (α → Res β) → Res β
  | .ok x, f => f x
  | .fail, _ => .fail
  | .undef, _ => .undef

/-- The callbacks of a value type. variable.hxx:57-116 (struct value_type). An absent
append or prepend means the operation is not supported. -/
structure VType where
  D : Type
  assign : Option D → Names → Res D
  append : Option (Option D → Names → Res D)
  prepend : Option (Option D → Names → Res D)

/-- The state of a value of the given type: variable.hxx (class value: null, data_). -/
abbrev VType.Val (t : VType) := Option t.D

/-- variable.cxx:181-216 value::append(), untyped value. -/
def appendUntyped (v : Option Names) (ns : Names) : Res Names :=
  match v with
  | none => .ok ns
  | some p => if p = [] then .ok ns else if ns ≠ [] then .ok (p ++ ns) else .ok p

/-- variable.cxx:218-254 value::prepend(), untyped value. -/
def prependUntyped (v : Option Names) (ns : Names) : Res Names :=
  match v with
  | none => .ok ns
  | some p => if p = [] then .ok ns else if ns ≠ [] then .ok (ns ++ p) else .ok p

/-- variable.cxx:163-179 value::assign(), untyped value. -/
def assignUntyped (_ : Option Names) (ns : Names) : Res Names := .ok ns

/-- An untyped value. Used by `typify` (variable.cxx:332-365). -/
def untyped : VType := ⟨Names, assignUntyped, some appendUntyped, some prependUntyped⟩

/-- variable.cxx:163-179 value::assign(). -/
def assign (t : VType) (v : t.Val) (ns : Names) : Res t.Val :=
  (t.assign v ns).bind (fun d => .ok (some d))

/-- variable.cxx:181-216 value::append(). -/
def append (t : VType) (v : t.Val) (ns : Names) : Res t.Val :=
  match t.append with
  | none => .fail
  | some f => (f v ns).bind (fun d => .ok (some d))

/-- variable.cxx:218-254 value::prepend(). -/
def prepend (t : VType) (v : t.Val) (ns : Names) : Res t.Val :=
  match t.prepend with
  | none => .fail
  | some f => (f v ns).bind (fun d => .ok (some d))

/-- One change of a value.
Puts together `prepend` (variable.cxx:218-254) and what goes with it; no function of its own in the code. -/
def step (t : VType) (v : t.Val) (o : How × Names) : Res t.Val :=
  match o.1 with
  | .assign => assign t v o.2
  | .append => append t v o.2
  | .prepend => prepend t v o.2

/-- A history of changes.
Puts together `VType.Val` (variable.hxx) and what goes with it; no function of its own in the code. -/
def run (t : VType) (v : t.Val) : List (How × Names) → Res t.Val
  | [] => .ok v
  | o :: ops => (step t v o).bind (fun v' => run t v' ops)

/-! ## Vectors -/

section Vector
variable {T : Type} (conv : Nm → Option Nm → Option T)

/-- variable.txx:537-577 vector_append(), the loop: `p` is what is already in the vector.
A first half of a pair that is the last name is a dereference past the end. -/
def vectorLoop (p : List T) : Names → Res (List T)
  | [] => .ok p
  | n :: ns =>
    match n.pair with
    | none =>
      match conv n none with
      | none => .fail
      | some x => vectorLoop (p ++ [x]) ns
    | some c =>
      match ns with
      | [] => .undef
      | r :: ns' =>
        if c ≠ '@' then .fail
        else
          match conv n (some r) with
          | none => .fail
          | some x => vectorLoop (p ++ [x]) ns'

/-- variable.txx:526-579 vector_append(). -/
def vectorAppend (v : Option (List T)) (ns : Names) : Res (List T) :=
  vectorLoop conv (v.getD []) ns

/-- variable.txx:581-589 vector_assign(): clear and append. -/
def vectorAssign (v : Option (List T)) (ns : Names) : Res (List T) :=
  vectorAppend conv (v.map (fun _ => [])) ns

/-- variable.txx:591-615 vector_prepend(): set the old elements aside, append and add
them back at the end. -/
def vectorPrepend (v : Option (List T)) (ns : Names) : Res (List T) :=
  (vectorAppend conv (v.map (fun _ => [])) ns).bind (fun p => .ok (p ++ v.getD []))

/-- variable.txx:739-757 value_traits<vector<T>>::value_type. -/
def vectorType : VType :=
  ⟨List T, vectorAssign conv, some (vectorAppend conv), some (vectorPrepend conv)⟩

/-! ## Sets -/

variable (lt : T → T → Bool)

/-- std::set::insert() for a set kept as a list in ascending order.
Used by `setLoop` (variable.txx:961-998). -/
def setInsert (x : T) : List T → List T
  | [] => [x]
  | y :: ys => if lt x y then x :: y :: ys else if lt y x then y :: setInsert x ys else y :: ys

/-- variable.txx:961-998 set_append(), the loop. -/
def setLoop (p : List T) : Names → Res (List T)
  | [] => .ok p
  | n :: ns =>
    match n.pair with
    | none =>
      match conv n none with
      | none => .fail
      | some x => setLoop (setInsert lt x p) ns
    | some c =>
      match ns with
      | [] => .undef
      | r :: ns' =>
        if c ≠ '@' then .fail
        else
          match conv n (some r) with
          | none => .fail
          | some x => setLoop (setInsert lt x p) ns'

/-- variable.txx:955-1003 set_append(). -/
def setAppend (v : Option (List T)) (ns : Names) : Res (List T) :=
  setLoop conv lt (v.getD []) ns

/-- variable.txx:1005-1013 set_assign(). -/
def setAssign (v : Option (List T)) (ns : Names) : Res (List T) :=
  setAppend conv lt (v.map (fun _ => [])) ns

/-- variable.txx:1139-1160 value_traits<set<T>>::value_type: prepend is the same as
append. -/
def setType : VType :=
  ⟨List T, setAssign conv lt, some (setAppend conv lt), some (setAppend conv lt)⟩

end Vector

/-! ## Pairs -/

section Pairs
variable {K V : Type} (ck : Nm → Option K) (cv : Nm → Option V)

/-- variable.txx:282-331 pair_value_traits<F, S>::convert(). The second half is absent
unless the first is marked as such, which is diagnosed before it is used. -/
def pairConvert (l : Nm) (r : Option Nm) : Res (K × V) :=
  match l.pair with
  | none => .fail
  | some c =>
    match r with
    | none => .undef
    | some r =>
      if c ≠ '@' then .fail
      else
        match ck l with
        | none => .fail
        | some k =>
          match cv r with
          | none => .fail
          | some v => .ok (k, v)

/-- variable.txx:402-458 pair_value_traits<optional<F>, S>::convert(). If there is no first
half and the conversion fails, then the diagnostics prints the second half by dereferencing
a null pointer. -/
def optPairConvert (l : Nm) (r : Option Nm) : Res (Option K × V) :=
  match l.pair with
  | none =>
    match cv l with
    | none =>
      match r with
      | none => .undef
      | some _ => .fail
    | some v => .ok (none, v)
  | some c =>
    match r with
    | none => .undef
    | some r =>
      if c ≠ '@' then .fail
      else
        match ck l with
        | none => .fail
        | some k =>
          match cv r with
          | none => .fail
          | some v => .ok (some k, v)

/-- variable.txx:333-391 pair_value_traits<F, optional<S>>::convert(). -/
def pairOptConvert (l : Nm) (r : Option Nm) : Res (K × Option V) :=
  match l.pair with
  | none =>
    match ck l with
    | none => .fail
    | some k => .ok (k, none)
  | some c =>
    match r with
    | none => .undef
    | some r =>
      if c ≠ '@' then .fail
      else
        match ck l with
        | none => .fail
        | some k =>
          match cv r with
          | none => .fail
          | some v => .ok (k, some v)

/-- variable.txx:771-782, 1172-1186 and 1199-1212: the loop common to vectors of pairs and
maps; `add` is what is done with the converted pair. -/
def pairLoop {E C : Type} (conv : Nm → Option Nm → Res E) (add : C → E → C) (p : C) :
    Names → Res C
  | [] => .ok p
  | l :: ns =>
    match l.pair with
    | none => (conv l none).bind (fun e => pairLoop conv add (add p e) ns)
    | some _ =>
      match ns with
      | [] => .undef
      | r :: ns' => (conv l (some r)).bind (fun e => pairLoop conv add (add p e) ns')

/-- variable.txx:763-783 pair_vector_append(). -/
def pairVectorAppend {E : Type} (conv : Nm → Option Nm → Res E) (v : Option (List E))
    (ns : Names) : Res (List E) :=
  pairLoop conv (fun p e => p ++ [e]) (v.getD []) ns

/-- variable.txx:785-793 pair_vector_assign(). -/
def pairVectorAssign {E : Type} (conv : Nm → Option Nm → Res E) (v : Option (List E))
    (ns : Names) : Res (List E) :=
  pairVectorAppend conv (v.map (fun _ => [])) ns

/-- variable.txx:901-922 value_traits<vector<pair<K, V>>>::value_type: prepend is the same
as append. -/
def pairVectorType {E : Type} (conv : Nm → Option Nm → Res E) : VType :=
  ⟨List E, pairVectorAssign conv, some (pairVectorAppend conv), some (pairVectorAppend conv)⟩

variable (lt : K → K → Bool)

/-- std::map::emplace() followed by an assignment to the element's value, for a map kept as
a list with keys in ascending order. variable.txx:1182-1184. -/
def mapSet (m : List (K × V)) (e : K × V) : List (K × V) :=
  match m with
  | [] => [e]
  | y :: ys =>
    if lt e.1 y.1 then e :: y :: ys
    else if lt y.1 e.1 then y :: mapSet ys e
    else (y.1, e.2) :: ys

/-- std::map::emplace(): an existing element is left alone. variable.txx:1210. -/
def mapEmplace (m : List (K × V)) (e : K × V) : List (K × V) :=
  match m with
  | [] => [e]
  | y :: ys =>
    if lt e.1 y.1 then e :: y :: ys
    else if lt y.1 e.1 then y :: mapEmplace ys e
    else y :: ys

/-- variable.txx:1164-1187 map_append(). -/
def mapAppend (v : Option (List (K × V))) (ns : Names) : Res (List (K × V)) :=
  pairLoop (pairConvert ck cv) (mapSet lt) (v.getD []) ns

/-- variable.txx:1189-1213 map_prepend(). -/
def mapPrepend (v : Option (List (K × V))) (ns : Names) : Res (List (K × V)) :=
  pairLoop (pairConvert ck cv) (mapEmplace lt) (v.getD []) ns

/-- variable.txx:1215-1224 map_assign(). -/
def mapAssign (v : Option (List (K × V))) (ns : Names) : Res (List (K × V)) :=
  mapAppend ck cv lt (v.map (fun _ => [])) ns

/-- variable.txx:1406-1429 value_traits<map<K, V>>::value_type. -/
def mapType : VType :=
  ⟨List (K × V), mapAssign ck cv lt, some (mapAppend ck cv lt), some (mapPrepend ck cv lt)⟩

end Pairs

/-! ## Simple values -/

/-- variable.txx:171-205 simple_append() and simple_assign() 136-169, simple_prepend()
207-241: at most one name (exactly one unless the type has an empty value); `f` is the
assign, append or prepend of the traits and `e` is the value of no names. -/
def simple {T : Type} (conv : Nm → Option Nm → Option T) (e : Option T)
    (f : Option T → T → Res T) (v : Option T) (ns : Names) : Res T :=
  match ns with
  | [] =>
    match e with
    | none => .fail
    | some x => f v x
  | [n] =>
    match conv n none with
    | none => .fail
    | some x => f v x
  | _ => .fail

/-- A simple value type: traits' append and prepend, if any.
Used by `boolType` (variable.cxx:495-515). -/
def simpleType {T : Type} (conv : Nm → Option Nm → Option T) (e : Option T)
    (a p : Option (Option T → T → Res T)) : VType :=
  ⟨T, simple conv e (fun _ x => .ok x), a.map (simple conv e), p.map (simple conv e)⟩

/-- variable.ixx:440-450 value_traits<bool>::append(). -/
def boolAppend (v : Option Bool) (x : Bool) : Res Bool :=
  match v with
  | some b => .ok (b || x)
  | none => .ok x

/-- variable.ixx:469-479 value_traits<int64_t>::append(). Signed overflow is undefined. -/
def intAppend (v : Option Int) (x : Int) : Res Int :=
  match v with
  | some i => if -2 ^ 63 ≤ i + x ∧ i + x < 2 ^ 63 then .ok (i + x) else .undef
  | none => .ok x

/-- variable.ixx:498-508 value_traits<uint64_t>::append(). -/
def uintAppend (v : Option (BitVec 64)) (x : BitVec 64) : Res (BitVec 64) :=
  match v with
  | some i => .ok (i + x)
  | none => .ok x

/-- variable.ixx:527-542 value_traits<string>::append(). -/
def stringAppend (v : Option (List Char)) (x : List Char) : Res (List Char) :=
  match v with
  | some s => if s = [] then .ok x else .ok (s ++ x)
  | none => .ok x

/-- variable.ixx:544-559 value_traits<string>::prepend(). -/
def stringPrepend (v : Option (List Char)) (x : List Char) : Res (List Char) :=
  match v with
  | some s => if s ≠ [] then .ok (x ++ s) else .ok x
  | none => .ok x

/-- A path as a list of components, absolute or not. The path class is in libbutl:
`operator/=` throws if the right hand side is absolute and the left hand side is not
empty. Used by `pathAppend` (variable.ixx:577-592). -/
structure PathV where
  abs : Bool
  comps : List (List Char)
deriving DecidableEq, Repr

/-- Used by `pathAppend` (variable.ixx:577-592). -/
def PathV.empty (p : PathV) : Bool := !p.abs && p.comps.isEmpty

/-- libbutl path::operator/=, see above. Used by `pathAppend` (variable.ixx:577-592). -/
def PathV.join (l r : PathV) : Res PathV :=
  if r.abs ∧ l.empty = false then .fail else .ok ⟨l.abs || r.abs, l.comps ++ r.comps⟩

/-- variable.ixx:577-592 value_traits<path>::append() (the same for dir_path, 624-639, and
abs_dir_path, 673-688). -/
def pathAppend (v : Option PathV) (x : PathV) : Res PathV :=
  match v with
  | some p => if p.empty then .ok x else p.join x
  | none => .ok x

/-- variable.ixx:594-609 value_traits<path>::prepend() (the same for dir_path; there is
none for abs_dir_path). -/
def pathPrepend (v : Option PathV) (x : PathV) : Res PathV :=
  match v with
  | some p => if p.empty = false then x.join p else .ok x
  | none => .ok x

/-- variable.cxx:495-515 value_traits<bool>::value_type. -/
def boolType (conv : Nm → Option Nm → Option Bool) : VType :=
  simpleType conv none (some boolAppend) (some boolAppend)

/-- variable.cxx:560-580 value_traits<int64_t>::value_type. -/
def intType (conv : Nm → Option Nm → Option Int) : VType :=
  simpleType conv none (some intAppend) (some intAppend)

/-- variable.cxx:625-645 value_traits<uint64_t>::value_type. -/
def uintType (conv : Nm → Option Nm → Option (BitVec 64)) : VType :=
  simpleType conv none (some uintAppend) (some uintAppend)

/-- variable.cxx:722-742 value_traits<string>::value_type. -/
def stringType (conv : Nm → Option Nm → Option (List Char)) : VType :=
  simpleType conv (some []) (some stringAppend) (some stringPrepend)

/-- variable.cxx:792-812 value_traits<path>::value_type and 862-882 for dir_path. -/
def pathType (conv : Nm → Option Nm → Option PathV) : VType :=
  simpleType conv (some ⟨false, []⟩) (some pathAppend) (some pathPrepend)

/-- variable.cxx:920-940 value_traits<abs_dir_path>::value_type: no prepend. -/
def absDirType (conv : Nm → Option Nm → Option PathV) : VType :=
  simpleType conv (some ⟨false, []⟩) (some pathAppend) none

/-- Types such as name, project_name or target_triplet: neither append nor prepend.
Built on `VType` (variable.hxx:57-116). -/
def otherType {T : Type} (conv : Nm → Option Nm → Option T) (e : Option T) : VType :=
  simpleType conv e none none

/-! ## Making an untyped value typed -/

/-- variable.cxx:332-365 typify() of an untyped value: a NULL value stays NULL, otherwise
the names are assigned to a NULL value of the new type. -/
def typify (t : VType) (v : untyped.Val) : Res t.Val :=
  match v with
  | none => .ok none
  | some ns => (t.assign none ns).bind (fun d => .ok (some d))

/-! ## Appending to a variable inherited from an outer scope -/

/-- scope.cxx:643-660 scope::append() (the same for target.cxx:236-254 target::append()):
the scopes are listed from the inner one; each has the variable's value if the variable is
set there (which may be NULL). If the variable is not set in the innermost scope then it
gets a copy of the value from the nearest outer scope that has one, if any, or NULL. The
result is the value to append to. The search of the outer scopes is lookup_original()
(scope.cxx:15-114), without target-type-specific variables. -/
def inherit (t : VType) : List (Option t.Val) → t.Val
  | [] => none
  | some v :: _ => v
  | none :: outer => inherit t outer

/-- parser.cxx:6713-6745 parse_variable() and 7213-7250 apply_value_attributes():
`x += ns` or `x =+ ns` in the innermost of the scopes. Plain assignment does not look at
outer scopes. Value types are fixed. -/
def change (t : VType) (o : How × Names) :
    List (Option t.Val) → Res (List (Option t.Val))
  | [] => .undef
  | inner :: outer =>
    (match o.1 with
      | .assign => step t (inner.getD none) o
      | _ => step t (inherit t (inner :: outer)) o).bind
      (fun v => .ok (some v :: outer))

/-! ## Importing into a variable -/

/-- parser.cxx:4883-4907 parse_import(): what is done with the names a target is imported
as (none for an optional target that is not found). -/
def importStep (t : VType) (how : How) (v : t.Val) (r : Names) : Res t.Val :=
  if r = [] then (if how = .assign then .ok none else .ok v) else step t v (how, r)

/-- parser.cxx:4912-4913: append subsequent values. -/
def importNext (how : How) : How := if how = .assign then .append else how

/-- parser.cxx:4830-4916 parse_import(), the loop over the names to import: `rs` are the
names each of them is imported as. -/
def importLoop (t : VType) (how : How) (v : t.Val) : List Names → Res t.Val
  | [] => .ok v
  | r :: rs => (importStep t how v r).bind (fun v' => importLoop t (importNext how) v' rs)

end Verif.Value
