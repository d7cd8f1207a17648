/-! Model of action identifiers. -/

namespace Verif.Action

/-- `uint8_t`, used for `meta_operation_id`, `operation_id` and `action_id`
(libbuild2/action.hxx:22-24). -/
abbrev Byte := BitVec 8

/-- `struct action`, data members at libbuild2/action.hxx:96-97. -/
structure Action where
  innerId : Byte
  outerId : Byte
  deriving DecidableEq, Repr

/-- `action (meta_operation_id, operation_id, operation_id)`
(libbuild2/action.hxx:69-71). The shift is performed on `int` and the result is
truncated to 8 bits, which is the 8-bit shift. -/
def Action.mk3 (m inner outer : Byte) : Action :=
  { innerId := (m <<< 4) ||| inner
    outerId := if outer = 0 then 0 else (m <<< 4) ||| outer }

/-- `action (action_id)` (libbuild2/action.hxx:65). -/
def Action.ofId (a : Byte) : Action := Action.mk3 (a >>> 4) (a &&& 0xF) 0

/-- `meta_operation` (libbuild2/action.hxx:73-74). -/
def Action.metaOperation (a : Action) : Byte := a.innerId >>> 4

/-- `operation` (libbuild2/action.hxx:76-77). -/
def Action.operation (a : Action) : Byte := a.innerId &&& 0xF

/-- `outer_operation` (libbuild2/action.hxx:79-80). -/
def Action.outerOperation (a : Action) : Byte := a.outerId &&& 0xF

/-- `inner` (libbuild2/action.hxx:82). -/
def Action.inner (a : Action) : Bool := a.outerId == 0

/-- `outer` (libbuild2/action.hxx:83). -/
def Action.outer (a : Action) : Bool := a.outerId != 0

/-- `inner_action` (libbuild2/action.hxx:85-89). -/
def Action.innerAction (a : Action) : Action := Action.mk3 a.metaOperation a.operation 0

/-- `operator== (action, action)` (libbuild2/action.hxx:100-104). -/
def Action.eq (x y : Action) : Bool := x.innerId == y.innerId && x.outerId == y.outerId

/-- `operator!= (action, action)` (libbuild2/action.hxx:106-107). -/
def Action.ne (x y : Action) : Bool := !(x.eq y)

/-- `operator== (action, action_id)` (libbuild2/action.hxx:109). -/
def Action.eqId (x : Action) (y : Byte) : Bool := x.eq (Action.ofId y)

/-- `operator!= (action, action_id)` (libbuild2/action.hxx:110). -/
def Action.neId (x : Action) (y : Byte) : Bool := x.ne (Action.ofId y)

/-- `operator== (action_id, action)` (libbuild2/action.hxx:111). -/
def Action.idEq (x : Byte) (y : Action) : Bool := (Action.ofId x).eq y

/-- `operator!= (action_id, action)` (libbuild2/action.hxx:112). As in the code, the
body compares for equality. -/
def Action.idNe (x : Byte) (y : Action) : Bool := (Action.ofId x).eq y

/-- `action_state<T>` (libbuild2/action.hxx:126-149). -/
structure ActionState (α : Type) where
  inner : α
  outer : α

/-- `action_state<T>::operator[]` (libbuild2/action.hxx:132-133). -/
def ActionState.get {α : Type} (s : ActionState α) (a : Action) : α :=
  if a.inner then s.inner else s.outer

/-- Assignment through the reference returned by `action_state<T>::operator[]`
(libbuild2/action.hxx:132). -/
def ActionState.set {α : Type} (s : ActionState α) (a : Action) (v : α) : ActionState α :=
  if a.inner then { s with inner := v } else { s with outer := v }

end Verif.Action
