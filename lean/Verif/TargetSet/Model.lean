import Verif.TargetSet.Spec

/-!
# Target identity: model

libbuild2/target-key.hxx (operator==), libbuild2/target.cxx (target_set::find,
insert_locked, target::ext).

Any number of threads. What a thread does while holding the set's mutex is one step; the
mutex is released and acquired again between steps. During the load phase, when the mutex
is not locked, only one thread runs and its steps are simply not interleaved with those of
others. The unordered map may return any of the elements equal to the key since the
equality is not transitive. Target objects are numbered in the order they are inserted
and are never removed. The declaration kind and the construction of the object are not
modelled.
-/

namespace Verif.TargetSet

variable {Id Ext : Type} [DecidableEq Id] [DecidableEq Ext]

/-- target-key.hxx:51-83 operator==. The `fixed` function is the target type's
fixed_extension callback, if any: it is passed the extension that was specified, if any.
That it may fail is not modelled. -/
def keyEq (fixed : Id → Option (Option Ext → Ext)) (x y : Key Id Ext) : Bool :=
  if x.id ≠ y.id then false
  else
    match fixed x.id with
    | none => x.ext.isNone || y.ext.isNone || decide (x.ext = y.ext)
    | some f => decide (x.ext.getD (f none) = y.ext.getD (f none))

/-- Where a thread is. -/
inductive Pc (Id Ext : Type)
  | idle
  /-- At the beginning of find(); `ins` if called from insert_locked(), `again` if it is
  the recursive call. -/
  | find (k : Key Id Ext) (ins again : Bool)
  /-- In find() after releasing the shared lock in order to set the extension. -/
  | upgrade (k : Key Id Ext) (t : Nat) (ins again : Bool)
  /-- In insert_locked() before acquiring the exclusive lock. -/
  | emplace (k : Key Id Ext)
deriving DecidableEq

structure State (Id Ext : Type) where
  /-- The keys of the objects. -/
  objs : List (Key Id Ext)
  pc : Nat → Pc Id Ext
  /-- Completed requests, the latest first. -/
  done : List (Done Id Ext)
  /-- Extensions specified in requests so far. -/
  used : List (Id × Ext)

def State.init : State Id Ext := ⟨[], fun _ => .idle, [], []⟩

def setPc (pc : Nat → Pc Id Ext) (i : Nat) (p : Pc Id Ext) : Nat → Pc Id Ext :=
  fun j => if j = i then p else pc j

/-- Set the extension in the key of an object. -/
def setExtOf (objs : List (Key Id Ext)) (t : Nat) (x : Option Ext) : List (Key Id Ext) :=
  objs.modify t (fun k => { k with ext := x })

/-- The request is completed with this object or NULL. -/
def finish (s : State Id Ext) (i : Nat) (k : Key Id Ext) (r : Option Nat) : State Id Ext :=
  { s with pc := setPc s.pc i .idle, done := ⟨k, r⟩ :: s.done }

/-- What a request adds to the extensions specified so far. -/
def mention (k : Key Id Ext) : List (Id × Ext) :=
  match k.ext with
  | none => []
  | some x => [(k.id, x)]

/-- The extension of the object to be inserted. target.cxx:793-796. -/
def newExt (fixed : Id → Option (Option Ext → Ext)) (k : Key Id Ext) : Option Ext :=
  match fixed k.id with
  | some f => some (f k.ext)
  | none => k.ext

/-- One step of thread `i`. -/
inductive Step (fixed : Id → Option (Option Ext → Ext)) (i : Nat) :
    State Id Ext → State Id Ext → Prop
  /-- A call of find(). -/
  | callFind {s} (k : Key Id Ext) : s.pc i = .idle →
      Step fixed i s { s with pc := setPc s.pc i (.find k false false), used := mention k ++ s.used }
  /-- A call of insert_locked(). target.cxx:785-786. -/
  | callInsert {s} (k : Key Id Ext) (skipFind : Bool) : s.pc i = .idle →
      Step fixed i s
        { s with
          pc := setPc s.pc i (if skipFind then .emplace k else .find k true false),
          used := mention k ++ s.used }
  /-- target.cxx:716-722 find(): no such element. -/
  | findNone {s} {k : Key Id Ext} {ins again} : s.pc i = .find k ins again →
      (∀ o ∈ s.objs, keyEq fixed o k = false) →
      Step fixed i s
        (if ins then { s with pc := setPc s.pc i (.emplace k) } else finish s i k none)
  /-- target.cxx:724-727, 766-769 find(): the extensions are the same or unspecified in
  the request. -/
  | findSame {s} {k : Key Id Ext} {ins again t} {o : Key Id Ext} : s.pc i = .find k ins again →
      s.objs[t]? = some o → keyEq fixed o k = true → (o.ext = k.ext ∨ k.ext = none) →
      Step fixed i s (finish s i k (some t))
  /-- target.cxx:727-744 find(): the extension has to be set. -/
  | findUpgrade {s} {k : Key Id Ext} {ins again t} {o : Key Id Ext} : s.pc i = .find k ins again →
      s.objs[t]? = some o → keyEq fixed o k = true → o.ext ≠ k.ext → k.ext ≠ none →
      Step fixed i s { s with pc := setPc s.pc i (.upgrade k t ins again) }
  /-- target.cxx:745-750 find(): someone set the extension. -/
  | upgradeAgain {s} {k : Key Id Ext} {ins again t} {o : Key Id Ext} : s.pc i = .upgrade k t ins again →
      s.objs[t]? = some o → o.ext ≠ none →
      Step fixed i s { s with pc := setPc s.pc i (.find k ins true) }
  /-- target.cxx:766-767 find(): set the extension. -/
  | upgradeSet {s} {k : Key Id Ext} {ins again t} {o : Key Id Ext} : s.pc i = .upgrade k t ins again →
      s.objs[t]? = some o → o.ext = none →
      Step fixed i s (finish { s with objs := setExtOf s.objs t k.ext } i k (some t))
  /-- target.cxx:810-842 insert_locked(): inserted. -/
  | emplaceNew {s} {k : Key Id Ext} : s.pc i = .emplace k →
      (∀ o ∈ s.objs, keyEq fixed o ⟨k.id, newExt fixed k⟩ = false) →
      Step fixed i s
        (finish { s with objs := s.objs ++ [⟨k.id, newExt fixed k⟩] } i k (some s.objs.length))
  /-- target.cxx:845-872 insert_locked(): someone inserted it in the meantime. -/
  | emplaceOld {s} {k : Key Id Ext} {t} {o : Key Id Ext} : s.pc i = .emplace k →
      s.objs[t]? = some o → keyEq fixed o ⟨k.id, newExt fixed k⟩ = true →
      Step fixed i s
        (finish
          (if o.ext ≠ newExt fixed k ∧ newExt fixed k ≠ none
           then { s with objs := setExtOf s.objs t (newExt fixed k) } else s) i k (some t))
  /-- target.cxx:84-106 target::ext(): set if not yet set. -/
  | setExt {s} {t : Nat} {o : Key Id Ext} (x : Ext) : s.pc i = .idle → s.objs[t]? = some o → o.ext = none →
      Step fixed i s { s with objs := setExtOf s.objs t (some x), used := (o.id, x) :: s.used }
  /-- target.cxx:84-106 target::ext(): already set to the same or (diagnosed) to a
  different extension. -/
  | setExtSet {s} {t : Nat} {o : Key Id Ext} (x : Ext) : s.pc i = .idle → s.objs[t]? = some o → o.ext ≠ none →
      Step fixed i s { s with used := (o.id, x) :: s.used }

/-- States reachable by any interleaving. -/
inductive Reach (fixed : Id → Option (Option Ext → Ext)) : State Id Ext → Prop
  | init : Reach fixed State.init
  | step {s s' i} : Reach fixed s → Step fixed i s s' → Reach fixed s'

/-- A later state. -/
inductive Later (fixed : Id → Option (Option Ext → Ext)) (s : State Id Ext) : State Id Ext → Prop
  | refl : Later fixed s s
  | step {s' s'' i} : Later fixed s s' → Step fixed i s' s'' → Later fixed s s''

end Verif.TargetSet
