/-!
# Target identity: specification

A reference to a target is its identity proper (type, directories and name, which are
always compared for equality) and an extension, which may be unspecified. Completed
requests are recorded together with the target object they resolved to.
-/

namespace Verif.TargetSet

structure Key (Id Ext : Type) where
  id : Id
  ext : Option Ext
deriving DecidableEq, Repr

/-- A completed request: what was asked for and the object (by number) it resolved to, if
any. -/
structure Done (Id Ext : Type) where
  key : Key Id Ext
  res : Option Nat
deriving DecidableEq, Repr

end Verif.TargetSet
