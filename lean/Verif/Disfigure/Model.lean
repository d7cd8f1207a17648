import Verif.Disfigure.Spec

/-!
# Removing links of a forwarded configuration: model

`libbuild2/config/operation.cxx`: `disfigure_forward` (1369-1500), from the removal of backlinks on
(1407-1497).

Not modelled: removal of `out-root.build`, failures of the file system, that entries change while being
gone through.
-/

namespace Verif.Disfigure

/-- The condition for skipping an entry, as it is in the code (config/operation.cxx 1435-1439). -/
def skip (n : String) : Bool :=
  ".git".toList.isPrefixOf n.toList && n == ".bdep" && n == ".bpkg" && n == ".build2"

/-- What is done about a symbolic link (config/operation.cxx 1456-1485): whether it is removed. -/
def unlinks (out : Path) (t : Target) : Bool :=
  if !t.abs then false
  else if !t.norm then false
  else out.isPrefixOf t.path

/-- The lambda `remove_backlinks` (config/operation.cxx 1419-1497). -/
def remove (out : Path) : Entries → Entries
  | .nil => .nil
  | .file n es => .file n (remove out es)
  | .link n t es =>
    if skip n then .link n t (remove out es)
    else if unlinks out t then remove out es
    else .link n t (remove out es)
  | .dir n s es =>
    if skip n then .dir n s (remove out es)
    else .dir n (remove out s) (remove out es)

/-- `disfigure_forward` (config/operation.cxx 1415-1497): only if the output directory isn't the source
directory. -/
def disfigureForward (src out : Path) (es : Entries) : Entries :=
  if out = src then es else remove out es

end Verif.Disfigure
