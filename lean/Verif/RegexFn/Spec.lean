/-!
# Replacement in lines and lists: specification
-/

namespace Verif.RegexFn

abbrev Str := List Char

/-- A line without its newline, and whether it has one. -/
abbrev Line := Str × Bool

/-- The text that consists of these lines. -/
def join (ls : List Line) : Str := ls.flatMap fun l => l.1 ++ if l.2 then ['\n'] else []

/-- These are the lines of a text: there is no newline in a line, and only the last one may be without a
newline after it, in which case it isn't empty. -/
inductive IsLines : Str → List Line → Prop
  | nil : IsLines [] []
  | last {l} : '\n' ∉ l → l ≠ [] → IsLines l [(l, false)]
  | line {l s ls} : '\n' ∉ l → IsLines s ls → IsLines (l ++ '\n' :: s) ((l, true) :: ls)

/-- What becomes of lines if `rep` gives the replacement of a line and whether there was a match. A line that
matches is dropped if there is no format and nothing is left of it, one that doesn't if it isn't to be
copied. -/
inductive Out (rep : Str → Str × Bool) (noFmt noCopy : Bool) : List Line → List Line → Prop
  | nil : Out rep noFmt noCopy [] []
  | matched {l x e t u} : rep l = (x, true) → (noFmt = true → x ≠ []) → Out rep noFmt noCopy t u →
      Out rep noFmt noCopy ((l, e) :: t) ((x, e) :: u)
  | copied {l x e t u} : rep l = (x, false) → noCopy = false → Out rep noFmt noCopy t u →
      Out rep noFmt noCopy ((l, e) :: t) ((x, e) :: u)
  | empty {l e t u} : rep l = ([], true) → noFmt = true → Out rep noFmt noCopy t u →
      Out rep noFmt noCopy ((l, e) :: t) u
  | omitted {l x e t u} : rep l = (x, false) → noCopy = true → Out rep noFmt noCopy t u →
      Out rep noFmt noCopy ((l, e) :: t) u

end Verif.RegexFn
