/-!
# Reading elements from the output of a command: specification

What `set` and `for` get from some text (doc/testscript.cli, the `set` builtin).
-/

namespace Verif.SetRead

abbrev Text := List Char

/-- How the text is split. -/
inductive Mode | words | lines | whole
  deriving DecidableEq

/-- Whitespaces (and the character with the code 0). -/
def Space (c : Char) : Prop := c ∈ [' ', '\n', '\r', '\t', Char.ofNat 0]

instance (c : Char) : Decidable (Space c) := inferInstanceAs (Decidable (c ∈ _))

/-- A part without whitespaces, as long as possible. -/
def Word (w : Text) : Prop := w ≠ [] ∧ ∀ c ∈ w, ¬ Space c

/-- The words of a text. -/
inductive Words : Text → List Text → Prop
  | nil : Words [] []
  | space {c cs ws} : Space c → Words cs ws → Words (c :: cs) ws
  | last {w} : Word w → Words w [w]
  | word {w c cs ws} : Word w → Space c → Words cs ws → Words (w ++ c :: cs) (w :: ws)

/-- A line without the carriage returns in the end. -/
def Strip (l l' : Text) : Prop :=
  (∃ k, l = l' ++ List.replicate k '\r') ∧ l'.getLast? ≠ some '\r'

/-- The lines of a text that end with newlines, and what is after them. -/
inductive Lines : Text → List Text → Text → Prop
  | rest {r} : '\n' ∉ r → Lines r [] r
  | line {l l' cs ls r} : '\n' ∉ l → Strip l l' → Lines cs ls r →
      Lines (l ++ '\n' :: cs) (l' :: ls) r

/-- What a text is split into. With `exact` the end of the text is an element, too, if it is
blank, and a newline in the end is kept. -/
inductive Elements (exact : Bool) : Mode → Text → List Text → Prop
  /-- Nothing in nothing. -/
  | nothing {m} : Elements exact m [] []
  | words {t ws c} : t ≠ [] → Words t ws → t.getLast? = some c → (Space c → exact = false) →
      Elements exact .words t ws
  | wordsBlank {t ws c} : Words t ws → t.getLast? = some c → Space c → exact = true →
      Elements exact .words t (ws ++ [[]])
  | lines {t ls} : t ≠ [] → Lines t ls [] → exact = false → Elements exact .lines t ls
  | linesRest {t ls r} : t ≠ [] → Lines t ls r → (r = [] → exact = true) →
      Elements exact .lines t (ls ++ [r])
  | whole {t ls r} : t ≠ [] → Lines t ls r → (r = [] → exact = true) →
      Elements exact .whole t [(ls.map (· ++ ['\n'])).flatten ++ r]
  | wholeEnd {t ls l} : Lines t (ls ++ [l]) [] → exact = false →
      Elements exact .whole t [(ls.map (· ++ ['\n'])).flatten ++ l]

end Verif.SetRead
