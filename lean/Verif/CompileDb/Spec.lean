/-!
# The compilation database: the specification

Outputs are `O` and compiler command lines are `C`. A database is a list of
outputs with a line of JSON for each.
-/

namespace Verif.CompileDb

abbrev Line := List Char

/-- How an entry is written: a line of JSON that starts with a brace and does
not end with a comma, and from which the output can be read back. -/
structure Format (O C : Type) where
  js : O → C → Line
  outputOf : Line → Option O
  reads : ∀ o c, outputOf (js o c) = some o
  one_line : ∀ o c, '\n' ∉ js o c
  starts : ∀ o c, ∃ l, js o c = '{' :: l
  ends : ∀ o c, (js o c).getLast? ≠ some ','

/-- The line of this output, if any. -/
def look {O : Type} [DecidableEq O] (es : List (O × Line)) (o : O) : Option Line :=
  (es.find? fun e => e.1 = o).map (·.2)

/-- How the file is written: an array with an entry per line. -/
def render {O : Type} (es : List (O × Line)) : List Char :=
  "[\n".toList ++ List.intercalate ",\n".toList (es.map (·.2)) ++
    (if es.isEmpty then "]\n".toList else "\n]\n".toList)

/-- The end of an update: in a nested context, of a pre-operation, during the
initial load, whether it has failed and which outputs are in the directories
that are updated. -/
structure Post (O : Type) where
  nested : Bool
  outer : Bool
  duringLoad : Bool
  failed : Bool
  inDirs : O → Bool

/-- What is removed: whatever is in these directories and has not been
confirmed, but only if all of it has been updated. -/
def Post.Removes {O : Type} (p : Post O) (o : O) : Prop :=
  p.failed = false ∧ p.nested = false ∧ p.outer = false ∧ p.inDirs o = true

/-- What happens. Between processes, command lines can change and what has
been compiled can be removed. In a process, updates can be nested, and in
them outputs are checked for being up-to-date and then perhaps compiled. -/
inductive Event (O C : Type) where
  | edit (want : O → C)
  | forget (o : O)
  | start
  | pre
  | check (o : O)
  | compile (o : O)
  | post (p : Post O)

end Verif.CompileDb
