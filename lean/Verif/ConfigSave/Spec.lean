import Verif.ConfigSave.Model

/-!
# Saving the configuration: specification

A configuration is *kept* if, when the projects that have been configured are loaded again
without the overrides on the command line, every variable that a project uses has the same
value as when the project was configured.

This relies on the lookups being *coherent*: if in a project we see a value from an
amalgamation, then the same value is seen in the amalgamation and everywhere in between.
-/

namespace Verif.ConfigSave

variable {α : Type}

/-- What the values looked up in a project and its amalgamations have to do with each other. -/
structure Coherent (S : Setup α) : Prop where
  /-- The lookup itself is fine. -/
  noCrash : ∀ p, p < S.n → S.look p ≠ .crash
  /-- What we see is from this project or from an outer one (or global). -/
  range : ∀ p l, p < S.n → S.look p = .found l → p ≤ l.loc ∧ l.loc ≤ S.n
  /-- The same value is seen all the way. -/
  same : ∀ p q l, S.look p = .found l → p ≤ q → q ≤ l.loc → q < S.n →
    ∃ l', S.look q = .found l' ∧ l'.val = l.val ∧ l'.loc = l.loc ∧ l'.over = l.over
  /-- If not overridden, then it is the original. -/
  plain : ∀ p l, p < S.n → S.look p = .found l → l.over = false →
    S.original p = some (l.loc - p, l.val, l.dflt)
  /-- If it is overridden in an outer project, then in an inner one as well. -/
  mono : ∀ p q l l', p ≤ q → q < S.n → S.look q = .found l' → l'.over = true →
    S.look p = .found l → l.over = true
  /-- If it is overridden, then there is an override or the original where it is from. -/
  here : ∀ p l, p < S.n → S.look p = .found l → l.loc < S.n → S.here l.loc = true

end Verif.ConfigSave
