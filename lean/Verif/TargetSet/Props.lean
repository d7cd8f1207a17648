import Verif.TargetSet.Lemmas

/-!
# Target identity: theorems
-/

namespace Verif.TargetSet

variable {Id Ext : Type} [DecidableEq Id] [DecidableEq Ext]
  {fixed : Id → Option (Option Ext → Ext)}

/-- Whatever a request resolved to has the type, directories and name asked for and, if
specified, the extension. -/
theorem result_matches {s : State Id Ext} (h : Reach fixed s) {d : Done Id Ext} (hd : d ∈ s.done)
    {t : Nat} (ht : d.res = some t) :
    ∃ o, s.objs[t]? = some o ∧ o.id = d.key.id ∧
      (fixed d.key.id = none → ∀ x, d.key.ext = some x → o.ext = some x) := by
  obtain ⟨o, h1, h2, h3, _⟩ := (inv_reach h).done d hd t ht
  exact ⟨o, h1, h2, h3⟩

/-- However the threads interleave, references with the same type, directories, name and
extension resolve to the same object. -/
theorem same_extension_same_target {s : State Id Ext} (h : Reach fixed s)
    {k : Key Id Ext} (hf : fixed k.id = none) (hx : k.ext ≠ none) {t₁ t₂ : Nat}
    (h₁ : ⟨k, some t₁⟩ ∈ s.done) (h₂ : ⟨k, some t₂⟩ ∈ s.done) : t₁ = t₂ := by
  cases hxe : k.ext with
  | none => exact absurd hxe hx
  | some x =>
    obtain ⟨o₁, a1, a2, a3⟩ := result_matches h h₁ rfl
    obtain ⟨o₂, b1, b2, b3⟩ := result_matches h h₂ rfl
    by_cases e : t₁ = t₂
    · exact e
    · obtain ⟨y, z, hy, hz, hyz⟩ :=
        (inv_reach h).objs.distinct t₁ t₂ o₁ o₂ a1 b1 e (a2.trans b2.symm)
      have := a3 hf x hxe
      have := b3 hf x hxe
      simp_all

/-- References with the same type, directories and name but different extensions resolve
to different objects. -/
theorem different_extension_different_target {s : State Id Ext} (h : Reach fixed s)
    {k₁ k₂ : Key Id Ext} (hf : fixed k₁.id = none) (hi : k₁.id = k₂.id)
    (hx₁ : k₁.ext ≠ none) (hx₂ : k₂.ext ≠ none) (hx : k₁.ext ≠ k₂.ext) {t₁ t₂ : Nat}
    (h₁ : ⟨k₁, some t₁⟩ ∈ s.done) (h₂ : ⟨k₂, some t₂⟩ ∈ s.done) : t₁ ≠ t₂ := by
  rintro rfl
  obtain ⟨o₁, a1, a2, a3⟩ := result_matches h h₁ rfl
  obtain ⟨o₂, b1, b2, b3⟩ := result_matches h h₂ rfl
  rw [a1] at b1; cases b1
  cases e1 : k₁.ext with
  | none => exact hx₁ e1
  | some x =>
    cases e2 : k₂.ext with
    | none => exact hx₂ e2
    | some y =>
      have p := a3 hf x e1
      have q := b3 (hi ▸ hf) y e2
      rw [p] at q
      exact hx (by rw [e1, e2]; exact q)

/-- References with different types, directories or names resolve to different objects. -/
theorem different_name_different_target {s : State Id Ext} (h : Reach fixed s)
    {k₁ k₂ : Key Id Ext} (hi : k₁.id ≠ k₂.id) {t₁ t₂ : Nat}
    (h₁ : ⟨k₁, some t₁⟩ ∈ s.done) (h₂ : ⟨k₂, some t₂⟩ ∈ s.done) : t₁ ≠ t₂ := by
  rintro rfl
  obtain ⟨o₁, a1, a2, _⟩ := result_matches h h₁ rfl
  obtain ⟨o₂, b1, b2, _⟩ := result_matches h h₂ rfl
  rw [a1] at b1; cases b1
  exact hi (a2.symm.trans b2)

/-- A reference to a type with the fixed extension that specifies no extension or the
fixed one. -/
def Proper (f : Option Ext → Ext) (e : Option Ext) : Prop := ∀ x, e = some x → f (some x) = x

/-- The same for types with the fixed extension: with it or without, it is the same
object. -/
theorem fixed_extension_same_target {s : State Id Ext} (h : Reach fixed s)
    {k₁ k₂ : Key Id Ext} {f : Option Ext → Ext} (hf : fixed k₁.id = some f) (hi : k₁.id = k₂.id)
    (p₁ : Proper f k₁.ext) (p₂ : Proper f k₂.ext)
    (hx : k₁.ext.getD (f none) = k₂.ext.getD (f none)) {t₁ t₂ : Nat}
    (h₁ : ⟨k₁, some t₁⟩ ∈ s.done) (h₂ : ⟨k₂, some t₂⟩ ∈ s.done) : t₁ = t₂ := by
  have canon : ∀ e, Proper f e → f e = e.getD (f none) := by
    intro e hp
    cases e with
    | none => rfl
    | some x => exact hp x rfl
  obtain ⟨o₁, a1, a2, _, a3⟩ := (inv_reach h).done _ h₁ t₁ rfl
  obtain ⟨o₂, b1, b2, _, b3⟩ := (inv_reach h).done _ h₂ t₂ rfl
  have e1 : o₁.ext = some (k₁.ext.getD (f none)) := by
    rcases a3 f hf with e | e
    · exact e.trans (congrArg some (canon _ p₁))
    · exact e
  have e2 : o₂.ext = some (k₂.ext.getD (f none)) := by
    rcases b3 f (show fixed k₂.id = some f from hi ▸ hf) with e | e
    · exact e.trans (congrArg some (canon _ p₂))
    · exact e
  by_cases e : t₁ = t₂
  · exact e
  · obtain ⟨y, z, hy, hz, hyz⟩ := (inv_reach h).objs.distinct t₁ t₂ o₁ o₂ a1 b1 e
      (a2.trans (hi.trans b2.symm))
    rw [e1] at hy; rw [e2] at hz
    cases hy; cases hz
    exact absurd hx hyz

/-- The type, directories and name of an object never change and neither does the
extension once set. -/
theorem extension_immutable {s s' : State Id Ext} (h : Reach fixed s) (hl : Later fixed s s')
    {t : Nat} {o : Key Id Ext} (ho : s.objs[t]? = some o) :
    ∃ o', s'.objs[t]? = some o' ∧ o'.id = o.id ∧ ∀ x, o.ext = some x → o'.ext = some x := by
  obtain ⟨o', h1, h2, h3⟩ := later_grow h hl t o ho
  exact ⟨o', h1, h2, fun x hx => by rw [h3 (by rw [hx]; simp), hx]⟩

/-- The request of thread `i` completes in this step. -/
def Completes (i : Nat) (s s' : State Id Ext) (k : Key Id Ext) (r : Option Nat) : Prop :=
  s.pc i ≠ .idle ∧ s'.pc i = .idle ∧ s'.done = ⟨k, r⟩ :: s.done

/-- Once a reference resolved to a target, no reference with the same type, directories
and name and the same or no extension is told there is no such target. -/
theorem no_lost_target {s s' : State Id Ext} (h : Reach fixed s) {i : Nat}
    (st : Step fixed i s s') {k₁ k₂ : Key Id Ext} {t : Nat} (hf : fixed k₁.id = none)
    (hi : k₁.id = k₂.id) (hx : k₂.ext = none ∨ k₂.ext = k₁.ext)
    (h₁ : ⟨k₁, some t⟩ ∈ s.done) {r : Option Nat} (hc : Completes i s s' k₂ r) : r ≠ none := by
  obtain ⟨o, a1, a2, a3⟩ := result_matches h h₁ rfl
  have cons_ne : ∀ (d : Done Id Ext) (l : List (Done Id Ext)), l ≠ d :: l := by
    intro d l e
    have := congrArg List.length e
    simp at this
  obtain ⟨_, hidle, hdone⟩ := hc
  cases st with
  | callFind => exact absurd hdone (cons_ne _ _)
  | callInsert => exact absurd hdone (cons_ne _ _)
  | findNone hpc hn =>
    rename_i k ins again
    cases ins with
    | true => exact absurd hdone (cons_ne _ _)
    | false =>
      injection hdone with hd _
      cases hd
      have hne := hn o (List.mem_of_getElem? a1)
      have hof : fixed o.id = none := by rw [a2]; exact hf
      have : keyEq fixed o k₂ = true := by
        rw [keyEq_free hof]
        refine ⟨a2.trans hi, ?_⟩
        rcases hx with hx | hx
        · exact .inr (.inl hx)
        · cases hk : k₁.ext with
          | none => exact .inr (.inl (hx.trans hk))
          | some x => exact .inr (.inr (by rw [a3 hf x hk, hx, hk]))
      rw [hne] at this; cases this
  | findSame => injection hdone with hd _; cases hd; simp
  | findUpgrade => exact absurd hdone (cons_ne _ _)
  | upgradeAgain => exact absurd hdone (cons_ne _ _)
  | upgradeSet => injection hdone with hd _; cases hd; simp
  | emplaceNew => injection hdone with hd _; cases hd; simp
  | emplaceOld _ _ _ =>
    simp only [finish] at hdone
    split at hdone <;> (injection hdone with hd _; cases hd; simp)
  | setExt => exact absurd hdone (cons_ne _ _)
  | setExtSet => exact absurd hdone (cons_ne _ _)

/-- The thread is in an insert. -/
def Inserting (p : Pc Id Ext) (k : Key Id Ext) : Prop :=
  (∃ again, p = .find k true again) ∨ (∃ t again, p = .upgrade k t true again) ∨ p = .emplace k

/-- Inserting goes on until it completes, with an object. -/
theorem insert_resolves {s s' : State Id Ext} {i : Nat} (st : Step fixed i s s')
    {k : Key Id Ext} (hp : Inserting (s.pc i) k) :
    Inserting (s'.pc i) k ∨ ∃ t, Completes i s s' k (some t) := by
  have hne : s.pc i ≠ .idle := by
    rcases hp with ⟨_, e⟩ | ⟨_, _, e⟩ | e <;> rw [e] <;> simp
  cases st with
  | callFind _ h => exact absurd h hne
  | callInsert _ _ h => exact absurd h hne
  | findNone h hn =>
    rcases hp with ⟨_, e⟩ | ⟨_, _, e⟩ | e <;> rw [h] at e <;> cases e
    left; exact .inr (.inr (by simp [setPc]))
  | findSame h h1 h2 h3 =>
    rename_i t o
    rcases hp with ⟨_, e⟩ | ⟨_, _, e⟩ | e <;> rw [h] at e <;> cases e
    right; exact ⟨t, hne, by simp [finish, setPc], rfl⟩
  | findUpgrade h h1 h2 h3 h4 =>
    rename_i t o
    rcases hp with ⟨_, e⟩ | ⟨_, _, e⟩ | e <;> rw [h] at e <;> cases e
    left; exact .inr (.inl ⟨t, _, by simp [setPc]; rfl⟩)
  | upgradeAgain h h1 h2 =>
    rcases hp with ⟨_, e⟩ | ⟨_, _, e⟩ | e <;> rw [h] at e <;> cases e
    left; exact .inl ⟨true, by simp [setPc]⟩
  | upgradeSet h h1 h2 =>
    rename_i t o
    rcases hp with ⟨_, e⟩ | ⟨_, _, e⟩ | e <;> rw [h] at e <;> cases e
    right; exact ⟨_, hne, by simp [finish, setPc], rfl⟩
  | emplaceNew h hn =>
    rcases hp with ⟨_, e⟩ | ⟨_, _, e⟩ | e <;> rw [h] at e <;> cases e
    right; exact ⟨_, hne, by simp [finish, setPc], rfl⟩
  | emplaceOld h h1 h2 =>
    rename_i t o
    rcases hp with ⟨_, e⟩ | ⟨_, _, e⟩ | e <;> rw [h] at e <;> cases e
    right
    refine ⟨t, hne, by simp [finish, setPc], ?_⟩
    simp only [finish]
    split <;> rfl
  | setExt _ h => exact absurd h hne
  | setExtSet _ h => exact absurd h hne

/-- No request is ever stuck. -/
theorem request_progress {s : State Id Ext} (h : Reach fixed s) {i : Nat}
    (hi : s.pc i ≠ .idle) : ∃ s', Step fixed i s s' := by
  have hp := (inv_reach h).pcs i
  cases hpc : s.pc i with
  | idle => exact absurd hpc hi
  | find k ins again =>
    by_cases hn : ∀ o ∈ s.objs, keyEq fixed o k = false
    · exact ⟨_, .findNone hpc hn⟩
    · simp only [Classical.not_forall] at hn
      obtain ⟨o, ho, hk⟩ := hn
      obtain ⟨t, ht⟩ := List.mem_iff_getElem?.mp ho
      have hk : keyEq fixed o k = true := by
        cases e : keyEq fixed o k with
        | true => rfl
        | false => exact absurd e hk
      by_cases h1 : o.ext = k.ext ∨ k.ext = none
      · exact ⟨_, .findSame hpc ht hk h1⟩
      · exact ⟨_, .findUpgrade hpc ht hk (fun e => h1 (.inl e)) (fun e => h1 (.inr e))⟩
  | upgrade k t ins again =>
    rw [hpc] at hp
    obtain ⟨_, _, _, _, o, ho, _⟩ := hp
    by_cases hx : o.ext = none
    · exact ⟨_, .upgradeSet hpc ho hx⟩
    · exact ⟨_, .upgradeAgain hpc ho hx⟩
  | emplace k =>
    by_cases hn : ∀ o ∈ s.objs, keyEq fixed o ⟨k.id, newExt fixed k⟩ = false
    · exact ⟨_, .emplaceNew hpc hn⟩
    · simp only [Classical.not_forall] at hn
      obtain ⟨o, ho, hk⟩ := hn
      obtain ⟨t, ht⟩ := List.mem_iff_getElem?.mp ho
      have hk : keyEq fixed o ⟨k.id, newExt fixed k⟩ = true := by
        cases e : keyEq fixed o ⟨k.id, newExt fixed k⟩ with
        | true => rfl
        | false => exact absurd e hk
      exact ⟨_, .emplaceOld hpc ht hk⟩

/-- A search is restarted at most once: the second time around no extension has to be
set. -/
theorem restarts_once {s s' : State Id Ext} (h : Reach fixed s) {i : Nat} {k : Key Id Ext}
    {ins : Bool} (hp : s.pc i = .find k ins true) (st : Step fixed i s s') :
    s'.pc i = .emplace k ∨ ∃ r, Completes i s s' k r := by
  have hne : s.pc i ≠ .idle := by rw [hp]; simp
  cases st with
  | callFind _ h => exact absurd h hne
  | callInsert _ _ h => exact absurd h hne
  | findNone h hn =>
    rw [hp] at h; cases h
    cases ins with
    | true => left; simp [setPc]
    | false => right; exact ⟨none, hne, by simp [finish, setPc], rfl⟩
  | findSame h h1 h2 h3 =>
    rename_i t o
    rw [hp] at h; cases h
    right; exact ⟨some t, hne, by simp [finish, setPc], rfl⟩
  | findUpgrade h h1 h2 h3 h4 =>
    have st' := Step.findUpgrade h h1 h2 h3 h4
    rw [hp] at h; cases h
    have hi := (inv_step (inv_reach ‹Reach fixed s›) st').1.pcs i
    simp [setPc, PcOk] at hi
  | upgradeAgain h h1 h2 => rw [hp] at h; cases h
  | upgradeSet h h1 h2 => rw [hp] at h; cases h
  | emplaceNew h hn => rw [hp] at h; cases h
  | emplaceOld h h1 h2 => rw [hp] at h; cases h
  | setExt _ h => exact absurd h hne
  | setExtSet _ h => exact absurd h hne

/-- If only one extension was ever used with this type, directories and name, then
references with and without it all resolve to the same object. What is missing: if several
were used, then a reference without the extension may resolve to any of the objects (see
`unspecified_may_differ`). -/
theorem unspecified_same_target_partial {s : State Id Ext} (h : Reach fixed s)
    {k₁ k₂ : Key Id Ext} (hf : fixed k₁.id = none) (hi : k₁.id = k₂.id) {x : Ext}
    (hu : ∀ e, (k₁.id, e) ∈ s.used → e = x) {t₁ t₂ : Nat}
    (h₁ : ⟨k₁, some t₁⟩ ∈ s.done) (h₂ : ⟨k₂, some t₂⟩ ∈ s.done) : t₁ = t₂ := by
  obtain ⟨o₁, a1, a2, _⟩ := result_matches h h₁ rfl
  obtain ⟨o₂, b1, b2, _⟩ := result_matches h h₂ rfl
  by_cases e : t₁ = t₂
  · exact e
  · obtain ⟨y, z, hy, hz, hyz⟩ := (inv_reach h).objs.distinct t₁ t₂ o₁ o₂ a1 b1 e
      (a2.trans (hi.trans b2.symm))
    have p := (inv_reach h).objs.usedIn t₁ o₁ a1 (by rw [a2]; exact hf) y hy
    have q := (inv_reach h).objs.usedIn t₂ o₂ b1 (by rw [b2]; exact (hi ▸ hf)) z hz
    rw [show o₁.id = k₁.id from a2] at p
    rw [show o₂.id = k₁.id from b2.trans hi.symm] at q
    exact absurd ((hu y p).trans (hu z q).symm) hyz

/-! ## Concrete cases -/

def free : Nat → Option (Option Nat → Nat) := fun _ => none

/-- Two threads race to insert `0` with the extension 7 and without. The first finds
nothing, the second inserts without the extension, and the first then sets it. -/
def race : State Nat Nat :=
  { objs := [⟨0, some 7⟩], pc := fun _ => .idle, done := [⟨⟨0, some 7⟩, some 0⟩, ⟨⟨0, none⟩, some 0⟩],
    used := [(0, 7)] }

theorem setPc_idle (pc : Nat → Pc Nat Nat) (i : Nat) (h : ∀ j, pc j = .idle) (p) :
    setPc (setPc pc i p) i .idle = fun _ => .idle := by
  funext j; simp only [setPc]; split <;> simp [h]

theorem race_reach : Reach free race := by
  have s0 : Reach free (State.init : State Nat Nat) := .init
  have s1 := s0.step (.callInsert (i := 1) ⟨0, some 7⟩ false rfl)
  have s2 := s1.step (.findNone (i := 1) (k := ⟨0, some 7⟩) (ins := true) (again := false)
    (by simp [setPc]) (by simp [State.init]))
  have s3 := s2.step (.callInsert (i := 2) ⟨0, none⟩ true (by simp [setPc, State.init]))
  have s4 := s3.step (.emplaceNew (i := 2) (k := ⟨0, none⟩) (by simp [setPc])
    (by simp [State.init]))
  have s5 := s4.step (.emplaceOld (i := 1) (k := ⟨0, some 7⟩) (t := 0) (o := ⟨0, none⟩)
    (by simp [setPc, finish]) rfl (by decide))
  refine cast (congrArg (Reach free) ?_) s5
  simp only [race, finish, State.init, newExt, free, mention, State.mk.injEq]
  refine ⟨by decide, ?_, rfl, rfl⟩
  clear s0 s1 s2 s3 s4 s5
  funext j
  simp only [setPc]
  by_cases h : j = 1
  · simp [h]
  · by_cases h' : j = 2 <;> simp [setPc, h, h']

example : ∃ k t, Reach free race ∧ k.ext ≠ none ∧ free k.id = none ∧
    (⟨k, some t⟩ : Done Nat Nat) ∈ race.done :=
  ⟨⟨0, some 7⟩, 0, race_reach, by simp, rfl, by simp [race]⟩

/-- `unspecified_same_target_partial` applies to it. -/
example : ∀ e, ((0 : Nat), e) ∈ race.used → e = 7 := by simp [race]

/-- Further, an insert of `0` with the extension 8 gives a second object. -/
def split : State Nat Nat :=
  { objs := [⟨0, some 7⟩, ⟨0, some 8⟩], pc := fun _ => .idle,
    done := [⟨⟨0, some 8⟩, some 1⟩, ⟨⟨0, some 7⟩, some 0⟩, ⟨⟨0, none⟩, some 0⟩],
    used := [(0, 8), (0, 7)] }

theorem split_reach : Reach free split := by
  have s1 := race_reach.step (.callInsert (i := 1) ⟨0, some 8⟩ true rfl)
  have s2 := s1.step (.emplaceNew (i := 1) (k := ⟨0, some 8⟩) (by simp [setPc])
    (by simp [race]; decide))
  refine cast (congrArg (Reach free) ?_) s2
  simp only [split, race, finish, newExt, free, mention, State.mk.injEq]
  refine ⟨by decide, ?_, rfl, rfl⟩
  funext j
  simp only [setPc]
  split <;> simp_all

/-- With several extensions in use, the references `0`, unspecified, and `0` with the
extension 8 are different targets. And a later reference to `0` may resolve to either. -/
theorem unspecified_may_differ :
    ∃ s : State Nat Nat, Reach free s ∧
      ⟨⟨0, none⟩, some 0⟩ ∈ s.done ∧ ⟨⟨0, some 8⟩, some 1⟩ ∈ s.done ∧ ⟨⟨0, none⟩, some 1⟩ ∈ s.done := by
  have s1 := split_reach.step (.callFind (i := 1) ⟨0, none⟩ rfl)
  have s2 := s1.step (.findSame (i := 1) (k := ⟨0, none⟩) (ins := false) (again := false)
    (t := 1) (o := ⟨0, some 8⟩) (by simp [setPc]) rfl (by decide) (.inr rfl))
  exact ⟨_, s2, by simp [finish, split], by simp [finish, split], by simp [finish, split]⟩

example : ∃ k₁ k₂ t₁ t₂, Reach free split ∧ k₁.id = k₂.id ∧ k₁.ext ≠ none ∧ k₂.ext ≠ none ∧
    k₁.ext ≠ k₂.ext ∧ (⟨k₁, some t₁⟩ : Done Nat Nat) ∈ split.done ∧ ⟨k₂, some t₂⟩ ∈ split.done :=
  ⟨⟨0, some 7⟩, ⟨0, some 8⟩, 0, 1, split_reach, rfl, by simp, by simp, by simp,
    by simp [split], by simp [split]⟩

/-- With the fixed extension 5 (as in the buildfile type, if the name says so). -/
def fix5 : Nat → Option (Option Nat → Nat) := fun _ => some (fun _ => 5)

theorem fixed_reach : ∃ s : State Nat Nat, Reach fix5 s ∧ ⟨⟨0, none⟩, some 0⟩ ∈ s.done ∧
    ⟨⟨0, some 5⟩, some 0⟩ ∈ s.done ∧ Proper (fun _ => 5) (some 5) ∧ Proper (fun _ => 5) none := by
  have s0 : Reach fix5 (State.init : State Nat Nat) := .init
  have s1 := s0.step (.callInsert (i := 1) ⟨0, none⟩ true rfl)
  have s2 := s1.step (.emplaceNew (i := 1) (k := ⟨0, none⟩) (by simp [setPc])
    (by simp [State.init]))
  have s3 := s2.step (.callFind (i := 1) ⟨0, some 5⟩ (by simp [finish, setPc]))
  have s4 := s3.step (.findSame (i := 1) (k := ⟨0, some 5⟩) (ins := false) (again := false)
    (t := 0) (o := ⟨0, some 5⟩) (by simp [setPc]) rfl (by decide) (.inl rfl))
  exact ⟨_, s4, by simp [finish, State.init], by simp [finish], by intro x h; cases h; rfl,
    by intro x h; cases h⟩

/-- A find that races with target::ext() and has to start over. -/
theorem restart_reach : ∃ (s s' : State Nat Nat) (k : Key Nat Nat), Reach free s ∧
    s.pc 1 = .find k false true ∧ Step free 1 s s' ∧ Completes 1 s s' k none := by
  have s0 : Reach free (State.init : State Nat Nat) := .init
  have s1 := s0.step (.callInsert (i := 1) ⟨0, none⟩ true rfl)
  have s2 := s1.step (.emplaceNew (i := 1) (k := ⟨0, none⟩) (by simp [setPc])
    (by simp [State.init]))
  have s3 := s2.step (.callFind (i := 1) ⟨0, some 8⟩ (by simp [finish, setPc]))
  have s4 := s3.step (.findUpgrade (i := 1) (k := ⟨0, some 8⟩) (ins := false) (again := false)
    (t := 0) (o := ⟨0, none⟩) (by simp [setPc]) rfl (by decide) (by simp) (by simp))
  have s5 := s4.step (.setExt (i := 2) (t := 0) (o := ⟨0, none⟩) 7
    (by simp [finish, setPc, State.init]) rfl rfl)
  have s6 := s5.step (.upgradeAgain (i := 1) (k := ⟨0, some 8⟩) (ins := false) (again := false)
    (t := 0) (o := ⟨0, some 7⟩) (by simp [setPc]) rfl (by simp))
  refine ⟨_, _, ⟨0, some 8⟩, s6, by simp [setPc], .findNone (k := ⟨0, some 8⟩) (ins := false)
    (again := true) (by simp [setPc]) ?_, ?_⟩
  · decide
  · exact ⟨by simp [setPc], by simp [finish, setPc], rfl⟩

end Verif.TargetSet
