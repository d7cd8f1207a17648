import Verif.CompileDb.End
/-!
# The compilation database: properties
-/

namespace Verif.CompileDb

variable {O C : Type} [DecidableEq O] [DecidableEq C] {F : Format O C}

/-! ## A concrete case -/

/-- Two outputs and two command lines. -/
def js0 : Bool → Bool → Line
  | true, true => "{\"output\":\"a.o\",\"arguments\":[\"-O2\"]}".toList
  | true, false => "{\"output\":\"a.o\",\"arguments\":[\"-g\"]}".toList
  | false, true => "{\"output\":\"b.o\",\"arguments\":[\"-O2\"]}".toList
  | false, false => "{\"output\":\"b.o\",\"arguments\":[\"-g\"]}".toList

def outputOf0 (l : Line) : Option Bool :=
  if l = js0 true true ∨ l = js0 true false then some true
  else if l = js0 false true ∨ l = js0 false false then some false
  else none

def F0 : Format Bool Bool where
  js := js0
  outputOf := outputOf0
  reads := by decide +kernel
  one_line := by decide +kernel
  starts := by
    intro o c
    cases o <;> cases c <;> exact ⟨_, rfl⟩
  ends := by decide +kernel

instance (w : World O C) (e : Event O C) : Decidable (Protocol w e) := by
  cases e <;> unfold Protocol <;> infer_instance

instance (w : World O C) (e : Event O C) : Decidable (Uninterrupted w e) := by
  cases e <;> unfold Uninterrupted <;> infer_instance

/-- These events can happen one after another, and then this holds. -/
def Follows (F : Format O C) (Ok : World O C → Event O C → Prop) (Q : World O C → Prop) :
    List (Event O C) → World O C → Prop
  | [], w => Q w
  | e :: es, w => Ok w e ∧ ∃ w', step F w e = .ok w' ∧ Follows F Ok Q es w'

/-- The same, as a computation. -/
def follows (F : Format O C) (ok : World O C → Event O C → Bool) (q : World O C → Bool) :
    List (Event O C) → World O C → Bool
  | [], w => q w
  | e :: es, w => ok w e && match step F w e with
    | .ok w' => follows F ok q es w'
    | .error _ => false

theorem follows_sound {ok : World O C → Event O C → Bool} {q : World O C → Bool}
    {es : List (Event O C)} {w : World O C} (h : follows F ok q es w = true) :
    Follows F (fun w e => ok w e = true) (fun w => q w = true) es w := by
  induction es generalizing w with
  | nil => exact h
  | cons e es ih =>
    unfold follows at h
    rw [Bool.and_eq_true] at h
    refine ⟨h.1, ?_⟩
    cases hs : step F w e with
    | error x => rw [hs] at h; simp at h
    | ok w' => rw [hs] at h; exact ⟨w', rfl, ih h.2⟩

theorem follows_reach {q : World O C → Bool} {es : List (Event O C)} {w : World O C}
    (hw : Reach F w)
    (h : follows F (fun w e => decide (Protocol w e ∧ Uninterrupted w e)) q es w = true) :
    ∃ w', Reach F w' ∧ q w' = true := by
  induction es generalizing w with
  | nil => exact ⟨w, hw, h⟩
  | cons e es ih =>
    unfold follows at h
    rw [Bool.and_eq_true, decide_eq_true_eq] at h
    cases hs : step F w e with
    | error x => rw [hs] at h; simp at h
    | ok w' =>
      rw [hs] at h
      exact ih (.step hw h.1.1 h.1.2 hs) h.2

/-- The end of an update of everything. -/
def all0 : Post Bool := ⟨false, false, false, false, fun _ => true⟩

/-- Both are compiled, then the options change, one is compiled again and the
other one is not there anymore. -/
def history0 : List (Event Bool Bool) :=
  [.start, .pre, .check true, .compile true, .check false, .compile false, .post all0,
   .start, .edit fun _ => true, .pre, .check true, .compile true]

/-! ## Nothing goes wrong -/

/-- Builds that are not interrupted do not fail because of the database: no
assertion fails and the file is one that can be read. -/
theorem builds_complete {w : World O C} (h : Reach F w) (e : Event O C) (hp : Protocol w e)
    (hu : Uninterrupted w e) : ∃ w', step F w e = .ok w' := by
  have hi := reach_inv h
  cases e with
  | edit f => exact ⟨_, rfl⟩
  | forget o => exact ⟨_, rfl⟩
  | start => exact ⟨_, rfl⟩
  | pre => obtain ⟨w', h, -⟩ := step_pre hi hp; exact ⟨w', h⟩
  | check o => obtain ⟨w', h, -⟩ := step_check hi o hp; exact ⟨w', h⟩
  | compile o => obtain ⟨w', h, -⟩ := step_compile hi o hp; exact ⟨w', h⟩
  | post p => obtain ⟨w', h, -⟩ := step_post p hi hp hu; exact ⟨w', h⟩

-- For example, at the end of the second build.
example : ∃ w, Reach F0 w ∧ Protocol w (.post all0) ∧ Uninterrupted w (.post all0) := by
  obtain ⟨w, h1, h2⟩ := follows_reach (F := F0)
    (q := fun w => decide (Protocol w (.post all0) ∧ Uninterrupted w (.post all0)))
    (es := history0) (.init fun _ => false) (by decide +kernel)
  exact ⟨w, h1, of_decide_eq_true h2⟩

/-! ## The file is current -/

/-- After an update, the file says of every output that has been checked what
it is compiled with now. Of what has not been checked, it keeps what it has
said or, if all of the directory has been updated, says nothing. An output that
should have been compiled but was not, because something else has failed, is
not mentioned, and neither was it before.

Missing: this assumes that what is found to have changed is compiled before
the update ends, even if it fails, and that no process ends in the middle of
it; see `stale_after_failure` and `stale_after_crash`. -/
theorem database_current_partial {w w' : World O C} (h : Reach F w) (p : Post O)
    (hp : Protocol w (.post p)) (hu : Uninterrupted w (.post p)) (hn : w.cdb.nesting = 1)
    (hs : step F w (.post p) = .ok w') (o : O) :
    (o ∈ w.seen → (o ∈ w.forced → o ∈ w.done) → onDisk F w' o = some (F.js o (w.want o))) ∧
    (o ∈ w.seen → ¬ (o ∈ w.forced → o ∈ w.done) →
      onDisk F w o = none ∧ onDisk F w' o = none ∧ p.failed = true) ∧
    (o ∉ w.seen → p.Removes o → onDisk F w' o = none) ∧
    (o ∉ w.seen → ¬ p.Removes o → onDisk F w' o = onDisk F w o) := by
  obtain ⟨w'', h1, -, -, h4⟩ := step_post p (reach_inv h) hp hu
  rw [h1] at hs
  injection hs with hs
  subst hs
  obtain ⟨disk, disk', d1, d2, hr, -⟩ := h4 hn
  rw [onDisk_eq d1, onDisk_eq d2]
  obtain ⟨r1, r2, r3, r4⟩ := hr o
  refine ⟨r1, fun q1 q2 => ⟨(r2 q1 q2).1, (r2 q1 q2).2, ?_⟩, r3, r4⟩
  cases hf : p.failed with
  | true => rfl
  | false => exact absurd (hp.2.2 hn hf o) q2

-- For example, one is rewritten and the other one removed.
example : Follows F0 (fun w e => decide (Protocol w e ∧ Uninterrupted w e) = true)
    (fun w => (onDisk F0 w true = some (js0 true true) ∧ onDisk F0 w false = none : Bool) = true)
    (history0 ++ [.post all0]) (World.init fun _ => false) :=
  follows_sound (by decide +kernel)

-- Before that.
example : Follows F0 (fun w e => decide (Protocol w e ∧ Uninterrupted w e) = true)
    (fun w => (onDisk F0 w true = some (js0 true false) ∧
      onDisk F0 w false = some (js0 false false) : Bool) = true)
    history0 (World.init fun _ => false) :=
  follows_sound (by decide +kernel)

/-- Nothing else writes to the file. -/
theorem only_end_writes {w w' : World O C} (e : Event O C) (hs : step F w e = .ok w')
    (he : ∀ p, e = .post p → w.cdb.nesting ≠ 1) :
    w'.cdb.file = w.cdb.file ∧ w'.cdb.writes = w.cdb.writes := by
  cases e with
  | edit f => injection hs with hs; subst hs; exact ⟨rfl, rfl⟩
  | forget o => injection hs with hs; subst hs; exact ⟨rfl, rfl⟩
  | start => injection hs with hs; subst hs; exact ⟨rfl, rfl⟩
  | pre =>
    rw [step] at hs
    cases hc : pre F.outputOf w.cdb with
    | error x => rw [hc] at hs; cases hs
    | ok c =>
      rw [hc] at hs
      injection hs with hs
      subst hs
      unfold pre at hc
      split at hc
      · cases hc
      · split at hc
        · injection hc with hc; subst hc; exact ⟨rfl, rfl⟩
        · simp only at hc
          split at hc
          · split at hc
            · injection hc with hc; subst hc; exact ⟨rfl, rfl⟩
            · split at hc
              · cases hc
              · injection hc with hc; subst hc; exact ⟨rfl, rfl⟩
          · injection hc with hc; subst hc; exact ⟨rfl, rfl⟩
  | check o =>
    rw [step] at hs
    cases hc : «match» w.cdb o (decide (w.dep o ≠ some (w.want o))) with
    | error x => rw [hc] at hs; cases hs
    | ok c =>
      rw [hc] at hs
      injection hs with hs
      subst hs
      unfold «match» at hc
      split at hc
      · injection hc with hc; subst hc; exact ⟨rfl, rfl⟩
      · cases hc
      · split at hc
        · split at hc
          · split at hc
            · cases hc
            · injection hc with hc; subst hc; exact ⟨rfl, rfl⟩
          · split at hc
            · cases hc
            · injection hc with hc; subst hc; exact ⟨rfl, rfl⟩
          · injection hc with hc; subst hc; exact ⟨rfl, rfl⟩
          · cases hc
        · injection hc with hc; subst hc; exact ⟨rfl, rfl⟩
  | compile o =>
    rw [step] at hs
    cases hc : execute w.cdb o (F.js o (w.want o)) with
    | error x => rw [hc] at hs; cases hs
    | ok c =>
      rw [hc] at hs
      injection hs with hs
      subst hs
      unfold execute at hc
      split at hc
      · injection hc with hc; subst hc; exact ⟨rfl, rfl⟩
      · cases hc
      · split at hc
        · cases hc
        · split at hc
          · cases hc
          · injection hc with hc; subst hc; exact ⟨rfl, rfl⟩
          · injection hc with hc; subst hc; exact ⟨rfl, rfl⟩
          · injection hc with hc; subst hc; exact ⟨rfl, rfl⟩
  | post p =>
    have hn := he p rfl
    rw [step] at hs
    cases hc : post false w.cdb p with
    | error x => rw [hc] at hs; cases hs
    | ok c =>
      rw [hc] at hs
      simp only [if_neg hn] at hs
      injection hs with hs
      subst hs
      unfold post at hc
      split at hc
      · cases hc
      · rw [if_pos (by omega)] at hc
        injection hc with hc
        subst hc
        exact ⟨rfl, rfl⟩

/-- The file is not written if nothing has changed, nothing is new and nothing
is removed. -/
theorem not_rewritten {w w' : World O C} (h : Reach F w) (p : Post O)
    (hp : Protocol w (.post p)) (hu : Uninterrupted w (.post p))
    (hs : step F w (.post p) = .ok w') (h1 : w.owed = []) (h2 : w.forced = [])
    (h3 : ∀ o, onDisk F w o ≠ none → o ∉ w.seen → ¬ p.Removes o) :
    w'.cdb.file = w.cdb.file ∧ w'.cdb.writes = w.cdb.writes := by
  by_cases hn : w.cdb.nesting = 1
  · obtain ⟨w'', g1, -, -, g4⟩ := step_post p (reach_inv h) hp hu
    rw [g1] at hs
    injection hs with hs
    subst hs
    obtain ⟨disk, disk', d1, -, -, hq⟩ := g4 hn
    exact hq h1 h2 (fun o => by rw [← onDisk_eq d1]; exact h3 o)
  · exact only_end_writes _ hs (fun _ _ => hn)

-- For example, built twice.
example : Follows F0 (fun w e => decide (Protocol w e ∧ Uninterrupted w e) = true)
    (fun w => (w.cdb.writes = 1 ∧ onDisk F0 w true = some (js0 true false) : Bool) = true)
    [.start, .pre, .check true, .compile true, .post all0, .start, .pre, .check true, .compile true,
     .post all0, .pre, .check true, .post all0] (World.init fun _ => false) :=
  follows_sound (by decide +kernel)

/-! ## The file can be read -/

/-- The file is an array of entries, one per output, and is read back as just
those. -/
theorem file_reads_back {w : World O C} (h : Reach F w) (text : List Char)
    (hf : w.cdb.file = some text) :
    ∃ es, text = render es ∧ load F.outputOf text = some es ∧ (es.map (·.1)).Nodup ∧
      ∀ e ∈ es, ∃ c, e.2 = F.js e.1 c := by
  obtain ⟨disk, ⟨h1 | h1, h2⟩, -⟩ := reach_inv h
  · rw [h1.1] at hf; cases hf
  · rw [h1] at hf
    injection hf with hf
    subst hf
    exact ⟨disk, rfl, load_rendered F disk h2, h2.1, h2.2⟩

/-- A file that is cut short, other than by the last newline, is not taken for
a shorter database: the next build fails. -/
theorem truncated_rejected {w : World O C} (h : Reach F w) (text cut : List Char)
    (hf : w.cdb.file = some text) (h1 : cut <+: text) (h2 : cut ≠ text)
    (h3 : cut ++ ['\n'] ≠ text) :
    step F { w with cdb := fresh { w.cdb with file := some cut } } .pre = .error .invalid := by
  obtain ⟨disk, ⟨g1 | g1, g2⟩, -⟩ := reach_inv h
  · rw [g1.1] at hf; cases hf
  · rw [g1] at hf
    injection hf with hf
    subst hf
    have := load_cut F disk g2 cut h1 h2 h3
    simp only [step, pre, fresh]
    simp [this]

-- For example, with one of two entries.
example : render [(true, js0 true false), (false, js0 false true)] =
    ("[\n" ++ "{\"output\":\"a.o\",\"arguments\":[\"-g\"]},\n" ++
      "{\"output\":\"b.o\",\"arguments\":[\"-O2\"]}\n]\n").toList := by decide +kernel

example : load outputOf0 ("[\n" ++ "{\"output\":\"a.o\",\"arguments\":[\"-g\"]},\n").toList =
    none := by decide +kernel

/-! ## What can go wrong -/

/-- A failed update of something else. -/
def failed0 : Post Bool := ⟨false, false, false, true, fun _ => true⟩

/-- If an update fails after an output has been found to have changed but
before it is compiled, then the output is compiled by the next update, but the
file says forever what it was compiled with before. -/
theorem stale_after_failure : ∃ es, Follows F0 (fun w e => decide (Protocol w e) = true)
    (fun w => (true ∈ w.seen ∧ true ∈ w.done ∧ w.want true = true ∧ w.dep true = some true ∧
      onDisk F0 w true = some (js0 true false) : Bool) = true) es (World.init fun _ => false) ∧
    Follows F0 (fun w e => decide (Protocol w e) = true)
    (fun w => (w.want true = true ∧ w.dep true = some true ∧
      onDisk F0 w true = some (js0 true false) : Bool) = true)
      (es ++ [.post all0, .start, .pre, .check true, .compile true, .post all0])
      (World.init fun _ => false) :=
  ⟨[.start, .pre, .check true, .compile true, .post all0,
    .start, .edit fun _ => true, .pre, .check true, .post failed0,
    .start, .pre, .check true, .compile true],
   follows_sound (by decide +kernel), follows_sound (by decide +kernel)⟩

/-- The same if the process is killed before the end of the update, even
though everything has been compiled. -/
theorem stale_after_crash : ∃ es, Follows F0 (fun w e => decide (Protocol w e) = true)
    (fun w => (w.want true = true ∧ w.dep true = some true ∧
      onDisk F0 w true = some (js0 true false) : Bool) = true)
      (es ++ [.start, .pre, .check true, .compile true, .post all0])
      (World.init fun _ => false) :=
  ⟨[.start, .pre, .check true, .compile true, .post all0,
    .start, .edit fun _ => true, .pre, .check true, .compile true],
   follows_sound (by decide +kernel)⟩

/-- If outputs are only matched and not compiled, then what the database does
not have yet stays missing in it: matching it again, in the next operation of
the same build, fails an assertion. -/
theorem match_only_asserts : ∃ c c' : Cdb Bool,
    pre outputOf0 ⟨.closed, 0, [], 0, false, none, 0⟩ = .ok c ∧
    (do
      let c ← «match» c true true
      let c ← post true c.1 all0
      pre outputOf0 c) = .ok c' ∧
    «match» c' true false = .error .assertion :=
  ⟨_, _, rfl, rfl, rfl⟩

end Verif.CompileDb
