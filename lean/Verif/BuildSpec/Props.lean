import Verif.BuildSpec.Parse
import Verif.BuildSpec.Drive
/-!
# C58: a build specification means what it spells
-/

namespace Verif.BuildSpec

variable (join : String → String → String)

/-- The words before parentheses and the words that stand for operations are
told apart from targets by their shape alone: not qualified, not in a
directory, not typed, not a pair, and spelled with letters, digits and
dashes. -/
theorem operation_shape (n : Name) : opname n = isOp n := opname_isOp n

/-- The parser accepts exactly the valid specifications, and what it returns
is what they spell. -/
theorem parse_iff (toks : List Tok) (bs : List MetaSpec) :
    parse join toks = .ok bs ↔
      ∃ w cs, toks = w.tokens ∧ spells join w = some cs ∧ bs = metas cs := by
  constructor
  · intro h
    unfold parse at h
    split at h
    · next ht =>
      cases h
      exact ⟨.nil, [], by rw [ht]; rfl, rfl, metas_nil.symm⟩
    · have hs := clause_sound join (toks.length + 1) true [] good_nil toks
      rw [metas_nil] at hs
      cases hc : clause join (toks.length + 1) true [] toks with
      | error e => rw [hc] at h; cases h
      | ok q =>
        obtain ⟨b, r⟩ := q
        rw [hc] at h hs
        cases r with
        | cons _ _ => cases h
        | nil =>
          cases h
          obtain ⟨w, xs, h1, h2, h3, -⟩ := hs
          exact ⟨w, xs, by rw [h1, List.append_nil], h2, by rw [h3, List.nil_append]⟩
  · rintro ⟨w, cs, rfl, h2, rfl⟩
    unfold parse
    split
    · next ht =>
      cases w with
      | nil => rw [spells] at h2; cases h2; rw [metas_nil]
      | names ns rest => rw [Written.tokens] at ht; cases ht
      | apply ns body ps om rest => rw [Written.tokens] at ht; cases ht
    · next ht =>
      have hw : w ≠ .nil := by rintro rfl; exact ht rfl
      obtain ⟨-, hc⟩ := clause_complete join w (w.tokens.length + 1) (by omega) true [] good_nil []
        trivial
      obtain ⟨hc, -⟩ := hc (by rintro ⟨-, h⟩; exact hw h)
      have := hc cs h2
      rw [metas_nil, List.append_nil, List.nil_append] at this
      rw [this]

/-- Whatever the tokens, the assertions about what was nested do not fail,
and the parser terminates. -/
theorem parse_no_assert (toks : List Tok) :
    parse join toks ≠ .error .assertMetas ∧ parse join toks ≠ .error .assertOps ∧
    parse join toks ≠ .error .fuel := by
  unfold parse
  split
  · exact ⟨by simp, by simp, by simp⟩
  · have hs := clause_sound join (toks.length + 1) true [] good_nil toks
    rw [metas_nil] at hs
    cases hc : clause join (toks.length + 1) true [] toks with
    | error e =>
      rw [hc] at hs
      obtain ⟨h1, h2, h3⟩ := hs
      have h3 := h3 (by omega)
      simp only
      refine ⟨?_, ?_, ?_⟩ <;>
      · intro h
        injection h with h
        first | exact h1 h | exact h2 h | exact h3 h
    | ok q =>
      obtain ⟨b, r⟩ := q
      cases r with
      | nil => exact ⟨by simp, by simp, by simp⟩
      | cons _ _ => exact ⟨by simp, by simp, by simp⟩

/-- Valid meta-operations are executed in order, each of their batches in its
own context, with an operation that is itself a meta-operation on its own. -/
theorem drive_valid (k : Known) (hsub : ∀ s, k.early s = true → k.late s = true)
    (bs : List MetaSpec) (hv : ∀ m ∈ bs, m.Valid k) :
    drive k bs = (events (bs.flatMap (batches k)), none) := by
  obtain ⟨f', h1, h2⟩ := metaLoop_pre hsub bs [] hv false (steps bs) (by rw [List.append_nil]; omega)
  rw [List.append_nil] at h2
  unfold drive
  rw [h2, events_trace]
  obtain ⟨g, rfl⟩ : ∃ g, f' = g + 1 := ⟨f' - 1, by rw [steps] at h1; omega⟩
  simp [metaLoop]

/-- The first invalid one fails the build: everything before it has been
executed, and what comes after it makes no difference. -/
theorem drive_invalid (k : Known) (hsub : ∀ s, k.early s = true → k.late s = true)
    (pre : List MetaSpec) (hv : ∀ m ∈ pre, m.Valid k) (bad : MetaSpec) (hb : ¬ bad.Valid k) :
    ∃ t e, e ≠ .fuel ∧ ∀ post,
      drive k (pre ++ bad :: post) = (events (pre.flatMap (batches k)) ++ t, some e) := by
  obtain ⟨t, e, he, hall⟩ := metaLoop_invalid hsub bad hb (false || !pre.isEmpty)
  refine ⟨t, e, he, fun post => ?_⟩
  obtain ⟨f', h1, h2⟩ := metaLoop_pre hsub pre (bad :: post) hv false (steps (pre ++ bad :: post))
    (by omega)
  unfold drive
  rw [h2, hall post f' (by rw [steps] at h1; omega), events_trace]

/-- So a build succeeds exactly if everything is valid. -/
theorem drive_ok_iff (k : Known) (hsub : ∀ s, k.early s = true → k.late s = true)
    (bs : List MetaSpec) : (drive k bs).2 = none ↔ ∀ m ∈ bs, m.Valid k := by
  constructor
  · intro h
    apply Classical.byContradiction
    intro hn
    -- The first invalid one.
    have : ∃ pre bad post, bs = pre ++ bad :: post ∧ (∀ m ∈ pre, m.Valid k) ∧ ¬ bad.Valid k := by
      clear h
      induction bs with
      | nil => exact absurd (fun m h => (by cases h)) hn
      | cons m bs ih =>
        by_cases hm : m.Valid k
        · have : ¬ ∀ m ∈ bs, m.Valid k := by
            intro h
            apply hn
            intro p hp
            rcases List.mem_cons.mp hp with rfl | hp
            · exact hm
            · exact h p hp
          obtain ⟨pre, bad, post, h1, h2, h3⟩ := ih this
          refine ⟨m :: pre, bad, post, by rw [h1]; rfl, ?_, h3⟩
          intro p hp
          rcases List.mem_cons.mp hp with rfl | hp
          · exact hm
          · exact h2 p hp
        · exact ⟨[], m, bs, rfl, fun p hp => (by cases hp), hm⟩
    obtain ⟨pre, bad, post, rfl, h2, h3⟩ := this
    obtain ⟨t, e, -, h4⟩ := drive_invalid k hsub pre h2 bad h3
    rw [h4 post] at h
    cases h
  · intro h
    rw [drive_valid k hsub bs h]

/-! ## Witnesses -/

/-- A word. -/
def word (s : String) : Name := ⟨none, "", "", s, none⟩
/-- A directory. -/
def inDir (s : String) : Name := ⟨none, s, "", "", none⟩

/-- `update: foo/ configure(update(bar/), cc) clean`. -/
def written : Written :=
  .names [word "update", inDir "foo/"]
    (.apply [word "configure"] (.apply [word "update"] (.names [inDir "bar/"] .nil) [] false .nil)
      [[word "cc"]] false
      (.names [word "clean"] .nil))

def spelled : List Chunk :=
  [.op ⟨"update", [], []⟩, .target ⟨"", inDir "foo/"⟩,
   .meta ⟨"configure", [[word "cc"]], [⟨"update", [], [⟨"", inDir "bar/"⟩]⟩]⟩,
   .op ⟨"clean", [], []⟩]

theorem written_spells : spells (· ++ ·) written = some spelled := by decide +kernel

theorem spelled_metas : metas spelled =
    [⟨"", [], [⟨"update", [], []⟩, ⟨"", [], [⟨"", inDir "foo/"⟩]⟩]⟩,
     ⟨"configure", [[word "cc"]], [⟨"update", [], [⟨"", inDir "bar/"⟩]⟩]⟩,
     ⟨"", [], [⟨"clean", [], []⟩]⟩] := by decide +kernel

example : parse (· ++ ·) written.tokens = .ok (metas spelled) :=
  (parse_iff _ _ _).mpr ⟨written, spelled, rfl, written_spells, rfl⟩

def known : Known :=
  ⟨fun s => decide (s = "perform"), fun s => decide (s ∈ ["perform", "configure", "dist"]),
   fun s => decide (s ∈ ["update", "clean"])⟩

theorem known_sub : ∀ s, known.early s = true → known.late s = true := by
  intro s h
  simp only [known, decide_eq_true_eq] at h ⊢
  simp [h]

theorem spelled_valid : ∀ m ∈ metas spelled, m.Valid known := by
  rw [spelled_metas]
  unfold MetaSpec.Valid
  decide +kernel

/-- Three contexts. -/
example : drive known (metas spelled) =
    ([.begin "perform" [], .run "update" [] [⟨"", inDir "" |> fun n => { n with type := "dir" }⟩],
        .run "default" [] [⟨"", inDir "foo/"⟩], .done "perform",
      .newContext, .begin "configure" [[word "cc"]], .run "update" [] [⟨"", inDir "bar/"⟩],
        .done "configure",
      .newContext, .begin "perform" [],
        .run "clean" [] [⟨"", ⟨none, "", "dir", "", none⟩⟩], .done "perform"], none) := by
  rw [drive_valid known known_sub _ spelled_valid, spelled_metas]
  decide +kernel

/-- A bare word in parentheses is an operation, not a target: `update(foo)` is
the operation `foo` of the unknown meta-operation `update`. -/
theorem word_is_operation :
    parse (· ++ ·) [.names [word "update"], .lparen, .names [word "foo"], .rparen] =
      .ok [⟨"update", [], [⟨"foo", [], []⟩]⟩] ∧
    (drive known [⟨"update", [], [⟨"foo", [], []⟩]⟩]).2 = some .unknownMeta :=
  ⟨rfl, by decide +kernel⟩

/-- While `update(foo/)` is the operation `update` of the target `foo/`. -/
example : parse (· ++ ·) [.names [word "update"], .lparen, .names [inDir "foo/"], .rparen] =
    .ok [⟨"", [], [⟨"update", [], [⟨"", inDir "foo/"⟩]⟩]⟩] := rfl

/-- `configure dist foo/`: an operation that is a meta-operation is executed
on its own. -/
example : drive known [⟨"", [], [⟨"configure", [], []⟩, ⟨"update", [], []⟩]⟩] =
    (events [⟨"configure", [], [⟨"", [], []⟩]⟩, ⟨"", [], [⟨"update", [], []⟩]⟩], none) := by
  rw [drive_valid known known_sub _ (by unfold MetaSpec.Valid; decide +kernel)]
  decide +kernel

/-- What precedes the invalid one has been executed. -/
example : ∃ t e, e ≠ .fuel ∧ ∀ post,
    drive known ([⟨"", [], [⟨"update", [], []⟩]⟩] ++ ⟨"bogus", [], []⟩ :: post) =
      (events ([⟨"", [], [⟨"update", [], []⟩]⟩].flatMap (batches known)) ++ t, some e) :=
  drive_invalid known known_sub _ (by unfold MetaSpec.Valid; decide +kernel) _
    (by unfold MetaSpec.Valid; decide +kernel)

end Verif.BuildSpec
