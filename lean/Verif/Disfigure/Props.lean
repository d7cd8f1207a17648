import Verif.Disfigure.Model

/-! # Removing links of a forwarded configuration: properties (C83) -/

namespace Verif.Disfigure

theorem unlinks_iff {out : Path} {t : Target} : unlinks out t = true ↔ Into out (.link t) := by
  unfold unlinks Into
  simp only [Kind.link.injEq, exists_eq_left', ← List.isPrefixOf_iff_prefix]
  cases t.abs <;> cases t.norm <;> simp

/-- **C83, false of the code.** The condition for skipping an entry is never met. -/
theorem skip_never (n : String) : skip n = false := by
  unfold skip
  by_cases h1 : n = ".bdep"
  · subst h1; decide +kernel
  · simp [h1]

/-- What is left is there before, and isn't a link into the output directory. -/
theorem remove_sound {out : Path} {es : Entries} {p : Path} {k : Kind} (h : At (remove out es) p k) :
    At es p k ∧ ¬ Into out k := by
  induction es generalizing p with
  | nil => cases h
  | file n es ih =>
    simp only [remove] at h
    cases h with
    | file => exact ⟨.file, by rintro ⟨t, e, -⟩; cases e⟩
    | afterFile h => exact ⟨.afterFile (ih h).1, (ih h).2⟩
  | link n t es ih =>
    simp only [remove, skip_never, Bool.false_eq_true, if_false] at h
    split at h
    · exact ⟨.afterLink (ih h).1, (ih h).2⟩
    · rename_i hu
      cases h with
      | link => exact ⟨.link, fun k => hu (unlinks_iff.2 k)⟩
      | afterLink h => exact ⟨.afterLink (ih h).1, (ih h).2⟩
  | dir n s es ihs ih =>
    simp only [remove, skip_never, Bool.false_eq_true, if_false] at h
    cases h with
    | dir => exact ⟨.dir, by rintro ⟨t, e, -⟩; cases e⟩
    | sub h => exact ⟨.sub (ihs h).1, (ihs h).2⟩
    | afterDir h => exact ⟨.afterDir (ih h).1, (ih h).2⟩

theorem remove_complete {out : Path} {es : Entries} {p : Path} {k : Kind} (h : At es p k)
    (hk : ¬ Into out k) : At (remove out es) p k := by
  induction h with
  | file => exact .file
  | @link n t es =>
    simp only [remove, skip_never, Bool.false_eq_true, if_false]
    rw [if_neg fun h => hk (unlinks_iff.1 h)]
    exact .link
  | dir =>
    simp only [remove, skip_never, Bool.false_eq_true, if_false]
    exact .dir
  | sub _ ih =>
    simp only [remove, skip_never, Bool.false_eq_true, if_false]
    exact .sub (ih hk)
  | afterFile _ ih => exact .afterFile (ih hk)
  | afterLink _ ih =>
    simp only [remove, skip_never, Bool.false_eq_true, if_false]
    split
    · exact ih hk
    · exact .afterLink (ih hk)
  | afterDir _ ih =>
    simp only [remove, skip_never, Bool.false_eq_true, if_false]
    exact .afterDir (ih hk)

/-- **C83.** All absolute and normalized links into the output directory, at any depth, are removed, and
everything else stays. -/
theorem removed_exactly {src out : Path} (hne : out ≠ src) {es : Entries} (p : Path) (k : Kind) :
    At (disfigureForward src out es) p k ↔ At es p k ∧ ¬ Into out k := by
  unfold disfigureForward
  rw [if_neg hne]
  exact ⟨remove_sound, fun ⟨a, b⟩ => remove_complete a b⟩

/-- **C83.** Nothing is removed if the project is configured in its source directory. -/
theorem in_source_kept {src : Path} {es : Entries} : disfigureForward src src es = es := by
  unfold disfigureForward; rw [if_pos rfl]

/-- **C83.** Doing it again removes nothing more. -/
theorem remove_again {src out : Path} {es : Entries} (p : Path) (k : Kind) :
    At (disfigureForward src out (disfigureForward src out es)) p k ↔
      At (disfigureForward src out es) p k := by
  by_cases h : out = src
  · unfold disfigureForward; rw [if_pos h]
  · rw [removed_exactly h, removed_exactly h]
    exact ⟨fun h => h.1, fun h => ⟨h, h.2⟩⟩

/-- **C83.** Entries of directories such as `.git` and `.bdep` stay, provided that there are no links into
the output directory among them. -/
theorem ignored_kept_partial {src out : Path} {es : Entries}
    (h : ∀ p k, At es p k → (∃ n ∈ p, Ignored n) → ¬ Into out k) {p : Path} {k : Kind}
    (hp : ∃ n ∈ p, Ignored n) : At (disfigureForward src out es) p k ↔ At es p k := by
  by_cases e : out = src
  · unfold disfigureForward; rw [if_pos e]
  · rw [removed_exactly e]
    exact ⟨fun h => h.1, fun a => ⟨a, h p k a hp⟩⟩

/-- A source directory with links to a file in the output directory, to one elsewhere, a relative one,
one that isn't normalized, and a subdirectory with another one. -/
def esW : Entries :=
  .file "a.cxx" (.link "x" ⟨true, true, ["o", "x"]⟩ (.link "other" ⟨true, true, ["usr", "x"]⟩
    (.link "rel" ⟨false, true, ["o", "x"]⟩ (.link "odd" ⟨true, false, ["o", "..", "p"]⟩
      (.dir "lib" (.link "l" ⟨true, true, ["o", "lib", "l"]⟩ (.file "b" .nil)) .nil)))))

example : disfigureForward ["s"] ["o"] esW =
    .file "a.cxx" (.link "other" ⟨true, true, ["usr", "x"]⟩
      (.link "rel" ⟨false, true, ["o", "x"]⟩ (.link "odd" ⟨true, false, ["o", "..", "p"]⟩
        (.dir "lib" (.file "b" .nil) .nil)))) := by
  decide +kernel

/-- **C83, false of the code.** Links into the output directory in `.bdep` (or `.git`) are removed. -/
theorem ignored_lost :
    disfigureForward ["s"] ["o"] (.dir ".bdep" (.link "cfg" ⟨true, true, ["o"]⟩ .nil) .nil) =
      .dir ".bdep" .nil .nil ∧ Ignored ".bdep" := by
  exact ⟨by decide +kernel, .inr (.inl rfl)⟩

/-- **C83, false of the code.** If the output directory is inside of the source directory then links
that the output directory has to its own files are removed. -/
theorem output_links_lost :
    disfigureForward ["s"] ["s", "o"]
      (.dir "o" (.file "lib-1" (.link "lib" ⟨true, true, ["s", "o", "lib-1"]⟩ .nil)) .nil) =
      .dir "o" (.file "lib-1" .nil) .nil := by
  decide +kernel

/-- The intended condition for skipping. -/
def skipIntended (n : String) : Bool :=
  ".git".toList.isPrefixOf n.toList || n == ".bdep" || n == ".bpkg" || n == ".build2"

/-- With the intended condition such directories would be kept (the code agrees with it exactly on
names that aren't ignored). -/
theorem skip_agrees_partial (n : String) : skip n = skipIntended n ↔ ¬ Ignored n := by
  rw [skip_never]
  unfold skipIntended Ignored
  rw [eq_comm, ← Bool.not_eq_true, Bool.or_eq_true, Bool.or_eq_true, Bool.or_eq_true,
    List.isPrefixOf_iff_prefix]
  simp only [beq_iff_eq, or_assoc]

end Verif.Disfigure
