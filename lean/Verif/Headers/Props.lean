import Verif.Headers.Cache
/-!
# Header dependencies: the properties
-/

namespace Verif.Headers

/-- How the extraction starts. The lines of the dependency database are of an
earlier compilation if they are to be used. -/
def Start (w : World) (src : Source) (now mt : Nat) (cache complete : Bool) (lines : List Path) :
    Prop :=
  Stable w.before w.after src ∧
  (cache = true → mt ≤ now ∧ ∃ was, CachedOf w src mt complete lines was)

theorem good_init (w : World) (src : Source) (now : Nat) (d : Db) (hd : d.lines = []) (b : Bool) :
    Good w src ⟨⟨fun _ => none, now⟩, d, [], 0, b, none, none⟩ src :=
  ⟨.nil _, fun p h => (by cases h), hd, rfl⟩

theorem progress_init {w : World} {src : Source} {x : X} (h1 : x.forceGen = none)
    (h2 : x.forceSkip = none) : Progress w src x := by
  refine ⟨fun h => ?_, fun _ n hn => ?_⟩
  · rw [h1] at h; cases h
  · rw [h2] at hn; cases hn

theorem left_init {w : World} {src : Source} {x : X} :
    left w src x < 2 * (headers src w.after).length + 2 := by
  unfold left
  split <;> omega

/-- Finishing. -/
theorem finish_sound {w : World} {reports : Bool} {src : Source} {o : Outcome}
    (h : Sound w reports src o) :
    Sound w reports src (finished o) := by
  cases o with
  | ok x =>
    obtain ⟨⟨t, hg⟩, h2, h3⟩ := h
    refine ⟨⟨t, ⟨hg.walk, hg.settled, ?_, hg.skip⟩⟩, h2, h3⟩
    show x.db.finish.lines = x.prereqs
    unfold Db.finish
    split
    · exact hg.lines
    · exact hg.lines
  | deferred x => exact h
  | failed x => exact h
  | inconsistent x => exact h
  | runs => trivial

theorem extract_sound {w : World} {reports : Bool} {src : Source} {fuel now mt : Nat}
    {cache complete : Bool} {lines : List Path} (hs : Start w src now mt cache complete lines) :
    Sound w reports src (extract w reports src fuel now mt cache complete lines) ∧
    (2 * (headers src w.after).length + 2 ≤ fuel →
      extract w reports src fuel now mt cache complete lines ≠ .runs) := by
  have hgo : ∀ (x : X) (t : Source), Good w src x t → x.forceGen = none → x.forceSkip = none →
      Sound w reports src (finished (loop w reports src fuel x)) ∧
      (2 * (headers src w.after).length + 2 ≤ fuel → (finished (loop w reports src fuel x)) ≠ Outcome.runs) := by
    intro x t hg h1 h2
    obtain ⟨g1, g2⟩ := loop_sound (reports := reports) hs.1 fuel x t hg (progress_init h1 h2)
    refine ⟨finish_sound g1, fun hf => ?_⟩
    have := g2 (Nat.lt_of_lt_of_le left_init hf)
    cases hl : loop w reports src fuel x with
    | runs => exact absurd hl this
    | ok x => simp [finished]
    | deferred x => simp [finished]
    | failed x => simp [finished]
    | inconsistent x => simp [finished]
  unfold extract
  cases cache with
  | false => exact hgo _ src (good_init w src now _ rfl _) rfl rfl
  | true =>
    obtain ⟨hm, was, hw⟩ := hs.2 rfl
    simp only [Bool.not_true, if_true]
    have hc := fromCache_good hm hw.same hw.stable (fun h => (hw.all h).2) lines
      ⟨⟨fun _ => none, now⟩, ⟨[], lines, false⟩, [], 0, false, none, none⟩ src
      (good_init w src now _ rfl _) (.nil _) hw.first (fun h => (hw.all h).1) (le_refl _)
      (fun p h => (by cases h))
    generalize fromCache w mt complete
      ⟨⟨fun _ => none, now⟩, ⟨[], lines, false⟩, [], 0, false, none, none⟩ lines = r at hc
    obtain ⟨x, e⟩ := r
    obtain ⟨⟨t, hg⟩, h2, h3, h4, h5⟩ := hc
    cases e with
    | current =>
      obtain ⟨c1, c2, -, -⟩ := h4 rfl
      exact ⟨⟨⟨t, hg⟩, c1, c2⟩, fun _ h => (by cases h)⟩
    | restart => exact hgo x t hg h3 h2

/-- C62. If the extraction succeeds, then the prerequisites that it has added
and the lines that it leaves in the dependency database are exactly the headers
that the source includes with everything up to date, in order, and all of them
are up to date. This is whatever was updated in parallel and when, whatever was
cached, and whether or not the compiler reports headers in case of an error. -/
theorem extract_complete {w : World} {reports : Bool} {src : Source} {fuel now mt : Nat}
    {cache complete : Bool} {lines : List Path} (hs : Start w src now mt cache complete lines)
    {x : X} (h : extract w reports src fuel now mt cache complete lines = .ok x) :
    compiles src w.after = true ∧ x.prereqs = headers src w.after ∧
    x.db.lines = headers src w.after ∧
    ∀ p ∈ x.prereqs, content w x.st p = w.after p := by
  obtain ⟨h1, -⟩ := extract_sound (reports := reports) (fuel := fuel) hs
  rw [h] at h1
  obtain ⟨⟨t, hg⟩, h2, h3⟩ := h1
  exact ⟨h2, h3.symm, by rw [hg.lines, h3], fun p hp => settled_content (hg.settled p hp)⟩

/-- C62. A header that is said to be not found is included by the source with
everything up to date, is not there and cannot be generated. -/
theorem extract_deferred {w : World} {reports : Bool} {src : Source} {fuel now mt : Nat}
    {cache complete : Bool} {lines : List Path} (hs : Start w src now mt cache complete lines)
    {x : X} (h : extract w reports src fuel now mt cache complete lines = .deferred x) :
    ∃ p, missing src w.after = some p ∧ w.rule p = none ∧ w.old p = none := by
  obtain ⟨h1, -⟩ := extract_sound (reports := reports) (fuel := fuel) hs
  rw [h] at h1
  exact h1

/-- C62. The number of runs of the preprocessor is bounded by twice the number of headers
and the extraction never ends up going back and forth without progress. -/
theorem extract_ends {w : World} {reports : Bool} {src : Source} {fuel now mt : Nat}
    {cache complete : Bool} {lines : List Path} (hs : Start w src now mt cache complete lines)
    (hf : 2 * (headers src w.after).length + 2 ≤ fuel) :
    extract w reports src fuel now mt cache complete lines ≠ .runs ∧
    ∀ x, extract w reports src fuel now mt cache complete lines ≠ .inconsistent x := by
  obtain ⟨h1, h2⟩ := extract_sound (reports := reports) (fuel := fuel) hs
  refine ⟨h2 hf, fun x hx => ?_⟩
  rw [hx] at h1
  exact h1

theorem missing_not_compiles {src : Source} {f : Files} {p : Path} (h : missing src f = some p) :
    compiles src f = false := by
  induction src with
  | done => cases h
  | error => rfl
  | incl q k ih =>
    simp only [missing, compiles] at h ⊢
    cases hq : f q with
    | none => rfl
    | some c => rw [hq] at h; exact ih _ h
  | test q k ih => exact ih _ h

theorem compiles_of_noError {src : Source} {f : Files} (h : NoError src)
    (hm : missing src f = none) : compiles src f = true := by
  induction src with
  | done => rfl
  | error => exact h.elim
  | incl q k ih =>
    simp only [missing, compiles] at hm ⊢
    cases hq : f q with
    | none => rw [hq] at hm; cases hm
    | some c => rw [hq] at hm; exact ih _ (h _) hm
  | test q k ih => exact ih _ (h _) hm

/-- The other way around. -/
theorem missing_of_noError {src : Source} {f : Files} (h : compiles src f = true) :
    missing src f = none := by
  cases hm : missing src f with
  | none => rfl
  | some p => rw [missing_not_compiles hm] at h; cases h

/-- C62. The extraction succeeds exactly if the source can be preprocessed with
everything up to date, provided that the compiler reports the headers in case
of an error or that there are no errors other than missing headers. -/
theorem extract_iff_partial {w : World} {reports : Bool} {src : Source} {fuel now mt : Nat}
    {cache complete : Bool} {lines : List Path} (hs : Start w src now mt cache complete lines)
    (hf : 2 * (headers src w.after).length + 2 ≤ fuel) (hr : reports = true ∨ NoError src) :
    (∃ x, extract w reports src fuel now mt cache complete lines = .ok x) ↔
    compiles src w.after = true := by
  obtain ⟨h1, h2⟩ := extract_sound (reports := reports) (fuel := fuel) hs
  constructor
  · rintro ⟨x, hx⟩
    exact (extract_complete hs hx).1
  · intro hc
    cases he : extract w reports src fuel now mt cache complete lines with
    | ok x => exact ⟨x, rfl⟩
    | deferred x =>
      obtain ⟨p, hp, -⟩ := extract_deferred hs he
      rw [missing_not_compiles hp] at hc
      cases hc
    | failed x =>
      rw [he] at h1
      rcases hr with hr | hr
      · rw [h1.2 hr] at hc
        cases hc
      · exact absurd hr h1.1
    | inconsistent x =>
      rw [he] at h1
      exact h1.elim
    | runs => exact absurd he (h2 hf)

/-- C62. The target is not to be recompiled only if it was compiled with
exactly these headers and none of them has changed since. -/
theorem not_updated {w : World} {reports : Bool} {src : Source} {fuel now mt : Nat}
    {cache complete : Bool} {lines : List Path} (hs : Start w src now mt cache complete lines)
    {x : X} (h : extract w reports src fuel now mt cache complete lines = .ok x)
    (hu : x.update = false) (hw : x.db.writing = false) :
    cache = true ∧ lines = headers src w.after ∧ ∀ p ∈ lines, Unchanged w mt p := by
  have hgo : ∀ (x0 : X), x0.update = true ∨ x0.db.writing = true →
      (finished (loop w reports src fuel x0)) = Outcome.ok x → False := by
    intro x0 h0 he
    cases hl : loop w reports src fuel x0 with
    | ok x1 =>
      rw [hl] at he
      injection he with he
      have := loop_update fuel x0 x1 h0 hl
      rw [← he] at hu hw
      simp only at hu hw
      rcases this with h | h
      · rw [h] at hu; cases hu
      · unfold Db.finish at hw
        split at hw
        · rw [h] at hw; cases hw
        · cases hw
    | deferred x => rw [hl] at he; cases he
    | failed x => rw [hl] at he; cases he
    | inconsistent x => rw [hl] at he; cases he
    | runs => rw [hl] at he; cases he
  unfold extract at h
  cases cache with
  | false => exact (hgo _ (Or.inl rfl) h).elim
  | true =>
    obtain ⟨hm, was, hc⟩ := hs.2 rfl
    simp only [Bool.not_true, if_true] at h
    have hc := fromCache_good hm hc.same hc.stable (fun h => (hc.all h).2) lines
      ⟨⟨fun _ => none, now⟩, ⟨[], lines, false⟩, [], 0, false, none, none⟩ src
      (good_init w src now _ rfl _) (.nil _) hc.first (fun h => (hc.all h).1) (le_refl _)
      (fun p h => (by cases h))
    generalize fromCache w mt complete
      ⟨⟨fun _ => none, now⟩, ⟨[], lines, false⟩, [], 0, false, none, none⟩ lines = r at hc h
    obtain ⟨x1, e⟩ := r
    obtain ⟨-, -, -, h4, h5⟩ := hc
    cases e with
    | current =>
      obtain ⟨-, c2, c3, c4⟩ := h4 rfl
      have c3' : x1.prereqs = lines := c3
      have c2' : headers src w.after = x1.prereqs := c2
      refine ⟨rfl, by rw [c2', c3'], ?_⟩
      have c4' : ∀ p ∈ x1.prereqs, Unchanged w mt p := c4
      rw [c3'] at c4'
      exact c4'
    | restart => exact (hgo x1 (h5 rfl) h).elim

/-- C62. If none of the headers that the target was compiled with has changed,
then it is not recompiled and the preprocessor is not run. -/
theorem current_not_updated {w : World} {reports : Bool} {src : Source} {now mt : Nat}
    {lines : List Path} (hu : ∀ p ∈ lines, Unchanged w mt p) :
    ∃ x, extract w reports src 0 now mt true true lines = .ok x ∧ x.update = false ∧
      x.db.writing = false ∧ x.prereqs = lines := by
  unfold extract
  obtain ⟨s, hs⟩ := fromCache_current (w := w) (mt := mt) lines
    ⟨⟨fun _ => none, now⟩, ⟨[], lines, false⟩, [], 0, !true, none, none⟩ hu
  simp only [if_true]
  rw [hs]
  exact ⟨_, rfl, rfl, rfl, rfl⟩

/-! ## Sequences of builds -/

/-- What there is after some builds: nothing usable or a target that was
compiled from a source at some time, the lines in its dependency database and
the files that it was compiled with. -/
structure Built where
  src : Source
  mt : Nat
  lines : List Path
  was : Files

/-- Builds, with any changes in between, where a file that is changed is newer
than the target and where no files whose existence is checked are added or
removed while the target is there. Afterwards the target is compiled, at a time
after everything has been updated, unless it is not to be updated. A build that
fails leaves nothing usable or, if it has not changed the dependency database,
everything as it was. -/
inductive Builds : Option Built → Prop
  | nothing : Builds none
  | first {b : Option Built} {w : World} {reports : Bool} {src : Source} {fuel now mt : Nat}
      {complete : Bool} {lines : List Path} {x : X} :
    Builds b → Stable w.before w.after src →
    extract w reports src fuel now mt false complete lines = .ok x →
    Builds (some ⟨src, x.st.now, x.db.lines, w.after⟩)
  | next {b : Built} {w : World} {reports : Bool} {fuel now : Nat} {x : X} :
    Builds (some b) → b.mt ≤ now → Stable w.before w.after b.src → Stable b.was w.after b.src →
    (∀ p f, w.old p = some f → f.mtime ≤ b.mt → b.was p = some f.content) →
    extract w reports b.src fuel now b.mt true true b.lines = .ok x →
    Builds (some (if x.update || x.db.writing then ⟨b.src, x.st.now, x.db.lines, w.after⟩ else b))
  | failed {b : Option Built} : Builds b → Builds none

/-- C62. After any sequence of builds, the target is compiled from all of its
headers: the lines in its dependency database are exactly what the source
includes with the files that it was compiled with. -/
theorem builds_complete {b : Built} (h : Builds (some b)) :
    b.lines = headers b.src b.was ∧ compiles b.src b.was = true := by
  generalize hb : some b = ob at h
  induction h generalizing b with
  | nothing => cases hb
  | first _ hst he _ =>
    injection hb with hb
    subst hb
    obtain ⟨h1, -, h3, -⟩ := extract_complete ⟨hst, fun h => (by cases h)⟩ he
    exact ⟨h3, h1⟩
  | @next b0 w reports fuel now x _ hm hst hwas hsame he ih =>
    injection hb with hb
    subst hb
    obtain ⟨i1, i2⟩ := ih rfl
    split
    · obtain ⟨h1, -, h3, -⟩ := extract_complete ⟨hst, fun _ => ⟨hm, b0.was,
        ⟨by rw [i1]; exact List.prefix_refl _, fun _ => ⟨i1, i2⟩, hsame, hwas⟩⟩⟩ he
      exact ⟨h3, h1⟩
    · exact ⟨i1, i2⟩
  | failed _ _ => cases hb

/-- C62. And with the current contents of all of them, also if it was not
recompiled by the last build. -/
theorem builds_current {b : Built} {w : World} {reports : Bool} {fuel now : Nat} {x : X}
    (h : Builds (some b)) (hm : b.mt ≤ now) (hst : Stable w.before w.after b.src)
    (hwas : Stable b.was w.after b.src)
    (hsame : ∀ p f, w.old p = some f → f.mtime ≤ b.mt → b.was p = some f.content)
    (he : extract w reports b.src fuel now b.mt true true b.lines = .ok x) :
    x.prereqs = headers b.src w.after ∧
    (x.update = false → x.db.writing = false →
      b.lines = headers b.src w.after ∧ ∀ p ∈ b.lines, b.was p = w.after p) := by
  obtain ⟨i1, i2⟩ := builds_complete h
  have hs : Start w b.src now b.mt true true b.lines := ⟨hst, fun _ => ⟨hm, b.was,
        ⟨by rw [i1]; exact List.prefix_refl _, fun _ => ⟨i1, i2⟩, hsame, hwas⟩⟩⟩
  refine ⟨(extract_complete hs he).2.1, fun hu hw => ?_⟩
  obtain ⟨-, n2, n3⟩ := not_updated hs he hu hw
  refine ⟨n2, fun p hp => ?_⟩
  obtain ⟨hr, f, ho, hfm⟩ := n3 p hp
  rw [hsame p f ho hfm]
  unfold World.after World.before
  rw [hr, ho]
  rfl

/-! ## Concrete cases -/

/-- `#include "a.h"`, which decides whether to include `b.h`, and a check that
fails with an old `b.h`. -/
def source : Source :=
  .incl "a.h" fun a =>
    if a = some "include b.h" then
      .incl "b.h" fun b => if b = some "old" then .error else .done
    else .done

/-- Both are generated, `a.h` does not exist yet and `b.h` is out of date. By
the time of the third step the latter is updated by somebody else. -/
def world : World where
  old := fun p => if p = "b.h" then some ⟨"old", 3⟩ else none
  rule := fun p => if p = "a.h" then some "include b.h" else if p = "b.h" then some "new" else none
  others := fun n => if n = 12 then ["b.h"] else []

/-- The headers and whether to update. -/
def summary : Outcome → Option (List Path × Bool)
  | .ok x => some (x.db.lines, x.update || x.db.writing)
  | _ => none

example : Stable world.before world.after source := by
  refine fun c => ?_
  dsimp only
  split
  · refine fun c => ?_
    dsimp only
    split <;> trivial
  · trivial

example : summary (extract world true source 6 10 0 false false ["x.h"]) =
    some (["a.h", "b.h"], true) := by
  decide +kernel

example : summary (extract world false source 6 10 0 false false []) =
    some (["a.h", "b.h"], true) := by
  decide +kernel

/-- Everything was compiled at 20 and `b.h` is edited at 30. -/
def edited : World where
  old := fun p => if p = "a.h" then some ⟨"include b.h", 11⟩ else
    if p = "b.h" then some ⟨"newer", 30⟩ else none
  rule := fun _ => none
  others := fun _ => []

example : summary (extract edited true source 6 40 20 true true ["a.h", "b.h"]) =
    some (["a.h", "b.h"], true) := by
  decide +kernel

example : summary (extract edited true source 6 40 30 true true ["a.h", "b.h"]) =
    some (["a.h", "b.h"], false) := by
  decide +kernel

example : CachedOf edited source 20 true ["a.h", "b.h"]
    (fun p => if p = "a.h" then some "include b.h" else if p = "b.h" then some "new" else none) where
  first := by decide +kernel
  all := fun _ => by decide +kernel
  same := by
    intro p f ho hm
    simp only [edited] at ho ⊢
    split at ho
    · next h =>
      injection ho with ho
      subst ho
      simp [h]
    · split at ho
      · injection ho with ho
        subst ho
        simp at hm
      · cases ho
  stable := by
    refine fun c => ?_
    dsimp only
    split
    · refine fun c => ?_
      dsimp only
      split <;> trivial
    · trivial

/-! ## Where it is not -/

/-- Whether it fails. -/
def fails : Outcome → Bool
  | .failed _ => true
  | _ => false

/-- C62, negated. If the compiler does not report headers in case of an error
(GCC), then an out of date generated header that makes the preprocessor fail is
not updated and the build fails although it would succeed with the header up to
date. -/
theorem outdated_fails :
    let w : World := ⟨fun p => if p = "b.h" then some ⟨"old", 3⟩ else none,
      fun p => if p = "b.h" then some "new" else none, fun _ => []⟩
    let src := Source.incl "b.h" fun b => if b = some "old" then .error else .done
    compiles src w.after = true ∧
    fails (extract w false src 9 10 0 false false []) = true ∧
    fails (extract w true src 9 10 0 false false []) = false := by
  decide +kernel

/-- C62, negated. A generated header that does not exist yet is not noticed if
there is one of the same name in a directory that is searched later: what is
extracted is not what is included once it is generated. -/
theorem shadowed_missed :
    let w : World := ⟨fun p => if p = "src/a.h" then some ⟨"x", 3⟩ else none,
      fun p => if p = "out/a.h" then some "y" else none, fun _ => []⟩
    let src := Source.test "out/a.h" fun b =>
      if b then .incl "out/a.h" fun _ => .done else .incl "src/a.h" fun _ => .done
    headers src w.after = ["out/a.h"] ∧
    summary (extract w true src 9 10 0 false false []) = some (["src/a.h"], true) := by
  decide +kernel

/-- C62, negated. The same for one that is added after the target has been
compiled: it is not recompiled. -/
theorem added_missed :
    let w : World := ⟨fun p => if p = "2/a.h" then some ⟨"x", 3⟩ else
      if p = "1/a.h" then some ⟨"y", 30⟩ else none, fun _ => none, fun _ => []⟩
    let src := Source.test "1/a.h" fun b =>
      if b then .incl "1/a.h" fun _ => .done else .incl "2/a.h" fun _ => .done
    headers src w.after = ["1/a.h"] ∧
    summary (extract w true src 9 40 20 true true ["2/a.h"]) = some (["2/a.h"], false) := by
  decide +kernel

end Verif.Headers
