import Verif.Clean.Ends

/-!
# The clean operation: properties

Property C68: cleaning targets removes exactly what updating them has made, each target being
cleaned once and before what it is made from and in, in every order that threads can do it in.
-/

namespace Verif.Clean

/-! ## Order -/

/-- The count of dependents never gets below zero (which the code asserts). -/
theorem clean_never_asserts (g : Graph) (roots : List Nat) (fs : FS) (s : Exec)
    (h : Runs g roots fs s) (t : Nat) (ht : t ∈ s.calls) : s.count t ≠ 0 := by
  obtain ⟨m, h1, h2, h3⟩ := h
  have hi := exec_inv (match_over h1 h2) h3
  have := List.count_pos_iff.2 ht
  rw [hi.count t]
  omega

/-- A target (say, a directory) is not touched before everything that is made from it or in it
has been cleaned. -/
theorem clean_order (g : Graph) (roots : List Nat) (fs : FS) (s : Exec) (h : Runs g roots fs s)
    (t u : Nat) (ht : t ∈ s.running.map (·.1) ∨ t ∈ s.done ∨ t ∈ s.failed)
    (hu : g.Cleaned roots u) (hi : g.Involves u t) : u ∈ s.done := by
  obtain ⟨m, h1, h2, h3⟩ := h
  have hm := match_over h1 h2
  refine dependents_done (exec_inv hm h3) ((hm.cleaned u).2 hu) hi ?_
  unfold Exec.started
  simpa [or_assoc] using ht

/-- A target is cleaned at most once, and only if cleaning the requested ones involves this. -/
theorem clean_once (g : Graph) (roots : List Nat) (fs : FS) (s : Exec) (h : Runs g roots fs s) :
    (s.running.map (·.1) ++ s.done ++ s.failed).Nodup ∧
    ∀ t, t ∈ s.running.map (·.1) ++ s.done ++ s.failed → g.Cleaned roots t := by
  obtain ⟨m, h1, h2, h3⟩ := h
  have hm := match_over h1 h2
  have hi := exec_inv hm h3
  exact ⟨hi.nodup, fun t ht => (hm.cleaned t).1 (hi.sub t ht)⟩

/-- In the end all of them have been, unless there has been a failure. -/
theorem clean_all (g : Graph) (ha : g.Acyclic) (roots : List Nat) (fs : FS) (s : Exec)
    (h : Runs g roots fs s) (ho : s.Over) (hf : s.failed = []) (t : Nat) :
    t ∈ s.done ↔ g.Cleaned roots t := by
  obtain ⟨m, h1, h2, h3⟩ := h
  have hm := match_over h1 h2
  have hi := exec_inv hm h3
  refine ⟨fun ht => (hm.cleaned t).1 (hi.sub t ?_), fun ht => ?_⟩
  · unfold Exec.started
    simp [ht]
  · exact over_done ha hi ho hf t ((hm.cleaned t).2 ht)

/-- The operation ends: the number of steps is bounded if the number of targets is. -/
theorem clean_ends (g : Graph) (roots N : List Nat) (hn : N.Nodup)
    (hN : ∀ t, g.Cleaned roots t → t ∈ N) :
    (∃ b, ∀ n m, Steps (Match.Step g) n ⟨roots, [], fun _ => 0⟩ m → n ≤ b) ∧
    ∀ m, Star (Match.Step g) ⟨roots, [], fun _ => 0⟩ m → m.calls = [] →
      ∃ b, ∀ fs n s, Steps (Exec.Step g) n ⟨fs, m.count, roots, [], [], []⟩ s → n ≤ b :=
  ⟨⟨_, fun _ _ h => match_steps hn hN h⟩, fun m h1 h2 =>
    ⟨Exec.rest g m.matched ⟨⟨[], []⟩, m.count, roots, [], [], []⟩, fun _ _ _ h => by
      have := exec_steps (match_over h1 h2) h
      exact this⟩⟩

/-- It does not get stuck: until it is over there is a step that is not a failure, unless
something cannot be removed. -/
theorem clean_proceeds (g : Graph) :
    (∀ m : Match, m.calls ≠ [] → ∃ m', Match.Step g m m') ∧
    ∀ s : Exec, ¬ s.Over → (∃ s', Exec.Step g s s' ∧ s'.failed = s.failed) ∨
      ∃ t a as, (t, a :: as) ∈ s.running ∧ doAct g.cwd s.fs a = none := by
  refine ⟨fun m hm => ?_, fun s ho => ?_⟩
  · obtain ⟨t, r, he⟩ := List.exists_cons_of_ne_nil hm
    by_cases ht : t ∈ m.matched
    · exact ⟨_, .again (l := []) he ht⟩
    · exact ⟨_, .first (l := []) he ht⟩
  · cases hc : s.calls with
    | cons t r =>
      left
      by_cases hz : s.count t - 1 = 0
      · exact ⟨_, .start (l := []) hc hz, rfl⟩
      · exact ⟨_, .postpone (l := []) hc hz, rfl⟩
    | nil =>
      cases hr : s.running with
      | nil => exact absurd ⟨hc, hr⟩ ho
      | cons x r =>
        obtain ⟨t, as⟩ := x
        cases as with
        | nil => exact Or.inl ⟨_, .finish (l := []) hr, rfl⟩
        | cons a as =>
          cases hf : doAct g.cwd s.fs a with
          | none => exact Or.inr ⟨t, a, as, List.mem_cons_self .., hf⟩
          | some f => exact Or.inl ⟨_, .act (l := []) hr hf, rfl⟩

/-! ## Effects -/

/-- Nothing but what belongs to cleaned targets is removed, and nothing is created or changed:
at any time, and whatever fails. The working directory and what it is in stay. -/
theorem clean_safe (g : Graph) (roots : List Nat) (fs : FS) (ho : fs.Ok) (s : Exec)
    (h : Runs g roots fs s) :
    s.fs.Ok ∧
    (∀ x, x ∈ s.fs.files → x ∈ fs.files) ∧
    (∀ d, d ∈ s.fs.dirs → d ∈ fs.dirs) ∧
    (∀ x, x ∈ fs.files → (∀ t, g.Cleaned roots t → ¬ (g.target t).Owns x.1) → x ∈ s.fs.files) ∧
    (∀ d, d ∈ fs.dirs → (∀ t, g.Cleaned roots t → ¬ (g.target t).OwnsDir d) → d ∈ s.fs.dirs) ∧
    (∀ d, d ∈ fs.dirs → d <+: g.cwd → d ∈ s.fs.dirs) := by
  have hc := (clean_once g roots fs s h).2
  obtain ⟨m, h1, h2, h3⟩ := h
  have hi := fs_inv ho h3
  refine ⟨hi.ok, hi.files, hi.dirs, fun x hx hn => ?_, fun d hd hn => ?_, fun d hd hw => ?_⟩
  · apply Classical.byContradiction
    intro hx'
    obtain ⟨t, ht, hw⟩ := hi.lost x hx hx'
    exact hn t (hc t ht) hw
  · apply Classical.byContradiction
    intro hd'
    obtain ⟨⟨t, ht, hw⟩, _⟩ := hi.lostDir d hd hd'
    exact hn t (hc t ht) hw
  · apply Classical.byContradiction
    intro hd'
    exact (hi.lostDir d hd hd').2 hw

theorem clean_effects {b : Prop} {g : Graph} (ha : g.Acyclic) {roots : List Nat} {fs : FS}
    {s : Exec} (hp : b → g.Placed roots) (h : Runs g roots fs s) (ho : s.Over)
    (hf : s.failed = []) :
    ∀ t, g.Cleaned roots t → ∀ a ∈ acts (g.target t), Effect b g.cwd s.fs a := by
  intro t ht
  have hd := (clean_all g ha roots fs s h ho hf t).2 ht
  obtain ⟨m, h1, h2, h3⟩ := h
  exact (done_inv (match_over h1 h2) hp h3).2.done t hd

/-- In an extra directory of a target. -/
theorem away {g : Graph} {roots : List Nat} (hw : g.Away roots) {t : Nat}
    (ht : g.Cleaned roots t) {d : Path} (h : .rmr d ∈ acts (g.target t)) : ¬ d <+: g.cwd := by
  intro hd
  refine hw t ht ?_ ((ownsDir_iff _ _).2 (Or.inr ⟨d, h, hd⟩))
  intro hk
  unfold acts at h
  rw [hk] at h
  simp at h

/-- After cleaning without failures the files that are left are exactly the ones that do not
belong to cleaned targets. -/
theorem clean_files (g : Graph) (ha : g.Acyclic) (roots : List Nat) (hw : g.Away roots) (fs : FS)
    (hfs : fs.Ok) (s : Exec) (h : Runs g roots fs s) (ho : s.Over) (hf : s.failed = [])
    (x : Path × Nat) :
    x ∈ s.fs.files ↔ x ∈ fs.files ∧ ∀ t, g.Cleaned roots t → ¬ (g.target t).Owns x.1 := by
  obtain ⟨_, h1, _, h2, _⟩ := clean_safe g roots fs hfs s h
  refine ⟨fun hx => ⟨h1 x hx, fun t ht hown => ?_⟩, fun hx => h2 x hx.1 hx.2⟩
  have he := clean_effects (b := False) ha nofun h ho hf t ht
  rcases (owns_iff _ _).1 hown with hm | ⟨d, hm, hd⟩
  · exact he _ hm x.2 hx
  · rcases he _ hm with hc | ⟨h3, _⟩
    · exact away hw ht hm hc
    · exact h3 x hx hd

/-- And the directories that are left are the ones that do not belong to cleaned targets, that
have something left in them, or that the working directory is in. -/
theorem clean_dirs (g : Graph) (ha : g.Acyclic) (roots : List Nat) (hw : g.Away roots)
    (hp : g.Placed roots) (fs : FS) (hfs : fs.Ok) (s : Exec) (h : Runs g roots fs s) (ho : s.Over)
    (hf : s.failed = []) (d : Path) :
    d ∈ s.fs.dirs ↔ d ∈ fs.dirs ∧ ∀ t, g.Cleaned roots t → (g.target t).OwnsDir d →
      (g.target t).kind = .fsdir ∧ (d <+: g.cwd ∨ s.fs.Inside d) := by
  obtain ⟨hok, _, h1, _, h2, h3⟩ := clean_safe g roots fs hfs s h
  constructor
  · refine fun hd => ⟨h1 d hd, fun t ht hown => ?_⟩
    have he := clean_effects (b := True) ha (fun _ => hp) h ho hf t ht
    rcases (ownsDir_iff _ _).1 hown with hm | ⟨e, hm, hed⟩
    · rcases he _ hm trivial with h4 | h4
      · exact absurd hd h4
      · exact ⟨(rmdir_mem hm).1, h4⟩
    · rcases he _ hm with hc | ⟨_, h4⟩
      · exact absurd hc (away hw ht hm)
      · exact absurd hed (h4 d hd)
  · rintro ⟨hd, hall⟩
    apply Classical.byContradiction
    intro hn
    have hex : ¬ ∀ t, g.Cleaned roots t → ¬ (g.target t).OwnsDir d := fun hc => hn (h2 d hd hc)
    apply hex
    intro t ht hown
    obtain ⟨_, hc | ⟨p, c, hpm, hne, rfl⟩ | ⟨e, hem, hne, rfl⟩⟩ := hall t ht hown
    · exact hn (h3 d hd hc)
    · exact hn (hok.file p c hpm).2
    · exact hn (hok.dir e hem hne)

/-- What is left does not depend on the order in which things are done. -/
theorem clean_deterministic (g : Graph) (ha : g.Acyclic) (roots : List Nat) (hw : g.Away roots)
    (hp : g.Placed roots) (fs : FS) (hfs : fs.Ok) (s s' : Exec)
    (h : Runs g roots fs s) (ho : s.Over) (hf : s.failed = [])
    (h' : Runs g roots fs s') (ho' : s'.Over) (hf' : s'.failed = []) : s.fs.Same s'.fs := by
  have hfiles : ∀ x, x ∈ s.fs.files ↔ x ∈ s'.fs.files := fun x => by
    rw [clean_files g ha roots hw fs hfs s h ho hf, clean_files g ha roots hw fs hfs s' h' ho' hf']
  refine ⟨hfiles, ?_⟩
  have hd := clean_dirs g ha roots hw hp fs hfs s h ho hf
  have hd' := clean_dirs g ha roots hw hp fs hfs s' h' ho' hf'
  have key : ∀ d ∈ fs.dirs, (d ∈ s.fs.dirs ↔ d ∈ s'.fs.dirs) := by
    apply dirs_induction
    intro d hdm ih
    have hin : s.fs.Inside d ↔ s'.fs.Inside d := by
      constructor
      · rintro (⟨p, c, hpm, hne, e⟩ | ⟨q, hq, hne, e⟩)
        · exact Or.inl ⟨p, c, (hfiles _).1 hpm, hne, e⟩
        · exact Or.inr ⟨q, (ih q ((hd q).1 hq).1 hne e).1 hq, hne, e⟩
      · rintro (⟨p, c, hpm, hne, e⟩ | ⟨q, hq, hne, e⟩)
        · exact Or.inl ⟨p, c, (hfiles _).2 hpm, hne, e⟩
        · exact Or.inr ⟨q, (ih q ((hd' q).1 hq).1 hne e).2 hq, hne, e⟩
    rw [hd d, hd' d, hin]
  exact fun d => ⟨fun h => (key d ((hd d).1 h).1).1 h, fun h => (key d ((hd' d).1 h).1).2 h⟩

/-- Cleaning undoes updating: if targets have been updated, successfully or not, on a filesystem
with nothing that belongs to them other than directories with files in them, then cleaning them
leaves the original filesystem. -/
theorem clean_undoes (g : Graph) (ha : g.Acyclic) (roots : List Nat) (hw : g.Away roots)
    (hp : g.Placed roots) (orig fs : FS) (horig : orig.Ok) (hmade : Made g roots orig fs)
    (hcwd : g.cwd ∈ orig.dirs)
    (hnew : ∀ x ∈ orig.files, ∀ t, g.Cleaned roots t → ¬ (g.target t).Owns x.1)
    (hfull : ∀ d ∈ orig.dirs, ∀ t, g.Cleaned roots t → (g.target t).OwnsDir d →
      ∃ x ∈ orig.files, d <+: x.1)
    (s : Exec) (h : Runs g roots fs s) (ho : s.Over) (hf : s.failed = []) : s.fs.Same orig := by
  have hfiles : ∀ x, x ∈ s.fs.files ↔ x ∈ orig.files := fun x => by
    rw [clean_files g ha roots hw fs hmade.ok s h ho hf]
    constructor
    · rintro ⟨hx, hn⟩
      rcases hmade.file x hx with h | ⟨t, ht, hown⟩
      · exact h
      · exact absurd hown (hn t ht)
    · intro hx
      refine ⟨?_, hnew x hx⟩
      rcases hmade.kept x hx with h | ⟨t, ht, hown⟩
      · exact h
      · exact absurd hown (hnew x hx t ht)
  have hd := clean_dirs g ha roots hw hp fs hmade.ok s h ho hf
  obtain ⟨hok, _, _, _, hkeep, _⟩ := clean_safe g roots fs hmade.ok s h
  refine ⟨hfiles, fun d => ⟨fun hdm => ?_, fun hdm => ?_⟩⟩
  · refine dirs_induction s.fs.dirs (P := fun d => d ∈ orig.dirs) (fun d hdm ih => ?_) d hdm
    obtain ⟨hdf, hall⟩ := (hd d).1 hdm
    rcases hmade.dir d hdf with h | ⟨t, ht, hown⟩
    · exact h
    · obtain ⟨_, hc | ⟨p, c, hpm, hne, rfl⟩ | ⟨e, hem, hne, rfl⟩⟩ := hall t ht hown
      · exact horig.prefix_dir hcwd hc
      · exact (horig.file p c ((hfiles _).1 hpm)).2
      · exact horig.dir e (ih e hem hne rfl) hne
  · apply Classical.byContradiction
    intro hn
    have hex : ¬ ∀ t, g.Cleaned roots t → ¬ (g.target t).OwnsDir d :=
      fun hc => hn (hkeep d (hmade.keptDir d hdm) hc)
    apply hex
    intro t ht hown
    obtain ⟨⟨p, c⟩, hx, hdx⟩ := hfull d hdm t ht hown
    rcases hok.prefix_file ((hfiles _).2 hx) hdx with rfl | hin
    · exact horig.both _ _ hx hdm
    · exact hn hin

/-! ## Examples

A schedule: which call is next (`inl`), or which of the recipes proceeds (`inr`). -/

def play (g : Graph) (s : Exec) : List (Nat ⊕ Nat) → Option Exec
  | [] => some s
  | .inl i :: cs =>
    match s.calls[i]? with
    | none => none
    | some t =>
      if s.count t - 1 = 0 then
        play g { s with
          calls := s.calls.take i ++ s.calls.drop (i + 1), count := drop s.count t,
          running := (t, acts (g.target t)) :: s.running } cs
      else
        play g { s with
          calls := s.calls.take i ++ s.calls.drop (i + 1), count := drop s.count t } cs
  | .inr i :: cs =>
    match s.running[i]? with
    | none => none
    | some (t, []) =>
      play g { s with
        running := s.running.take i ++ s.running.drop (i + 1), done := t :: s.done,
        calls := s.calls ++ (pre g t).reverse } cs
    | some (t, a :: as) =>
      match doAct g.cwd s.fs a with
      | none => none
      | some f =>
        play g { s with
          fs := f, running := s.running.take i ++ (t, as) :: s.running.drop (i + 1) } cs

theorem split_at {α : Type} {l : List α} {i : Nat} {x : α} (h : l[i]? = some x) :
    l = l.take i ++ x :: l.drop (i + 1) := by
  obtain ⟨hi, rfl⟩ := List.getElem?_eq_some_iff.1 h
  rw [← List.drop_eq_getElem_cons hi, List.take_append_drop]

theorem play_star {g : Graph} (cs : List (Nat ⊕ Nat)) {s0 s s' : Exec}
    (hs : Star (Exec.Step g) s0 s) (h : play g s cs = some s') : Star (Exec.Step g) s0 s' := by
  induction cs generalizing s with
  | nil => injection h with h; subst h; exact hs
  | cons c cs ih =>
    cases c with
    | inl i =>
      simp only [play] at h
      split at h
      · cases h
      · rename_i t ht
        split at h
        · rename_i hz
          exact ih (.tail hs (.start (split_at ht) hz)) h
        · rename_i hz
          exact ih (.tail hs (.postpone (split_at ht) hz)) h
    | inr i =>
      simp only [play] at h
      split at h
      · cases h
      · rename_i t ht
        exact ih (.tail hs (.finish (split_at ht))) h
      · rename_i t a as ht
        split at h
        · cases h
        · rename_i f hf
          exact ih (.tail hs (.act (split_at ht) hf)) h

def playMatch (g : Graph) (m : Match) : Nat → Match
  | 0 => m
  | n + 1 =>
    match m.calls with
    | [] => m
    | t :: r =>
      if t ∈ m.matched then playMatch g { m with calls := r, count := bump m.count t } n
      else playMatch g ⟨r ++ pre g t, t :: m.matched, bump m.count t⟩ n

theorem playMatch_star {g : Graph} (n : Nat) {m0 m : Match} (hm : Star (Match.Step g) m0 m) :
    Star (Match.Step g) m0 (playMatch g m n) := by
  induction n generalizing m with
  | zero => exact hm
  | succ n ih =>
    simp only [playMatch]
    split
    · exact hm
    · rename_i t r hc
      split
      · rename_i ht
        exact ih (.tail hm (.again (l := []) hc ht))
      · rename_i ht
        exact ih (.tail hm (.first (l := []) hc ht))

/-- Matching with enough steps, then the schedule. -/
def playAll (g : Graph) (roots : List Nat) (fs : FS) (n : Nat) (cs : List (Nat ⊕ Nat)) :
    Option Exec :=
  let m := playMatch g ⟨roots, [], fun _ => 0⟩ n
  if m.calls = [] then play g ⟨fs, m.count, roots, [], [], []⟩ cs else none

theorem playAll_runs {g : Graph} {roots : List Nat} {fs : FS} {n : Nat} {cs : List (Nat ⊕ Nat)}
    {s : Exec} (h : playAll g roots fs n cs = some s) : Runs g roots fs s := by
  unfold playAll at h
  dsimp only at h
  split at h
  · rename_i hc
    exact ⟨_, playMatch_star n .refl, hc, play_star cs .refl h⟩
  · cases h

/-- What is seen of a run in the end. -/
def outcome (g : Graph) (roots : List Nat) (fs : FS) (n : Nat) (cs : List (Nat ⊕ Nat)) :
    Option (List (Path × Nat) × List Path × Bool × List Nat) :=
  (playAll g roots fs n cs).map fun s =>
    (s.fs.files, s.fs.dirs, s.calls.isEmpty && s.running.isEmpty, s.failed)

theorem outcome_runs {g : Graph} {roots : List Nat} {fs : FS} {n : Nat} {cs : List (Nat ⊕ Nat)}
    {f : List (Path × Nat)} {d : List Path}
    (h : outcome g roots fs n cs = some (f, d, true, [])) :
    ∃ s, Runs g roots fs s ∧ s.Over ∧ s.failed = [] ∧ s.fs = ⟨f, d⟩ := by
  unfold outcome at h
  rw [Option.map_eq_some_iff] at h
  obtain ⟨s, hs, he⟩ := h
  injection he with h1 h2
  injection h2 with h2 h3
  injection h3 with h3 h4
  rw [Bool.and_eq_true, List.isEmpty_iff, List.isEmpty_iff] at h3
  refine ⟨s, playAll_runs hs, h3, h4, ?_⟩
  rw [← h1, ← h2]

/-- An executable (0) from an object file (1) from a source file (2), in the directories (3) and
(4) of the output, with dependency databases. The source directory is in no output. -/
def exGraph : Graph where
  target
    | 0 => ⟨.file (some ["o", "p", "hello"]) [["o", "p", "hello.d"]] [] [] true, ["o", "p"], ["o"],
        [(1, true)]⟩
    | 1 => ⟨.file (some ["o", "p", "hello.o"]) [["o", "p", "hello.o.d"]] [] [] true, ["o", "p"],
        ["o"], [(2, true)]⟩
    | 2 => ⟨.source, ["s"], ["s"], []⟩
    | 3 => ⟨.fsdir, ["o", "p"], ["o"], []⟩
    | 4 => ⟨.fsdir, ["o"], ["o"], []⟩
    | _ => ⟨.fsdir, ["x"], ["x"], []⟩
  fsdir d := if d = ["o", "p"] then 3 else if d = ["o"] then 4 else 5
  out d := d = ["o", "p"] || d = ["o"]
  cwd := []

/-- Before updating. -/
def exOrig : FS := ⟨[(["s", "hello.c"], 1)], [[], ["s"]]⟩

/-- After. -/
def exMade : FS :=
  ⟨[(["o", "p", "hello.o"], 2), (["o", "p", "hello.o.d"], 3), (["o", "p", "hello"], 4),
    (["s", "hello.c"], 1)], [[], ["s"], ["o"], ["o", "p"]]⟩

/-- One order of doing things, and the result: all of the output is gone. -/
theorem ex_outcome : outcome exGraph [0] exMade 20
    [.inl 0, .inr 0, .inr 0, .inr 0, .inl 0, .inl 0, .inr 0, .inr 0, .inr 0, .inl 0, .inr 0, .inr 0,
      .inl 0, .inr 0, .inr 0] =
    some ([(["s", "hello.c"], 1)], [[], ["s"]], true, []) := by decide +kernel

theorem ex_involves {t u : Nat} (h : exGraph.Involves t u) :
    (t = 0 ∧ (u = 3 ∨ u = 1)) ∨ (t = 1 ∧ u = 3) ∨ (t = 3 ∧ u = 4) := by
  rw [← mem_pre_iff] at h
  match t, h with
  | 0, h => simpa [show pre exGraph 0 = [3, 1] by decide +kernel] using h
  | 1, h => simpa [show pre exGraph 1 = [3] by decide +kernel] using h
  | 2, h => simp [show pre exGraph 2 = [] by decide +kernel] at h
  | 3, h => simpa [show pre exGraph 3 = [4] by decide +kernel] using h
  | 4, h => simp [show pre exGraph 4 = [] by decide +kernel] at h
  | t + 5, h =>
    rw [show pre exGraph (t + 5) = pre exGraph 5 from rfl,
      show pre exGraph 5 = [] by decide +kernel] at h
    cases h

theorem ex_acyclic : exGraph.Acyclic := by
  refine ⟨fun t => if t = 0 then 4 else if t = 1 then 3 else if t = 3 then 2 else 1, ?_⟩
  intro t u h
  rcases ex_involves h with ⟨rfl, rfl | rfl⟩ | ⟨rfl, rfl⟩ | ⟨rfl, rfl⟩ <;> decide

theorem ex_cleaned {t : Nat} (h : exGraph.Cleaned [0] t) : t = 0 ∨ t = 1 ∨ t = 3 ∨ t = 4 := by
  induction h with
  | root h => simp at h; simp [h]
  | pre _ h _ => rcases ex_involves h with ⟨_, rfl | rfl⟩ | ⟨_, rfl⟩ | ⟨_, rfl⟩ <;> simp

theorem ex_away : exGraph.Away [0] := by
  intro t ht hk
  rcases ex_cleaned ht with rfl | rfl | rfl | rfl
  · simp [Target.OwnsDir, exGraph]
  · simp [Target.OwnsDir, exGraph]
  · exact absurd rfl hk
  · exact absurd rfl hk

theorem ex_placed : exGraph.Placed [0] := by
  refine ⟨fun t ht hk => ?_, fun t ht u hu hk p hne hpd ho => ?_⟩
  · rcases ex_cleaned ht with rfl | rfl | rfl | rfl
    · cases hk
    · cases hk
    · rfl
    · rfl
  · rcases ex_cleaned hu with rfl | rfl | rfl | rfl
    · cases hk
    · cases hk
    · have hpd : p.dropLast = ["o", "p"] := hpd
      rcases ex_cleaned ht with rfl | rfl | rfl | rfl
      · exact ⟨rfl, rfl⟩
      · exact ⟨rfl, rfl⟩
      · simp [Target.Owns, Target.OwnsDir, exGraph] at ho
        subst ho; simp at hpd
      · simp [Target.Owns, Target.OwnsDir, exGraph] at ho
        subst ho; simp at hpd
    · have hpd : p.dropLast = ["o"] := hpd
      rcases ex_cleaned ht with rfl | rfl | rfl | rfl
      · simp [Target.Owns, Target.OwnsDir, exGraph] at ho
        rcases ho with rfl | rfl <;> simp at hpd
      · simp [Target.Owns, Target.OwnsDir, exGraph] at ho
        rcases ho with rfl | rfl <;> simp at hpd
      · exact ⟨rfl, rfl⟩
      · simp [Target.Owns, Target.OwnsDir, exGraph] at ho
        subst ho; simp at hpd

theorem ex_orig_ok : exOrig.Ok := by
  refine ⟨fun p c h => ?_, fun d h => ?_, fun p c h => ?_⟩
  · simp [exOrig] at h ⊢; simp [h.1]
  · simp [exOrig] at h ⊢; rcases h with rfl | rfl <;> simp
  · simp [exOrig] at h ⊢; simp [h.1]

theorem ex_made_ok : exMade.Ok := by
  refine ⟨fun p c h => ?_, fun d h => ?_, fun p c h => ?_⟩
  · simp [exMade] at h ⊢; rcases h with h | h | h | h <;> simp [h.1]
  · simp [exMade] at h ⊢; rcases h with rfl | rfl | rfl | rfl <;> simp
  · simp [exMade] at h ⊢; rcases h with h | h | h | h <;> simp [h.1]

theorem ex_is_cleaned : ∀ t, t = 0 ∨ t = 1 ∨ t = 3 ∨ t = 4 → exGraph.Cleaned [0] t := by
  have h0 : exGraph.Cleaned [0] 0 := .root (by simp)
  have h1 : exGraph.Cleaned [0] 1 := .pre h0 ((mem_pre_iff _ _ _).1 (by decide +kernel))
  have h3 : exGraph.Cleaned [0] 3 := .pre h0 ((mem_pre_iff _ _ _).1 (by decide +kernel))
  have h4 : exGraph.Cleaned [0] 4 := .pre h3 ((mem_pre_iff _ _ _).1 (by decide +kernel))
  rintro t (rfl | rfl | rfl | rfl) <;> assumption

/-- The example is one of updating. -/
theorem ex_is_made : Made exGraph [0] exOrig exMade := by
  refine ⟨ex_made_ok, fun x h => Or.inl ?_, fun x h => ?_, fun d h => ?_, fun d h => ?_⟩
  · simp [exOrig] at h; subst h; simp [exMade]
  · simp only [exMade, List.mem_cons, List.not_mem_nil, or_false] at h
    rcases h with rfl | rfl | rfl | rfl
    · exact Or.inr ⟨1, ex_is_cleaned 1 (by simp), by simp [Target.Owns, exGraph]⟩
    · exact Or.inr ⟨1, ex_is_cleaned 1 (by simp), by simp [Target.Owns, exGraph]⟩
    · exact Or.inr ⟨0, ex_is_cleaned 0 (by simp), by simp [Target.Owns, exGraph]⟩
    · exact Or.inl (by simp [exOrig])
  · simp [exOrig] at h; rcases h with rfl | rfl <;> simp [exMade]
  · simp only [exMade, List.mem_cons, List.not_mem_nil, or_false] at h
    rcases h with rfl | rfl | rfl | rfl
    · exact Or.inl (by simp [exOrig])
    · exact Or.inl (by simp [exOrig])
    · exact Or.inr ⟨4, ex_is_cleaned 4 (by simp), rfl⟩
    · exact Or.inr ⟨3, ex_is_cleaned 3 (by simp), rfl⟩

/-- And there is a run of cleaning after it, without failures, to which the theorems apply. -/
example : ∃ s, Runs exGraph [0] exMade s ∧ s.Over ∧ s.failed = [] ∧ s.fs.Same exOrig := by
  obtain ⟨s, h, ho, hf, _⟩ := outcome_runs ex_outcome
  refine ⟨s, h, ho, hf, clean_undoes exGraph ex_acyclic [0] ex_away ex_placed exOrig exMade
    ex_orig_ok ex_is_made (by simp [exOrig, exGraph]) (fun x hx t ht => ?_)
    (fun d hd t ht ho => ?_) s h ho hf⟩
  · simp [exOrig] at hx
    subst hx
    rcases ex_cleaned ht with rfl | rfl | rfl | rfl <;> simp [Target.Owns, exGraph]
  · simp [exOrig] at hd
    rcases ex_cleaned ht with rfl | rfl | rfl | rfl <;> rcases hd with rfl | rfl <;>
      simp [Target.OwnsDir, exGraph] at ho

/-- The number of its targets is bounded. -/
example : ∃ b, ∀ n m, Steps (Match.Step exGraph) n ⟨[0], [], fun _ => 0⟩ m → n ≤ b :=
  (clean_ends exGraph [0] [0, 1, 3, 4] (by decide) fun t ht => by
    rcases ex_cleaned ht with rfl | rfl | rfl | rfl <;> simp).1

/-! ## What does not hold -/

/-- An empty directory that was there before updating is not there after cleaning. -/
theorem empty_dir_removed : ∃ (g : Graph) (roots : List Nat) (orig fs : FS) (s : Exec),
    g.Acyclic ∧ g.Away roots ∧ g.Placed roots ∧ orig.Ok ∧ Made g roots orig fs ∧
    (∀ x ∈ orig.files, ∀ t, g.Cleaned roots t → ¬ (g.target t).Owns x.1) ∧
    Runs g roots fs s ∧ s.Over ∧ s.failed = [] ∧ ["o"] ∈ orig.dirs ∧ ["o"] ∉ s.fs.dirs := by
  obtain ⟨s, h, ho, hf, he⟩ := outcome_runs ex_outcome
  refine ⟨exGraph, [0], ⟨[(["s", "hello.c"], 1)], [[], ["s"], ["o"]]⟩, exMade, s, ex_acyclic,
    ex_away, ex_placed, ?_, ?_, ?_, h, ho, hf, by simp, by rw [he]; simp⟩
  · refine ⟨fun p c h => ?_, fun d h => ?_, fun p c h => ?_⟩
    · simp at h ⊢; simp [h.1]
    · simp at h ⊢; rcases h with rfl | rfl | rfl <;> simp
    · simp at h ⊢; simp [h.1]
  · refine ⟨ex_made_ok, fun x h => ex_is_made.kept x h, fun x h => ex_is_made.file x h,
      fun d h => ?_, fun d h => ?_⟩
    · simp at h; rcases h with rfl | rfl | rfl <;> simp [exMade]
    · rcases ex_is_made.dir d h with h | h
      · refine Or.inl ?_
        simp [exOrig] at h
        rcases h with rfl | rfl <;> simp
      · exact Or.inr h
  · intro x hx t ht
    simp at hx
    subst hx
    rcases ex_cleaned ht with rfl | rfl | rfl | rfl <;> simp [Target.Owns, exGraph]

/-- A target (0) with a member in the directory (3) of another (1). -/
def raceGraph : Graph where
  target
    | 0 => ⟨.file (some ["a", "x"]) [] [] [(["b", "y"], [], [])] true, ["a"], [], []⟩
    | 1 => ⟨.file (some ["b", "z"]) [] [] [] true, ["b"], [], []⟩
    | 2 => ⟨.fsdir, ["a"], [], []⟩
    | 3 => ⟨.fsdir, ["b"], [], []⟩
    | _ => ⟨.fsdir, ["x"], [], []⟩
  fsdir d := if d = ["a"] then 2 else if d = ["b"] then 3 else 4
  out d := d = ["a"] || d = ["b"]
  cwd := []

def raceFS : FS :=
  ⟨[(["a", "x"], 1), (["b", "y"], 2), (["b", "z"], 3)], [[], ["a"], ["b"]]⟩

theorem race_first : outcome raceGraph [0, 1] raceFS 20
    [.inl 0, .inr 0, .inr 0, .inr 0, .inl 0, .inr 0, .inr 0, .inl 0, .inr 0, .inr 0, .inl 0, .inr 0,
      .inr 0] = some ([], [[]], true, []) := by decide +kernel

theorem race_second : outcome raceGraph [0, 1] raceFS 20
    [.inl 1, .inr 0, .inr 0, .inl 1, .inr 0, .inr 0, .inl 0, .inr 0, .inr 0, .inr 0, .inl 0, .inr 0,
      .inr 0] = some ([], [[], ["b"]], true, []) := by decide +kernel

/-- If a member is in a directory other than that of its target then whether this directory is
left behind depends on the order in which things are done. -/
theorem member_elsewhere_races : ∃ (g : Graph) (roots : List Nat) (fs : FS) (s s' : Exec),
    g.Acyclic ∧ g.Away roots ∧ fs.Ok ∧
    Runs g roots fs s ∧ s.Over ∧ s.failed = [] ∧
    Runs g roots fs s' ∧ s'.Over ∧ s'.failed = [] ∧ ["b"] ∉ s.fs.dirs ∧ ["b"] ∈ s'.fs.dirs := by
  obtain ⟨s, h, ho, hf, he⟩ := outcome_runs race_first
  obtain ⟨s', h', ho', hf', he'⟩ := outcome_runs race_second
  refine ⟨raceGraph, [0, 1], raceFS, s, s', ?_, ?_, ?_, h, ho, hf, h', ho', hf',
    by rw [he]; simp, by rw [he']; simp⟩
  · refine ⟨fun t => if t ≤ 1 then 1 else 0, fun t u h => ?_⟩
    rw [← mem_pre_iff] at h
    match t, h with
    | 0, h => rw [show pre raceGraph 0 = [2] by decide +kernel] at h; simp at h; subst h; decide
    | 1, h => rw [show pre raceGraph 1 = [3] by decide +kernel] at h; simp at h; subst h; decide
    | 2, h => rw [show pre raceGraph 2 = [] by decide +kernel] at h; cases h
    | 3, h => rw [show pre raceGraph 3 = [] by decide +kernel] at h; cases h
    | t + 4, h =>
      rw [show pre raceGraph (t + 4) = pre raceGraph 4 from rfl,
        show pre raceGraph 4 = [] by decide +kernel] at h
      cases h
  · intro t ht hk
    match t, hk with
    | 0, _ => simp [Target.OwnsDir, raceGraph]
    | 1, _ => simp [Target.OwnsDir, raceGraph]
    | 2, hk => exact absurd rfl hk
    | 3, hk => exact absurd rfl hk
    | t + 4, hk => exact absurd rfl hk
  · refine ⟨fun p c h => ?_, fun d h => ?_, fun p c h => ?_⟩
    · simp [raceFS] at h ⊢; rcases h with h | h | h <;> simp [h.1]
    · simp [raceFS] at h ⊢; rcases h with rfl | rfl | rfl <;> simp
    · simp [raceFS] at h ⊢; rcases h with h | h | h <;> simp [h.1]

end Verif.Clean
