import Verif.Configure.Made

/-! # Configuring and disfiguring an output directory: properties -/

namespace Verif.Configure

/-- A project with a subproject in `libs/a`, configured in `/o`; there are also a file that a build has made
and one of somebody else. -/
def exProj : Proj := ⟨["s"], false, true, "config.x = 1\n", "src_root = /s/\n"⟩
def exSubs : Subs := .cons ["libs", "a"] ⟨["s", "libs", "a"], true, true, "config.y = 2\n", "src_root = /s/libs/a/\n"⟩ .nil .nil
def exFs : FS := [(["s"], .dir), (["w"], .dir)]
def exKept : FS := (["o", "libs", "a", "x.o"], .file "obj") :: configure ["o"] exProj exSubs exFs

/-- Disfiguring never makes or changes anything. -/
theorem disfigure_adds_nothing (work out : Path) (p : Proj) (s : Subs) (fs : FS) (q : Path) (n : Node)
    (h : (q, n) ∈ (disfigure work out p s fs).1) : (q, n) ∈ fs :=
  disfigure_cleans.sub _ h

/-- Disfiguring removes no files but those that configuring makes, of the project and its subprojects, and
no directories but those in its output directory in which nothing is left and the current one isn't in. -/
theorem disfigure_removes_only (work out : Path) (p : Proj) (s : Subs) (fs : FS) (q : Path) (n : Node)
    (h : (q, n) ∈ fs) (hn : (q, n) ∉ (disfigure work out p s fs).1) :
    (Made out p s q ∧ n ≠ .dir) ∨ (n = .dir ∧ out <+: q ∧ ¬ q <+: work ∧
      Empty (disfigure work out p s fs).1 q) :=
  disfigure_cleans.only q n h hn

/-- In particular, what a build has made is kept, and with it the directories it is in. -/
theorem disfigure_keeps (work out : Path) (p : Proj) (s : Subs) (fs : FS) (q : Path) (content : String)
    (h : (q, .file content) ∈ fs) (hm : ¬ Made out p s q) :
    (q, .file content) ∈ (disfigure work out p s fs).1 ∧
    ∀ d c t, q = d ++ c :: t → (d, .dir) ∈ fs → (d, .dir) ∈ (disfigure work out p s fs).1 := by
  have hk : (q, .file content) ∈ (disfigure work out p s fs).1 := by
    refine Decidable.byContradiction fun hn => ?_
    rcases disfigure_removes_only work out p s fs q _ h hn with h | h
    · exact hm h.1
    · exact nomatch h.1
  refine ⟨hk, fun d c t e hd => Decidable.byContradiction fun hn => ?_⟩
  rcases disfigure_removes_only work out p s fs d _ hd hn with h | h
  · exact h.2 rfl
  · exact h.2.2.2 c t _ (e ▸ hk)

/-- Afterwards neither the project nor any of its subprojects is configured. -/
theorem disfigure_unconfigures (work out : Path) (p : Proj) (s : Subs) (fs : FS) (f : Path)
    (content : String) (h : Made out p s f) : (f, .file content) ∉ (disfigure work out p s fs).1 := by
  intro hm
  unfold disfigure at hm
  simp only at hm
  obtain ⟨o, q, ⟨rfl, rfl⟩ | hw, hf⟩ := h
  · exact nomatch own_gone hf hm
  · exact nomatch subs_gone hw hf (own_cleans.sub _ hm)

/-- It says that something has been done exactly if something has. -/
theorem disfigure_reports (work out : Path) (p : Proj) (s : Subs) (fs : FS) :
    (disfigure work out p s fs).2 = true ↔ (disfigure work out p s fs).1 ≠ fs := by
  obtain ⟨_, h2, h3⟩ := (disfigure_cleans (work := work) (out := out) (p := p) (s := s) (fs := fs)).length
  constructor
  · intro h e
    have := h2 h
    rw [e] at this
    exact absurd this (Nat.lt_irrefl _)
  · intro h
    cases e : (disfigure work out p s fs).2 with
    | true => rfl
    | false => exact absurd (h3 e) h

/-- A project is configured in a directory that isn't there, together with any of its subprojects, and is
then disfigured: nothing is left in the directory, nor is the directory; all else is as it was, except that
the directories it was to be in are kept if they had to be made. -/
theorem configure_disfigure (work out : Path) (p : Proj) (s : Subs) (fs : FS)
    (hout : out ≠ []) (hwork : ¬ out <+: work) (hprop : s.Proper) (hapart : Apart out p s)
    (hsrc : ∀ o q, Within out p s o q → o ≠ q.src) (hnew : ∀ x n, out <+: x → (x, n) ∉ fs) :
    let fs' := (disfigure work out p s (configure out p s fs)).1
    (∀ x n, out <+: x → (x, n) ∉ fs') ∧ (∀ q n, (q, n) ∈ fs → (q, n) ∈ fs') ∧
    (∀ q n, (q, n) ∈ fs' → (q, n) ∈ fs ∨ (n = .dir ∧ q ≠ [] ∧ q <+: out ∧ q ≠ out)) := by
  have hc := disfigure_clears (work := work) hwork hprop hsrc (configure_inv hapart hout hsrc hnew).1
  refine ⟨hc, fun q n h => ?_, fun q n h => ?_⟩
  · have hq : ¬ out <+: q := fun hq => hnew q n hq h
    refine Decidable.byContradiction fun hn => ?_
    rcases disfigure_removes_only work out p s _ q n ((configure_out hq).1 h) hn with h | h
    · exact hq (made_within h.1)
    · exact hq h.2.1
  · have hq : ¬ out <+: q := fun hq => hc q n hq h
    rcases (configure_out hq).2 (disfigure_adds_nothing _ _ _ _ _ _ _ h) with h | ⟨h1, h2, h3⟩
    · exact .inl h
    · exact .inr ⟨h1, h2, h3, fun e => hq (e ▸ ⟨[], List.append_nil _⟩)⟩

/-- Configuring makes nothing outside of the output directory but the directories it is in, and changes
and removes nothing there: in particular, nothing in the source directory if the output directory isn't in
it. -/
theorem configure_outside (out : Path) (p : Proj) (s : Subs) (fs : FS) (q : Path) (n : Node)
    (hq : ¬ out <+: q) :
    ((q, n) ∈ fs → (q, n) ∈ configure out p s fs) ∧
    ((q, n) ∈ configure out p s fs → (q, n) ∈ fs ∨ (n = .dir ∧ q ≠ [] ∧ q <+: out)) :=
  configure_out hq

/-- After configuring, the configuration of the project and of each of its subprojects that is loaded is in
its file, and so is the source directory unless it is the output directory. -/
theorem configure_saves (out : Path) (p : Proj) (s : Subs) (fs : FS)
    (huniq : ∀ o q q', Within out p s o q → Within out p s o q' → q = q') (o : Path) (q : Proj)
    (h : (o = out ∧ q = p) ∨ Loaded out s o q) (f : Path) :
    (IsConfig o q f → (f, .file q.config) ∈ configure out p s fs) ∧
    (IsSrcRoot o q f → o ≠ q.src → (f, .file q.srcRoot) ∈ configure out p s fs) := by
  have hs := configureSubs_good (W := Within out p s) (s := s) (fs := configureOwn out p fs)
    (fun _ _ k => .inr k)
  have ho := configureOwn_good (W := Within out p s) (fs := fs) (.inl ⟨rfl, rfl⟩)
  have hw : Within out p s o q := h.imp id loaded_has
  have hg : ∀ f, Own o q f → Good (Within out p s) f (configure out p s fs) := by
    intro f hf
    rcases h with ⟨rfl, rfl⟩ | h
    · exact hs.1 f (ho.2 f hf)
    · exact hs.2 o q f h hf
  constructor
  · intro hf
    obtain ⟨v, hm, o', q', hw', ⟨h1, h2⟩ | ⟨h1, _⟩⟩ := hg f (.inl hf)
    · have e := config_inj hf h1
      subst e
      rw [huniq o q q' hw hw', ← h2]; exact hm
    · exact (config_not_srcRoot hf h1).elim
  · intro hf hne
    obtain ⟨v, hm, o', q', hw', ⟨h1, _⟩ | ⟨h1, h2⟩⟩ := hg f (.inr ⟨hf, hne⟩)
    · exact (config_not_srcRoot h1 hf).elim
    · have e := srcRoot_inj hf h1
      subst e
      rw [huniq o q q' hw hw', ← h2]; exact hm

/-- What the example is: two projects. -/
theorem ex_within {o : Path} {q : Proj} (h : Within ["o"] exProj exSubs o q) :
    (o = ["o"] ∧ q = exProj) ∨
    (o = ["o", "libs", "a"] ∧
      q = ⟨["s", "libs", "a"], true, true, "config.y = 2\n", "src_root = /s/libs/a/\n"⟩) := by
  rcases h with h | h
  · exact .inl h
  · unfold exSubs at h
    generalize hd : ["libs", "a"] = d at h
    cases h with
    | here => subst hd; exact .inr ⟨rfl, rfl⟩
    | sub h => cases h
    | rest h => cases h

example : (["o"] : Path) ≠ [] ∧ ¬ (["o"] : Path) <+: ["w"] ∧ exSubs.Proper ∧ Apart ["o"] exProj exSubs ∧
    (∀ o q, Within ["o"] exProj exSubs o q → o ≠ q.src) ∧ (∀ x n, ["o"] <+: x → (x, n) ∉ exFs) ∧
    (∀ o q q', Within ["o"] exProj exSubs o q → Within ["o"] exProj exSubs o q' → q = q') := by
  refine ⟨by decide, by decide, ⟨by decide, trivial, trivial⟩, ?_, ?_, ?_, ?_⟩
  · rintro f o q ⟨o', q', h', hf⟩ h
    rcases ex_within h' with ⟨rfl, rfl⟩ | ⟨rfl, rfl⟩ <;> rcases ex_within h with ⟨rfl, rfl⟩ | ⟨rfl, rfl⟩ <;>
      rcases hf with hf | ⟨hf, -⟩ <;> rw [hf] <;> decide
  · intro o q h
    rcases ex_within h with ⟨rfl, rfl⟩ | ⟨rfl, rfl⟩ <;> decide
  · rintro x n ⟨t, rfl⟩ h
    simp [exFs] at h
  · intro o q q' h h'
    rcases ex_within h with ⟨rfl, rfl⟩ | ⟨rfl, rfl⟩ <;> rcases ex_within h' with ⟨e, rfl⟩ | ⟨e, rfl⟩ <;>
      first | rfl | exact absurd e (by decide)

example : Loaded ["o"] exSubs ["o", "libs", "a"]
    ⟨["s", "libs", "a"], true, true, "config.y = 2\n", "src_root = /s/libs/a/\n"⟩ := .here rfl

example : (disfigure ["w"] ["o"] exProj exSubs exKept).1 =
    [(["o", "libs", "a", "x.o"], .file "obj"), (["o", "libs", "a"], .dir), (["o", "libs"], .dir),
     (["o"], .dir), (["s"], .dir), (["w"], .dir)] := by decide +kernel

example : (disfigure ["w"] ["o"] exProj exSubs (configure ["o"] exProj exSubs exFs)).1 = exFs := by
  decide +kernel

example : (disfigure ["w"] ["o"] exProj exSubs exKept).2 = true ∧
    (disfigure ["w"] ["o"] exProj exSubs exFs).2 = false := by decide +kernel

example : Made ["o"] exProj exSubs ["o", "libs", "a", "build2", "config.build2"] :=
  ⟨_, _, .inr .here, .inl rfl⟩

end Verif.Configure
