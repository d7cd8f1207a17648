import Verif.Dist.Lemmas

/-! # Distribution: properties (C81) -/

namespace Verif.Dist

/-! ## What is distributed -/

/-- **C81.** The package has exactly the files that are to be distributed, each in its place. -/
theorem dist_contents {p : Proj} {ts : List Tgt} {m : List (Dir × Nat)} (h : dist p false ts = .ok m)
    (r : Dir) (c : Nat) :
    (r, c) ∈ m ↔ ∃ f, Known ts f ∧ Chosen p f ∧ Dest p f r ∧ f.content = c := by
  unfold dist at h
  cases h2 : second p (first p ts) with
  | error x => rw [h2] at h; cases h
  | ok fs =>
    rw [h2] at h
    obtain ⟨ds, e, rfl, -⟩ := install_ok.1 h
    rw [List.nil_append, mem_zip_map e]
    simp only [collected h2, place_iff, and_assoc]

/-- **C81.** Every place in the package has one file. -/
theorem dist_places {p : Proj} {ts : List Tgt} {m : List (Dir × Nat)} (h : dist p false ts = .ok m) :
    (m.map (·.1)).Nodup := by
  unfold dist at h
  cases h2 : second p (first p ts) with
  | error x => rw [h2] at h; cases h
  | ok fs =>
    rw [h2] at h
    obtain ⟨ds, e, rfl, nd, -⟩ := install_ok.1 h
    have l : ds.length = fs.length := by simpa using (congrArg List.length e).symm
    rw [List.nil_append, List.map_fst_zip (by simp [l])]
    exact nd

/-- **C81.** It fails if and only if the members of a group to be distributed aren't known, or a file
to be distributed has no place in the package, or two have the same. -/
theorem dist_fails {p : Proj} {ts : List Tgt} : (∃ x, dist p false ts = .error x) ↔
    (∃ v, .group v none ∈ ts ∧ Marked v) ∨ (∃ f, Known ts f ∧ Chosen p f ∧ Misplaced p f) ∨
      ¬ Apart p (listed ts) := by
  unfold dist
  cases h2 : second p (first p ts) with
  | error x =>
    obtain ⟨v, h⟩ := second_err.1 ⟨x, h2⟩
    rw [mem_first] at h
    exact ⟨fun _ => .inl ⟨v, h⟩, fun _ => ⟨x, rfl⟩⟩
  | ok fs =>
    have hg : ¬ ∃ v, .group v none ∈ ts ∧ Marked v := by
      rintro ⟨v, h⟩
      obtain ⟨x, h⟩ := (second_err (p := p)).2 ⟨v, mem_first.2 h⟩
      rw [h2] at h; cases h
    have hi : (∃ x, install p false fs [] = .error x) ↔ ¬ ∃ m, install p false fs [] = .ok m := by
      cases install p false fs [] <;> simp
    have hp : fs.Pairwise (fun f g => ∀ r, Dest p f r → ¬ Dest p g r) ↔ Apart p (listed ts) := by
      rw [listed_of_second h2, List.pairwise_filter]
      simp only [collect_iff]
      exact Iff.rfl
    simp only [hg, false_or]
    rw [hi, install_some, hp]
    constructor
    · intro h
      by_cases ha : Apart p (listed ts)
      · left
        refine Classical.byContradiction fun hn => h ⟨fun f hf => ?_, ha⟩
        refine Classical.byContradiction fun hr => hn ⟨f, ?_⟩
        have := (collected h2 f).1 hf
        exact ⟨this.1, this.2, fun r d => hr ⟨r, d⟩⟩
      · exact .inr ha
    · rintro (⟨f, a, b, c⟩ | h) ⟨h1, h3⟩
      · obtain ⟨r, d⟩ := h1 f ((collected h2 f).2 ⟨a, b⟩)
        exact c r d
      · exact h h3

theorem listed_perm {ts ts' : List Tgt} (h : ts.Perm ts') : (listed ts).Perm (listed ts') := by
  have e : ∀ ts, listed ts = ts.flatMap fun t => listed [t] := by
    intro ts
    induction ts with
    | nil => rfl
    | cons t ts ih =>
      rw [List.flatMap_cons, ← ih]
      rcases t with ⟨f, _ | _⟩ | ⟨_ | ⟨_ | _ | _ | _⟩, _ | ms⟩ | _ <;> simp [listed]
  rw [e ts, e ts']
  exact h.flatMap_right _

/-- **C81.** The order in which targets are gone through makes no difference to what is in the package,
or to whether there is one. -/
theorem dist_order {p : Proj} {ts ts' : List Tgt} (h : ts.Perm ts') :
    ((∃ x, dist p false ts = .error x) ↔ ∃ x, dist p false ts' = .error x) ∧
    ∀ m m', dist p false ts = .ok m → dist p false ts' = .ok m' → ∀ e, e ∈ m ↔ e ∈ m' := by
  have hk : ∀ f, Known ts f ↔ Known ts' f := by
    intro f; unfold Known; simp only [h.mem_iff]
  constructor
  · rw [dist_fails, dist_fails]
    have ha : Apart p (listed ts) ↔ Apart p (listed ts') := by
      refine (listed_perm h).pairwise_iff ?_
      intro f g k a b r d d'
      exact k b a r d' d
    simp only [hk, h.mem_iff, ha]
  · rintro m m' h1 h2 ⟨r, c⟩
    rw [dist_contents h1, dist_contents h2]
    simp only [hk]

/-- The entries of a result. -/
def resOf (x : Except Err (List (Dir × Nat))) : Option (List (Dir × Nat)) :=
  match x with
  | .ok m => some m
  | .error _ => none

/-- The error, if any. -/
def errOf (x : Except Err (List (Dir × Nat))) : Option Err :=
  match x with
  | .ok _ => none
  | .error e => some e

/-- A project with sources, one excluded, a generated one included, one that isn't, one moved, one
outside of the project, and a group. -/
def pW : Proj := ⟨["h", "p"], ["h", "o"]⟩

def tsW : List Tgt :=
  [.file ⟨["h", "p", "lib"], "a.cxx", 1, none⟩ false,
   .file ⟨["h", "p"], "secret", 2, some .no⟩ false,
   .file ⟨["h", "o", "lib"], "gen.hxx", 3, some .yes⟩ false,
   .file ⟨["h", "o", "lib"], "a.o", 4, none⟩ false,
   .file ⟨["h", "p", "doc"], "README.in", 5, some (.remap false [".."] (some "README"))⟩ false,
   .file ⟨["usr"], "x.h", 6, some .yes⟩ false,
   .group (some .yes) (some [⟨["h", "o", "lib"], "b.cxx", 7, some .yes⟩, ⟨["h", "o"], "t", 8, none⟩]),
   .file ⟨["h", "o", "lib"], "b.cxx", 7, some .yes⟩ true,
   .other]

example : resOf (dist pW false tsW) =
    some [(["lib", "a.cxx"], 1), (["lib", "gen.hxx"], 3), (["README"], 5), (["lib", "b.cxx"], 7)] := by
  decide +kernel

/-- Two files with the same destination. -/
def tsD : List Tgt :=
  [.file ⟨["h", "p"], "a", 1, none⟩ false,
   .file ⟨["h", "o"], "a", 2, some .yes⟩ false]

example : errOf (dist pW false tsD) = some .duplicate := by decide +kernel
example : errOf (dist pW false [.file ⟨["h", "p"], "a", 1, some .simple⟩ false]) = some .value := by
  decide +kernel
example : errOf (dist pW false [.file ⟨["h", "p"], "a", 1, some (.remap false [".."] none)⟩ false]) =
    some .outside := by decide +kernel
example : errOf (dist pW false [.group (some .yes) none]) = some .group := by decide +kernel

/-- **C81, false of the code.** With a custom command, one of two files with the same destination is
lost without an error, and which one depends on the order in which targets are gone through. -/
theorem custom_command_loses : tsD.Perm tsD.reverse ∧
    resOf (dist pW true tsD) = some [(["a"], 2)] ∧
    resOf (dist pW true tsD.reverse) = some [(["a"], 1)] := by
  refine ⟨(List.reverse_perm _).symm, by decide +kernel, by decide +kernel⟩

/-- With a custom command nothing is lost provided that destinations differ: the outcome is then the
same as without. -/
theorem custom_command_partial {p : Proj} {ts : List Tgt} {m : List (Dir × Nat)}
    (h : dist p false ts = .ok m) : dist p true ts = .ok m := by
  unfold dist at h ⊢
  cases h2 : second p (first p ts) with
  | error x => rw [h2] at h; cases h
  | ok fs =>
    rw [h2] at h
    simp only [] at h ⊢
    clear h2
    generalize ([] : List (Dir × Nat)) = k at h ⊢
    induction fs generalizing k with
    | nil => exact h
    | cons f fs ih =>
      simp only [install] at h ⊢
      cases hp : place p f with
      | error x => rw [hp] at h; cases h
      | ok r =>
        rw [hp] at h
        simp only [Bool.false_eq_true, if_false] at h ⊢
        by_cases hm : k.any (fun e => e.1 == r) = true
        · rw [if_pos hm] at h; cases h
        · rw [if_neg hm] at h ⊢
          exact ih _ h

/-- **C81, false of the code.** Files in the output directory are only to be distributed if included
explicitly; but if the output directory is inside of the source directory then all of them are,
unless excluded. -/
theorem nested_output_included :
    resOf (dist ⟨["p"], ["p", "o"]⟩ false [.file ⟨["p", "o"], "a.o", 1, none⟩ false]) =
      some [(["o", "a.o"], 1)] := by
  decide +kernel

/-- If neither directory is inside the other then files of the output directory are distributed only
if included explicitly, whatever is said about others. -/
theorem output_excluded_partial {p : Proj} {ts : List Tgt} {m : List (Dir × Nat)}
    (h : dist p false ts = .ok m) (h1 : ¬ p.src <+: p.out) (h2 : ¬ p.out <+: p.src) {r : Dir} {c : Nat}
    (i : (r, c) ∈ m) : ∃ f, Known ts f ∧ f.content = c ∧
      ((p.src <+: f.dir ∧ ¬ p.out <+: f.dir ∧ f.dist ≠ some .no) ∨
       (p.out <+: f.dir ∧ ¬ p.src <+: f.dir ∧ Marked f.dist)) := by
  obtain ⟨f, a, b, -, e⟩ := (dist_contents h r c).1 i
  refine ⟨f, a, e, ?_⟩
  rcases b with ⟨b, b'⟩ | ⟨b, b', b''⟩
  · refine .inl ⟨b, fun k => ?_, b'⟩
    rcases Nat.le_total p.src.length p.out.length with l | l
    · exact h1 (List.prefix_of_prefix_length_le b k l)
    · exact h2 (List.prefix_of_prefix_length_le k b l)
  · exact .inr ⟨b', b, b''⟩

/-- **C81.** Nothing leaves the directory of the package: if there is no `..` in the directories and
names of targets and of the project, then there is none in where files end up, whatever components
`dist` has. -/
theorem dist_inside {p : Proj} {ts : List Tgt} {m : List (Dir × Nat)} (h : dist p false ts = .ok m)
    (hf : ∀ f, Known ts f → ".." ∉ f.dir ∧ f.name ≠ ".." ∧
      ∀ a xs n, f.dist = some (.remap a xs (some n)) → n ≠ "..") {r : Dir} {c : Nat}
    (i : (r, c) ∈ m) : ".." ∉ r ∧ r ≠ [] := by
  obtain ⟨f, a, -, d, -⟩ := (dist_contents h r c).1 i
  obtain ⟨f1, f2, f3⟩ := hf f a
  have key : ∀ d rel n, ".." ∉ d → n ≠ ".." → Within p d rel → ".." ∉ rel ++ [n] ∧ rel ++ [n] ≠ [] := by
    intro d rel n hd hn w
    refine ⟨?_, by simp⟩
    have : ".." ∉ rel := by
      rcases w with w | ⟨-, w⟩
      · subst w; exact fun q => hd (List.mem_append_right _ q)
      · subst w; exact fun q => hd (List.mem_append_right _ q)
    simp only [List.mem_append, List.mem_singleton, not_or]
    exact ⟨this, fun e => hn e.symm⟩
  have leads : ∀ d xs e, Leads d xs e → ".." ∉ d → ".." ∉ e := by
    intro d xs e l
    induction l with
    | done => exact id
    | dot _ ih => exact ih
    | up _ ih => exact fun q => ih fun k => q (List.mem_append_left _ k)
    | @down d x xs e _ n _ ih =>
      intro q
      refine ih fun k => ?_
      rcases List.mem_append.1 k with k | k
      · exact q k
      · exact n (List.mem_singleton.1 k).symm
  unfold Dest at d
  rcases hd : f.dist with _ | _ | _ | _ | ⟨a', xs, n⟩ <;> rw [hd] at d
  · obtain ⟨rel, w, rfl⟩ := d; exact key _ _ _ f1 f2 w
  · obtain ⟨rel, w, rfl⟩ := d; exact key _ _ _ f1 f2 w
  · obtain ⟨rel, w, rfl⟩ := d; exact key _ _ _ f1 f2 w
  · exact d.elim
  · obtain ⟨e, rel, l, w, rfl⟩ := d
    refine key _ _ _ (leads _ _ _ l ?_) ?_ w
    · cases a'
      · exact f1
      · simp
    · cases n with
      | none => exact f2
      | some n => exact f3 _ _ _ hd

/-- A file moved with `dist = ../../x/./` style components stays inside. -/
example : resOf (dist pW false
    [.file ⟨["h", "p", "a", "b"], "f", 1, some (.remap false ["..", "..", "x", "."] none)⟩ false]) =
    some [(["x", "f"], 1)] := by decide +kernel

/-- **C81.** What was in the directory before is of no consequence: afterwards it is the package, or,
if copying failed, there is no directory. It is left as it was only if the members of a group aren't
known. -/
theorem directory_left (p : Proj) (cmd : Bool) (ts : List Tgt) (b : Option (List (Dir × Nat))) :
    (∀ m, dist p cmd ts = .ok m → directory p cmd ts b = some m) ∧
    (∀ x, dist p cmd ts = .error x → directory p cmd ts b = none ∨
      (directory p cmd ts b = b ∧ ∃ v, .group v none ∈ ts ∧ Marked v)) := by
  unfold dist directory
  cases h2 : second p (first p ts) with
  | error x =>
    obtain ⟨v, h⟩ := second_err.1 ⟨x, h2⟩
    rw [mem_first] at h
    exact ⟨by simp, fun _ _ => .inr ⟨rfl, v, h⟩⟩
  | ok fs =>
    simp only []
    cases install p cmd fs [] with
    | error x => simp
    | ok m => simp

example : directory pW false tsD (some [(["old"], 0)]) = none := by decide +kernel
example : directory pW false [.file ⟨["h", "p"], "a", 1, none⟩ false] (some [(["old"], 0)]) =
    some [(["a"], 1)] := by decide +kernel

/-! ## All files of the source directory -/

/-- **C81.** Without the project being loaded, only files that are in the source directory (or in one
that a link in it leads to) and that aren't ignored are distributed, under their names there. -/
theorem bootstrap_only {k : Disk} {src : Dir} {n : Nat} {fs : List (Dir × Nat)}
    (h : bootstrapDist k src n = some fs) {r : Dir} {c : Nat} (i : (r, c) ∈ fs) : Has k src r c :=
  addSubdir_sound n [] src [] fs .root h r c i

/-- All of them are provided that no link leads back to a directory it is in. -/
theorem bootstrap_all_partial {k : Disk} {src : Dir} {n : Nat} {fs : List (Dir × Nat)}
    (hb : NoBack k src) (h : bootstrapDist k src n = some fs) (r : Dir) (c : Nat) :
    (r, c) ∈ fs ↔ Has k src r c := by
  refine ⟨bootstrap_only h, ?_⟩
  rintro ⟨ch, real, rel, y, hv, hm, hi, rfl⟩
  obtain ⟨m, gs, a, b⟩ := addSubdir_complete hb h hv
  cases m with
  | zero => simp [addSubdir] at a
  | succ m =>
    simp only [addSubdir] at a
    exact b _ ((entries_complete (fun y td i ni => hb _ _ _ y td hv i ni) a).1 y c hm hi)

/-- It ends if directories don't go on without an end. -/
theorem bootstrap_ends {k : Disk} {src : Dir} {n : Nat}
    (hd : ∀ c real rel, Visits k src c real rel → c.length < n) :
    ∃ fs, bootstrapDist k src n = some fs :=
  addSubdir_ends hd n [] src [] .root (by simp)

/-- A project with a directory, a link to one outside, and files to ignore. -/
def kW : Disk := fun d =>
  if d = ["p"] then [(".git", .dir), (".gitignore", .file 9), ("a", .file 1), ("d", .dir),
    ("up", .link ["u"]), (".bdep", .dir), (".github", .dir)]
  else if d = ["p", "d"] then [("b", .file 2)]
  else if d = ["u"] then [("x", .file 3), ("build2", .file 4)]
  else [("no", .file 0)]

example : bootstrapDist kW ["p"] 5 =
    some [(["a"], 1), (["d", "b"], 2), (["up", "x"], 3), (["up", "build2"], 4)] := by decide +kernel

/-- **C81, false of the code.** A link that leads back isn't just skipped: files listed after it in its
directory are not distributed, and which ones these are depends on the order of listing. -/
theorem back_link_loses :
    let k1 : Disk := fun _ => [("a", .file 1), ("s", .link ["p"]), ("z", .file 2)]
    let k2 : Disk := fun _ => [("z", .file 2), ("s", .link ["p"]), ("a", .file 1)]
    bootstrapDist k1 ["p"] 5 = some [(["a"], 1)] ∧ bootstrapDist k2 ["p"] 5 = some [(["z"], 2)] ∧
    Has k1 ["p"] ["z"] 2 := by
  refine ⟨by decide +kernel, by decide +kernel, ?_⟩
  exact ⟨[], ["p"], [], "z", .root, by simp, by rw [← ignored_iff]; decide +kernel, rfl⟩

/-- A directory outside that is linked from the project and has a link to itself. -/
def kE : Disk := fun d =>
  if d = ["p"] then [("l", .link ["y"])] else if d = ["y"] then [("loop", .link ["y"])] else []

theorem kE_loops : ∀ (n : Nat) (c : List Dir) (rel : Dir), (∀ d ∈ c, ∃ t, d = "p" :: t) →
    addSubdir kE ["p"] n c ["y"] rel = none := by
  intro n
  induction n with
  | zero => intro c rel _; simp [addSubdir]
  | succ n ih =>
    intro c rel hc
    simp only [addSubdir]
    have hk : kE ["y"] = [("loop", .link ["y"])] := by decide
    rw [hk]; simp only [entries]
    have hi : ignored "loop" = false := by decide +kernel
    have hc' : ∀ d ∈ (["p"] ++ rel) :: c, ∃ t, d = "p" :: t := by
      intro d hd
      rcases List.mem_cons.1 hd with rfl | hd
      · exact ⟨rel, rfl⟩
      · exact hc d hd
    have hn : ((["p"] ++ rel) :: c).contains ["y"] = false := by
      rw [Bool.eq_false_iff]
      intro q
      obtain ⟨t, e⟩ := hc' ["y"] (by simpa using q)
      simp at e
    simp only [hi, Bool.false_eq_true, if_false, hn]
    rw [ih _ _ hc']

/-- **C81, false of the code.** A link that leads back isn't recognized if it is in a directory that a
link leads to: directories are gone through without an end (the system then fails it). -/
theorem back_link_missed (n : Nat) : bootstrapDist kE ["p"] n = none := by
  unfold bootstrapDist
  cases n with
  | zero => simp [addSubdir]
  | succ n =>
    simp only [addSubdir]
    have hk : kE ["p"] = [("l", .link ["y"])] := by decide
    rw [hk]; simp only [entries]
    have hi : ignored "l" = false := by decide +kernel
    have hn : ((["p"] ++ ([] : Dir)) :: []).contains ["y"] = false := by decide
    simp only [hi, Bool.false_eq_true, if_false, hn]
    rw [kE_loops]
    intro d hd
    have := List.mem_singleton.1 hd
    subst this
    exact ⟨[], rfl⟩

/-- What is ignored. -/
theorem bootstrap_ignores {k : Disk} {src : Dir} {n : Nat} {fs : List (Dir × Nat)}
    (h : bootstrapDist k src n = some fs) {r : Dir} {c : Nat} (i : (r, c) ∈ fs) :
    ∀ x ∈ r, ¬ Ignored x := by
  obtain ⟨ch, real, rel, y, hv, -, hi, rfl⟩ := bootstrap_only h i
  have : ∀ x ∈ rel, ¬ Ignored x := by
    clear hi h i
    induction hv with
    | root => intro x hx; cases hx
    | dir _ _ hi ih =>
      intro x hx
      rcases List.mem_append.1 hx with hx | hx
      · exact ih x hx
      · exact List.mem_singleton.1 hx ▸ hi
    | link _ _ hi _ ih =>
      intro x hx
      rcases List.mem_append.1 hx with hx | hx
      · exact ih x hx
      · exact List.mem_singleton.1 hx ▸ hi
  intro x hx
  rcases List.mem_append.1 hx with hx | hx
  · exact this x hx
  · exact List.mem_singleton.1 hx ▸ hi

end Verif.Dist
