import Verif.Install.Install
import Verif.Install.FilterLemmas
import Verif.Install.Success
/-!
# C57: uninstalling is the inverse of installing
-/

namespace Verif.Install

variable {flt : Filter} {ok : Path → Bool} {fs : FS} {ts : List Item}

/-- Installing targets when nothing is in the way: every file and link is
there with what the last target to install it says, their directories and
all those these are in are there, and nothing else has changed. -/
theorem install_result (hw : Wf fs) (hr : ∀ t ∈ ts, Regular flt t)
    (hc : Compatible flt fs ts) :
    ∃ fs', install flt fs ts = .ok fs' ∧ Wf fs' ∧ ∀ p,
      (∀ e, lastPut flt ts p = some e → get fs' p = some e) ∧
      (¬ Installed flt ts p → (∃ t ∈ ts, Above p t.dest) → get fs' p = some .dir) ∧
      (¬ Installed flt ts p → ¬ (∃ t ∈ ts, Above p t.dest) → get fs' p = get fs p) := by
  obtain ⟨fs', h1, h2, h3⟩ := install_ok hw hr hc
  exact ⟨fs', h1, h2, fun p => ⟨(h3 p).1, fun h => (h3 p).2.1 (lastPut_none.mpr h),
    fun h => (h3 p).2.2 (lastPut_none.mpr h)⟩⟩

/-- Whatever is in the way, installing does not succeed unless every leading
directory (that is not filtered out) of every target is a directory at the
end, and no directory is replaced. -/
theorem install_success_dirs {fs' : FS} (h : install flt fs ts = .ok fs') :
    (∀ t ∈ ts, ∀ d ∈ t.dirs, flt.dir d = true → get fs' d = some .dir) ∧
    ∀ p, get fs p = some .dir → get fs' p = some .dir :=
  install_success h

/-- Uninstalling targets from any filesystem, in any order: what goes is
exactly the files and links that these targets install and the leading
directories that have nothing else, at any depth. -/
theorem uninstall_result (hw : Wf fs) (hr : ∀ t ∈ ts, Regular flt t) (hroots : SameRoots ts)
    (hok : ok [] = false) (p : Path) :
    (Installed flt ts p → get fs p ≠ some .dir → get (uninstall flt ok fs ts) p = none) ∧
    (Hollow flt ok ts fs p → get (uninstall flt ok fs ts) p = none) ∧
    (¬ (Installed flt ts p ∧ get fs p ≠ some .dir) → ¬ Hollow flt ok ts fs p →
      get (uninstall flt ok fs ts) p = get fs p) :=
  ⟨fun h1 h2 => uninstall_file hw hr h1 h2, fun h => uninstall_hollow hw hr hroots hok h,
   fun h1 h2 => uninstall_keeps hw hr h1 h2⟩

/-- Uninstalling does not touch what other software has put there: neither
the entries that are not from these targets, nor the directories they are
in. No condition on the roots. -/
theorem foreign_untouched (hw : Wf fs) (hr : ∀ t ∈ ts, Regular flt t) {p q : Path} {e : Entry}
    (hq : get fs q = some e) (hne : e ≠ .dir) (hi : ¬ Installed flt ts q) (hp : Above p q) :
    get (uninstall flt ok fs ts) p = get fs p := by
  refine uninstall_keeps hw hr ?_ ?_
  · rintro ⟨h1, h2⟩
    by_cases hpq : p = q
    · subst hpq; exact hi h1
    · exact h2 (hw.above hp (by rw [hq]; simp) hpq)
  · intro h
    have := h.2 q e hp hq
    rw [if_neg hne] at this
    exact hi this

/-- The result of uninstalling does not depend on the order. -/
theorem uninstall_order (hw : Wf fs) (hr : ∀ t ∈ ts, Regular flt t) (hroots : SameRoots ts)
    (hok : ok [] = false) {us : List Item} (hu : ∀ t, t ∈ us ↔ t ∈ ts) (p : Path) :
    get (uninstall flt ok fs us) p = get (uninstall flt ok fs ts) p := by
  have hI : ∀ q, Installed flt us q ↔ Installed flt ts q := by
    intro q
    constructor
    · rintro ⟨t, ht, h⟩; exact ⟨t, (hu t).mp ht, h⟩
    · rintro ⟨t, ht, h⟩; exact ⟨t, (hu t).mpr ht, h⟩
  have hC : ∀ q, Covered us q ↔ Covered ts q := by
    intro q
    constructor
    · rintro ⟨t, ht, h⟩; exact ⟨t, (hu t).mp ht, h⟩
    · rintro ⟨t, ht, h⟩; exact ⟨t, (hu t).mpr ht, h⟩
  have hH : Hollow flt ok us fs p ↔ Hollow flt ok ts fs p := by
    unfold Hollow
    simp only [hI, hC]
  have a := uninstall_result (p := p) (ts := us) hw (fun t ht => hr t ((hu t).mp ht))
    (fun s hs t ht => hroots s ((hu s).mp hs) t ((hu t).mp ht)) hok
  have b := uninstall_result (p := p) hw hr hroots hok
  rw [hI, hH] at a
  by_cases h1 : Installed flt ts p ∧ get fs p ≠ some .dir
  · rw [a.1 h1.1 h1.2, b.1 h1.1 h1.2]
  · by_cases h2 : Hollow flt ok ts fs p
    · rw [a.2.1 h2, b.2.1 h2]
    · rw [a.2.2 h1 h2, b.2.2 h1 h2]

/-- Installing and then uninstalling, in whatever order, leaves the
filesystem as it was. Conditions: nothing is in the way; none of the files
and links is there yet; the outermost directories are there or can be
created on their own; the leading directories that are there are not empty
(nor have just other such directories); the filter is for files only; and
the filesystem lets directories be removed. The first two and the last one
are in the nature of it; see below for what happens without the rest. -/
theorem install_uninstall_partial (hw : Wf fs) (hr : ∀ t ∈ ts, Regular flt t)
    (hroots : SameRoots ts) (hc : Compatible flt fs ts)
    (hnew : ∀ p, Installed flt ts p → get fs p = none)
    (hpar : ∀ t ∈ ts, ∀ x d, t.root = x :: d → get fs d = some .dir)
    (hfull : ∀ d, ¬ Hollow flt ok ts fs d)
    (hok : ∀ d, ok d = true ↔ d ≠ [])
    {us : List Item} (hu : ∀ t, t ∈ us ↔ t ∈ ts) :
    ∃ fs', install flt fs ts = .ok fs' ∧
      ∀ p, get (uninstall flt ok fs' us) p = get fs p := by
  obtain ⟨fs', h1, hw', hg⟩ := install_result hw hr hc
  refine ⟨fs', h1, fun p => ?_⟩
  have hok0 : ok [] = false := by
    cases h : ok [] with
    | false => rfl
    | true => exact absurd rfl ((hok []).mp h)
  rw [uninstall_order hw' hr hroots hok0 hu]
  have b := uninstall_result (p := p) hw' hr hroots hok0
  -- Directories that installing has created are leading ones.
  have hcov : ∀ q, get fs q = none → (∃ t ∈ ts, Above q t.dest) → Covered ts q := by
    rintro q hq ⟨t, ht, ha⟩
    rcases above_total ha (root_above_dest (hr t ht)) with h | h
    · by_cases e : q = t.root
      · exact ⟨t, ht, by rw [← e]; exact above_refl _, ha⟩
      · exfalso
        cases hroot : t.root with
        | nil => rw [hroot] at h e; exact e (above_nil_right h)
        | cons x d =>
          rw [hroot] at h e
          have hd := hpar t ht x d hroot
          rcases above_cons_iff.mp h with h | h
          · exact e h
          · by_cases e2 : q = d
            · rw [e2, hd] at hq; cases hq
            · rw [hw.above h (by rw [hd]; simp) e2] at hq; cases hq
    · exact ⟨t, ht, h, ha⟩
  have hcd : ∀ q, Covered ts q → ∃ t ∈ ts, Above q t.dest := by
    rintro q ⟨t, ht, -, h⟩; exact ⟨t, ht, h⟩
  by_cases hi : Installed flt ts p
  · rw [hnew p hi]
    apply b.1 hi
    cases hl : lastPut flt ts p with
    | none => exact absurd hi (lastPut_none.mp hl)
    | some e =>
      rw [(hg p).1 e hl]
      intro h
      exact lastPut_not_dir hl (Option.some.inj h)
  · have hni : ¬ (Installed flt ts p ∧ get fs' p ≠ some .dir) := fun h => hi h.1
    by_cases ha : ∃ t ∈ ts, Above p t.dest
    · have hp' := (hg p).2.1 hi ha
      obtain ⟨t, ht, hat⟩ := ha
      rcases hc.1 t ht p hat with hp | hp
      · rw [hp]
        apply b.2.1
        refine ⟨hp', fun q e hq he => ?_⟩
        have hq0 : get fs q = none := by
          apply Decidable.byContradiction
          intro hn
          by_cases e : p = q
          · rw [e] at hp; exact hn hp
          · rw [hw.above hq hn e] at hp; cases hp
        by_cases hqi : Installed flt ts q
        · have : e ≠ .dir := by
            cases hl : lastPut flt ts q with
            | none => exact absurd hqi (lastPut_none.mp hl)
            | some e' =>
              rw [(hg q).1 e' hl] at he
              rw [← Option.some.inj he]
              exact lastPut_not_dir hl
          rw [if_neg this]
          exact hqi
        · by_cases hqa : ∃ t ∈ ts, Above q t.dest
          · rw [(hg q).2.1 hqi hqa] at he
            rw [← Option.some.inj he, if_pos rfl]
            refine ⟨hcov q hq0 hqa, (hok q).mpr ?_⟩
            rintro rfl
            rw [get_nil] at hq0; cases hq0
          · rw [(hg q).2.2 hqi hqa, hq0] at he; cases he
      · rw [hp, ← hp']
        apply b.2.2 hni
        intro hh
        refine hfull p ⟨hp, fun q e hq he => ?_⟩
        by_cases hqi : Installed flt ts q
        · rw [hnew q hqi] at he; cases he
        · by_cases hqa : ∃ t ∈ ts, Above q t.dest
          · obtain ⟨s, hs, hqs⟩ := hqa
            have := hh.2 q .dir hq ((hg q).2.1 hqi ⟨s, hs, hqs⟩)
            rw [if_pos rfl] at this
            rcases hc.1 s hs q hqs with h | h
            · rw [h] at he; cases he
            · rw [h] at he
              rw [← Option.some.inj he, if_pos rfl]
              exact this
          · exact hh.2 q e hq (by rw [(hg q).2.2 hqi hqa]; exact he)
    · rw [← (hg p).2.2 hi ha]
      apply b.2.2 hni
      intro hh
      have := hh.2 p .dir (above_refl p) hh.1
      rw [if_pos rfl] at this
      exact ha (hcd p this.1)

/-- One installation root for all: the condition on the roots is met. -/
theorem same_roots_of_one (r : Path) (h : ∀ t ∈ ts, t.root = r) : SameRoots ts := by
  rintro s hs t ht x d e ⟨h1, -⟩
  rw [h t ht] at e
  rw [h s hs, e] at h1
  exact not_above_cons x d h1

/-- The directories that an `install` variable is resolved to are nested,
with the outermost one first, and the last one is where the files go: what
the first name is resolved to plus the rest of the components. -/
theorem resolve_nested (vars : String → Option Dir) (n : Nat) (d : Dir) (rs : List Path)
    (h : resolve vars n d = .ok rs) : rs ≠ [] ∧ Nested rs := by
  induction n generalizing d rs with
  | zero => cases h
  | succ n ih =>
    cases d with
    | abs p => cases h; exact ⟨by simp, trivial⟩
    | rel cs =>
      cases cs with
      | nil => cases h
      | cons c cs =>
        rw [resolve] at h
        cases hv : vars c with
        | none => rw [hv] at h; cases h
        | some d' =>
          rw [hv] at h
          simp only [bind, Except.bind] at h
          cases hr : resolve vars n d' with
          | error e => rw [hr] at h; cases h
          | ok qs =>
            rw [hr] at h
            simp only at h
            injection h with h
            subst h
            obtain ⟨h1, h2⟩ := ih d' qs hr
            refine ⟨by simp, ?_⟩
            clear hr hv ih
            induction qs with
            | nil => exact absurd rfl h1
            | cons a qs ihq =>
              cases qs with
              | nil => exact ⟨⟨cs.reverse, rfl⟩, trivial⟩
              | cons b qs =>
                refine ⟨h2.1, ?_⟩
                have := ihq (by simp) h2.2
                rw [List.getLast?_cons_cons]
                exact this

/-- The files go to where the first name is resolved to plus the rest. -/
theorem resolve_last (vars : String → Option Dir) (n : Nat) (c : String) (cs : List String)
    (rs : List Path) (h : resolve vars (n + 1) (.rel (c :: cs)) = .ok rs) :
    ∃ d qs p, vars c = some d ∧ resolve vars n d = .ok qs ∧ qs.getLast? = some p ∧
      rs.getLast? = some (cs.reverse ++ p) := by
  rw [resolve] at h
  cases hv : vars c with
  | none => rw [hv] at h; cases h
  | some d =>
    rw [hv] at h
    simp only [bind, Except.bind] at h
    cases hr : resolve vars n d with
    | error e => rw [hr] at h; cases h
    | ok qs =>
      rw [hr] at h
      simp only at h
      injection h with h
      subst h
      cases hq : qs.getLast? with
      | none => exact absurd (List.getLast?_eq_none_iff.mp hq) (resolve_nested vars n d qs hr).1
      | some p => exact ⟨d, qs, p, rfl, hr, hq, by simp⟩

/-- What is filtered: the first filter that determines the outcome does so,
and if there is none, then the entry is included (or excluded if the filter
is negated). A filter that includes a directory determines nothing, but of
the filters for directories after it only those for the directories inside
count. -/
theorem filter_outcome (negate : Bool) (rs : List Rule) (hne : rs ≠ []) (base : Path)
    (leaf : String) (k : Kind) :
    ((∃ pre r post, rs = pre ++ r :: post ∧ r.Decides pre base leaf (k = .symlink) ∧
        (∀ a x b, pre = a ++ x :: b → ¬ x.Decides a base leaf (k = .symlink)) ∧
        (filterOf negate rs).ent base leaf k = (if negate then !r.value else r.value)) ∨
      ((∀ pre r post, rs = pre ++ r :: post → ¬ r.Decides pre base leaf (k = .symlink)) ∧
        (filterOf negate rs).ent base leaf k = !negate)) ∧
    ((∃ pre r post, rs = pre ++ r :: post ∧ r.Decides pre base "" false ∧
        (∀ a x b, pre = a ++ x :: b → ¬ x.Decides a base "" false) ∧
        (filterOf negate rs).dir base = (if negate then !r.value else r.value)) ∨
      ((∀ pre r post, rs = pre ++ r :: post → ¬ r.Decides pre base "" false) ∧
        (filterOf negate rs).dir base = !negate)) := by
  have h0 : ∀ link leaf, Limit base leaf link [] 0 := by
    intro link leaf n
    constructor
    · intro h; omega
    · rintro ⟨o, ho, -⟩; cases ho
  constructor
  · have := filterLoop_outcome negate base leaf (k = .symlink) [] rs 0 (h0 _ _)
    unfold Outcome at this
    simp only [List.nil_append] at this
    simp only [filterOf, if_neg hne]
    exact this
  · have := filterLoop_outcome negate base "" false [] rs 0 (h0 _ _)
    unfold Outcome at this
    simp only [List.nil_append] at this
    simp only [filterOf, if_neg hne]
    exact this

/-- The filter from the manual: `include/x86/` is included without
`include/x86/details/` and without the rest of `include/`. -/
example :
    let flt := filterOf false
      [⟨.dir [(· = "usr"), (· = "include"), (· = "x86")], true, false⟩,
       ⟨.dir [(· = "usr"), (· = "include"), (· = "x86"), (· = "details")], false, false⟩,
       ⟨.dir [(· = "usr"), (· = "include")], false, false⟩]
    flt.ent ["x86", "include", "usr"] "a.h" .regular = true ∧
    flt.ent ["details", "x86", "include", "usr"] "a.h" .regular = false ∧
    flt.ent ["include", "usr"] "a.h" .regular = false ∧
    flt.ent ["lib", "usr"] "a.so" .symlink = true := by
  decide

/-- All names are resolved to inside of the root if none of them is given
as an absolute path. -/
theorem resolve_root (vars : String → Option Dir) (r : Path)
    (hv : ∀ c p, vars c = some (.abs p) → p = r) (n : Nat) (cs : List String) (rs : List Path)
    (h : resolve vars n (.rel cs) = .ok rs) : rs.head? = some r := by
  induction n generalizing cs rs with
  | zero => cases h
  | succ n ih =>
    cases cs with
    | nil => cases h
    | cons c cs =>
      rw [resolve] at h
      cases hvc : vars c with
      | none => rw [hvc] at h; cases h
      | some d' =>
        rw [hvc] at h
        simp only [bind, Except.bind] at h
        cases hr : resolve vars n d' with
        | error e => rw [hr] at h; cases h
        | ok qs =>
          rw [hr] at h
          simp only at h
          injection h with h
          subst h
          have : qs.head? = some r := by
            cases d' with
            | abs p =>
              cases n with
              | zero => cases hr
              | succ n =>
                cases hr
                rw [hv c p hvc]; rfl
            | rel ds => exact ih ds qs hr
          cases qs with
          | nil => cases this
          | cons a qs => exact this

/-! ## Examples -/

/-- Everything is installed. -/
def allOf : Filter := ⟨fun _ => true, fun _ _ _ => true⟩

/-- Everything but the root can be removed. -/
def anyDir (d : Path) : Bool := d ≠ []

/-- The directories of the `install` module: `bin` and `lib` in `exec_root`,
which is the same as `root`. -/
def stdVars : String → Option Dir
  | "root" => some (.abs ["usr"])
  | "exec_root" => some (.rel ["root"])
  | "bin" => some (.rel ["exec_root", "bin"])
  | "lib" => some (.rel ["exec_root", "lib"])
  | "include" => some (.rel ["root", "include"])
  | _ => none

example : resolve stdVars 9 (.rel ["lib", "x", "y"]) =
    .ok [["usr"], ["usr"], ["lib", "usr"], ["y", "x", "lib", "usr"]] := rfl

def lib : Item :=
  { dirs := [["usr"], ["usr"], ["lib", "usr"], ["x", "lib", "usr"]]
    src := "libx.so.1.2", orig := "libx.so.1.2", name := none, content := "so"
    links := [("libx.so.1", "libx.so.1.2"), ("libx.so", "libx.so.1")] }

def exe : Item :=
  { dirs := [["usr"], ["usr"], ["bin", "usr"]]
    src := "x.tmp", orig := "x", name := none, content := "exe", links := [] }

/-- `/usr/lib` is there and has a file. -/
def host : FS :=
  [(["usr"], .dir), (["lib", "usr"], .dir), (["liby.so", "lib", "usr"], .file "y")]

def toList : Except Err FS → FS
  | .ok fs => fs
  | .error _ => []

/-- The conditions are met, and nothing is left. -/
example :
    (let fs' := toList (install allOf host [lib, exe])
     get fs' ["libx.so", "x", "lib", "usr"] = some (.link "libx.so.1") ∧
     get fs' ["x", "bin", "usr"] = some (.file "exe") ∧
     get fs' ["x", "lib", "usr"] = some .dir ∧
     (uninstall allOf anyDir fs' [exe, lib]).length = host.length ∧
     (∀ e ∈ host, e ∈ uninstall allOf anyDir fs' [exe, lib])) := by
  decide

instance : DecidablePred (Above d) := fun p =>
  decidable_of_iff (d <:+ p) ⟨fun ⟨s, h⟩ => ⟨s, h.symm⟩, fun ⟨s, h⟩ => ⟨s, h.symm⟩⟩

example : Regular allOf lib :=
  ⟨by decide, by simp only [lib, Nested]; decide, fun _ _ _ => rfl⟩

theorem installed_lib (p : Path) : Installed allOf [lib, exe] p ↔
    p ∈ [["libx.so.1.2", "x", "lib", "usr"], ["libx.so.1", "x", "lib", "usr"],
      ["libx.so", "x", "lib", "usr"], ["x", "bin", "usr"]] := by
  unfold Installed
  constructor
  · rintro ⟨t, ht, e, he⟩
    simp only [List.mem_cons, List.not_mem_nil, or_false] at ht
    rcases ht with rfl | rfl
    · simp [Item.puts, allOf, lib, Item.leaf, Item.dest] at he
      rcases he with h | h | h <;> simp [h.1]
    · simp [Item.puts, allOf, exe, Item.leaf, Item.dest] at he
      simp [he.1]
  · intro h
    simp only [List.mem_cons, List.not_mem_nil, or_false] at h
    rcases h with rfl | rfl | rfl | rfl
    · exact ⟨lib, by simp, .file "so", by decide⟩
    · exact ⟨lib, by simp, .link "libx.so.1.2", by decide⟩
    · exact ⟨lib, by simp, .link "libx.so.1", by decide⟩
    · exact ⟨exe, by simp, .file "exe", by decide⟩

example : Compatible allOf host [lib, exe] := by
  refine ⟨?_, ?_, ?_⟩
  · intro t ht d ⟨s, hs⟩
    simp only [List.mem_cons, List.not_mem_nil, or_false] at ht
    rcases ht with rfl | rfl
    · have : d ∈ [["x", "lib", "usr"], ["lib", "usr"], ["usr"], []] := by
        have : d <:+ ["x", "lib", "usr"] := ⟨s, hs.symm⟩
        simpa [List.suffix_cons_iff] using this
      simp only [List.mem_cons, List.not_mem_nil, or_false] at this
      rcases this with rfl | rfl | rfl | rfl <;> decide
    · have : d ∈ [["bin", "usr"], ["usr"], []] := by
        have : d <:+ ["bin", "usr"] := ⟨s, hs.symm⟩
        simpa [List.suffix_cons_iff] using this
      simp only [List.mem_cons, List.not_mem_nil, or_false] at this
      rcases this with rfl | rfl | rfl <;> decide
  · intro p hp
    rw [installed_lib] at hp
    simp only [List.mem_cons, List.not_mem_nil, or_false] at hp
    rcases hp with rfl | rfl | rfl | rfl <;> decide
  · intro p hp t ht
    rw [installed_lib] at hp
    simp only [List.mem_cons, List.not_mem_nil, or_false] at hp ht
    rcases ht with rfl | rfl <;> rcases hp with rfl | rfl | rfl | rfl <;> decide

/-- `/usr` has something else, so it is not hollow, and neither is what is
in it. -/
example : ∀ d, ¬ Hollow allOf anyDir [lib, exe] host d := by
  intro d h
  obtain ⟨h1, h2⟩ := h
  have hy : ¬ Installed allOf [lib, exe] ["liby.so", "lib", "usr"] := by
    rw [installed_lib]; decide
  have : d ∈ [[], ["usr"], ["lib", "usr"]] := by
    cases d with
    | nil => simp
    | cons x d =>
      obtain ⟨e, he⟩ := get_ne_none_iff.mp (show get host (x :: d) ≠ none by rw [h1]; simp)
      simp only [host, List.mem_cons, Prod.mk.injEq, List.not_mem_nil, or_false] at he
      rcases he with ⟨h, -⟩ | ⟨h, -⟩ | ⟨h, -⟩
      · rw [h]; simp
      · rw [h]; simp
      · rw [h] at h1; exact absurd h1 (by decide)
  simp only [List.mem_cons, List.not_mem_nil, or_false] at this
  rcases this with rfl | rfl | rfl
  all_goals exact hy (h2 ["liby.so", "lib", "usr"] (.file "y") (by decide) (by decide))

/-! ## What the conditions are for -/

/-- The directories above the outermost one are created but not removed. -/
theorem root_parents_left :
    let t : Item := { dirs := [["foo", "opt"]], src := "x", orig := "x", name := none,
                      content := "", links := [] }
    uninstall allOf anyDir (toList (install allOf [] [t])) [t] = [(["opt"], .dir)] := by
  decide

/-- An outermost directory inside of another one (`lib` is given as an
absolute path inside of `root`): whether `root` is removed depends on the
order. -/
theorem order_matters :
    let a : Item := { dirs := [["o"], ["bin", "o"]], src := "x", orig := "x", name := none,
                      content := "", links := [] }
    let b : Item := { dirs := [["lib", "o"]], src := "y", orig := "y", name := none,
                      content := "", links := [] }
    let fs' := toList (install allOf [] [a, b])
    uninstall allOf anyDir fs' [a, b] = [(["o"], .dir)] ∧
    uninstall allOf anyDir fs' [b, a] = [] := by
  decide

/-- A file that is installed with a name (`install: bin/foo`) that is a
directory goes inside, and is not found there when uninstalling. -/
theorem name_is_directory :
    let t : Item := { dirs := [["bin"]], src := "x", orig := "x", name := some "foo",
                      content := "", links := [] }
    let fs : FS := [(["bin"], .dir), (["foo", "bin"], .dir)]
    get (toList (install allOf fs [t])) ["x", "foo", "bin"] = some (.file "") ∧
    uninstall allOf anyDir (toList (install allOf fs [t])) [t] = toList (install allOf fs [t]) := by
  decide

/-- A leading directory that was there, and empty, is removed. -/
theorem empty_directory_removed :
    let t : Item := { dirs := [["bin"]], src := "x", orig := "x", name := none,
                      content := "", links := [] }
    uninstall allOf anyDir (toList (install allOf [(["bin"], .dir)] [t])) [t] = [] := by
  decide

/-- The filter from the manual (`include/x86/@true include/x86/details/@false
include/@false`) lets `include/x86` through but not `include`: it is created
but not removed. -/
theorem filter_leaves_directory :
    let flt := filterOf false
      [⟨.dir [(· = "usr"), (· = "include"), (· = "x86")], true, false⟩,
       ⟨.dir [(· = "usr"), (· = "include"), (· = "x86"), (· = "details")], false, false⟩,
       ⟨.dir [(· = "usr"), (· = "include")], false, false⟩]
    let t : Item := { dirs := [["usr"], ["include", "usr"], ["x86", "include", "usr"]],
                      src := "x.h", orig := "x.h", name := none, content := "", links := [] }
    uninstall flt anyDir (toList (install flt [] [t])) [t] =
      [(["include", "usr"], .dir), (["usr"], .dir)] := by
  decide

/-- The negated filter from the manual (`! include/@false *.a@false`) lets
archives through but not the directory they go to: if that is not there, a
file with its name is created. -/
theorem filter_file_for_directory :
    let flt := filterOf true
      [⟨.dir [(· = "usr"), (· = "include")], false, false⟩,
       ⟨.leaf (fun s => s.toList.reverse.take 2 = ['a', '.']), false, false⟩]
    let h : Item := { dirs := [["usr"], ["include", "usr"]], src := "x.h", orig := "x.h",
                      name := none, content := "h", links := [] }
    let a : Item := { dirs := [["usr"], ["lib", "usr"]], src := "x.a", orig := "x.a",
                      name := none, content := "a", links := [] }
    get (toList (install flt [] [h, a])) ["lib", "usr"] = some (.file "a") := by
  decide

/-- A variable that is relative to itself is never resolved. -/
theorem resolve_cycle :
    ∀ n, resolve (fun _ => some (.rel ["lib", "x"])) n (.rel ["lib"]) = .error .cycle := by
  have : ∀ n cs, resolve (fun _ => some (.rel ["lib", "x"])) n (.rel ("lib" :: cs)) =
      .error .cycle := by
    intro n
    induction n with
    | zero => intro cs; rfl
    | succ n ih =>
      intro cs
      rw [resolve]
      simp only [ih ["x"]]
      rfl
  exact fun n => this n []

end Verif.Install
