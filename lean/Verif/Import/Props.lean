import Verif.Import.Lemmas

/-!
# Importation: properties

What a user says about a target takes precedence over what they say about its project, and that over
anything that is discovered; of what is discovered the nearest is taken. Variables of other projects
don't matter, nor does the order of directory entries.
-/

namespace Verif.Import

/-! ## An example: `hello` in the amalgamation `bundle`, which also has `libhello` and is itself
amalgamated by `all` -/

/-- Names are compared as they are; what is not alphanumeric becomes an underscore. -/
def exLib : Lib where
  same a b := a == b
  varName a := a.map fun c => if c.isAlphanum || c == '_' then c else '_'
  sanitize a := a.map fun c => if c.isAlphanum || c == '_' then c else '_'
  lower := Char.toLower

private theorem no_dot (a : Str) :
    '.' ∉ a.map (fun c => if c.isAlphanum || c == '_' then c else '_') := by
  intro h
  rw [List.mem_map] at h
  obtain ⟨c, _, hc⟩ := h
  by_cases hh : (c.isAlphanum || c == '_') = true
  · rw [if_pos hh] at hc
    subst hc
    exact absurd hh (by decide)
  · rw [if_neg hh] at hc
    exact absurd hc (by decide)

theorem exLib_ok : exLib.Ok where
  refl a := by simp [exLib]
  symm a b h := by simp only [exLib, beq_iff_eq] at h ⊢; exact h.symm
  trans a b c h h' := by simp only [exLib, beq_iff_eq] at h h' ⊢; exact h.trans h'
  varName := no_dot
  sanitize := no_dot

def abs (xs : List String) : Path := ⟨true, xs.map String.toList, true⟩

def exRoots : List Root :=
  [⟨abs ["all", "bundle", "hello"], "hello".toList, [("tests".toList, ["tests".toList])], true⟩,
   ⟨abs ["all", "bundle"], "bundle".toList,
     [("hello".toList, ["hello".toList]), ("libhello".toList, ["libhello".toList])], true⟩,
   ⟨abs ["all"], "all".toList,
     [("bundle".toList, ["bundle".toList]), ("libhello".toList, ["lib".toList])], false⟩]

def exEnv (cfg : List (String × Option Path)) : Env where
  lib := exLib
  cfg v := (cfg.find? (fun x => x.1.toList == v)).map Prod.snd
  build2 := some (abs ["build2"])
  base := ["all".toList, "bundle".toList, "hello".toList]
  roots := exRoots
  kind t := if t.type == "exe".toList then some true
    else if t.type == "lib".toList then some false else none

def tgt (p : Option String) (ty v : String) : Tgt := ⟨p.map String.toList, noDir, ty.toList, v.toList⟩

/-- What is imported. -/
def resOf : Except Err Res → Option Res
  | .ok r => some r
  | .error _ => none

/-- The failure. -/
def errOf : Except Err Res → Option Err
  | .ok _ => none
  | .error e => some e

example : resOf (importSearch (exEnv []) false true (tgt (some "libhello") "lib" "hello")) =
    some ⟨some (tgt (some "libhello") "lib" "hello"), .project (abs ["all", "bundle", "libhello"]),
      none⟩ := by decide +kernel

example : resOf (importSearch (exEnv [("config.import.libhello", some (abs ["opt", "lh"]))]) false
    true (tgt (some "libhello") "lib" "hello")) =
    some ⟨some (tgt (some "libhello") "lib" "hello"), .project (abs ["opt", "lh"]), none⟩ := by
  decide +kernel

/-! ## Unqualified targets -/

/-- A target without a project is one of the importing project. -/
theorem local_own {e : Env} {opt subp : Bool} {t : Tgt} {r : Root} {rs : List Root}
    (hr : e.roots = r :: rs) (hn : r.name ≠ []) (hp : t.proj = none) (ha : t.dir.abs = false)
    (hv : t.type ≠ [] ∨ t.value ≠ [] ∨ t.dir.empty = true) :
    importSearch e opt subp t = .ok ⟨some { t with proj := some r.name }, .project r.out, none⟩ := by
  unfold importSearch
  rw [hp]
  dsimp only
  have h1 : ¬ (t.type.isEmpty && !t.dir.empty && t.value.isEmpty && !t.dir.abs) = true := by
    rcases hv with h | h | h
    · cases hh : t.type with
      | nil => exact absurd hh h
      | cons a b => simp
    · cases hh : t.value with
      | nil => exact absurd hh h
      | cons a b => simp
    · simp [h]
  rw [if_neg h1, ha, hr]
  have h2 : ¬ r.name.isEmpty = true := by simpa using hn
  simp only [Bool.false_eq_true, if_false]
  rw [if_neg h2]

/-- A directory is imported from where it is: relative to the directory of the buildfile. -/
theorem adhoc_dir {e : Env} {opt subp : Bool} {t : Tgt} (hp : t.proj = none)
    (ht : t.type = []) (hv : t.value = []) (hd : t.dir.empty = false) :
    importSearch e opt subp t = .ok (if t.dir.abs then ⟨some t, .project t.dir, none⟩
      else ⟨some { t with dir := ⟨true, e.base ++ t.dir.comps, true⟩ },
        .project ⟨true, e.base ++ t.dir.comps, true⟩, none⟩) := by
  unfold importSearch
  rw [hp]
  dsimp only
  cases ha : t.dir.abs with
  | true => simp [ha, ht, hv, hd]
  | false => simp [ht, hv, hd]

/-- A target in an absolute directory is imported from there. -/
theorem adhoc_absolute {e : Env} {opt subp : Bool} {t : Tgt} (hp : t.proj = none)
    (ha : t.dir.abs = true) :
    importSearch e opt subp t = .ok ⟨some t, .project t.dir, none⟩ := by
  unfold importSearch
  rw [hp]
  simp [ha]

/-- An unnamed project has no targets of its own to import, an absolute directory cannot be in a
project, and a target of the project without a name is always up to rules. -/
theorem local_fails {e : Env} {opt subp : Bool} {t : Tgt} :
    (∀ r rs, e.roots = r :: rs → r.name = [] → t.proj = none → t.dir.abs = false → t.type ≠ [] →
      importSearch e opt subp t = .error .unnamedProject) ∧
    (∀ p, t.proj = some p → p ≠ [] → t.dir.abs = true →
      importSearch e opt subp t = .error .absoluteDir) ∧
    (t.proj = some [] → importSearch e opt subp t = .ok ⟨some t, .nowhere, none⟩) := by
  refine ⟨fun r rs hr hn hp ha ht => ?_, fun p hp hn ha => ?_, fun hp => ?_⟩
  · unfold importSearch
    rw [hp]
    have h1 : t.type.isEmpty = false := by
      cases hh : t.type with
      | nil => exact absurd hh ht
      | cons a b => rfl
    simp [h1, ha, hr, hn]
  · unfold importSearch
    rw [hp]
    dsimp only
    rw [if_neg (by simpa using hn), if_pos ha]
  · unfold importSearch
    rw [hp]
    rfl

example : resOf (importSearch (exEnv []) false true (tgt none "exe" "h")) =
      some ⟨some (tgt (some "hello") "exe" "h"), .project (abs ["all", "bundle", "hello"]), none⟩ ∧
    resOf (importSearch (exEnv []) false true ⟨none, ⟨false, ["x".toList], true⟩, [], []⟩) =
      some ⟨some ⟨none, abs ["all", "bundle", "hello", "x"], [], []⟩,
        .project (abs ["all", "bundle", "hello", "x"]), none⟩ := by decide +kernel

/-! ## What the user says about the target -/

/-- A target that is qualified with the name of a project. -/
structure Qualified (t : Tgt) (p : Str) : Prop where
  proj : t.proj = some p
  named : p ≠ []
  rel : t.dir.abs = false

private theorem search_qualified {e : Env} {opt subp : Bool} {t : Tgt} {p : Str}
    (h : Qualified t p) : importSearch e opt subp t =
      match (if t.value.isEmpty then .ok none else lookupTarget e opt p { t with proj := none }) with
      | .error x => .error x
      | .ok (some r) => adhocTarget e p { t with proj := none } r
      | .ok none =>
        match e.cfg (projVar e.lib p) with
        | some none => .ok ⟨some t, .nowhere, none⟩
        | some (some d) =>
          if d.empty then .ok ⟨some t, .nowhere, none⟩ else .ok ⟨some t, .project d, none⟩
        | none =>
          match (if e.lib.same p "build2".toList then e.build2 else none) with
          | some d =>
            if d.empty then .ok ⟨some t, .nowhere, none⟩ else .ok ⟨some t, .project d, none⟩
          | none =>
            if subp then
              match searchRoots e.lib p true e.roots with
              | .error x => .error x
              | .ok none => .ok ⟨some t, .nowhere, none⟩
              | .ok (some d) => .ok ⟨some t, .project d, none⟩
            else .ok ⟨some t, .nowhere, none⟩ := by
  unfold importSearch
  rw [h.proj]
  dsimp only
  have h1 : ¬ p.isEmpty = true := by simpa using h.named
  rw [if_neg h1, h.rel]
  simp only [Bool.false_eq_true, if_false]
  rfl

/-- What is said does not depend on how the target is qualified. -/
private theorem says_unqualified {e : Env} {p : Str} {t : Tgt} {v : Option Path} {x : Bool} :
    Says e p { t with proj := none } v x ↔ Says e p t v x := by
  constructor <;> intro h
  · cases h with
    | tool h1 h2 => exact .tool h1 h2
    | type h1 h2 h3 => exact .type h1 h2 h3
    | name h1 h2 h3 => exact .name h1 h2 h3
  · cases h with
    | tool h1 h2 => exact .tool h1 h2
    | type h1 h2 h3 => exact .type (t := { t with proj := none }) h1 h2 h3
    | name h1 h2 h3 => exact .name h1 h2 h3

private theorem search_says {e : Env} {opt subp : Bool} {t : Tgt} {p : Str}
    (h : Qualified t p) (hv : t.value ≠ []) {v : Option Path} {x : Bool} (hs : Says e p t v x) :
    importSearch e opt subp t =
      match valueOf opt v x with
      | .error y => .error y
      | .ok r => adhocTarget e p { t with proj := none } r := by
  rw [search_qualified h]
  have h1 : ¬ t.value.isEmpty = true := by simpa using hv
  rw [if_neg h1, lookupTarget_says (says_unqualified.2 hs)]
  cases valueOf opt v x <;> rfl

/-- The value of a variable is null; for executables, `false` is. -/
def IsNull (v : Option Path) (exe : Bool) : Prop :=
  v = none ∨ (exe = true ∧ v = some ⟨false, ["false".toList], false⟩)

/-- If the first variable about the target that is defined is null, an optional import yields null,
any other fails, whatever else there is. -/
theorem explicit_null {e : Env} {opt subp : Bool} {t : Tgt} {p : Str} (h : Qualified t p)
    (hv : t.value ≠ []) {v : Option Path} {x : Bool} (hs : Says e p t v x) (hn : IsNull v x) :
    importSearch e opt subp t = if opt then .ok ⟨none, .adhoc, none⟩ else .error .nullValue := by
  rw [search_says h hv hs]
  rcases hn with rfl | ⟨rfl, rfl⟩ <;> cases opt <;> rfl

/-- If it is empty then importation fails. -/
theorem explicit_empty {e : Env} {opt subp : Bool} {t : Tgt} {p : Str} (h : Qualified t p)
    (hv : t.value ≠ []) {q : Path} {x : Bool} (hs : Says e p t (some q) x) (hq : q.empty = true) :
    importSearch e opt subp t = .error .emptyPath := by
  rw [search_says h hv hs]
  unfold valueOf
  dsimp only
  rw [if_pos hq]

/-- The target that a path stands for: that path, or the same name in that directory. -/
def FromPath (t : Tgt) (q : Path) (t' : Tgt) : Prop :=
  t'.type = t.type ∧
  (q.dir = true → t'.dir = q ∧ t'.value = t.value) ∧
  (q.dir = false → ∃ front last, q.comps = front ++ [last] ∧ t'.dir = ⟨q.abs, front, true⟩ ∧
    t'.value = last)

/-- Otherwise it is the target, outside of any project, whatever else there is: with this path if
that is absolute and the type is one of files; else it is up to the rules, which get the path and the
name of the project. -/
theorem explicit_path {e : Env} {opt subp : Bool} {t : Tgt} {p : Str} (h : Qualified t p)
    (hv : t.value ≠ []) {q : Path} {x : Bool} (hs : Says e p t (some q) x)
    (hn : ¬ IsNull (some q) x) (he : q.empty = false) (hw : q.dir = false → q.comps ≠ []) :
    ∃ t', FromPath t q t' ∧
      ((q.abs = false ∨ e.kind { t' with proj := none } = some false) →
        importSearch e opt subp t = .ok ⟨some { t' with proj := some p }, .adhoc, none⟩) ∧
      (q.abs = true → e.kind { t' with proj := none } = some true →
        importSearch e opt subp t = .ok ⟨some { t' with proj := none }, .adhoc, some q⟩) ∧
      (q.abs = true → e.kind { t' with proj := none } = none →
        importSearch e opt subp t = .error .unknownType) := by
  have hval : valueOf opt (some q) x = .ok (some q) := by
    unfold valueOf
    dsimp only
    rw [he]
    simp only [Bool.false_eq_true, if_false]
    rw [if_pos]
    cases x with
    | false => rfl
    | true =>
      have : q ≠ ⟨false, ["false".toList], false⟩ := fun hh => hn (.inr ⟨rfl, by rw [hh]⟩)
      simp only [Bool.not_true, Bool.false_or, Bool.or_eq_true]
      exact .inr (bne_iff_ne.2 this)
  rw [search_says h hv hs, hval]
  dsimp only
  unfold adhocTarget
  dsimp only
  cases hd : q.dir with
  | true =>
    refine ⟨{ t with dir := q }, ⟨rfl, fun _ => ⟨rfl, rfl⟩, fun hh => by rw [hd] at hh; cases hh⟩, ?_⟩
    rw [if_pos rfl]
    cases ha : q.abs with
    | false => exact ⟨fun _ => rfl, fun hh => (by cases hh), fun hh => (by cases hh)⟩
    | true =>
      refine ⟨fun hh => ?_, fun _ hh => ?_, fun _ hh => ?_⟩
      · rcases hh with hh | hh
        · cases hh
        · simp only [Bool.not_true, Bool.false_eq_true, if_false]
          rw [hh]
      · simp only [Bool.not_true, Bool.false_eq_true, if_false]
        rw [hh]
      · simp only [Bool.not_true, Bool.false_eq_true, if_false]
        rw [hh]
  | false =>
    obtain hc | ⟨front, last, hc⟩ := List.eq_nil_or_concat q.comps
    · exact absurd hc (hw hd)
    · rw [List.concat_eq_append] at hc
      have e1 : q.comps.dropLast = front := by rw [hc]; simp
      have e2 : q.comps.getLast?.getD [] = last := by rw [hc]; simp
      refine ⟨{ t with dir := ⟨q.abs, front, true⟩, value := last },
        ⟨rfl, fun hh => absurd (hd.symm.trans hh) (by decide),
          fun _ => ⟨front, last, hc, rfl, rfl⟩⟩, ?_⟩
      rw [e1, e2]
      simp only [Bool.false_eq_true, if_false]
      cases ha : q.abs with
      | false => exact ⟨fun _ => rfl, fun hh => (by cases hh), fun hh => (by cases hh)⟩
      | true =>
        refine ⟨fun hh => ?_, fun _ hh => ?_, fun _ hh => ?_⟩
        · rcases hh with hh | hh
          · cases hh
          · simp only [Bool.not_true, Bool.false_eq_true, if_false]
            rw [hh]
        · simp only [Bool.not_true, Bool.false_eq_true, if_false]
          rw [hh]
        · simp only [Bool.not_true, Bool.false_eq_true, if_false]
          rw [hh]

example : errOf (importSearch (exEnv [("config.import.foo.bar", none)]) false true
      (tgt (some "foo") "exe" "bar")) = some .nullValue ∧
    resOf (importSearch (exEnv [("config.import.foo.bar", none)]) true true
      (tgt (some "foo") "exe" "bar")) = some ⟨none, .adhoc, none⟩ ∧
    errOf (importSearch (exEnv [("config.import.foo.bar", some noDir)]) true true
      (tgt (some "foo") "exe" "bar")) = some .emptyPath ∧
    Says (exEnv [("config.import.foo.bar", none)]) "foo".toList (tgt (some "foo") "exe" "bar") none
      false := by
  refine ⟨by decide +kernel, by decide +kernel, by decide +kernel, .name ?_ ?_ ?_⟩
  · intro h; exact absurd h.2 (by decide +kernel)
  · intro _; decide +kernel
  · decide +kernel

/-- With `config.import.foo.bar.exe` and `config.import.foo.bar`, the former applies. -/
example : resOf (importSearch (exEnv [("config.import.foo.bar", none),
      ("config.import.foo.bar.exe", some ⟨true, ["bin".toList, "b".toList], false⟩)]) false true
      (tgt (some "foo") "exe" "bar")) =
    some ⟨some ⟨none, abs ["bin"], "exe".toList, "b".toList⟩, .adhoc,
      some ⟨true, ["bin".toList, "b".toList], false⟩⟩ := by decide +kernel

/-! ## What the user says about the project -/

/-- Nothing is said about the target. -/
def Silent (e : Env) (p : Str) (t : Tgt) : Prop := t.value ≠ [] → ∀ v x, ¬ Says e p t v x

private theorem search_silent {e : Env} {opt subp : Bool} {t : Tgt} {p : Str}
    (h : Qualified t p) (hs : Silent e p t) : importSearch e opt subp t =
        match e.cfg (projVar e.lib p) with
        | some none => .ok ⟨some t, .nowhere, none⟩
        | some (some d) =>
          if d.empty then .ok ⟨some t, .nowhere, none⟩ else .ok ⟨some t, .project d, none⟩
        | none =>
          match (if e.lib.same p "build2".toList then e.build2 else none) with
          | some d =>
            if d.empty then .ok ⟨some t, .nowhere, none⟩ else .ok ⟨some t, .project d, none⟩
          | none =>
            if subp then
              match searchRoots e.lib p true e.roots with
              | .error x => .error x
              | .ok none => .ok ⟨some t, .nowhere, none⟩
              | .ok (some d) => .ok ⟨some t, .project d, none⟩
            else .ok ⟨some t, .nowhere, none⟩ := by
  rw [search_qualified h]
  by_cases hv : t.value = []
  · rw [hv]; rfl
  · have h1 : ¬ t.value.isEmpty = true := by simpa using hv
    rw [if_neg h1, lookupTarget_none (fun v x hh => hs hv v x (says_unqualified.1 hh))]

/-- If nothing is said about the target, but about its project, then it is imported from there, or
from nowhere if that is null or empty, whatever projects there are. -/
theorem project_wins {e : Env} {opt subp : Bool} {t : Tgt} {p : Str} (h : Qualified t p)
    (hs : Silent e p t) {v : Option Path} (hv : e.cfg (projVar e.lib p) = some v) :
    ((v = none ∨ ∃ d, v = some d ∧ d.empty = true) →
      importSearch e opt subp t = .ok ⟨some t, .nowhere, none⟩) ∧
    (∀ d, v = some d → d.empty = false →
      importSearch e opt subp t = .ok ⟨some t, .project d, none⟩) := by
  rw [search_silent h hs, hv]
  constructor
  · rintro (rfl | ⟨d, rfl, hd⟩)
    · rfl
    · simp [hd]
  · rintro d rfl hd
    simp [hd]

/-! ## What is discovered -/

/-- Nothing is said about the project either. -/
structure Unspecified (e : Env) (p : Str) (t : Tgt) : Prop where
  target : Silent e p t
  project : e.cfg (projVar e.lib p) = none
  build2 : e.lib.same p "build2".toList = true → e.build2 = none

/-- Then it is imported from the nearest project that provides it, if there is one, and from nowhere
if there is none; the target remains as it is. -/
theorem discovered_nearest {e : Env} {opt : Bool} {t : Tgt} {p : Str} (h : Qualified t p)
    (hu : Unspecified e p t) (hc : Closed e.roots) :
    (∃ d, Nearest e.lib p e.roots d ∧
      importSearch e opt true t = .ok ⟨some t, .project d, none⟩) ∨
    ((∀ d, ¬ Nearest e.lib p e.roots d) ∧
      importSearch e opt true t = .ok ⟨some t, .nowhere, none⟩) := by
  have hb : (if e.lib.same p "build2".toList = true then e.build2 else none) = none := by
    split
    · rename_i hh; exact hu.build2 hh
    · rfl
  rw [search_silent h hu.target, hu.project]
  dsimp only
  rw [hb]
  simp only [if_true]
  have := searchRoots_spec (l := e.lib) (p := p) e.roots 0 true ⟨fun _ => rfl, fun _ => rfl⟩
  cases hr : searchRoots e.lib p true e.roots with
  | error x =>
    rw [hr] at this
    obtain ⟨r, hr1, hr2⟩ := hc
    have := this.2 r hr1
    rw [hr2] at this; cases this
  | ok o =>
    rw [hr] at this
    cases o with
    | some d =>
      left
      obtain ⟨j, r, h1, h2, h3⟩ := this
      refine ⟨d, ⟨j, r, h1, by rw [Nat.zero_add] at h2; exact h2, ?_⟩, rfl⟩
      intro k q hk hq
      have := h3 k q hk hq
      rw [Nat.zero_add] at this
      exact this
    | none =>
      right
      refine ⟨?_, rfl⟩
      obtain ⟨j, r, h1, h2, h3, h4⟩ := this
      rintro d ⟨i, q, hq, hp, hb⟩
      by_cases hij : i ≤ j
      · have := h4 i q hij hq d
        rw [Nat.zero_add] at this
        exact this hp
      · have := (hb j r (by omega) h1).1
        rw [h2] at this; cases this

/-- There is only one nearest if the subprojects of each project are different. -/
theorem nearest_unique {l : Lib} (hl : l.Ok) {p : Str} {roots : List Root}
    (hs : ∀ r ∈ roots, ∀ x ∈ r.subs, ∀ y ∈ r.subs, l.same x.1 y.1 = true → x.2 = y.2)
    {d d' : Path} (h : Nearest l p roots d) (h' : Nearest l p roots d') : d = d' := by
  obtain ⟨i, r, h1, h2, h3⟩ := h
  obtain ⟨i', r', h1', h2', h3'⟩ := h'
  have hii : i = i' := by
    rcases Nat.lt_trichotomy i i' with hlt | he | hlt
    · exact absurd h2 ((h3' i r hlt h1).2 d)
    · exact he
    · exact absurd h2' ((h3 i' r' hlt h1').2 d')
  subst hii
  rw [h1] at h1'
  cases h1'
  unfold Provides at h2 h2'
  by_cases hc : i ≠ 0 ∧ l.same r.name p = true
  · rw [if_pos hc] at h2 h2'; rw [h2, h2']
  · rw [if_neg hc] at h2 h2'
    obtain ⟨x, hx, hx1, rfl⟩ := h2
    obtain ⟨y, hy, hy1, rfl⟩ := h2'
    rw [hs r (List.mem_of_getElem? h1) x hx y hy (hl.trans _ _ _ hx1 (hl.symm _ _ hy1))]

/-- The build system itself is imported from where it says that it is, unless it is empty. -/
theorem build2_own {e : Env} {opt subp : Bool} {t : Tgt} {p : Str} (h : Qualified t p)
    (hs : Silent e p t) (hv : e.cfg (projVar e.lib p) = none)
    (hb : e.lib.same p "build2".toList = true) {d : Path} (hd : e.build2 = some d) :
    importSearch e opt subp t =
      .ok ⟨some t, if d.empty then .nowhere else .project d, none⟩ := by
  rw [search_silent h hs, hv]
  dsimp only
  rw [if_pos hb, hd]
  dsimp only
  split <;> rfl

/-- If neither the user nor a project says so, it is up to the rules. -/
theorem not_searched {e : Env} {opt : Bool} {t : Tgt} {p : Str} (h : Qualified t p)
    (hu : Unspecified e p t) : importSearch e opt false t = .ok ⟨some t, .nowhere, none⟩ := by
  have hb : (if e.lib.same p "build2".toList = true then e.build2 else none) = none := by
    split
    · rename_i hh; exact hu.build2 hh
    · rfl
  rw [search_silent h hu.target, hu.project]
  dsimp only
  rw [hb]
  rfl

example : Qualified (tgt (some "libhello") "lib" "hello") "libhello".toList ∧
    Unspecified (exEnv []) "libhello".toList (tgt (some "libhello") "lib" "hello") ∧
    Closed (exEnv []).roots := by
  refine ⟨⟨rfl, by decide, rfl⟩, ⟨?_, rfl, ?_⟩, ?_⟩
  · intro _ v x h
    cases h with
    | tool _ h => cases h
    | type _ _ h => cases h
    | name _ _ h => cases h
  · intro h; exact absurd h (by decide +kernel)
  · exact ⟨_, .tail _ (.tail _ (.head _)), rfl⟩

/-! ## Which variables matter -/

/-- Only the variables of the target and of its project are considered: `config.<proj>` (only for a
tool), `config.import.<proj>`, `config.import.<proj>.<name>` and
`config.import.<proj>.<name>.<type>`. -/
theorem own_variables_only {e : Env} {cfg : Str → Option (Option Path)} {opt subp : Bool} {t : Tgt}
    {p : Str} (h : Qualified t p)
    (h1 : IsTool e.lib p t → cfg (toolVar e.lib p) = e.cfg (toolVar e.lib p))
    (h2 : cfg (projVar e.lib p) = e.cfg (projVar e.lib p))
    (h3 : cfg (nameVar e.lib p t.value) = e.cfg (nameVar e.lib p t.value))
    (h4 : cfg (typeVar e.lib p t.value t.type) = e.cfg (typeVar e.lib p t.value t.type)) :
    importSearch { e with cfg := cfg } opt subp t = importSearch e opt subp t := by
  have hlp : ∀ v x, cfg v = e.cfg v →
      lookupPath { e with cfg := cfg } opt v x = lookupPath e opt v x := by
    intro v x hv
    unfold lookupPath
    dsimp only
    rw [hv]
  have htool : lookupTool { e with cfg := cfg } opt p { t with proj := none } =
      lookupTool e opt p { t with proj := none } := by
    unfold lookupTool
    dsimp only
    split
    · rename_i hh
      exact hlp _ _ (h1 ((isTool_iff _ _ t).1 hh))
    · rfl
  have hlt : lookupTarget { e with cfg := cfg } opt p { t with proj := none } =
      lookupTarget e opt p { t with proj := none } := by
    unfold lookupTarget
    dsimp only
    rw [htool, hlp _ _ (by rw [typeVar_eq]; exact h4)]
    rw [hlp ("config.import.".toList ++ e.lib.varName p ++ '.' :: e.lib.sanitize t.value) false h3]
  rw [search_qualified h, search_qualified h, hlt]
  dsimp only
  rw [h2]
  rfl

/-- What follows `config.` in the name of each variable. -/
private theorem var_tails (l : Lib) (p n t : Str) :
    toolVar l p = "config.".toList ++ l.varName p ∧
    projVar l p = "config.".toList ++ ("import".toList ++ '.' :: l.varName p) ∧
    nameVar l p n =
      "config.".toList ++ ("import".toList ++ '.' :: (l.varName p ++ '.' :: l.sanitize n)) ∧
    typeVar l p n t = "config.".toList ++ ("import".toList ++ '.' ::
      (l.varName p ++ '.' :: (l.sanitize n ++ '.' :: l.sanitize t))) := by
  have h : "config.import.".toList = "config.".toList ++ ("import".toList ++ ['.']) := by decide
  refine ⟨rfl, ?_, ?_, ?_⟩
  · unfold projVar; rw [h]; simp only [List.append_assoc, List.cons_append, List.nil_append]
  · unfold nameVar projVar; rw [h]; simp only [List.append_assoc, List.cons_append, List.nil_append]
  · unfold typeVar nameVar projVar; rw [h]
    simp only [List.append_assoc, List.cons_append, List.nil_append]

/-- The variables of different projects are different, provided that their names are after what
cannot be part of the name of a variable has been replaced; so what is said about one project does
not affect what is imported from another. -/
theorem other_project_variables {l : Lib} (hl : l.Ok) {p p' : Str}
    (hp : l.varName p ≠ l.varName p') (n t n' t' : Str) :
    ∀ v ∈ [toolVar l p, projVar l p, nameVar l p n, typeVar l p n t],
      v ∉ [toolVar l p', projVar l p', nameVar l p' n', typeVar l p' n' t'] := by
  have hP := hl.varName p
  have hP' := hl.varName p'
  have hi : '.' ∉ "import".toList := by decide
  obtain ⟨a1, a2, a3, a4⟩ := var_tails l p n t
  obtain ⟨b1, b2, b3, b4⟩ := var_tails l p' n' t'
  rw [a1, a2, a3, a4, b1, b2, b3, b4]
  clear a1 a2 a3 a4 b1 b2 b3 b4
  generalize l.varName p = P at *
  generalize l.varName p' = P' at *
  generalize "import".toList = i at *
  have strip : ∀ a b : Str, "config.".toList ++ a = "config.".toList ++ b → a = b :=
    fun a b h => List.append_cancel_left h
  have imp : ∀ a b : Str, i ++ '.' :: a = i ++ '.' :: b → a = b :=
    fun a b h => (dot_split _ _ _ _ hi hi h).2
  intro v hv hv'
  simp only [List.mem_cons, List.not_mem_nil, or_false] at hv hv'
  rcases hv with h | h | h | h <;> rw [h] at hv' <;> rcases hv' with h | h | h | h <;>
    have h := strip _ _ h
  · exact hp h
  · exact noDot_split _ _ _ hP h
  · exact noDot_split _ _ _ hP h
  · exact noDot_split _ _ _ hP h
  · exact noDot_split _ _ _ hP' h.symm
  · exact hp (imp _ _ h)
  · exact noDot_split _ _ _ hP (imp _ _ h)
  · exact noDot_split _ _ _ hP (imp _ _ h)
  · exact noDot_split _ _ _ hP' h.symm
  · exact noDot_split _ _ _ hP' (imp _ _ h).symm
  · exact hp (dot_split _ _ _ _ hP hP' (imp _ _ h)).1
  · exact hp (dot_split _ _ _ _ hP hP' (imp _ _ h)).1
  · exact noDot_split _ _ _ hP' h.symm
  · exact noDot_split _ _ _ hP' (imp _ _ h).symm
  · exact hp (dot_split _ _ _ _ hP hP' (imp _ _ h)).1
  · exact hp (dot_split _ _ _ _ hP hP' (imp _ _ h)).1

/-- Within a project, those of different targets are: what is said about a target does not affect
others whose names and types are different in this way. -/
theorem other_target_variables {l : Lib} (hl : l.Ok) (p n t n' t' : Str) :
    (nameVar l p n = nameVar l p n' → l.sanitize n = l.sanitize n') ∧
    (typeVar l p n t = typeVar l p n' t' →
      l.sanitize n = l.sanitize n' ∧ l.sanitize t = l.sanitize t') ∧
    nameVar l p n ≠ typeVar l p n' t' ∧ projVar l p ≠ nameVar l p n ∧
    projVar l p ≠ typeVar l p n t := by
  have hP := hl.varName p
  have hN := hl.sanitize n
  have hN' := hl.sanitize n'
  have hi : '.' ∉ "import".toList := by decide
  obtain ⟨a1, a2, a3, a4⟩ := var_tails l p n t
  obtain ⟨b1, b2, b3, b4⟩ := var_tails l p n' t'
  have tail : ∀ a b : Str, "config.".toList ++ ("import".toList ++ '.' :: a) =
      "config.".toList ++ ("import".toList ++ '.' :: b) → a = b :=
    fun a b h => (dot_split _ _ _ _ hi hi (List.append_cancel_left h)).2
  rw [a2, a3, a4, b3, b4]
  refine ⟨fun h => ?_, fun h => ?_, fun h => ?_, fun h => ?_, fun h => ?_⟩
  · exact (dot_split _ _ _ _ hP hP (tail _ _ h)).2
  · exact dot_split _ _ _ _ hN hN' (dot_split _ _ _ _ hP hP (tail _ _ h)).2
  · exact noDot_split _ _ _ hN (dot_split _ _ _ _ hP hP (tail _ _ h)).2
  · exact noDot_split _ _ _ hP (tail _ _ h)
  · exact noDot_split _ _ _ hP (tail _ _ h)

example : exLib.varName "foo".toList ≠ exLib.varName "bar".toList := by decide +kernel

/-! ## Subprojects -/

/-- What is found under a name. -/
def foundAs (l : Lib) (m : List (Str × List Str)) (k : Str) : Option (List Str) :=
  (m.find? (fun s => l.same s.1 k)).map Prod.snd

private theorem has_iff {out src : Option (List Entry)} {k : Str} {d : List Str} :
    ((False ∨ Adds true (out.getD []) k d) ∨ Adds false (src.getD []) k d) ↔
      ∃ leaf, d = [leaf] ∧ HasSub out src k leaf := by
  have key : ∀ (o : Option (List Entry)) (b : Bool), Adds b (o.getD []) k d ↔
      ∃ e n, k = keyOf n e.leaf ∧ d = [e.leaf] ∧ ∃ es, o = some es ∧ e ∈ es ∧ e.Is b (some n) := by
    intro o b
    constructor
    · rintro ⟨e, he, n, h1, h2, h3⟩
      cases o with
      | none => cases he
      | some es => exact ⟨e, n, h2, h3, es, rfl, he, h1⟩
    · rintro ⟨e, n, h2, h3, es, rfl, he, h1⟩
      exact ⟨e, he, n, h1, h2, h3⟩
  rw [key, key]
  constructor
  · rintro ((h | ⟨e, n, h1, h2, h3⟩) | ⟨e, n, h1, h2, h3⟩)
    · cases h
    · exact ⟨e.leaf, h2, e, n, rfl, h1, .inl h3⟩
    · exact ⟨e.leaf, h2, e, n, rfl, h1, .inr h3⟩
  · rintro ⟨leaf, h1, e, n, rfl, h2, h3 | h3⟩
    · exact .inl (.inr ⟨e, n, h2, h1, h3⟩)
    · exact .inr ⟨e, n, h2, h1, h3⟩

private theorem bad_iff {out src : Option (List Entry)} :
    ((∃ e ∈ out.getD [], e.Is true none) ∨ ∃ e ∈ src.getD [], e.Is false none) ↔ HasBad out src := by
  constructor
  · rintro (⟨e, he, h⟩ | ⟨e, he, h⟩)
    · cases out with
      | none => cases he
      | some es => exact ⟨e, .inl ⟨es, rfl, he, h⟩⟩
    · cases src with
      | none => cases he
      | some es => exact ⟨e, .inr ⟨es, rfl, he, h⟩⟩
  · rintro ⟨e, ⟨es, rfl, he, h⟩ | ⟨es, rfl, he, h⟩⟩
    · exact .inl ⟨e, he, h⟩
    · exact .inr ⟨e, he, h⟩

private theorem uniq_nil (l : Lib) : Uniq l [] := by intro x hx; cases hx
private theorem cover_nil (l : Lib) : Cover l (fun _ _ => False) [] :=
  ⟨fun x hx => (by cases hx), fun k d h => h.elim⟩

private theorem sub_ok {l : Lib} (hl : l.Ok) {out src : Option (List Entry)}
    {m : List (Str × List Str)} (h : subprojects l out src = .ok m) :
    Uniq l m ∧ Cover l (fun k d => ∃ leaf, d = [leaf] ∧ HasSub out src k leaf) m ∧
      ¬ HasBad out src := by
  unfold subprojects at h
  cases h1 : findSubprojects l true (out.getD []) [] with
  | error x => rw [h1] at h; cases h
  | ok m1 =>
    rw [h1] at h
    obtain ⟨u1, c1, n1⟩ := findSubprojects_ok hl _ _ _ _ h1 (uniq_nil l) (cover_nil l)
    obtain ⟨u2, c2, n2⟩ := findSubprojects_ok hl _ _ _ _ h u1 c1
    refine ⟨u2, ⟨fun x hx => has_iff.1 (c2.1 x hx), fun k d hk => c2.2 k d (has_iff.2 hk)⟩, ?_⟩
    intro hb
    rcases bad_iff.2 hb with ⟨e, he, hh⟩ | ⟨e, he, hh⟩
    · exact n1 e he hh
    · exact n2 e he hh

/-- If the subprojects of a project are discovered then they are those of its output and source
directories, with no others, and each name is that of one directory. -/
theorem subprojects_complete {l : Lib} (hl : l.Ok) {out src : Option (List Entry)}
    {m : List (Str × List Str)} (h : subprojects l out src = .ok m) (k : Str) (d : List Str) :
    foundAs l m k = some d ↔
      ∃ k' leaf, l.same k' k = true ∧ HasSub out src k' leaf ∧ d = [leaf] := by
  obtain ⟨u, c, _⟩ := sub_ok hl h
  unfold foundAs
  constructor
  · intro hf
    rw [Option.map_eq_some_iff] at hf
    obtain ⟨x, hx, rfl⟩ := hf
    obtain ⟨leaf, e1, e2⟩ := c.1 x (List.mem_of_find?_eq_some hx)
    have := List.find?_some hx
    exact ⟨x.1, leaf, this, e2, e1⟩
  · rintro ⟨k', leaf, hk, hs, rfl⟩
    obtain ⟨x, hx, hx1, hx2⟩ := c.2 k' [leaf] ⟨leaf, rfl, hs⟩
    cases hf : m.find? (fun s => l.same s.1 k) with
    | none =>
      exact absurd (hl.trans _ _ _ hx1 hk) (List.find?_eq_none.1 hf x hx)
    | some y =>
      have hy := List.find?_some hf
      have := u y (List.mem_of_find?_eq_some hf) x hx
        (hl.trans _ _ _ hy (hl.symm _ _ (hl.trans _ _ _ hx1 hk)))
      simp only [Option.map_some]
      rw [this, hx2]

/-- Two subprojects have the same name. -/
def Duplicate (l : Lib) (out src : Option (List Entry)) : Prop :=
  ∃ k leaf k' leaf', HasSub out src k leaf ∧ HasSub out src k' leaf' ∧ l.same k k' = true ∧
    leaf ≠ leaf'

/-- It fails exactly if the name of some cannot be determined or two have the same name but are
different directories. -/
theorem subprojects_fail {l : Lib} (hl : l.Ok) (out src : Option (List Entry)) :
    (∃ x, subprojects l out src = .error x) ↔ HasBad out src ∨ Duplicate l out src := by
  have lift : ∀ k d k' d', (∃ leaf, d = [leaf] ∧ HasSub out src k leaf) →
      (∃ leaf, d' = [leaf] ∧ HasSub out src k' leaf) → l.same k k' = true → d ≠ d' →
      Duplicate l out src := by
    rintro k d k' d' ⟨a, rfl, ha⟩ ⟨b, rfl, hb⟩ hk hd
    exact ⟨k, a, k', b, ha, hb, hk, fun hh => hd (by rw [hh])⟩
  constructor
  · rintro ⟨x, h⟩
    unfold subprojects at h
    cases h1 : findSubprojects l true (out.getD []) [] with
    | error y =>
      rcases findSubprojects_err hl _ _ _ _ h1 (uniq_nil l) (cover_nil l) with ⟨_, hb⟩ |
        ⟨_, k, d, k', d', ha, hb, hk, hd⟩
      · exact .inl (bad_iff.1 (.inl hb))
      · exact .inr (lift k d k' d' (has_iff.1 (.inl ha)) (has_iff.1 (.inl (.inr hb))) hk hd)
    | ok m1 =>
      rw [h1] at h
      obtain ⟨u1, c1, n1⟩ := findSubprojects_ok hl _ _ _ _ h1 (uniq_nil l) (cover_nil l)
      rcases findSubprojects_err hl _ _ _ _ h u1 c1 with ⟨_, hb⟩ |
        ⟨_, k, d, k', d', ha, hb, hk, hd⟩
      · exact .inl (bad_iff.1 (.inr hb))
      · exact .inr (lift k d k' d' (has_iff.1 ha) (has_iff.1 (.inr hb)) hk hd)
  · intro h
    cases hs : subprojects l out src with
    | error x => exact ⟨x, rfl⟩
    | ok m =>
      exfalso
      rcases h with h | ⟨k, a, k', b, ha, hb, hk, hd⟩
      · exact (sub_ok hl hs).2.2 h
      · have h1 := (subprojects_complete hl hs k' [a]).2 ⟨k, a, hk, ha, rfl⟩
        have h2 := (subprojects_complete hl hs k' [b]).2 ⟨k', b, hl.refl _, hb, rfl⟩
        rw [h1] at h2
        simp only [Option.some.injEq, List.cons.injEq, and_true] at h2
        exact hd h2

/-- So the order in which the file system lists the entries of a directory does not matter. -/
theorem subprojects_order {l : Lib} (hl : l.Ok) {out src out' src' : List Entry}
    (h1 : out.Perm out') (h2 : src.Perm src') :
    (∀ m m', subprojects l (some out) (some src) = .ok m →
      subprojects l (some out') (some src') = .ok m' → ∀ k, foundAs l m k = foundAs l m' k) ∧
    ((∃ x, subprojects l (some out) (some src) = .error x) ↔
      ∃ x, subprojects l (some out') (some src') = .error x) := by
  have hs : ∀ k leaf, HasSub (some out) (some src) k leaf ↔ HasSub (some out') (some src') k leaf := by
    intro k leaf
    unfold HasSub
    simp only [Option.some.injEq, exists_eq_left', h1.mem_iff, h2.mem_iff]
  have hb : HasBad (some out) (some src) ↔ HasBad (some out') (some src') := by
    unfold HasBad
    simp only [Option.some.injEq, exists_eq_left', h1.mem_iff, h2.mem_iff]
  constructor
  · intro m m' hm hm' k
    apply Option.ext
    intro d
    rw [subprojects_complete hl hm, subprojects_complete hl hm']
    simp only [hs]
  · rw [subprojects_fail hl, subprojects_fail hl, hb]
    unfold Duplicate
    simp only [hs]

/-- If they are specified then of those with the same name the first is taken. -/
theorem specified_first {l : Lib} (hl : l.Ok) (xs : List (Str × List Str)) (k : Str) :
    foundAs l (specified l xs) k = foundAs l xs k := by
  have key : ∀ (xs m : List (Str × List Str)),
      foundAs l (xs.foldl (fun m x =>
        if (m.find? (fun s => l.same s.1 x.1)).isSome then m else m ++ [x]) m) k =
      foundAs l (m ++ xs) k := by
    intro xs
    induction xs with
    | nil => intro m; simp
    | cons x xs ih =>
      intro m
      rw [List.foldl_cons, ih]
      by_cases hh : (m.find? (fun s => l.same s.1 x.1)).isSome = true
      · rw [if_pos hh]
        rw [List.find?_isSome] at hh
        obtain ⟨y, hy, hyx⟩ := hh
        unfold foundAs
        rw [List.find?_append, List.find?_append]
        cases hm : m.find? (fun s => l.same s.1 k) with
        | some z => rfl
        | none =>
          have : l.same x.1 k = false := by
            cases hx : l.same x.1 k with
            | false => rfl
            | true => exact absurd (hl.trans _ _ _ hyx hx) (List.find?_eq_none.1 hm y hy)
          rw [List.find?_cons_of_neg (by simp [this])]
      · rw [if_neg hh, List.append_assoc]; rfl
  unfold specified
  rw [key, List.nil_append]

/-- A project configured in its own directory, which is unnamed, and one in the source directory. -/
def exOut : List Entry :=
  [⟨"libx".toList, true, some (some "libx".toList), none⟩, ⟨".git".toList, true, none, some none⟩,
   ⟨"tests".toList, true, some (some []), none⟩, ⟨"README".toList, false, none, none⟩]
def exSrc : List Entry :=
  [⟨"liby".toList, true, none, some (some "liby".toList)⟩,
   ⟨"libx".toList, true, none, some (some "libx".toList)⟩]

/-- The map. -/
def mapOf : Except Err (List (Str × List Str)) → Option (List (Str × List Str))
  | .ok m => some m
  | .error _ => none

example : mapOf (subprojects exLib (some exOut) (some exSrc)) =
    some [("libx".toList, ["libx".toList]), ("tests/".toList, ["tests".toList]),
      ("liby".toList, ["liby".toList])] := by decide +kernel

/-- Two different directories with projects of the same name: failure. -/
example : (mapOf (subprojects exLib (some [⟨"a".toList, true, some (some "x".toList), none⟩])
    (some [⟨"b".toList, true, none, some (some "x".toList)⟩]))).isNone = true := by decide +kernel

/-! ## What is not so -/

/-- A project is not found by its own name: the comment has it that such a target is project-local. -/
theorem own_name_not_found : resOf (importSearch
      { exEnv [] with roots := [⟨abs ["hello"], "hello".toList, [], false⟩] } false true
      (tgt (some "hello") "exe" "h")) =
    some ⟨some (tgt (some "hello") "exe" "h"), .nowhere, none⟩ := by decide +kernel

/-- What is said about one target is applied to another if their names only differ in characters that
cannot be part of the name of a variable. -/
theorem sanitized_collision :
    resOf (importSearch (exEnv [("config.import.foo.a_b.exe",
        some ⟨true, ["bin".toList, "x".toList], false⟩)]) false true (tgt (some "foo") "exe" "a-b")) =
      some ⟨some ⟨none, abs ["bin"], "exe".toList, "x".toList⟩, .adhoc,
        some ⟨true, ["bin".toList, "x".toList], false⟩⟩ ∧
    resOf (importSearch (exEnv [("config.import.foo.a_b.exe",
        some ⟨true, ["bin".toList, "x".toList], false⟩)]) false true (tgt (some "foo") "exe" "a_b")) =
      some ⟨some ⟨none, abs ["bin"], "exe".toList, "x".toList⟩, .adhoc,
        some ⟨true, ["bin".toList, "x".toList], false⟩⟩ := by decide +kernel

/-- `false` means none only with the type: without it is the name of a file. -/
theorem false_untyped :
    resOf (importSearch (exEnv [("config.import.foo.bar", some ⟨false, ["false".toList], false⟩)])
        true true (tgt (some "foo") "exe" "bar")) =
      some ⟨some ⟨some "foo".toList, noDir, "exe".toList, "false".toList⟩, .adhoc, none⟩ ∧
    resOf (importSearch (exEnv [("config.import.foo.bar.exe",
        some ⟨false, ["false".toList], false⟩)]) true true (tgt (some "foo") "exe" "bar")) =
      some ⟨none, .adhoc, none⟩ := by decide +kernel

/-- Unlike discovered ones, two specified subprojects with the same name are no error: the second is
ignored. -/
theorem specified_duplicate_ignored :
    specified exLib [("x".toList, ["a".toList]), ("x".toList, ["b".toList])] =
      [("x".toList, ["a".toList])] := by decide +kernel

/-- The variable of the tool hides the more specific one of the target. -/
theorem tool_hides_target :
    resOf (importSearch (exEnv [("config.foo", some ⟨true, ["a".toList, "foo".toList], false⟩),
        ("config.import.foo.foo.exe", some ⟨true, ["b".toList, "foo".toList], false⟩)]) false true
        (tgt (some "foo") "exe" "foo")) =
      some ⟨some ⟨none, abs ["a"], "exe".toList, "foo".toList⟩, .adhoc,
        some ⟨true, ["a".toList, "foo".toList], false⟩⟩ := by decide +kernel

end Verif.Import
