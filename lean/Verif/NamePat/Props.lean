import Verif.NamePat.Lemmas

/-!
# Name patterns: properties

A name pattern gives each of the entries that some pattern includes and no later one excludes, once,
under a name that denotes that entry in the target type.
-/

namespace Verif.NamePat

open Verif.Name (split combine)

theorem names_inv {d : Bool} (r : List Rec) {ns : List Str} (h : names d r = some ns) :
    ns.length = (files r).length ∧
    ∀ w f, (w, f) ∈ ns.zip (files r) → ∃ x ∈ r, x.file = f ∧
      (if d then dirName x else fileName x) = some w := by
  induction r generalizing ns with
  | nil => cases h; simp [files]
  | cons x r ih =>
    unfold names at h
    cases hx : (if d then dirName x else fileName x) with
    | none => rw [hx] at h; simp at h
    | some w =>
      cases hr : names d r with
      | none => rw [hx, hr] at h; simp at h
      | some ns' =>
        rw [hx, hr] at h
        cases h
        obtain ⟨i1, i2⟩ := ih hr
        refine ⟨by simp [files] at i1 ⊢; exact i1, ?_⟩
        intro w' f hwf
        simp only [files, List.map_cons, List.zip_cons_cons, List.mem_cons] at hwf
        rcases hwf with h | h
        · cases h
          exact ⟨x, by simp, rfl, hx⟩
        · obtain ⟨y, h1, h2⟩ := i2 w' f h
          exact ⟨y, by simp [h1], h2⟩

theorem eq_of_zip {as bs : List Str} (hl : as.length = bs.length)
    (h : ∀ a b, (a, b) ∈ as.zip bs → a = b) : as = bs := by
  induction as generalizing bs with
  | nil => cases bs with
    | nil => rfl
    | cons b bs => cases hl
  | cons a as ih =>
    cases bs with
    | nil => cases hl
    | cons b bs =>
      simp only [List.zip_cons_cons, List.mem_cons] at h
      rw [h a b (.inl rfl), ih (by simpa using hl) fun x y hxy => h x y (.inr hxy)]

theorem nodup_of_zip {d : Option Str} {ns fl : List Str} (hl : ns.length = fl.length)
    (hn : fl.Nodup) (h : ∀ w f, (w, f) ∈ ns.zip fl → Denotes d w f) : ns.Nodup := by
  induction ns generalizing fl with
  | nil => exact List.nodup_nil
  | cons w ns ih =>
    cases fl with
    | nil => cases hl
    | cons f fl =>
      simp only [List.zip_cons_cons, List.mem_cons] at h
      have hl : ns.length = fl.length := by simpa using hl
      rw [List.nodup_cons] at hn ⊢
      refine ⟨?_, ih hl hn.2 fun w f hwf => h w f (.inr hwf)⟩
      intro hw
      obtain ⟨j, hj, hjw⟩ := List.mem_iff_getElem.1 hw
      have hz : (w, fl[j]'(hl ▸ hj)) ∈ ns.zip fl := by
        rw [List.mem_iff_getElem]
        exact ⟨j, by simp; omega, by simp [hjw]⟩
      obtain ⟨n, x, d1, d2⟩ := h w f (.inl rfl)
      obtain ⟨n', x', e1, e2⟩ := h _ _ (.inr hz)
      rw [d1] at e1
      cases e1
      apply hn.1
      rw [d2, ← e2]
      exact List.getElem_mem _

/-- The files that the inclusions find can be named. -/
def AllNameable (fs : Fs) (k : Kind) (is : List Item) : Prop :=
  ∀ i ∈ is, i.sign = .plus → Valid fs k i.text false → ∀ f, Includes fs k i.text f →
    Nameable (itemExt k i.text) f

/-- The result of an expansion: the names in the group are inclusions and exclusions, all valid and
all of files or all of directories; there is one name for each entry that is listed by them, the
entries being different; for directories the name is the entry and for files it denotes the entry if
that can be named. -/
theorem expand_lists {fs : Fs} (hfs : fs.Ok) {k : Kind} {pat : List Nm} {ns : List Str}
    (h : expand fs k pat = .ok ns) :
    ∃ is d fl, MeansAll true pat is ∧ (∀ i ∈ is, Valid fs k i.text d) ∧
      fl.Nodup ∧ (∀ f, f ∈ fl ↔ Listed fs k is f) ∧ ns.length = fl.length ∧
      (d = true → ns = fl) ∧
      (d = false → ∀ w f, (w, f) ∈ ns.zip fl →
        (∀ i ∈ is, i.sign = .plus → Includes fs k i.text f → Nameable (itemExt k i.text) f) →
        Denotes k.dflt w f) := by
  unfold expand at h
  cases hl : loop fs k none [] pat with
  | error e => rw [hl] at h; cases h
  | ok q =>
    obtain ⟨dir, r⟩ := q
    rw [hl] at h
    obtain ⟨is, l1, l2, l3, -, -⟩ := loop_ok hfs (is := []) pat (by simp) (by simp) hl
    cases dir with
    | none => cases h
    | some d =>
      simp only at h
      cases hn : names d r with
      | none => rw [hn] at h; cases h
      | some ns' =>
        rw [hn] at h
        cases h
        obtain ⟨n1, n2⟩ := names_inv r hn
        have inv := l2 d rfl
        simp only [List.nil_append] at inv
        refine ⟨is, d, files r, l1, l3 d rfl, inv.nodup, inv.listed, n1, ?_, ?_⟩
        · intro hd
          subst hd
          refine eq_of_zip n1 fun w f hwf => ?_
          obtain ⟨x, hx, rfl, hw⟩ := n2 w f hwf
          have := dirName_file ((inv.good x hx).dirEnd rfl)
          simp only [if_true] at hw
          rw [this] at hw
          exact (Option.some.inj hw).symm
        · intro hd w f hwf hnm
          subst hd
          obtain ⟨x, hx, rfl, hw⟩ := n2 w f hwf
          have g := inv.good x hx
          obtain ⟨i, i1, i2, i3, i4⟩ := g.item
          have hnx := hnm i i1 i2 i3
          rw [← i4 rfl] at hnx
          obtain ⟨w', h1, h2⟩ := fileName_denotes hnx (g.amended rfl) (g.clean rfl) (g.dflt rfl)
          simp only [Bool.false_eq_true, if_false] at hw
          rw [hw] at h1
          cases h1
          exact h2

theorem MeansAll.unique {first : Bool} {ns : List Nm} {is js : List Item} (h : MeansAll first ns is)
    (h' : MeansAll first ns js) : is = js := by
  induction h generalizing js with
  | nil => cases h'; rfl
  | cons h1 _ ih =>
    cases h' with
    | cons h1' h2' =>
      rw [ih h2']
      have := (sign_iff.2 h1).symm.trans (sign_iff.2 h1')
      cases this
      rfl

/-- An expansion succeeds exactly if the names in the group are inclusions and exclusions, all valid
and all of files or all of directories (as long as the files can be named). -/
theorem expand_succeeds_iff {fs : Fs} (hfs : fs.Ok) {k : Kind} {pat : List Nm} (hne : pat ≠ [])
    (hn : ∀ is, MeansAll true pat is → AllNameable fs k is) :
    (∃ ns, expand fs k pat = .ok ns) ↔
    ∃ is d, MeansAll true pat is ∧ ∀ i ∈ is, Valid fs k i.text d := by
  constructor
  · rintro ⟨ns, h⟩
    obtain ⟨is, d, fl, h1, h2, -⟩ := expand_lists hfs h
    exact ⟨is, d, h1, h2⟩
  · rintro ⟨is, d, h1, h2⟩
    obtain ⟨dir, r, hl⟩ := loop_of_valid (r := []) pat (dir := none) (.inl rfl) h1 h2
    obtain ⟨is', l1, l2, l3, -, l5⟩ := loop_ok hfs (is := []) pat (by simp) (by simp) hl
    have := MeansAll.unique h1 (by simpa using l1)
    subst this
    cases dir with
    | none => exact absurd rfl (l5 hne)
    | some d' =>
      have inv := l2 d' rfl
      simp only [List.nil_append] at inv
      have hall : ∀ x ∈ r, ∃ w, (if d' then dirName x else fileName x) = some w ∧ True := by
        intro x hx
        have g := inv.good x hx
        cases d' with
        | true => exact ⟨_, by simp only [if_true]; exact dirName_file (g.dirEnd rfl), trivial⟩
        | false =>
          obtain ⟨i, i1, i2, i3, i4⟩ := g.item
          have hnx := hn is h1 i i1 i2 (l3 false rfl i i1) x.file i3
          rw [← i4 rfl] at hnx
          obtain ⟨w, hw, -⟩ := fileName_denotes hnx (g.amended rfl) (g.clean rfl) (g.dflt rfl)
          exact ⟨w, by simpa using hw, trivial⟩
      obtain ⟨ns, hns, -⟩ := names_of (P := fun _ _ => True) r hall
      exact ⟨ns, by simp [expand, hl, hns]⟩

/-- The names are different. -/
theorem names_distinct {fs : Fs} (hfs : fs.Ok) {k : Kind} {pat : List Nm} {ns : List Str}
    (hn : ∀ is, MeansAll true pat is → AllNameable fs k is) (h : expand fs k pat = .ok ns) :
    ns.Nodup := by
  obtain ⟨is, d, fl, h1, h2, h3, -, h5, h6, h7⟩ := expand_lists hfs h
  cases d with
  | true => rw [h6 rfl]; exact h3
  | false =>
    have h8 : ∀ w f, (w, f) ∈ ns.zip fl → Denotes k.dflt w f := fun w f hwf =>
      h7 rfl w f hwf fun i hi hs => hn is h1 i hi hs (h2 i hi) f
    exact nodup_of_zip h5 h3 h8

/-- A file that is found can be named if its name is tidy. -/
theorem tidy_nameable {fs : Fs} (hfs : fs.Ok) {k : Kind} {t f : Str}
    (hk : ∀ e, k.dflt = some e → '/' ∉ e) (hv : Valid fs k t false) (hi : Includes fs k t f)
    (ht : Tidy f) : Nameable (itemExt k t) f := by
  obtain ⟨full, ne, hs, hw⟩ := hv
  obtain ⟨d', full', ne', hs', hf, -⟩ := hi
  obtain ⟨rfl, rfl, rfl⟩ := hs.unique hs'
  cases hs with
  | @file n x hkd hl hsp =>
    have hie : itemExt k t = orDflt x k.dflt := by simp [itemExt, hsp]
    rw [hie]
    refine ht.nameable ?_ ?_
    · intro y hy
      cases x with
      | some x => cases hy; exact ((split_facts hsp).2.2 _ rfl).1
      | none => exact hk y hy
    · match he : orDflt x k.dflt with
      | none => exact ⟨f, by simp [extPart]⟩
      | some [] => exact ⟨f, by simp [extPart]⟩
      | some (c :: y) =>
        rw [he] at hf
        exact hfs.ends n (c :: y) f (by simp) (hw n x rfl hsp _ he (by simp)) hf

/-! ## Examples -/

/-- Whether the entry is this or, for `*s`, ends with `s`. -/
def toyHit (p f : Str) : Bool :=
  match p with
  | '*' :: s => s.isSuffixOf f
  | _ => f == p

/-- These entries, with patterns of the form `*s`. -/
def toy (all : List String) : Fs where
  found p := (all.map (·.toList)).filter fun f => toyHit p f && (isDir f == isDir p)
  matches_ f p := toyHit p f
  wild s := s.contains '*'
  recursive _ := 0
  hasExt f := f.contains '.'

theorem toy_ok (all : List String) (h : (all.map (·.toList)).Nodup) : (toy all).Ok where
  once p _ := h.filter _
  ends p e f _ _ hf := by
    have hf := (List.mem_filter.1 hf).2
    simp only [Bool.and_eq_true] at hf
    have hf := hf.1
    cases p with
    | nil =>
      have : f = '.' :: e := by simpa [toyHit] using hf
      exact ⟨[], this⟩
    | cons c p =>
      by_cases hc : c = '*'
      · subst hc
        simp only [List.cons_append, toyHit, List.isSuffixOf_iff_suffix] at hf
        obtain ⟨t, ht⟩ := hf
        exact ⟨t ++ p, by rw [← ht]; simp⟩
      · have : f = c :: p ++ '.' :: e := by
          unfold toyHit at hf
          split at hf
          · rename_i h1
            simp at h1
            exact absurd h1.1 hc
          · simpa using hf
        exact ⟨_, this⟩
  dir p f hf := by
    have hf := (List.mem_filter.1 hf).2
    simp only [Bool.and_eq_true, beq_iff_eq] at hf
    rw [← isDir_iff, ← isDir_iff, hf.2]

/-- A simple name. -/
def nm (s : String) : Nm := ⟨[], s.toList, true⟩

/-- The target type for `.cxx`. -/
def cxx : Kind := .ext (some "cxx".toList)

/-- `cxx{* -foo +foo}` and so on. -/
example : expand (toy ["foo.cxx", "bar.cxx", "bar.hxx", "d/"]) cxx [nm "*", nm "-foo"] =
    .ok ["bar".toList] := rfl
example : expand (toy ["foo.cxx", "bar.cxx"]) cxx [nm "*", nm "-foo", nm "+foo", nm "+*o"] =
    .ok ["bar".toList, "foo".toList] := rfl
example : expand (toy ["foo.cxx", "bar.hxx"]) cxx [nm "*", nm "+*.hxx"] =
    .ok ["foo".toList, "bar.hxx".toList] := rfl
example : expand (toy ["a/", "b/", "f"]) .dirs [nm "*", nm "-b"] = .ok ["a/".toList] := rfl
example : expand (toy ["a/", "b"]) .plain [nm "*", nm "-b/"] = .error .inconsistent := rfl
example : expand (toy ["foo", "foo.x"]) .plain [nm "*."] = .ok ["foo.".toList] := rfl
example : expand (toy ["a.b.cxx"]) cxx [nm "*"] = .ok ["a.b...".toList] := rfl

example : (toy ["foo.cxx", "bar.cxx"]).Ok := toy_ok _ (by decide)

theorem tidy_example : Tidy "src/foo.cxx".toList :=
  ⟨"src/".toList, "foo.cxx".toList, ⟨rfl, by decide, .inr rfl⟩, by decide, by decide, by
    intro a b h
    match a, h with
    | [], h => simp at h
    | [_], h => simp at h
    | [_, _], h => simp at h
    | [_, _, _], h => simp at h
    | [_, _, _, _], h => simp at h
    | [_, _, _, _, _], h => simp at h
    | [_, _, _, _, _, _], h => simp at h
    | [_, _, _, _, _, _, _], h => simp at h
    | _ :: _ :: _ :: _ :: _ :: _ :: _ :: _ :: _, h => simp at h⟩

/-! ## Findings -/

/-- A file with two dots before the extension, found by a pattern without one, gets a name that
denotes another file. -/
theorem double_dot_misnamed :
    expand (toy ["foo..cxx"]) cxx [nm "*"] = .ok ["foo..".toList] ∧
    ¬ Denotes cxx.dflt "foo..".toList "foo..cxx".toList := by
  refine ⟨rfl, ?_⟩
  rintro ⟨n, x, h1, h2⟩
  have : split "foo..".toList = .ok "foo.".toList (some []) := by decide
  rw [this] at h1
  cases h1
  revert h2
  decide

/-- Found by a pattern with one, it fails an assertion. -/
theorem double_dot_assert :
    expand (toy ["foo..cxx"]) cxx [nm "*.cxx"] = .error .assertFailed := rfl

/-- An inclusion of names without an extension leaves out those with one but an exclusion of the same
does not. -/
theorem exclude_extension :
    expand (toy ["foo.txt"]) .plain [nm "*."] = .ok [] ∧
    expand (toy ["foo.txt"]) .plain [nm "*"] = .ok ["foo.txt".toList] ∧
    expand (toy ["foo.txt"]) .plain [nm "*", nm "-*."] = .ok [] := ⟨rfl, rfl, rfl⟩

end Verif.NamePat
