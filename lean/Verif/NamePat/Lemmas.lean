import Verif.NamePat.Names

/-!
# Name patterns: lemmas
-/

namespace Verif.NamePat

open Verif.Name (split combine)

/-- The entries. -/
def files (r : List Rec) : List Str := r.map (·.file)

/-! ## Amending -/

theorem splitName_ok {v n : Str} {x : Option Str} : splitName v = .ok (n, x) ↔ split v = .ok n x := by
  unfold splitName
  cases h : split v <;> simp

theorem splitName_inv {v : Str} : (∃ n x, splitName v = .ok (n, x) ∧ split v = .ok n x) ∨
    ((∃ e, splitName v = .error e) ∧ ∀ n x, split v ≠ .ok n x) := by
  unfold splitName
  cases h : split v <;> simp

theorem isDir_iff {v : Str} : isDir v = true ↔ v.getLast? = some '/' := by simp [isDir]

theorem isDir_false {v : Str} : isDir v = false ↔ v.getLast? ≠ some '/' := by simp [isDir]

/-- What amending gives. -/
structure Amended (k : Kind) (t : Str) (a : Bool) (v : Str) (e : Option Str) (d : Bool) : Prop where
  stands : Stands k t d (v ++ extPart e) (decide (e = some []))
  dirExt : d = true → e = none
  dirEnd : d = true → v.getLast? = some '/'
  split : d = false → ∃ x, Name.split t = .ok v x ∧ e = orDflt x k.dflt
  ext : d = false → e = itemExt k t
  amended : d = false → a = true → k.dflt = e ∧ e ≠ none
  dflt : d = false → a = false → e = none → k.dflt = none
  clean : d = false → a = false → ∀ x, e = some x → '/' ∉ x ∧ x.head? ≠ some '.'

theorem amend_spec {k : Kind} {t v : Str} {a d : Bool} {e : Option Str}
    (h : amend k t = .ok (a, v, e, d)) : Amended k t a v e d := by
  have dirCase : ∀ {v : Str}, Stands k t true v false → v.getLast? = some '/' → ∀ a,
      Amended k t a v none true := by
    intro v hs hl a
    exact ⟨by simpa [extPart] using hs, fun _ => rfl, fun _ => hl, by simp, by simp, by simp, by simp,
      by simp⟩
  have fileCase : ∀ {n : Str} {x : Option Str} (a : Bool), k ≠ .dirs → Name.split t = .ok n x →
      (a = true → x = none ∧ k.dflt ≠ none) → (a = false → x = none → k.dflt = none) →
      Amended k t a n (orDflt x k.dflt) false := by
    intro n x a hk hs ha hna
    obtain ⟨f1, f2, f3⟩ := split_facts hs
    refine ⟨.file hk f1 hs, by simp, by simp, fun _ => ⟨x, hs, rfl⟩, ?_, ?_, ?_, ?_⟩
    · intro _; simp [itemExt, hs]
    · intro _ h
      obtain ⟨rfl, h2⟩ := ha h
      exact ⟨rfl, h2⟩
    · intro _ h he
      cases x with
      | some x => cases he
      | none => exact he
    · intro _ h y hy
      cases x with
      | some x => exact f3 _ hy
      | none =>
        rw [show orDflt none k.dflt = k.dflt from rfl, hna h rfl] at hy
        cases hy
  unfold amend at h
  cases k with
  | plain =>
    simp only at h
    by_cases hd : isDir t = true
    · rw [if_pos hd] at h
      cases h
      exact dirCase (.plainDir rfl (isDir_iff.1 hd)) (isDir_iff.1 hd) _
    · rw [if_neg hd] at h
      rcases splitName_inv (v := t) with ⟨n, x, h1, h2⟩ | ⟨⟨e', h1⟩, -⟩
      · rw [h1] at h
        cases h
        have := fileCase (n := v) (x := e) false (by simp) h2 (by simp) (by simp [Kind.dflt])
        cases e <;> exact this
      · rw [h1] at h; cases h
  | dirs =>
    simp only at h
    by_cases hd : isDir t = true
    · rw [if_pos hd] at h
      cases h
      exact dirCase (.dirKeep rfl (isDir_iff.1 hd)) (isDir_iff.1 hd) _
    · rw [if_neg hd] at h
      cases h
      exact dirCase (.dirAdd rfl (fun h => hd (isDir_iff.2 h))) (by simp) _
  | ext D =>
    simp only at h
    rcases splitName_inv (v := t) with ⟨n, x, h1, h2⟩ | ⟨⟨e', h1⟩, -⟩
    · rw [h1] at h
      have hn : isDir n = false := isDir_false.2 (split_facts h2).2.1
      cases x with
      | some x =>
        simp only at h
        rw [hn] at h
        cases h
        exact fileCase (n := v) (x := some x) false (by simp) h2 (by simp) (by simp)
      | none =>
        cases D with
        | some D =>
          simp only at h
          rw [hn] at h
          cases h
          exact fileCase (n := v) (x := none) true (by simp) h2 (by simp [Kind.dflt]) (by simp)
        | none =>
          simp only at h
          rw [hn] at h
          cases h
          exact fileCase (n := v) (x := none) false (by simp) h2 (by simp) (by simp [Kind.dflt])
    · rw [h1] at h; cases h

/-- An item that stands for something is amended. -/
theorem amend_of_stands {k : Kind} {t : Str} {d noExt : Bool} {full : Str}
    (h : Stands k t d full noExt) : ∃ a v e, amend k t = .ok (a, v, e, d) := by
  cases h with
  | dirAdd hk hl =>
    subst hk
    exact ⟨true, t ++ ['/'], none, by simp [amend, isDir_false.2 hl]⟩
  | dirKeep hk hl =>
    subst hk
    exact ⟨false, t, none, by simp [amend, isDir_iff.2 hl]⟩
  | plainDir hk hl =>
    subst hk
    exact ⟨false, t, none, by simp [amend, isDir_iff.2 hl]⟩
  | @file n x hk hl hs =>
    have h1 := splitName_ok.2 hs
    have hn : isDir n = false := isDir_false.2 (split_facts hs).2.1
    cases k with
    | dirs => exact absurd rfl hk
    | plain => exact ⟨false, n, x, by simp [amend, isDir_false.2 hl, h1]⟩
    | ext D =>
      cases x with
      | some x => exact ⟨false, n, some x, by simp [amend, h1, hn]⟩
      | none =>
        cases D with
        | some D => exact ⟨true, n, some D, by simp [amend, h1, hn]⟩
        | none => exact ⟨false, n, none, by simp [amend, h1, hn]⟩

/-- An item stands for one thing. -/
theorem Stands.unique {k : Kind} {t : Str} {d d' x x' : Bool} {f f' : Str} (h : Stands k t d f x)
    (h' : Stands k t d' f' x') : d = d' ∧ f = f' ∧ x = x' := by
  cases h <;> cases h' <;> simp_all
  all_goals
    rename_i h1 _ h2
    rw [h1] at h2
    cases h2
    simp

theorem factor_ok {fs : Fs} {v p : Str} {e : Option Str} (h : factor fs v e = .ok p) :
    p = v ++ extPart e ∧ ∀ x, e = some x → x ≠ [] → fs.wild x = false := by
  unfold factor at h
  match e, h with
  | none, h => cases h; simp [extPart]
  | some [], h => cases h; simp [extPart]
  | some (c :: x), h =>
    simp only at h
    by_cases hw : fs.wild (c :: x) = true
    · rw [if_pos hw] at h; cases h
    · rw [if_neg hw] at h
      cases h
      refine ⟨rfl, ?_⟩
      rintro _ ⟨⟩ -
      simpa using hw

theorem factor_of {fs : Fs} {v : Str} {e : Option Str}
    (h : ∀ x, e = some x → x ≠ [] → fs.wild x = false) : factor fs v e = .ok (v ++ extPart e) := by
  unfold factor
  match e, h with
  | none, _ => simp [extPart]
  | some [], _ => simp [extPart]
  | some (c :: x), h => simp [extPart, h _ rfl (by simp)]

/-! ## Including and excluding -/

theorem any_file {r : List Rec} {m : Str} : r.any (fun x => x.file == m) = true ↔ m ∈ files r := by
  simp [files]

theorem files_append (r r' : List Rec) : files (r ++ r') = files r ++ files r' := by simp [files]

theorem includeMatch_spec (r : List Rec) (m : Str) (e : Option Str) (a : Bool) :
    (∀ f, f ∈ files (includeMatch r m e a) ↔ f ∈ files r ∨ f = m) ∧
    ((files r).Nodup → (files (includeMatch r m e a)).Nodup) ∧
    (∀ x ∈ includeMatch r m e a, x ∈ r ∨ x = ⟨m, e, a⟩) := by
  unfold includeMatch
  by_cases h : r.any (fun x => x.file == m) = true
  · rw [if_pos h]
    rw [any_file] at h
    refine ⟨?_, id, fun x hx => .inl hx⟩
    intro f
    constructor
    · exact .inl
    · rintro (h' | rfl)
      · exact h'
      · exact h
  · rw [if_neg h]
    rw [any_file] at h
    refine ⟨by intro f; simp [files], ?_, by simp⟩
    intro hn
    rw [files_append, List.nodup_append]
    refine ⟨hn, by simp [files], ?_⟩
    intro x hx y hy hxy
    simp [files] at hy
    subst hy
    subst hxy
    exact h hx

theorem includeAll_spec (ms : List Str) (e : Option Str) (a : Bool) (r : List Rec) :
    (∀ f, f ∈ files (ms.foldl (fun r m => includeMatch r m e a) r) ↔ f ∈ files r ∨ f ∈ ms) ∧
    ((files r).Nodup → (files (ms.foldl (fun r m => includeMatch r m e a) r)).Nodup) ∧
    (∀ x ∈ ms.foldl (fun r m => includeMatch r m e a) r, x ∈ r ∨ ∃ m ∈ ms, x = ⟨m, e, a⟩) := by
  induction ms generalizing r with
  | nil => simp
  | cons m ms ih =>
    obtain ⟨i1, i2, i3⟩ := ih (includeMatch r m e a)
    obtain ⟨j1, j2, j3⟩ := includeMatch_spec r m e a
    simp only [List.foldl_cons]
    refine ⟨?_, fun h => i2 (j2 h), ?_⟩
    · intro f
      rw [i1, j1]
      simp [or_assoc]
    · intro x hx
      rcases i3 x hx with h | ⟨m', h, h'⟩
      · rcases j3 x h with h | h
        · exact .inl h
        · exact .inr ⟨m, by simp, h⟩
      · exact .inr ⟨m', by simp [h], h'⟩

theorem mem_kept {fs : Fs} {p f : Str} {e : Option Str} :
    f ∈ kept fs p e ↔ f ∈ fs.found p ∧ (e = some [] → fs.hasExt f = false) := by
  unfold kept
  rw [List.mem_filter]
  by_cases h : e = some [] <;> simp [h]

theorem includePattern_spec {fs : Fs} (hfs : fs.Ok) (r : List Rec) (p : Str) (e : Option Str)
    (a : Bool) :
    (∀ f, f ∈ files (includePattern fs r p e a) ↔ f ∈ files r ∨ f ∈ kept fs p e) ∧
    ((files r).Nodup → (files (includePattern fs r p e a)).Nodup) ∧
    (∀ x ∈ includePattern fs r p e a, x ∈ r ∨ ∃ m ∈ kept fs p e, x = ⟨m, e, a⟩) := by
  unfold includePattern
  by_cases h : (r.isEmpty && decide (fs.recursive p ≤ 1)) = true
  · rw [if_pos h]
    simp only [Bool.and_eq_true, List.isEmpty_iff, decide_eq_true_eq] at h
    obtain ⟨rfl, h⟩ := h
    have hm : files ([] ++ (kept fs p e).map fun m => (⟨m, e, a⟩ : Rec)) = kept fs p e := by
      simp [files, Function.comp_def]
    rw [hm]
    refine ⟨by simp [files], fun _ => (hfs.once p h).filter _, ?_⟩
    intro x hx
    simp at hx
    obtain ⟨m, h1, h2⟩ := hx
    exact .inr ⟨m, h1, h2.symm⟩
  · rw [if_neg h]
    exact includeAll_spec _ e a r

theorem excludeMatch_spec (r : List Rec) (m : Str) :
    ((files r).Nodup → ∀ f, f ∈ files (excludeMatch r m) ↔ f ∈ files r ∧ f ≠ m) ∧
    ((files r).Nodup → (files (excludeMatch r m)).Nodup) ∧
    (∀ x ∈ excludeMatch r m, x ∈ r) := by
  induction r with
  | nil => simp [excludeMatch, files]
  | cons x r ih =>
    obtain ⟨i1, i2, i3⟩ := ih
    unfold excludeMatch
    by_cases h : (x.file == m) = true
    · rw [if_pos h]
      have h : x.file = m := by simpa using h
      refine ⟨?_, ?_, fun y hy => List.mem_cons_of_mem _ hy⟩
      · intro hn f
        simp only [files, List.map_cons, List.nodup_cons] at hn
        simp only [files, List.map_cons, List.mem_cons]
        constructor
        · intro hf
          refine ⟨.inr hf, ?_⟩
          intro h'
          subst h'
          exact hn.1 (by rw [h]; exact hf)
        · rintro ⟨h1 | h1, h2⟩
          · exact absurd (h1.trans h) h2
          · exact h1
      · intro hn
        simp only [files, List.map_cons, List.nodup_cons] at hn
        exact hn.2
    · rw [if_neg h]
      have h : x.file ≠ m := by simpa using h
      refine ⟨?_, ?_, ?_⟩
      · intro hn f
        simp only [files, List.map_cons, List.nodup_cons] at hn
        have := i1 hn.2 f
        simp only [files] at this
        simp only [files, List.map_cons, List.mem_cons, this]
        constructor
        · rintro (h1 | ⟨h1, h2⟩)
          · exact ⟨.inl h1, by rw [h1]; exact h⟩
          · exact ⟨.inr h1, h2⟩
        · rintro ⟨h1 | h1, h2⟩
          · exact .inl h1
          · exact .inr ⟨h1, h2⟩
      · intro hn
        simp only [files, List.map_cons, List.nodup_cons] at hn
        simp only [files, List.map_cons, List.nodup_cons]
        refine ⟨?_, i2 hn.2⟩
        intro hf
        exact hn.1 ((i1 hn.2 _).1 hf).1
      · intro y hy
        rcases List.mem_cons.1 hy with rfl | hy
        · simp
        · exact List.mem_cons_of_mem _ (i3 y hy)

theorem excludePattern_spec (fs : Fs) (r : List Rec) (p : Str) :
    (∀ f, f ∈ files (excludePattern fs r p) ↔ f ∈ files r ∧ fs.matches_ f p = false) ∧
    ((files r).Nodup → (files (excludePattern fs r p)).Nodup) ∧
    (∀ x ∈ excludePattern fs r p, x ∈ r) := by
  refine ⟨?_, ?_, fun x hx => (List.mem_filter.1 hx).1⟩
  · intro f
    simp only [files, excludePattern, List.mem_map, List.mem_filter]
    constructor
    · rintro ⟨x, ⟨h1, h2⟩, rfl⟩
      exact ⟨⟨x, h1, rfl⟩, by simpa using h2⟩
    · rintro ⟨⟨x, h1, rfl⟩, h2⟩
      exact ⟨x, ⟨h1, by simpa using h2⟩, rfl⟩
  · intro hn
    exact hn.sublist (List.Sublist.map _ List.filter_sublist)

/-! ## The listing -/

theorem listed_nil (fs : Fs) (k : Kind) (f : Str) : ¬ Listed fs k [] f := by
  rintro ⟨pre, i, post, h, -⟩
  simp at h

theorem listed_snoc (fs : Fs) (k : Kind) (is : List Item) (i : Item) (f : Str) :
    Listed fs k (is ++ [i]) f ↔
      (i.sign = .plus ∧ Includes fs k i.text f) ∨
      (Listed fs k is f ∧ (i.sign = .minus → ¬ Excludes fs k i.text f)) := by
  constructor
  · rintro ⟨pre, j, post, h, h1, h2, h3⟩
    rcases List.eq_nil_or_concat post with rfl | ⟨post', l, rfl⟩
    · obtain ⟨-, hij⟩ := List.append_inj' h rfl
      cases hij
      exact .inl ⟨h1, h2⟩
    · rw [List.concat_eq_append, ← List.cons_append, ← List.append_assoc] at h
      obtain ⟨hp, h'⟩ := List.append_inj' h rfl
      cases h'
      refine .inr ⟨⟨pre, j, post', hp, h1, h2, fun q hq => h3 q (by simp [hq])⟩, ?_⟩
      exact h3 i (by simp)
  · rintro (⟨h1, h2⟩ | ⟨⟨pre, j, post, h, h1, h2, h3⟩, h4⟩)
    · exact ⟨is, i, [], rfl, h1, h2, by simp⟩
    · refine ⟨pre, j, post ++ [i], by rw [h]; simp, h1, h2, ?_⟩
      intro q hq hs
      rcases List.mem_append.1 hq with hq | hq
      · exact h3 q hq hs
      · simp at hq
        subst hq
        exact h4 hs

/-! ## The loop -/

/-- What holds of an element of the result. -/
structure Good (fs : Fs) (k : Kind) (d : Bool) (is : List Item) (x : Rec) : Prop where
  item : ∃ i ∈ is, i.sign = .plus ∧ Includes fs k i.text x.file ∧ (d = false → x.ext = itemExt k i.text)
  dirEnd : d = true → x.file.getLast? = some '/'
  amended : d = false → x.amended = true → k.dflt = x.ext ∧ x.ext ≠ none
  dflt : d = false → x.amended = false → x.ext = none → k.dflt = none
  clean : d = false → x.amended = false → ∀ e, x.ext = some e → '/' ∉ e ∧ e.head? ≠ some '.'

theorem Good.more {fs : Fs} {k : Kind} {d : Bool} {is : List Item} {x : Rec} (h : Good fs k d is x)
    (js : List Item) : Good fs k d (is ++ js) x := by
  refine ⟨?_, h.dirEnd, h.amended, h.dflt, h.clean⟩
  obtain ⟨i, h1, h2⟩ := h.item
  exact ⟨i, List.mem_append_left _ h1, h2⟩

/-- The invariant. -/
structure Inv (fs : Fs) (k : Kind) (d : Bool) (is : List Item) (r : List Rec) : Prop where
  nodup : (files r).Nodup
  listed : ∀ f, f ∈ files r ↔ Listed fs k is f
  good : ∀ x ∈ r, Good fs k d is x

theorem step_ok {fs : Fs} (hfs : fs.Ok) {k : Kind} {dir : Option Bool} {r r' : List Rec} {i : Item}
    {is : List Item} {d : Bool} (hinv : ∀ d', dir = some d' → Inv fs k d' is r)
    (h0 : dir = none → is = [] ∧ r = []) (h : step fs k dir r i = .ok (d, r')) :
    (dir = none ∨ dir = some d) ∧ Valid fs k i.text d ∧ Inv fs k d (is ++ [i]) r' := by
  unfold step at h
  cases ha : amend k i.text with
  | error e => rw [ha] at h; cases h
  | ok q =>
    obtain ⟨a, v, e, d'⟩ := q
    rw [ha] at h
    have am := amend_spec ha
    simp only at h
    by_cases hc : dir = some (!d')
    · rw [if_pos hc] at h; cases h
    · rw [if_neg hc] at h
      have hdir : dir = none ∨ dir = some d' := by
        rcases dir with _ | _ | _ <;> cases d' <;> simp at hc ⊢
      have hinv' : Inv fs k d' is r := by
        rcases hdir with hn | hs
        · obtain ⟨rfl, rfl⟩ := h0 hn
          exact ⟨by simp [files], fun f => by simp [files, listed_nil], by simp⟩
        · exact hinv _ hs
      cases hf : factor fs v e with
      | error e => rw [hf] at h; cases h
      | ok p =>
        rw [hf] at h
        obtain ⟨rfl, hw⟩ := factor_ok hf
        simp only at h
        have hval : Valid fs k i.text d' := by
          refine ⟨_, _, am.stands, ?_⟩
          intro n x hd hs e' he' hne
          obtain ⟨x', hs', he⟩ := am.split hd
          rw [hs] at hs'
          cases hs'
          exact hw e' (by rw [he, he']) hne
        cases hsg : i.sign with
        | plus =>
          rw [hsg] at h
          cases h
          refine ⟨hdir, hval, ?_⟩
          obtain ⟨p1, p2, p3⟩ := includePattern_spec hfs r (v ++ extPart e) e a
          have hinc : ∀ f, f ∈ kept fs (v ++ extPart e) e ↔ Includes fs k i.text f := by
            intro f
            rw [mem_kept]
            constructor
            · rintro ⟨h1, h2⟩
              exact ⟨_, _, _, am.stands, h1, by simpa using h2⟩
            · rintro ⟨d1, full, ne, hs, h1, h2⟩
              obtain ⟨-, rfl, rfl⟩ := hs.unique am.stands
              exact ⟨h1, by simpa using h2⟩
          refine ⟨p2 hinv'.nodup, ?_, ?_⟩
          · intro f
            rw [p1, listed_snoc, hinv'.listed, hinc, hsg]
            simp [or_comm]
          · intro x hx
            rcases p3 x hx with h1 | ⟨m, hm, rfl⟩
            · exact (hinv'.good x h1).more _
            · refine ⟨⟨i, by simp, hsg, (hinc m).1 hm, am.ext⟩, ?_, am.amended, am.dflt, am.clean⟩
              intro hd
              refine (hfs.dir _ _ (mem_kept.1 hm).1).2 ?_
              rw [am.dirExt hd]
              simpa [extPart] using am.dirEnd hd
        | minus =>
          rw [hsg] at h
          cases h
          refine ⟨hdir, hval, ?_⟩
          have hexc : ∀ f, Excludes fs k i.text f ↔
              if fs.wild (v ++ extPart e) then fs.matches_ f (v ++ extPart e) = true
              else f = v ++ extPart e := by
            intro f
            constructor
            · rintro ⟨d1, full, ne, hs, h1⟩
              obtain ⟨-, rfl, rfl⟩ := hs.unique am.stands
              exact h1
            · intro h1
              exact ⟨_, _, _, am.stands, h1⟩
          by_cases hwp : fs.wild (v ++ extPart e) = true
          · simp only [hwp, if_true] at hexc ⊢
            obtain ⟨p1, p2, p3⟩ := excludePattern_spec fs r (v ++ extPart e)
            refine ⟨p2 hinv'.nodup, ?_, fun x hx => (hinv'.good x (p3 x hx)).more _⟩
            intro f
            rw [p1, listed_snoc, hinv'.listed, hexc, hsg]
            simp
          · simp only [hwp, Bool.false_eq_true, if_false] at hexc ⊢
            obtain ⟨p1, p2, p3⟩ := excludeMatch_spec r (v ++ extPart e)
            refine ⟨p2 hinv'.nodup, ?_, fun x hx => (hinv'.good x (p3 x hx)).more _⟩
            intro f
            rw [p1 hinv'.nodup, listed_snoc, hinv'.listed, hexc, hsg]
            simp

theorem step_of_valid {fs : Fs} {k : Kind} {dir : Option Bool} {r : List Rec} {i : Item} {d : Bool}
    (hd : dir = none ∨ dir = some d) (hv : Valid fs k i.text d) :
    ∃ r', step fs k dir r i = .ok (d, r') := by
  obtain ⟨full, ne, hs, hw⟩ := hv
  obtain ⟨a, v, e, ha⟩ := amend_of_stands hs
  have am := amend_spec ha
  have hf : factor fs v e = .ok (v ++ extPart e) := by
    apply factor_of
    intro x hx hne
    cases d with
    | true => rw [am.dirExt rfl] at hx; cases hx
    | false =>
      obtain ⟨y, h1, h2⟩ := am.split rfl
      exact hw v y rfl h1 x (by rw [← h2, hx]) hne
  unfold step
  simp only [ha, hf]
  have hc : ¬ dir = some (!d) := by
    rcases hd with rfl | rfl
    · simp
    · cases d <;> simp
  simp only [if_neg hc]
  cases i.sign with
  | plus => exact ⟨_, rfl⟩
  | minus => exact ⟨_, rfl⟩

theorem sign_iff {first : Bool} {n : Nm} {i : Item} : sign first n = .ok i ↔ Means first n i := by
  obtain ⟨ty, tx, sm⟩ := n
  constructor
  · intro h
    unfold sign at h
    cases first with
    | true =>
      simp only [if_true] at h
      split at h
      · cases h
      · split at h
        · cases h
        · rename_i h1 h2
          cases h
          simp at h1 h2
          obtain ⟨⟨h2, h3⟩, h4⟩ := h2
          refine .first ?_ h3 h4
          by_cases hl : ty.length = 1
          · exact .inr (h1 hl)
          · exact .inl (h2 hl)
    | false =>
      simp only [Bool.false_eq_true, if_false] at h
      split at h
      · rename_i ht
        simp at ht
        split at h
        · cases h
        · rename_i h2
          simp at h2
          cases h
          rcases ht with rfl | rfl
          · exact .plusGroup rfl h2.1 h2.2
          · exact .minusGroup rfl h2.1 h2.2
      · split at h
        · cases h
        · rename_i h1 h2
          simp at h2
          obtain ⟨⟨rfl, -⟩, h4⟩ := h2
          split at h
          · split at h
            · cases h
            · rename_i h5
              cases h
              exact .plus rfl rfl (by simpa using h5) h4
          · split at h
            · cases h
            · rename_i h5
              cases h
              exact .minus rfl rfl (by simpa using h5) h4
          · cases h
  · intro h
    cases h with
    | first h1 h2 h3 =>
      simp only at h1 h2 h3
      rcases h1 with rfl | rfl <;> simp [sign, h2, h3]
    | plusGroup h1 h2 h3 =>
      simp only at h1 h2 h3
      subst h1
      simp [sign, h2, h3]
    | minusGroup h1 h2 h3 =>
      simp only at h1 h2 h3
      subst h1
      simp [sign, h2, h3]
    | plus h1 h2 h3 h4 =>
      simp only at h1 h2 h3 h4
      subst h1; subst h2
      simp [sign, h3, h4]
    | minus h1 h2 h3 h4 =>
      simp only at h1 h2 h3 h4
      subst h1; subst h2
      simp [sign, h3, h4]

theorem loop_ok {fs : Fs} (hfs : fs.Ok) {k : Kind} (ns : List Nm) {dir dir' : Option Bool}
    {r r' : List Rec} {is : List Item} (hinv : ∀ d', dir = some d' → Inv fs k d' is r)
    (h0 : dir = none → is = [] ∧ r = []) (h : loop fs k dir r ns = .ok (dir', r')) :
    ∃ js, MeansAll (dir == none) ns js ∧ (∀ d', dir' = some d' → Inv fs k d' (is ++ js) r') ∧
      (∀ d', dir' = some d' → ∀ j ∈ js, Valid fs k j.text d') ∧ (∀ d', dir = some d' → dir' = some d') ∧
      (ns ≠ [] → dir' ≠ none) := by
  induction ns generalizing dir r is with
  | nil =>
    cases h
    exact ⟨[], .nil, by simpa using hinv, by simp, fun _ => id, by simp⟩
  | cons n ns ih =>
    unfold loop at h
    cases hs : sign (dir == none) n with
    | error e => rw [hs] at h; cases h
    | ok i =>
      rw [hs] at h
      simp only at h
      cases ht : step fs k dir r i with
      | error e => rw [ht] at h; cases h
      | ok q =>
        obtain ⟨d, r1⟩ := q
        rw [ht] at h
        simp only at h
        obtain ⟨s1, s2, s3⟩ := step_ok hfs hinv h0 ht
        obtain ⟨js, j1, j2, j3, j4, -⟩ := ih (dir := some d) (is := is ++ [i]) (by rintro _ ⟨⟩; exact s3)
          (by simp) h
        have hd := j4 d rfl
        refine ⟨i :: js, .cons (sign_iff.1 hs) (by simpa using j1), by simpa using j2, ?_, ?_, ?_⟩
        · intro d' hd' j hj
          rcases List.mem_cons.1 hj with rfl | hj
          · rw [hd] at hd'
            cases hd'
            exact s2
          · exact j3 d' hd' j hj
        · intro d' hd'
          rcases s1 with h | h <;> rw [h] at hd' <;> cases hd'
          exact hd
        · intro _; rw [hd]; simp

theorem loop_of_valid {fs : Fs} {k : Kind} {d : Bool} (ns : List Nm) {dir : Option Bool}
    {r : List Rec} {js : List Item} (hd : dir = none ∨ dir = some d)
    (hm : MeansAll (dir == none) ns js) (hv : ∀ j ∈ js, Valid fs k j.text d) :
    ∃ dir' r', loop fs k dir r ns = .ok (dir', r') := by
  induction ns generalizing dir r js with
  | nil => exact ⟨_, _, rfl⟩
  | cons n ns ih =>
    cases hm with
    | @cons _ _ i _ js h1 h2 =>
      obtain ⟨r1, hs⟩ := step_of_valid (r := r) hd (hv i (by simp))
      obtain ⟨dir', r', hl⟩ := ih (dir := some d) (r := r1) (js := js) (.inr rfl) (by simpa using h2)
        (fun j hj => hv j (by simp [hj]))
      refine ⟨dir', r', ?_⟩
      unfold loop
      simp only [sign_iff.2 h1, hs]
      exact hl

/-! ## The names -/

theorem dirName_file {x : Rec} (h : x.file.getLast? = some '/') : dirName x = some x.file := by
  have hd := isDir_iff.2 h
  unfold dirName
  by_cases ha : x.amended = true
  · rw [if_pos ha, if_pos hd]
    obtain ⟨l, hl⟩ := List.getLast?_eq_some_iff.1 h
    rw [hl]
    simp
  · rw [if_neg ha, if_pos hd]

theorem names_of {d : Bool} {P : Str → Str → Prop} (r : List Rec)
    (h : ∀ x ∈ r, ∃ w, (if d then dirName x else fileName x) = some w ∧ P w x.file) :
    ∃ ns, names d r = some ns ∧ ns.length = (files r).length ∧
      ∀ w f, (w, f) ∈ ns.zip (files r) → P w f := by
  induction r with
  | nil => exact ⟨[], rfl, rfl, by simp [files]⟩
  | cons x r ih =>
    obtain ⟨ns, h1, h2, h3⟩ := ih fun y hy => h y (by simp [hy])
    obtain ⟨w, h4, h5⟩ := h x (by simp)
    refine ⟨w :: ns, by simp [names, h1, h4], by simp [files] at h2 ⊢; exact h2, ?_⟩
    intro w' f hwf
    simp only [files, List.map_cons, List.zip_cons_cons, List.mem_cons] at hwf
    rcases hwf with h | h
    · cases h
      exact h5
    · exact h3 w' f h

end Verif.NamePat
