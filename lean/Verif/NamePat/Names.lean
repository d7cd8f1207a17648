import Verif.NamePat.Model
import Verif.Name.Props

/-!
# Name patterns: what the names denote
-/

namespace Verif.NamePat

open Verif.Name

theorem means_append {a n b x : Str} (ha : Name.Means a n) (hb : Name.Means b x)
    (hl : a.getLast? ≠ some '.') (hh : b.head? ≠ some '.') :
    Name.Means (a ++ '.' :: b) (n ++ '.' :: x) := by
  induction ha with
  | nil => exact .dot hh hb
  | @char c w l hc h ih =>
    refine .char hc (ih ?_)
    intro h'
    apply hl
    cases w with
    | nil => cases h'
    | cons d w => simpa using h'
  | @dot w l hw h ih =>
    cases w with
    | nil => exact absurd rfl hl
    | cons d w =>
      refine .dot (by simpa using hw) (ih ?_)
      intro h'
      exact hl (by simpa using h')
  | @dots k w l hk hw h ih =>
    cases w with
    | nil =>
      exfalso
      apply hl
      rw [List.append_nil, List.getLast?_replicate, if_neg (by omega)]
    | cons d w =>
      have := Name.Means.dots (k := k) (w := d :: w ++ '.' :: b) hk (by simpa using hw) (ih ?_)
      · simpa [List.append_assoc] using this
      · intro h'
        apply hl
        rw [List.getLast?_append, h']
        rfl

theorem means_unique {w l l' : Str} (h : Name.Means w l) (h' : Name.Means w l') : l = l' := by
  obtain ⟨us, h1, h2, -⟩ := means_unT h
  obtain ⟨us', h1', h2', -⟩ := means_unT h'
  rw [h1] at h1'
  cases h1'
  rw [← h2, ← h2']

/-- The trailing dot is escaped. -/
theorem escT_trailing (lead : Bool) (ts : List Tok) (hw : WF ts) (X : List Tok) :
    (escT true lead ts).1 ≠ X ++ [.ds 1] := by
  induction ts generalizing lead X with
  | nil => simp [escT]
  | cons t ts ih =>
    intro h
    cases X with
    | nil =>
      cases t with
      | ch c => simp [escT] at h
      | ds k =>
        simp only [escT, List.nil_append, List.cons.injEq, Tok.ds.injEq] at h
        have hts : ts = [] := by
          cases ts with
          | nil => rfl
          | cons t' ts' => cases t' <;> simp [escT] at h
        subst hts
        have := hw.1
        simp at h
        omega
    | cons x X =>
      cases t with
      | ch c =>
        simp only [escT, List.cons_append, List.cons.injEq] at h
        exact ih false hw.2 X h.2
      | ds k =>
        simp only [escT, List.cons_append, List.cons.injEq] at h
        exact ih false hw.2.2 X h.2

/-- A name that is written without an extension of its own is split into parts that make the same
path. -/
theorem same_path (dir leaf : Str) (e : Option Str) (de : Bool)
    (hd : dir = [] ∨ dir.getLast? = some '/') (hsep : '/' ∉ leaf) (hnd : ∃ c ∈ leaf, c ≠ '.')
    (he : (e = none ∧ de = false) ∨ (leaf.getLast? = some '.' ∧ (e = none ∨ e = some []))) :
    ∃ w n x, combine (dir ++ leaf) e de = some w ∧ split w = .ok n x ∧
      n ++ extPart x = dir ++ leaf ∧ (leaf.getLast? = some '.' → x ≠ none) := by
  obtain ⟨c, hc, hcd⟩ := hnd
  have hw := wf_toks leaf
  have hns := noSep_toks hsep
  have hleaf : leaf ≠ [] := by intro h; subst h; cases hc
  have hch : ∃ c, .ch c ∈ toks leaf := by
    apply Classical.byContradiction
    intro hn
    have : (toks leaf).all isDs = true := by
      rw [List.all_eq_true]
      intro t ht
      cases t with
      | ch c => exact absurd ⟨c, ht⟩ hn
      | ds k => rfl
    rw [all_ds_iff hw, expand_toks] at this
    exact hcd (this c hc)
  obtain ⟨wA, dA, nA, eA, sA, pA, uA, cA⟩ := escT_spec true true (toks leaf) hw
  have htr := escT_trailing true (toks leaf) hw
  have hA : (escT true true (toks leaf)).1 ≠ [] := by
    rw [Ne, nA, toks_eq_nil]; exact hleaf
  generalize hAdef : (escT true true (toks leaf)).1 = A at *
  have hcA := cA hch
  have hsA := sA hns
  have mA := means_of_unT wA pA uA
  rw [expand_toks] at mA
  have hnA : Name.expand A ≠ [] := fun h => hA ((expand_eq_nil wA).1 h)
  have hesc : escape true (dir ++ leaf).length 0 (dir ++ leaf).reverse =
      some ((Name.expand A).reverse ++ dir.reverse, (escT true true (toks leaf)).2) := by
    have := escape_toks true (toks leaf) hw hns dir.reverse (Or.inr ?_) (dir ++ leaf).length ?_
    · rw [expand_toks, ← List.reverse_append, (escape_dir hd _).1, (escape_dir hd 0).2] at this
      rw [this]
      simp [hAdef]
    · exact (dir_scan hd start).2
    · simp [len, expand_toks]
  have hlastA : (Name.expand A).getLast? = some '.' ↔ leaf.getLast? = some '.' := by
    rw [← endDs_iff wA, eA, endDs_iff hw, expand_toks]
  have hlast : ((dir ++ Name.expand A).getLast? = some '.') ↔ leaf.getLast? = some '.' := by
    have h1 : (dir ++ Name.expand A).getLast? = (Name.expand A).getLast? := by
      rw [List.getLast?_append]
      cases h : (Name.expand A).getLast? with
      | none => exact absurd (List.getLast?_eq_none_iff.1 h) hnA
      | some x => rfl
    rw [h1, hlastA]
  have hcomb : combine (dir ++ leaf) e de = some (dir ++ Name.expand A) := by
    unfold combine
    rw [if_neg (by simp [hleaf])]
    have hrev : ((Name.expand A).reverse ++ dir.reverse).reverse = dir ++ Name.expand A := by simp
    simp only [hesc, hrev]
    by_cases htl : leaf.getLast? = some '.'
    · rw [if_pos (hlast.2 htl)]
      rcases he with ⟨h, -⟩ | ⟨-, h⟩
      · exact if_pos (Or.inl h)
      · exact if_pos h
    · rw [if_neg (fun h => htl (hlast.1 h))]
      rcases he with ⟨h1, h2⟩ | ⟨h1, -⟩
      · subst h1; subst h2
        simp
      · exact absurd h1 htl
  have hnb : ¬ Bad (Name.expand A) := not_bad wA hcA (Or.inl pA)
  obtain ⟨n, x, hr⟩ := reads_exists (Name.expand A) hnb
  have hne : dir ++ Name.expand A ≠ [] := fun h => hnA (List.append_eq_nil_iff.1 h).2
  have hs := good_is_split _ dir (Name.expand A) hne ⟨rfl, noSep_iff.1 hsA, hd⟩ hnb n x hr
  have hno3 : ∀ a b, ¬ Run (Name.expand A) 3 a b := by
    intro a b hrun
    have := mem_run.1 ⟨a, b, hrun⟩
    rw [toks_expand wA] at this
    have := pA 3 this
    omega
  refine ⟨_, _, x, hcomb, hs, ?_, ?_⟩
  · rw [List.append_assoc]
    congr 1
    cases hr with
    | triple h => exact absurd h (hno3 _ _)
    | unspecified h => exact absurd h (hno3 _ _)
    | noExt _ _ hm _ => rw [means_unique mA hm]; simp [extPart]
    | none _ _ hm _ => rw [means_unique mA hm]; simp [extPart]
    | @single a b _ x _ hrun ha hb hma hmb =>
      have h1 : Name.Means (Name.expand A) (n ++ '.' :: x) := by
        have := means_append hma hmb hrun.2.2.1 hrun.2.2.2
        rw [hrun.1]
        simpa [List.replicate] using this
      rw [means_unique mA h1]
      cases x with
      | cons c x => rfl
      | nil =>
        exfalso
        have hbn : b = [] := (means_facts hmb).2.2.1.2 rfl
        subst hbn
        have := toks_of_run hrun
        rw [toks_expand wA] at this
        exact htr _ (by simpa [toks] using this)
  · intro htl hx
    subst hx
    cases hr with
    | unspecified h => exact absurd h (hno3 _ _)
    | none _ _ _ h => exact h (hlastA.2 htl)

/-- What splitting gives. -/
theorem split_facts {t n : Str} {x : Option Str} (h : split t = .ok n x) :
    t.getLast? ≠ some '/' ∧ n.getLast? ≠ some '/' ∧
    (∀ e, x = some e → '/' ∉ e ∧ e.head? ≠ some '.') := by
  have ht : t ≠ [] := by
    intro h0; subst h0
    simp [split] at h
  obtain ⟨dir, leaf, hl⟩ := exists_leaf t
  have hnb : ¬ Bad leaf := by
    intro hb
    obtain ⟨e, he⟩ := bad_is_error t dir leaf ht hl hb
    rw [he] at h; cases h
  obtain ⟨m, y, hr⟩ := reads_exists leaf hnb
  have hs := good_is_split t dir leaf ht hl hnb m y hr
  rw [h] at hs
  cases hs
  obtain ⟨r1, ⟨c, hc, -⟩, r3, -⟩ := split_representable leaf m x hl.2.1 hnb hr
  have hlast : ∀ l : Str, (∃ c, c ∈ l) → '/' ∉ l → (dir ++ l).getLast? ≠ some '/' := by
    rintro l ⟨c, hc⟩ hl h'
    rw [List.getLast?_append] at h'
    cases hg : l.getLast? with
    | none => rw [List.getLast?_eq_none_iff.1 hg] at hc; cases hc
    | some d =>
      rw [hg] at h'
      simp at h'
      subst h'
      exact hl (List.mem_of_getLast? hg)
  refine ⟨?_, hlast m ⟨c, hc⟩ r1, r3⟩
  rw [hl.1]
  refine hlast leaf ?_ hl.2.1
  cases leaf with
  | nil => exact absurd (Or.inl (by intro c hc; cases hc)) hnb
  | cons c l => exact ⟨c, List.mem_cons_self⟩

/-- The name of a file denotes it. -/
theorem fileName_denotes {k : Kind} {x : Rec} (hn : Nameable x.ext x.file)
    (ha : x.amended = true → k.dflt = x.ext ∧ x.ext ≠ none)
    (hx : x.amended = false → ∀ e, x.ext = some e → '/' ∉ e ∧ e.head? ≠ some '.')
    (hd : x.amended = false → x.ext = none → k.dflt = none) :
    ∃ w, fileName x = some w ∧ Denotes k.dflt w x.file := by
  obtain ⟨dir, leaf, hf, hsep, hdir, hnd, hdot⟩ := hn
  have hv : stem x = dir ++ leaf := by
    unfold stem
    cases he : x.ext with
    | none => rw [hf, he]; simp [extPart]
    | some e =>
      cases e with
      | nil => rw [hf, he]; simp [extPart]
      | cons c e =>
        simp only
        rw [hf, he]
        simp only [extPart, List.length_append, List.length_cons]
        rw [show dir.length + leaf.length + (e.length + 1 + 1) - (e.length + 1) - 1 =
          (dir ++ leaf).length by simp; omega, List.take_left']
        rfl
  unfold fileName
  rw [hv]
  by_cases hAm : x.amended = true
  · obtain ⟨h1, h2⟩ := ha hAm
    rw [if_pos hAm]
    cases he : x.ext with
    | none => exact absurd he h2
    | some e =>
      simp only
      rw [he] at hf hdot h1
      by_cases htl : leaf.getLast? = some '.'
      · obtain ⟨w, n, y, g1, g2, g3, -⟩ := same_path dir leaf none true hdir hsep hnd
          (.inr ⟨htl, .inl rfl⟩)
        have he0 : extPart (some e) = [] :=
          Classical.byContradiction fun h => hdot h htl
        refine ⟨w, g1, n, y, g2, ?_⟩
        rw [hf, he0, List.append_nil, ← g3, h1]
        cases y with
        | none => simp only [orDflt, he0]; simp [extPart]
        | some y => rfl
      · obtain ⟨w, g1, g2⟩ := round_trip_partial dir leaf none true hdir
          ⟨hsep, hnd, (by simp), fun h => absurd h htl⟩ (fun h => htl h.1) (fun _ => .inl rfl)
        exact ⟨w, g1, _, _, g2, by rw [hf, h1]; rfl⟩
  · have hAm' : x.amended = false := by simpa using hAm
    rw [if_neg hAm]
    cases he : x.ext with
    | none =>
      obtain ⟨w, n, y, g1, g2, g3, -⟩ := same_path dir leaf none false hdir hsep hnd (.inl ⟨rfl, rfl⟩)
      refine ⟨w, g1, n, y, g2, ?_⟩
      rw [hf, he, hd hAm' he]
      have : extPart none = [] := rfl
      rw [this, List.append_nil, ← g3]
      cases y <;> rfl
    | some e =>
      have hr := hx hAm' e he
      rw [he] at hf hdot
      by_cases htl : leaf.getLast? = some '.'
      · have he0 : extPart (some e) = [] :=
          Classical.byContradiction fun h => hdot h htl
        have hee : e = [] := by
          cases e with
          | nil => rfl
          | cons c e => simp [extPart] at he0
        subst hee
        obtain ⟨w, n, y, g1, g2, g3, g4⟩ := same_path dir leaf (some []) false hdir hsep hnd
          (.inr ⟨htl, .inr rfl⟩)
        refine ⟨w, g1, n, y, g2, ?_⟩
        rw [hf, he0, List.append_nil, ← g3]
        cases y with
        | none => exact absurd rfl (g4 htl)
        | some y => rfl
      · obtain ⟨w, g1, g2⟩ := round_trip_partial dir leaf (some e) false hdir
          ⟨hsep, hnd, (by rintro _ ⟨⟩; exact hr), fun h => absurd h htl⟩ (fun h => htl h.1) (by simp)
        exact ⟨w, g1, _, _, g2, by rw [hf]; rfl⟩

/-- A tidy name is nameable without its extension. -/
theorem Tidy.nameable {f : Str} (h : Tidy f) {e : Option Str} (hs : ∀ x, e = some x → '/' ∉ x)
    (he : ∃ v, f = v ++ extPart e) : Nameable e f := by
  obtain ⟨dir, leaf, ⟨hf, hsep, hdir⟩, hne, hhd, hdd⟩ := h
  have hnd : ∀ l l' : Str, leaf = l ++ l' → l ≠ [] → ∃ c ∈ l, c ≠ '.' := by
    intro l l' hl hn
    cases l with
    | nil => exact absurd rfl hn
    | cons c l =>
      refine ⟨c, List.mem_cons_self, ?_⟩
      intro h
      apply hhd
      rw [hl, h]
      rfl
  obtain ⟨v, hv⟩ := he
  match e, hs, hv with
  | none, _, _ => exact ⟨dir, leaf, by simp [extPart, hf], hsep, hdir, hnd leaf [] (by simp) hne, by simp [extPart]⟩
  | some [], _, _ => exact ⟨dir, leaf, by simp [extPart, hf], hsep, hdir, hnd leaf [] (by simp) hne, by simp [extPart]⟩
  | some (c :: x), hs, hv =>
    have hs := hs _ rfl
    simp only [extPart] at hv
    have hcat : dir ++ leaf = v ++ '.' :: c :: x := by rw [← hf, hv]
    -- The extension is within the leaf.
    have hle : ∃ l, leaf = l ++ '.' :: c :: x := by
      rw [List.append_eq_append_iff] at hcat
      rcases hcat with ⟨a, h1, h2⟩ | ⟨a, h1, h2⟩
      · exact ⟨a, h2⟩
      · cases a with
        | nil => exact ⟨[], by simpa using h2.symm⟩
        | cons d a =>
          rcases hdir with h | h
          · subst h; simp at h1
          · have hmem : '/' ∈ '.' :: c :: x := by
              rw [h2]
              rw [h1, List.getLast?_append] at h
              cases hg : (d :: a).getLast? with
              | none => simp at hg
              | some y =>
                rw [hg] at h
                simp at h
                subst h
                exact List.mem_append_left _ (List.mem_of_getLast? hg)
            rcases List.mem_cons.1 hmem with h | h
            · cases h
            · exact absurd h hs
    obtain ⟨l, hl⟩ := hle
    have hln : l ≠ [] := by
      intro h; subst h
      exact hhd (by rw [hl]; rfl)
    refine ⟨dir, l, by rw [hf, hl]; simp [extPart], ?_, hdir, hnd l _ hl hln, ?_⟩
    · intro h; exact hsep (by rw [hl]; exact List.mem_append_left _ h)
    · intro _ h
      obtain ⟨l', rfl⟩ : ∃ l', l = l' ++ ['.'] := by
        rw [List.getLast?_eq_some_iff] at h
        exact h
      exact hdd l' (c :: x) (by rw [hl]; simp)

end Verif.NamePat
