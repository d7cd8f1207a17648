import Verif.ModMap.Model

/-! # Modules and their binary interfaces: scores -/

namespace Verif.ModMap

theorem charSep_iff (c : Char) : charSep c = true ↔ FileSep c := by
  simp [charSep, FileSep, or_assoc]

theorem modSep_iff (c : Char) : modSep c = true ↔ NameSep c := by
  simp [modSep, NameSep]

theorem wordSep_iff (c : Char) : (modSep c || c == '_') = true ↔ WordSep c := by
  simp [WordSep, ← modSep_iff]

theorem caseSep_iff (a : Option Char) (b : Char) :
    caseSep a b = true ↔ ∃ c, a = some c ∧ Change b c := by
  cases a with
  | none => simp [caseSep]
  | some c =>
    simp only [caseSep, Bool.and_eq_true, Change, Option.some.injEq, bne_iff_ne, ne_eq]
    constructor
    · rintro ⟨⟨h1, h2⟩, h3⟩
      exact ⟨c, rfl, h2, h1, fun h => h3 h.symm⟩
    · rintro ⟨c', rfl, h1, h2, h3⟩
      exact ⟨⟨h2, h1⟩, fun h => h3 h.symm⟩

theorem change_ne {c d : Char} (h : Change c d) : c ≠ d := fun e => h.2.2 (by rw [e])

theorem alpha_val {c : Char} (h : c.isAlpha = true) :
    (65 ≤ c.val.toNat ∧ c.val.toNat ≤ 90) ∨ (97 ≤ c.val.toNat ∧ c.val.toNat ≤ 122) := by
  simp only [Char.isAlpha, Char.isUpper, Char.isLower, Bool.or_eq_true,
    Bool.and_eq_true, decide_eq_true_eq] at h
  rcases h with ⟨h1, h2⟩ | ⟨h1, h2⟩
  · exact Or.inl ⟨UInt32.le_iff_toNat_le.1 h1, UInt32.le_iff_toNat_le.1 h2⟩
  · exact Or.inr ⟨UInt32.le_iff_toNat_le.1 h1, UInt32.le_iff_toNat_le.1 h2⟩

theorem lower_val {c : Char} (h : c.isAlpha = true) :
    97 ≤ c.toLower.val.toNat ∧ c.toLower.val.toNat ≤ 122 := by
  have hv := alpha_val h
  unfold Char.toLower
  split
  · rename_i hu
    have h1 : 65 ≤ c.val.toNat := UInt32.le_iff_toNat_le.1 hu.1
    have h2 : c.val.toNat ≤ 90 := UInt32.le_iff_toNat_le.1 hu.2
    show 97 ≤ (c.val + 32).toNat ∧ (c.val + 32).toNat ≤ 122
    rw [UInt32.toNat_add]
    have : (32 : UInt32).toNat = 32 := rfl
    omega
  · rename_i hu
    rcases hv with ⟨h1, h2⟩ | hv
    · exact absurd ⟨UInt32.le_iff_toNat_le.2 h1, UInt32.le_iff_toNat_le.2 h2⟩ hu
    · exact hv

theorem alpha_not_file {c : Char} (h : c.isAlpha = true) : ¬ FileSep c := by
  rintro (rfl | rfl | rfl | rfl) <;> exact absurd h (by decide)

theorem alpha_not_word {c : Char} (h : c.isAlpha = true) : ¬ WordSep c := by
  rintro ((rfl | rfl) | rfl) <;> exact absurd h (by decide)

theorem alpha_not_same_word {c s : Char} (h : c.isAlpha = true) (hs : WordSep s) : ¬ Same c s := by
  intro he
  have := lower_val h
  rw [he] at this
  rcases hs with (rfl | rfl) | rfl <;> exact absurd this (by decide)

theorem alpha_not_same_file {c s : Char} (h : c.isAlpha = true) (hs : FileSep s) : ¬ Same s c := by
  intro he
  have := lower_val h
  rw [← he] at this
  rcases hs with rfl | rfl | rfl | rfl <;> exact absurd this (by decide)

/-! ## Steps of the scan -/

variable {fp mp : Option Char} {fsep msep found : Bool} {fc mc : Char} {f m : Str}

theorem scan_same (h : Same fc mc) : scan fp mp fsep msep found (fc :: f) (mc :: m) =
    scan (some fc) (some mc) false false found f m := by
  rw [scan, if_pos (show fc.toLower = mc.toLower from h)]

theorem scan_sep (h : ¬ Same fc mc) (h1 : FileSep fc) (h2 : WordSep mc) :
    scan fp mp fsep msep found (fc :: f) (mc :: m) =
      scan (some fc) (some mc) true true (found || modSep mc) f m := by
  rw [scan, if_neg (show ¬ fc.toLower = mc.toLower from h)]
  simp only [(charSep_iff fc).2 h1, (wordSep_iff mc).2 h2, Bool.and_self, if_true]

theorem scan_name (h1 : FileSep fc) {c : Char} (h2 : Change mc c) :
    scan fp (some c) fsep msep found (fc :: f) (mc :: m) =
      scan (some fc) (some mc) true msep found f (mc :: m) := by
  have hw : (modSep mc || mc == '_') = false :=
    Bool.eq_false_iff.2 fun h => alpha_not_word h2.1 ((wordSep_iff mc).1 h)
  have hm : modSep mc = false := by
    cases h : modSep mc
    · rfl
    · rw [h] at hw; cases hw
  have hu : (mc == '_') = false := by rw [hm, Bool.false_or] at hw; exact hw
  rw [scan, if_neg (show ¬ fc.toLower = mc.toLower from alpha_not_same_file h2.1 h1)]
  simp only [(charSep_iff fc).2 h1, hu, hm, Bool.or_false, Bool.and_false,
    (caseSep_iff (some c) mc).2 ⟨c, rfl, h2⟩]
  rfl

theorem scan_file (h1 : WordSep mc) {c : Char} (h2 : Change fc c) :
    scan (some c) mp fsep msep found (fc :: f) (mc :: m) =
      scan (some fc) (some mc) fsep true (found || modSep mc) (fc :: f) m := by
  have hf : charSep fc = false :=
    Bool.eq_false_iff.2 fun h => alpha_not_file h2.1 ((charSep_iff fc).1 h)
  rw [scan, if_neg (show ¬ fc.toLower = mc.toLower from alpha_not_same_word h2.1 h1)]
  simp only [hf, (wordSep_iff mc).2 h1, Bool.false_and, Bool.or_true, if_true,
    (caseSep_iff (some c) fc).2 ⟨c, rfl, h2⟩]
  rfl

/-- All the possibilities. -/
theorem scan_cases (fp mp : Option Char) (fsep msep found : Bool) (fc mc : Char) (f m : Str) :
    (Same fc mc) ∨ (¬ Same fc mc ∧ FileSep fc ∧ WordSep mc) ∨
    (FileSep fc ∧ ∃ c, mp = some c ∧ Change mc c) ∨
    (WordSep mc ∧ ∃ c, fp = some c ∧ Change fc c) ∨
    (scan fp mp fsep msep found (fc :: f) (mc :: m) = ⟨fc :: f, mc :: m, fsep, msep, found⟩ ∧
      ¬ (FileSep fc ∧ WordSep mc) ∧ ¬ (FileSep fc ∧ ∃ c, mp = some c ∧ Change mc c) ∧
      ¬ (WordSep mc ∧ ∃ c, fp = some c ∧ Change fc c)) := by
  by_cases h : Same fc mc
  · exact Or.inl h
  · by_cases h1 : FileSep fc ∧ WordSep mc
    · exact Or.inr (Or.inl ⟨h, h1⟩)
    · by_cases h2 : FileSep fc ∧ ∃ c, mp = some c ∧ Change mc c
      · exact Or.inr (Or.inr (Or.inl h2))
      · by_cases h3 : WordSep mc ∧ ∃ c, fp = some c ∧ Change fc c
        · exact Or.inr (Or.inr (Or.inr (Or.inl h3)))
        · refine Or.inr (Or.inr (Or.inr (Or.inr ⟨?_, h1, h2, h3⟩)))
          rw [scan, if_neg (show ¬ fc.toLower = mc.toLower from h)]
          simp only [← charSep_iff, ← wordSep_iff, ← caseSep_iff] at h1 h2 h3
          generalize charSep fc = a at *
          generalize (modSep mc || mc == '_') = b at *
          generalize caseSep mp mc = c at *
          generalize caseSep fp fc = d at *
          cases a <;> cases b <;> simp_all

/-- What has been scanned is spelled, perhaps with a separator that is only there on one side
and that the next character has to go along with. -/
def Inv (F M : Str) (fp mp : Option Char) (fsep msep found : Bool) (f1 m1 : Str) : Prop :=
  ∃ f2 m2, F = f1.reverse ++ f2 ∧ M = m1.reverse ++ m2 ∧ (found = true → SpellsEnd F M) ∧
    ((Spells f2 m2 ∧ fp = f2.head? ∧ mp = m2.head? ∧
        ((fsep = false ∧ msep = false ∧
            (f2 = [] ∨ ∃ a f b m, f2 = a :: f ∧ m2 = b :: m ∧ Same a b)) ∨
          (fsep = true ∧ msep = true))) ∨
      (∃ a f a' f' s m, f1 = a :: f ∧ f2 = a' :: f' ∧ m2 = s :: m ∧ fp = some a ∧ WordSep s ∧
        Change a a' ∧ Spells f2 m ∧ msep = true ∧ (NameSep s → SpellsEnd F M)) ∨
      (∃ b m b' m' s f, m1 = b :: m ∧ m2 = b' :: m' ∧ f2 = s :: f ∧ mp = some b ∧ FileSep s ∧
        Change b b' ∧ Spells f m2 ∧ fsep = true))

theorem scan_inv (F M : Str) (n : Nat) : ∀ fp mp fsep msep found f1 m1,
    f1.length + m1.length = n → Inv F M fp mp fsep msep found f1 m1 →
    ∃ fp' mp', Inv F M fp' mp' (scan fp mp fsep msep found f1 m1).fsep
      (scan fp mp fsep msep found f1 m1).msep (scan fp mp fsep msep found f1 m1).found
      (scan fp mp fsep msep found f1 m1).f (scan fp mp fsep msep found f1 m1).m := by
  induction n using Nat.strongRecOn with
  | _ n ih =>
    intro fp mp fsep msep found f1 m1 hn hi
    match f1, m1 with
    | [], m1 =>
      rw [show scan fp mp fsep msep found [] m1 = ⟨[], m1, fsep, msep, found⟩ by rw [scan]]
      exact ⟨fp, mp, hi⟩
    | fc :: f, [] =>
      rw [show scan fp mp fsep msep found (fc :: f) [] = ⟨fc :: f, [], fsep, msep, found⟩ by
        rw [scan]; simp]
      exact ⟨fp, mp, hi⟩
    | fc :: f, mc :: m =>
      rcases scan_cases fp mp fsep msep found fc mc f m with h | ⟨h, h1, h2⟩ | ⟨h1, c, rfl, h2⟩ |
        ⟨h1, c, rfl, h2⟩ | ⟨h, _⟩
      · rw [scan_same h]
        refine ih (f.length + m.length) (by simp at hn; omega) _ _ _ _ _ _ _ rfl ?_
        obtain ⟨f2, m2, e1, e2, h3, h4⟩ := hi
        refine ⟨fc :: f2, mc :: m2, by rw [e1]; simp, by rw [e2]; simp, h3,
          Or.inl ⟨?_, rfl, rfl, Or.inl ⟨rfl, rfl, Or.inr ⟨_, _, _, _, rfl, rfl, h⟩⟩⟩⟩
        rcases h4 with ⟨h5, _⟩ | ⟨a, f', a', f'', s, m', h5, rfl, rfl, _, h6, h7, h8, _⟩ |
          ⟨b, m', b', m'', s, f', h5, rfl, rfl, _, h6, h7, h8, _⟩
        · exact .char h h5
        · cases h5; exact .fileCase h h6 h7 h8
        · cases h5; exact .nameCase h h6 h7 h8
      · rw [scan_sep h h1 h2]
        refine ih (f.length + m.length) (by simp at hn; omega) _ _ _ _ _ _ _ rfl ?_
        obtain ⟨f2, m2, e1, e2, h3, h4⟩ := hi
        rcases h4 with ⟨h5, _⟩ | ⟨a, f', a', f'', s, m', h5, rfl, rfl, _, h6, h7, h8, _⟩ |
          ⟨b, m', b', m'', s, f', h5, rfl, rfl, _, h6, h7, h8, _⟩
        · refine ⟨fc :: f2, mc :: m2, by rw [e1]; simp, by rw [e2]; simp, ?_,
            Or.inl ⟨.sep h1 h2 h5, rfl, rfl, Or.inr ⟨rfl, rfl⟩⟩⟩
          intro hf
          rcases Bool.or_eq_true_iff.1 hf with hf | hf
          · exact h3 hf
          · exact ⟨f.reverse ++ [fc], f2, m.reverse ++ [mc], m2, by rw [e1]; simp,
              by rw [e2]; simp, h5, Or.inr ⟨_, mc, rfl, (modSep_iff mc).1 hf, Or.inr ⟨_, fc, rfl,
                Or.inl ⟨h1, fun he => h (by rw [he]; rfl)⟩⟩⟩⟩
        · cases h5; exact absurd h1 (alpha_not_file h7.1)
        · cases h5; exact absurd h2 (alpha_not_word h7.1)
      · rw [scan_name h1 h2]
        refine ih (f.length + (mc :: m).length) (by simp at hn ⊢; omega) _ _ _ _ _ _ _ rfl ?_
        obtain ⟨f2, m2, e1, e2, h3, h4⟩ := hi
        rcases h4 with ⟨h5, _, h6, _⟩ | ⟨a, f', a', f'', s, m', h5, rfl, rfl, _, h6, h7, h8, _⟩ |
          ⟨b, m', b', m'', s, f', h5, rfl, rfl, hb, h6, h7, h8, _⟩
        · cases m2 with
          | nil => cases h6
          | cons c' m2 =>
            cases h6
            exact ⟨fc :: f2, c :: m2, by rw [e1]; simp, e2, h3, Or.inr (Or.inr
              ⟨mc, m, c, m2, fc, f2, rfl, rfl, rfl, rfl, h1, h2, h5, rfl⟩)⟩
        · cases h5; exact absurd h1 (alpha_not_file h7.1)
        · cases h5; cases hb; exact absurd rfl (change_ne h2)
      · rw [scan_file h1 h2]
        refine ih ((fc :: f).length + m.length) (by simp at hn ⊢; omega) _ _ _ _ _ _ _ rfl ?_
        obtain ⟨f2, m2, e1, e2, h3, h4⟩ := hi
        rcases h4 with ⟨h5, h6, _⟩ | ⟨a, f', a', f'', s, m', h5, rfl, rfl, ha, h6, h7, h8, _⟩ |
          ⟨b, m', b', m'', s, f', h5, rfl, rfl, hb, h6, h7, h8, _⟩
        · cases f2 with
          | nil => cases h6
          | cons c' f2 =>
            cases h6
            have hend : NameSep mc → SpellsEnd F M := fun hm =>
              ⟨f.reverse ++ [fc], c :: f2, m.reverse ++ [mc], m2, by rw [e1]; simp,
                by rw [e2]; simp, h5, Or.inr ⟨_, mc, rfl, hm, Or.inr ⟨_, fc, rfl,
                  Or.inr ⟨c, f2, rfl, h2⟩⟩⟩⟩
            refine ⟨c :: f2, mc :: m2, e1, by rw [e2]; simp, ?_, Or.inr (Or.inl
              ⟨fc, f, c, f2, mc, m2, rfl, rfl, rfl, rfl, h1, h2, h5, rfl, hend⟩)⟩
            intro hf
            rcases Bool.or_eq_true_iff.1 hf with hf | hf
            · exact h3 hf
            · exact hend ((modSep_iff mc).1 hf)
        · cases h5; cases ha; exact absurd rfl (change_ne h2)
        · cases h5; exact absurd h1 (alpha_not_word h7.1)
      · rw [h]
        exact ⟨fp, mp, hi⟩

theorem start_inv (F M : Str) : Inv F M none none false false false F.reverse M.reverse :=
  ⟨[], [], by simp, by simp, fun h => (by cases h),
    Or.inl ⟨.nil, rfl, rfl, Or.inl ⟨rfl, rfl, Or.inl rfl⟩⟩⟩

/-- Conversely, what is spelled is scanned. -/
theorem scan_reach {f2 m2 : Str} (h : Spells f2 m2) : ∀ f1 m1, ∃ fsep msep found,
    scan none none false false false (f2.reverse ++ f1) (m2.reverse ++ m1) =
      scan f2.head? m2.head? fsep msep found f1 m1 ∧
    ((f2 = [] ∨ ∃ a f b m, f2 = a :: f ∧ m2 = b :: m ∧ Same a b) → fsep = false ∧ msep = false) := by
  induction h with
  | nil => intro f1 m1; exact ⟨false, false, false, rfl, fun _ => ⟨rfl, rfl⟩⟩
  | @char a b f m h _ ih =>
    intro f1 m1
    obtain ⟨x, y, z, h1, _⟩ := ih (a :: f1) (b :: m1)
    refine ⟨false, false, z, ?_, fun _ => ⟨rfl, rfl⟩⟩
    rw [scan_same h] at h1
    simpa using h1
  | @sep a b f m ha hb _ ih =>
    intro f1 m1
    obtain ⟨x, y, z, h1, _⟩ := ih (a :: f1) (b :: m1)
    by_cases h : Same a b
    · refine ⟨false, false, z, ?_, fun _ => ⟨rfl, rfl⟩⟩
      rw [scan_same h] at h1
      simpa using h1
    · refine ⟨true, true, z || modSep b, ?_, ?_⟩
      · rw [scan_sep h ha hb] at h1
        simpa using h1
      · rintro (h' | ⟨a', f', b', m', h2, h3, h4⟩)
        · cases h'
        · cases h2; cases h3; exact absurd h4 h
  | @fileCase a a' b s f m h hs hc _ ih =>
    intro f1 m1
    obtain ⟨x, y, z, h1, _⟩ := ih (a :: f1) (s :: b :: m1)
    refine ⟨false, false, z || modSep s, ?_, fun _ => ⟨rfl, rfl⟩⟩
    rw [List.head?_cons, scan_file hs hc, scan_same h] at h1
    simpa using h1
  | @nameCase a s b b' f m h hs hc _ ih =>
    intro f1 m1
    obtain ⟨x, y, z, h1, _⟩ := ih (s :: a :: f1) (b :: m1)
    refine ⟨false, false, z, ?_, fun _ => ⟨rfl, rfl⟩⟩
    rw [List.head?_cons, scan_name hs hc, scan_same h] at h1
    simpa using h1

/-- Once found, always found. -/
theorem scan_found (n : Nat) : ∀ (fp mp : Option Char) (fsep msep : Bool) (f m : Str),
    f.length + m.length = n → (scan fp mp fsep msep true f m).found = true := by
  induction n using Nat.strongRecOn with
  | _ n ih =>
    intro fp mp fsep msep f1 m1 hn
    match f1, m1 with
    | [], m1 => rw [scan]
    | fc :: f, [] => rw [scan]; simp
    | fc :: f, mc :: m =>
      simp only [List.length_cons] at hn
      rcases scan_cases fp mp fsep msep true fc mc f m with h | ⟨h, h1, h2⟩ | ⟨h1, c, rfl, h2⟩ |
        ⟨h1, c, rfl, h2⟩ | ⟨h, _⟩
      · rw [scan_same h]; exact ih _ (by omega) _ _ _ _ _ _ rfl
      · rw [scan_sep h h1 h2]; exact ih _ (by omega) _ _ _ _ _ _ rfl
      · rw [scan_name h1 h2]; exact ih _ (by simp only [List.length_cons]; omega) _ _ _ _ _ _ rfl
      · rw [scan_file h1 h2]; exact ih _ (by simp only [List.length_cons]; omega) _ _ _ _ _ _ rfl
      · rw [h]

/-! ## The score -/

/-- Where the scan stops. -/
def stop (F M : Str) : Stop := scan none none false false false F.reverse M.reverse

theorem stop_inv (F M : Str) : ∃ fp mp, Inv F M fp mp (stop F M).fsep (stop F M).msep
    (stop F M).found (stop F M).f (stop F M).m :=
  scan_inv F M _ _ _ _ _ _ _ _ rfl (start_inv F M)

theorem strength_le (F : Str) (n : Nat) : strength F n ≤ 9 ∧ (strength F n = 9 ↔ n = 0) := by
  unfold strength
  split
  · rename_i h; simp [h]
  · rename_i h
    have : ∀ x, x < 9 → x ≤ 9 ∧ (x = 9 ↔ n = 0) := fun x hx =>
      ⟨by omega, by omega, fun h' => absurd h' h⟩
    apply this
    split
    · split
      · split <;> omega
      · split <;> omega
    · omega

theorem left_le (F M : Str) : fileLeft (stop F M) ≤ F.length + 1 := by
  obtain ⟨fp, mp, f2, m2, h, _⟩ := stop_inv F M
  have := congrArg List.length h
  simp only [List.length_append, List.length_reverse] at this
  unfold fileLeft
  split <;> omega

theorem score_eq {F M : Str} (hF : F.length < 9998) (hM : M.length < 9998) :
    score F M = if hit (stop F M) then
      (M.length - nameLeft (stop F M)) * 100000 + strength F (fileLeft (stop F M)) * 10000 +
        (9999 - fileLeft (stop F M)) else 0 := by
  have h1 := left_le F M
  have h2 := (strength_le F (fileLeft (stop F M))).1
  show (if hit (stop F M) then _ else _) = _
  split
  · show ((M.length - nameLeft (stop F M)) * 100000 + strength F (fileLeft (stop F M)) * 10000 +
      (2 ^ 64 + 9999 - fileLeft (stop F M))) % 2 ^ 64 = _
    have e : (M.length - nameLeft (stop F M)) * 100000 + strength F (fileLeft (stop F M)) * 10000 +
        (2 ^ 64 + 9999 - fileLeft (stop F M)) =
      ((M.length - nameLeft (stop F M)) * 100000 + strength F (fileLeft (stop F M)) * 10000 +
        (9999 - fileLeft (stop F M))) + 2 ^ 64 := by omega
    rw [e, Nat.add_mod_right]
    exact Nat.mod_eq_of_lt (by omega)
  · rfl

theorem score_le {F M : Str} (hF : F.length < 9998) (hM : M.length < 9998) :
    score F M ≤ matchMax M := by
  have h2 := (strength_le F (fileLeft (stop F M))).1
  rw [score_eq hF hM, matchMax]
  split <;> omega

theorem score_pos {F M : Str} (hF : F.length < 9998) (hM : M.length < 9998) :
    score F M ≠ 0 ↔ hit (stop F M) = true := by
  have h1 := left_le F M
  rw [score_eq hF hM]
  split
  · rename_i h; simp only [h, iff_true]; omega
  · rename_i h; simp [h]

/-- Whether something was found. -/
def stopFound (f1 f2 M : Str) : Bool := (stop (f1 ++ f2) M).found

theorem stop_all {f1 f2 M : Str} (h : Spells f2 M)
    (h' : ∃ a f b m, f2 = a :: f ∧ M = b :: m ∧ Same a b) :
    stop (f1 ++ f2) M = ⟨f1.reverse, [], false, false, stopFound f1 f2 M⟩ := by
  obtain ⟨fs, ms, fd, h3, h4⟩ := scan_reach h f1.reverse []
  obtain ⟨h5, h6⟩ := h4 (Or.inr h')
  subst h5 h6
  have h7 : stop (f1 ++ f2) M = ⟨f1.reverse, [], false, false, fd⟩ := by
    unfold stop
    rw [List.append_nil] at h3
    rw [List.reverse_append, h3]
    cases hf : f1.reverse with
    | nil => rw [scan]
    | cons x l =>
      rw [scan]
      simp
  rw [stopFound, h7]

/-- When the score is the best possible one. -/
theorem score_max {F M : Str} (hF : F.length < 9998) (hM : M.length < 9998) (hne : M ≠ []) :
    score F M = matchMax M ↔ SpellsAll F M := by
  have hl : 0 < M.length := List.length_pos_iff.2 hne
  have h2 := strength_le F (fileLeft (stop F M))
  constructor
  · intro h
    rw [score_eq hF hM, matchMax] at h
    split at h
    · have h3 : fileLeft (stop F M) = 0 := by
        apply h2.2.1
        omega
      have h4 : nameLeft (stop F M) = 0 := by omega
      have hf : (stop F M).f = [] ∧ (stop F M).fsep = false := by
        unfold fileLeft at h3
        split at h3
        · omega
        · rename_i hx; exact ⟨List.length_eq_zero_iff.1 h3, Bool.eq_false_iff.2 hx⟩
      have hm : (stop F M).m = [] ∧ (stop F M).msep = false := by
        unfold nameLeft at h4
        split at h4
        · simp only at h4; split at h4 <;> omega
        · split at h4
          · omega
          · rename_i hx; exact ⟨List.length_eq_zero_iff.1 h4, Bool.eq_false_iff.2 hx⟩
      obtain ⟨fp, mp, f2, m2, e1, e2, _, h5⟩ := stop_inv F M
      rw [hf.1] at e1 h5
      rw [hm.1] at e2 h5
      simp only [List.reverse_nil, List.nil_append] at e1 e2
      subst e1 e2
      rcases h5 with ⟨h5, _, _, h6⟩ | ⟨a, f, _, _, _, _, h5, _⟩ | ⟨a, f, _, _, _, _, h5, _⟩
      · refine ⟨h5, ?_⟩
        rcases h6 with ⟨_, _, h6 | h6⟩ | ⟨h6, _⟩
        · subst h6
          cases h5
          exact absurd rfl hne
        · exact h6
        · rw [hf.2] at h6; cases h6
      · cases h5
      · cases h5
    · omega
  · rintro ⟨h, h'⟩
    obtain ⟨fs, ms, fd, h3, h4⟩ := scan_reach h [] []
    obtain ⟨h5, h6⟩ := h4 (Or.inr h')
    subst h5 h6
    have h7 : stop F M = ⟨[], [], false, false, fd⟩ := by
      unfold stop
      simp only [List.append_nil] at h3
      rw [h3, scan]
    rw [score_eq hF hM, h7, if_pos (by simp [hit])]
    have h8 : fileLeft ⟨[], [], false, false, fd⟩ = 0 := rfl
    have h9 : nameLeft ⟨[], [], false, false, fd⟩ = 0 := rfl
    rw [h8, h9, (strength_le F 0).2.2 rfl, matchMax]
    omega

/-- When all of the name of the module counts. -/
theorem left_zero {F M : Str} (hne : M ≠ []) :
    nameLeft (stop F M) = 0 ↔ ∃ f1 f2, F = f1 ++ f2 ∧ SpellsAll f2 M := by
  constructor
  · intro h4
    have hm : (stop F M).m = [] ∧ (stop F M).msep = false := by
      unfold nameLeft at h4
      split at h4
      · simp only at h4; split at h4 <;> omega
      · split at h4
        · omega
        · rename_i hx; exact ⟨List.length_eq_zero_iff.1 h4, Bool.eq_false_iff.2 hx⟩
    obtain ⟨fp, mp, f2, m2, e1, e2, _, h5⟩ := stop_inv F M
    rw [hm.1] at e2 h5
    rw [List.reverse_nil, List.nil_append] at e2
    subst e2
    rcases h5 with ⟨h5, _, _, h6⟩ | ⟨_, _, _, _, _, _, _, _, _, _, _, _, _, h6, _⟩ |
      ⟨a, f, _, _, _, _, h5, _⟩
    · refine ⟨_, f2, e1, h5, ?_⟩
      rcases h6 with ⟨_, _, h6 | h6⟩ | ⟨_, h6⟩
      · subst h6
        cases h5
        exact absurd rfl hne
      · exact h6
      · rw [hm.2] at h6; cases h6
    · rw [hm.2] at h6; cases h6
    · cases h5
  · rintro ⟨f1, f2, rfl, h, h'⟩
    rw [stop_all h h']
    simp [nameLeft]

/-- How a file that spells all of the name ranks. -/
theorem score_all {f1 f2 M : Str} (hF : (f1 ++ f2).length < 9998) (hM : M.length < 9998)
    (h : SpellsAll f2 M) :
    score (f1 ++ f2) M =
      M.length * 100000 + strength (f1 ++ f2) f1.length * 10000 + (9999 - f1.length) := by
  rw [score_eq hF hM, stop_all h.1 h.2, if_pos (by simp [hit])]
  have e : fileLeft ⟨f1.reverse, [], false, false, stopFound f1 f2 M⟩ = f1.length := by
    show f1.reverse.length = _
    simp
  rw [e]
  simp [nameLeft]

theorem score_other {F M : Str} (hF : F.length < 9998) (hM : M.length < 9998) (hne : M ≠ [])
    (h : ¬ ∃ f1 f2, F = f1 ++ f2 ∧ SpellsAll f2 M) : score F M < M.length * 100000 := by
  have h1 : nameLeft (stop F M) ≠ 0 := fun e => h ((left_zero hne).1 e)
  have hl : 0 < M.length := List.length_pos_iff.2 hne
  have h2 := (strength_le F (fileLeft (stop F M))).1
  rw [score_eq hF hM]
  split <;> omega

theorem strength_sep (f1 f2 : Str) (hne : f2 ≠ []) : strength (f1 ++ f2) f1.length =
    match separation f1 f2 with
    | 0 => 0
    | 1 => 7
    | 2 => 8
    | _ => 9 := by
  rcases List.eq_nil_or_concat f1 with rfl | ⟨f0, c, rfl⟩
  · rfl
  · rw [List.concat_eq_append]
    have hl : (f0 ++ [c]).length = f0.length + 1 := by simp
    obtain ⟨a, f', rfl⟩ : ∃ a f', f2 = a :: f' := by
      cases f2 with
      | nil => exact absurd rfl hne
      | cons a f' => exact ⟨a, f', rfl⟩
    unfold strength separation
    have e1 : ((f0 ++ [c]) ++ a :: f')[f0.length]? = some c := by simp
    have e2 : ((f0 ++ [c]) ++ a :: f')[f0.length + 1]? = some a := by simp
    have e3 : f0.length + 1 ≠ ((f0 ++ [c]) ++ a :: f').length := by simp
    have e4 : (f0 ++ [c]).getLast? = some c := by simp
    rw [hl, if_neg (by omega), Nat.add_sub_cancel, e1, e2, e4]
    simp only [charSep_iff, caseSep_iff]
    by_cases h1 : c = '/'
    · subst h1
      simp [FileSep]
    · by_cases h2 : FileSep c
      · simp [h1, h2]
      · by_cases h3 : Change c a
        · simp [h1, h2, h3]
        · simp [h1, h2, h3]

/-- When it is a match at all. -/
theorem hit_iff {F M : Str} (hu : M.head? ≠ some '_') :
    hit (stop F M) = true ↔ SpellsEnd F M := by
  constructor
  · intro h
    obtain ⟨fp, mp, f2, m2, e1, e2, h3, h4⟩ := stop_inv F M
    simp only [hit, Bool.or_eq_true, List.isEmpty_iff, Bool.and_eq_true] at h
    rcases h with (h | h) | ⟨h5, h6⟩
    · exact h3 h
    · rw [h] at e2 h4
      rcases h4 with ⟨h5, _⟩ | ⟨a, f, a', f', s, m, _, rfl, rfl, _, h6, _, _, _, h7⟩ |
        ⟨b, m, _, _, _, _, h5, _⟩
      · exact ⟨_, f2, [], m2, e1, by simpa using e2, h5, Or.inl rfl⟩
      · rcases h6 with h6 | rfl
        · exact h7 h6
        · rw [e2] at hu; exact absurd rfl hu
      · cases h5
    · rw [h5] at e1 h4
      cases hm : (stop F M).m with
      | nil => rw [hm] at h6; simp at h6
      | cons s m =>
        rw [hm] at h6 e2 h4
        have hs : NameSep s := by simpa [modSep_iff] using h6
        rcases h4 with ⟨h5, _⟩ | ⟨a, f, _, _, _, _, h5, _⟩ |
          ⟨b, m, _, _, _, _, h5, _, _, _, _, h7, _⟩
        · refine ⟨[], f2, m.reverse ++ [s], m2, by simpa using e1, by rw [e2]; simp, h5,
            Or.inr ⟨_, s, rfl, hs, Or.inl rfl⟩⟩
        · cases h5
        · cases h5; exact absurd (Or.inl hs) (alpha_not_word h7.1)
  · rintro ⟨f1, f2, m1, m2, rfl, rfl, h, h'⟩
    obtain ⟨fs, ms, fd, h3, h4⟩ := scan_reach h f1.reverse m1.reverse
    have h5 : stop (f1 ++ f2) (m1 ++ m2) =
        scan f2.head? m2.head? fs ms fd f1.reverse m1.reverse := by
      unfold stop
      rw [List.reverse_append, List.reverse_append, h3]
    rw [h5]
    rcases h' with rfl | ⟨m0, s, rfl, hs, rfl | ⟨f0, c, rfl, hc⟩⟩
    · cases hf : f1.reverse with
      | nil => rw [List.reverse_nil, scan]; simp [hit]
      | cons x l =>
        rw [List.reverse_nil, scan]
        · simp [hit]
        · simp
    · rw [List.reverse_nil, scan]
      simp [hit, (modSep_iff s).2 hs]
    · simp only [List.reverse_append, List.reverse_singleton, List.singleton_append]
      rcases hc with ⟨h6, h7⟩ | ⟨a, f', rfl, h6⟩
      · have hns : ¬ Same c s := by
          intro he
          rcases h6 with rfl | rfl | rfl | rfl <;> rcases hs with rfl | rfl <;>
            first
              | exact absurd rfl h7
              | exact absurd (show Char.toLower _ = Char.toLower _ from he) (by decide)
        rw [scan_sep hns h6 (Or.inl hs), (modSep_iff s).2 hs, Bool.or_true]
        simp only [hit, scan_found _ _ _ _ _ _ _ rfl, Bool.true_or]
      · rw [List.head?_cons, scan_file (Or.inl hs) h6, (modSep_iff s).2 hs, Bool.or_true]
        simp only [hit, scan_found _ _ _ _ _ _ _ rfl, Bool.true_or]

end Verif.ModMap
