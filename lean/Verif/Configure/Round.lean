import Verif.Configure.Lemmas

/-! # Configuring and disfiguring an output directory: nothing is left -/

namespace Verif.Configure

variable {top work : Path}

/-- Entries in which there is nothing are among these. -/
def Leaves (top : Path) (P : Path → Node → Prop) (fs : FS) : Prop :=
  ∀ x n, top <+: x → (x, n) ∈ fs → Empty fs x → P x n

/-- What an entry is in is there, and is a directory. -/
def Closed (top : Path) (fs : FS) : Prop :=
  ∀ x c n, top <+: x → (x ++ [c], n) ∈ fs → (x, .dir) ∈ fs ∧ ∀ m, (x, m) ∈ fs → m = .dir

/-- Both. -/
def I (top : Path) (P : Path → Node → Prop) (fs : FS) : Prop := Closed top fs ∧ Leaves top P fs

/-- These and a directory. -/
def Or (P : Path → Node → Prop) (d : Path) : Path → Node → Prop := fun x n => P x n ∨ (x = d ∧ n = .dir)

/-- These and the directory this is in. -/
def Up (P : Path → Node → Prop) (d : Path) : Path → Node → Prop :=
  fun x n => P x n ∨ (n = .dir ∧ d ≠ [] ∧ x = d.dropLast)

theorem I.mono {P Q fs} (h : I top P fs) (k : ∀ x n, top <+: x → P x n → Q x n) : I top Q fs :=
  ⟨h.1, fun x n a b c => k x n a (h.2 x n a b c)⟩

theorem Closed.deep {fs} (hc : Closed top fs) : ∀ {t : List String} {x c n}, top <+: x →
    (x ++ c :: t, n) ∈ fs → ∃ k, (x ++ [c], k) ∈ fs
  | [], _, _, n, _, h => ⟨n, h⟩
  | c' :: t, x, c, n, ht, h => by
    have h' : ((x ++ [c]) ++ c' :: t, n) ∈ fs := by simpa using h
    have ht' : top <+: x ++ [c] := ht.trans ⟨_, rfl⟩
    obtain ⟨k, hk⟩ := Closed.deep hc ht' h'
    exact ⟨_, (hc _ _ _ ht' hk).1⟩

theorem not_empty {fs x} (h : ¬ Empty fs x) : ∃ c t m, (x ++ c :: t, m) ∈ fs := by
  unfold Empty at h
  simp only [Classical.not_forall, Classical.not_not] at h
  exact h

/-- Removal of an entry in which there is nothing. -/
theorem remove_inv {P fs} {g : Path × Node → Bool} {d : Path} (h : I top P fs)
    (hg : ∀ x n, g (x, n) = false → x = d) (he : Empty fs d) :
    I top (Up (fun x n => P x n ∧ g (x, n) = true) d) (fs.filter g) := by
  obtain ⟨hc, hl⟩ := h
  constructor
  · intro x c n ht h
    have hm := (List.mem_filter.1 h).1
    refine ⟨List.mem_filter.2 ⟨(hc x c n ht hm).1, ?_⟩,
      fun m hm' => (hc x c n ht hm).2 m (List.mem_filter.1 hm').1⟩
    refine Decidable.byContradiction fun hn => ?_
    have := hg x .dir (by simpa using hn)
    subst this
    exact he c [] n hm
  · intro x n ht h hem
    obtain ⟨hm, hgx⟩ := List.mem_filter.1 h
    by_cases hx : Empty fs x
    · exact .inl ⟨hl x n ht hm hx, hgx⟩
    · right
      obtain ⟨c, t, m, hx⟩ := not_empty hx
      obtain ⟨k, hk⟩ := hc.deep ht hx
      have hd : x ++ [c] = d := by
        refine hg _ k ?_
        refine Bool.eq_false_iff.2 fun hn => hem c [] k (List.mem_filter.2 ⟨hk, hn⟩)
      refine ⟨(hc x c k ht hk).2 n hm, ?_, ?_⟩
      · rw [← hd]; simp
      · rw [← hd]; simp

theorem rmdir_inv {P fs d} (hw : ¬ top <+: work) (hd : top <+: d) (h : I top (Or P d) fs) :
    I top (Up P d) (rmdir work fs d).1 ∧ ((rmdir work fs d).2 = .notEmpty → I top P (rmdir work fs d).1) := by
  unfold rmdir
  rw [if_neg (fun hp => hw (hd.trans (List.isPrefixOf_iff_prefix.1 hp)))]
  by_cases hi : isDir fs d = true
  · rw [if_neg (by simp [hi])]
    by_cases he : empty fs d = true
    · rw [if_pos he]
      refine ⟨(remove_inv h ?_ (empty_iff.1 he)).mono ?_, fun e => nomatch e⟩
      · intro x n h; simp at h; exact h.1
      · rintro x n - (⟨h | ⟨rfl, rfl⟩, hg⟩ | h)
        · exact .inl h
        · simp at hg
        · exact .inr h
    · rw [if_neg he]
      have : I top P fs := by
        refine ⟨h.1, fun x n a b c => ?_⟩
        rcases h.2 x n a b c with h | ⟨rfl, rfl⟩
        · exact h
        · exact absurd (empty_iff.2 c) he
      exact ⟨this.mono fun _ _ _ h => .inl h, fun _ => this⟩
  · rw [if_pos (by simp [hi])]
    refine ⟨⟨h.1, fun x n a b c => ?_⟩, fun e => nomatch e⟩
    rcases h.2 x n a b c with h | ⟨rfl, rfl⟩
    · exact .inl h
    · exact absurd (by simpa [isDir] using b) hi

theorem rmfile_inv {P fs f} (hf : top <+: f) (h : I top (fun x n => P x n ∨ (x = f ∧ n ≠ .dir)) fs) :
    I top (Up P f) (rmfile fs f).1 := by
  unfold rmfile
  split
  · rename_i ha
    obtain ⟨⟨x, n⟩, hm, ha⟩ := List.any_eq_true.1 ha
    simp [isFileAt] at ha
    obtain ⟨rfl, hn⟩ := ha
    have he : Empty fs x := by
      intro c t m hx
      obtain ⟨k, hk⟩ := h.1.deep hf hx
      exact hn ((h.1 x c k hf hk).2 n hm)
    refine (remove_inv h (g := fun e => !isFileAt x e) ?_ he).mono ?_
    · intro y n h; simp [isFileAt] at h; exact h.1
    · rintro y n - (⟨h | ⟨rfl, hn⟩, hg⟩ | h)
      · exact .inl h
      · simp [isFileAt, hn] at hg
      · exact .inr h
  · rename_i ha
    refine ⟨h.1, fun x n a b c => ?_⟩
    rcases h.2 x n a b c with h | ⟨rfl, hn⟩
    · exact .inl h
    · exact absurd (List.any_eq_true.2 ⟨_, b, by simp [isFileAt, hn]⟩) ha

/-- What is removed for one project. -/
def Pend (o : Path) (q : Proj) (x : Path) (n : Node) : Prop :=
  (n ≠ .dir ∧ Own o q x) ∨
  (n = .dir ∧ (x = o ++ bootstrapDir q.alt ∨ x = o ++ buildDir q.alt ∨ x = o))

theorem config_eq {o : Path} {q : Proj} {f} (h : IsConfig o q f) : f = o ++ configFile q.alt := by
  rw [h]; unfold configFile buildDir; cases q.alt <;> rfl

theorem srcRoot_eq {o : Path} {q : Proj} {f} (h : IsSrcRoot o q f) : f = o ++ srcRootFile q.alt := by
  rw [h]; unfold srcRootFile bootstrapDir buildDir; cases q.alt <;> rfl

theorem drop_config {o : Path} {a} : (o ++ configFile a).dropLast = o ++ buildDir a := by
  unfold configFile; rw [← List.append_assoc]; simp

theorem drop_srcRoot {o : Path} {a} : (o ++ srcRootFile a).dropLast = o ++ bootstrapDir a := by
  unfold srcRootFile; rw [← List.append_assoc]; simp

theorem drop_root {o : Path} {a} : (o ++ rootDir a).dropLast = o ++ buildDir a := by
  unfold rootDir; rw [← List.append_assoc]; simp

theorem drop_bootstrap {o : Path} {a} : (o ++ bootstrapDir a).dropLast = o ++ buildDir a := by
  unfold bootstrapDir; rw [← List.append_assoc]; simp

theorem drop_build {o : Path} {a} : (o ++ buildDir a).dropLast = o := by
  unfold buildDir; cases a <;> simp

theorem own_inv {P fs o q} (hw : ¬ top <+: work) (ho : top <+: o) (hs : o ≠ q.src)
    (h : I top (fun x n => P x n ∨ Pend o q x n) fs) :
    I top (Up P o) (disfigureOwn work o q fs).1 := by
  have ht : ∀ t, top <+: o ++ t := fun t => ho.trans ⟨_, rfl⟩
  unfold disfigureOwn
  rw [if_neg hs]
  simp only
  refine (rmdir_inv (P := P) hw ho ((rmdir_inv (P := Or P o) hw (ht _)
    ((rmdir_inv (P := Or (Or P o) (o ++ buildDir q.alt)) hw (ht _)
    ((rmdir_inv (P := Or (Or (Or P o) (o ++ buildDir q.alt)) (o ++ bootstrapDir q.alt)) hw (ht _)
    ((rmfile_inv (P := Or (Or (Or P o) (o ++ buildDir q.alt)) (o ++ bootstrapDir q.alt)) (ht _)
    ((rmfile_inv (P := Or (Or (fun x n => Or P o x n ∨ (x = o ++ srcRootFile q.alt ∧ n ≠ .dir))
      (o ++ bootstrapDir q.alt)) (o ++ buildDir q.alt)) (ht _) (h.mono ?_)).mono ?_)).mono ?_)).1.mono
    ?_)).1.mono ?_)).1.mono ?_)).1
  · rintro x n - (h | ⟨hn, h | ⟨h, _⟩⟩ | ⟨rfl, rfl | rfl | rfl⟩)
    · exact .inl (.inl (.inl (.inl (.inl h))))
    · exact .inr ⟨config_eq h, hn⟩
    · exact .inl (.inl (.inl (.inr ⟨srcRoot_eq h, hn⟩)))
    · exact .inl (.inl (.inr ⟨rfl, rfl⟩))
    · exact .inl (.inr ⟨rfl, rfl⟩)
    · exact .inl (.inl (.inl (.inl (.inr ⟨rfl, rfl⟩))))
  · rintro x n - (((((h | h) | h) | h) | h) | ⟨rfl, -, rfl⟩)
    · exact .inl (.inl (.inl (.inl h)))
    · exact .inl (.inl (.inl (.inr h)))
    · exact .inr h
    · exact .inl (.inr h)
    · exact .inl (.inl (.inr h))
    · exact .inl (.inl (.inr ⟨drop_config, rfl⟩))
  · rintro x n - (h | ⟨rfl, -, rfl⟩)
    · exact .inl h
    · exact .inl (.inr ⟨drop_srcRoot, rfl⟩)
  · rintro x n - (h | ⟨rfl, -, rfl⟩)
    · exact h
    · exact .inl (.inr ⟨drop_root, rfl⟩)
  · rintro x n - (h | ⟨rfl, -, rfl⟩)
    · exact h
    · exact .inr ⟨drop_bootstrap, rfl⟩
  · rintro x n - (h | ⟨rfl, -, rfl⟩)
    · exact h
    · exact .inr ⟨drop_build, rfl⟩

theorem parents_inv {P out} (hw : ¬ top <+: work) (ho : top <+: out) (hp : P out .dir) :
    ∀ {rev fs}, I top (Or P (out ++ rev.reverse)) fs → I top P (parents work out rev fs).1
  | [], fs, h => by
    refine h.mono ?_
    rintro x n - (h | ⟨rfl, rfl⟩)
    · exact h
    · simpa using hp
  | c :: rev, fs, h => by
    obtain ⟨h1, h2⟩ := rmdir_inv hw (ho.trans ⟨_, rfl⟩) h
    simp only [parents]
    split
    · rename_i e; exact h2 e
    · refine parents_inv hw ho hp (h1.mono ?_)
      rintro x n - (h | ⟨rfl, -, rfl⟩)
      · exact .inl h
      · refine .inr ⟨?_, rfl⟩
        rw [List.reverse_cons, ← List.append_assoc]; simp

theorem subs_inv (hw : ¬ top <+: work) : ∀ {s : Subs} {P src out fs}, s.Proper → top <+: out →
    out ≠ src → P out .dir → (∀ o q, Has out s o q → o ≠ q.src) →
    I top (fun x n => P x n ∨ ∃ o q, Has out s o q ∧ Pend o q x n) fs →
    I top P (disfigureSubs work src out s fs).1
  | .nil, P, src, out, fs, _, _, _, _, _, h => by
    refine h.mono ?_
    rintro x n - (h | ⟨o, q, h, _⟩)
    · exact h
    · cases h
  | .cons d p s r, P, src, out, fs, hprop, ho, hos, hp, hsrc, h => by
    obtain ⟨hd, hps, hpr⟩ := hprop
    have hod : top <+: out ++ d := ho.trans ⟨_, rfl⟩
    simp only [disfigureSubs]
    have h1 := subs_inv (P := fun x n => (P x n ∨ ∃ o q, Has out r o q ∧ Pend o q x n) ∨
        Pend (out ++ d) p x n) (src := p.src) hw hps hod (hsrc _ _ .here) (.inr (.inr ⟨rfl, .inr (.inr rfl)⟩))
      (fun o q k => hsrc o q (.sub k)) (fs := fs) (h.mono (by
        rintro x n - (h | ⟨o, q, h, k⟩)
        · exact .inl (.inl (.inl h))
        · cases h with
          | here => exact .inl (.inr k)
          | sub h => exact .inr ⟨o, q, h, k⟩
          | rest h => exact .inl (.inl (.inr ⟨o, q, h, k⟩))))
    have h2 := own_inv hw hod (hsrc _ _ .here) h1
    have hdl : (out ++ d).dropLast = out ++ d.dropLast := List.dropLast_append_of_ne_nil hd
    refine subs_inv hw hpr ho hos hp (fun o q k => hsrc o q (.rest k)) ?_
    by_cases hl : d.length ≠ 1
    · rw [if_pos ⟨hl, hos⟩]
      refine parents_inv hw ho (.inl hp) (h2.mono ?_)
      rintro x n - (h | ⟨rfl, -, rfl⟩)
      · exact .inl h
      · refine .inr ⟨?_, rfl⟩
        rw [hdl, List.tail_reverse, List.reverse_reverse]
    · rw [if_neg (fun h => hl h.1)]
      refine h2.mono ?_
      rintro x n - (h | ⟨rfl, -, rfl⟩)
      · exact h
      · refine .inl ?_
        rw [hdl]
        have : d.dropLast = [] := List.length_eq_zero_iff.1 (by simp; omega)
        rw [this, List.append_nil]; exact hp

theorem no_leaves {fs} (h : I top (fun _ _ => False) fs) : ∀ x n, top <+: x → (x, n) ∉ fs := by
  have hb : ∃ B, ∀ e ∈ fs, e.1.length ≤ B := by
    clear h
    induction fs with
    | nil => exact ⟨0, fun _ h => nomatch h⟩
    | cons e fs ih =>
      obtain ⟨B, hB⟩ := ih
      refine ⟨B + e.1.length, fun y hy => ?_⟩
      rcases List.mem_cons.1 hy with rfl | hy
      · omega
      · have := hB y hy; omega
  obtain ⟨B, hB⟩ := hb
  have key : ∀ k x n, B ≤ x.length + k → top <+: x → (x, n) ∉ fs := by
    intro k
    induction k with
    | zero =>
      intro x n hk ht hm
      by_cases he : Empty fs x
      · exact h.2 x n ht hm he
      · obtain ⟨c, t, m, hm'⟩ := not_empty he
        have := hB _ hm'
        simp at this
        omega
    | succ k ih =>
      intro x n hk ht hm
      by_cases he : Empty fs x
      · exact h.2 x n ht hm he
      · obtain ⟨c, t, m, hm'⟩ := not_empty he
        exact ih (x ++ c :: t) m (by simp; omega) (ht.trans ⟨_, rfl⟩) hm'
  exact fun x n => key B x n (by omega)

theorem disfigure_clears {p s fs} (hw : ¬ top <+: work) (hp : s.Proper)
    (hs : ∀ o q, Within top p s o q → o ≠ q.src)
    (h : I top (fun x n => ∃ o q, Within top p s o q ∧ Pend o q x n) fs) :
    ∀ x n, top <+: x → (x, n) ∉ (disfigure work top p s fs).1 := by
  have hr : top <+: top := ⟨[], List.append_nil _⟩
  have h1 := subs_inv (P := Pend top p) (src := p.src) hw hp hr (hs _ _ (.inl ⟨rfl, rfl⟩))
    (.inr ⟨rfl, .inr (.inr rfl)⟩) (fun o q k => hs o q (.inr k)) (h.mono (by
      rintro x n - ⟨o, q, ⟨rfl, rfl⟩ | hh, k⟩
      · exact .inl k
      · exact .inr ⟨o, q, hh, k⟩))
  have h2 := own_inv (P := fun _ _ => False) hw hr (hs _ _ (.inl ⟨rfl, rfl⟩))
    (h1.mono fun _ _ _ h => .inr h)
  refine no_leaves (h2.mono ?_)
  rintro x n ht (h | ⟨-, hne, rfl⟩)
  · exact h
  · have := ht.length_le
    have hpos := List.length_pos_iff.2 hne
    simp at this
    omega

end Verif.Configure
