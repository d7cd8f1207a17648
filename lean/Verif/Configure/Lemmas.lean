import Verif.Configure.Model

/-! # Configuring and disfiguring an output directory: lemmas -/

namespace Verif.Configure

/-- A file system is changed by removing some files and empty directories; and whether anything is. -/
inductive Cleans (work : Path) (F : Path → Prop) (out : Path) : FS → FS → Bool → Prop
  | refl {fs} : Cleans work F out fs fs false
  | file {fs f} : F f → fs.any (isFileAt f) = true →
      Cleans work F out fs (fs.filter fun e => !isFileAt f e) true
  | dir {fs d} : out <+: d → ¬ d <+: work → (d, .dir) ∈ fs → empty fs d = true →
      Cleans work F out fs (fs.filter fun e => e != (d, .dir)) true
  | trans {a b c r s} : Cleans work F out a b r → Cleans work F out b c s →
      Cleans work F out a c (r || s)

theorem Cleans.mono {work F G o o' a b r} (h : Cleans work F o a b r) (ho : o' <+: o)
    (hf : ∀ f, F f → G f) : Cleans work G o' a b r := by
  induction h with
  | refl => exact .refl
  | file h k => exact .file (hf _ h) k
  | dir g h k l => exact .dir (ho.trans g) h k l
  | trans _ _ h k => exact .trans h k

theorem Cleans.sub {work F o a b r} (h : Cleans work F o a b r) : ∀ e, e ∈ b → e ∈ a := by
  induction h with
  | refl => exact fun _ h => h
  | file => exact fun _ h => (List.mem_filter.1 h).1
  | dir => exact fun _ h => (List.mem_filter.1 h).1
  | trans _ _ h k => exact fun e he => h e (k e he)

theorem filter_length {α} {p : α → Bool} {l : List α} {x : α} (h : x ∈ l) (hp : p x = false) :
    (l.filter p).length < l.length := by
  induction l with
  | nil => cases h
  | cons y l ih =>
    have := List.length_filter_le p l
    rcases List.mem_cons.1 h with rfl | h
    · rw [List.filter_cons_of_neg (by simp [hp])]; simp only [List.length_cons]; omega
    · have := ih h
      by_cases hy : p y = true
      · rw [List.filter_cons_of_pos hy]; simp only [List.length_cons]; omega
      · rw [List.filter_cons_of_neg hy]; simp only [List.length_cons]; omega

theorem Cleans.length {work F o a b r} (h : Cleans work F o a b r) :
    b.length ≤ a.length ∧ (r = true → b.length < a.length) ∧ (r = false → b = a) := by
  induction h with
  | refl => simp
  | @file fs f _ h =>
    obtain ⟨e, he, h⟩ := List.any_eq_true.1 h
    have := filter_length (p := fun e => !isFileAt f e) he (by simp [h])
    exact ⟨Nat.le_of_lt this, fun _ => this, fun h => nomatch h⟩
  | @dir fs d _ _ h _ =>
    have := filter_length (p := fun e => e != (d, Node.dir)) h (by simp)
    exact ⟨Nat.le_of_lt this, fun _ => this, fun h => nomatch h⟩
  | @trans a b c r s _ _ h k =>
    obtain ⟨h1, h2, h3⟩ := h
    obtain ⟨k1, k2, k3⟩ := k
    refine ⟨by omega, fun e => ?_, fun e => ?_⟩
    · rcases Bool.or_eq_true _ _ ▸ e with e | e
      · have := h2 e; omega
      · have := k2 e; omega
    · have e := Bool.or_eq_false_iff.1 e
      exact (k3 e.2).trans (h3 e.1)

theorem empty_iff {fs d} : empty fs d = true ↔ Empty fs d := by
  unfold empty Empty
  rw [List.all_eq_true]
  constructor
  · intro h c rest n hm
    have := h _ hm
    have hp : d.isPrefixOf (d ++ c :: rest) = true := List.isPrefixOf_iff_prefix.2 ⟨_, rfl⟩
    simp [hp] at this
  · intro h e he
    obtain ⟨q, n⟩ := e
    by_cases hp : d.isPrefixOf q = true
    · obtain ⟨t, rfl⟩ := List.isPrefixOf_iff_prefix.1 hp
      cases t with
      | nil => simp
      | cons c t => exact absurd he (h c t n)
    · simp [hp]

theorem Cleans.only {work F o a b r} (h : Cleans work F o a b r) : ∀ q n, (q, n) ∈ a → (q, n) ∉ b →
    (F q ∧ n ≠ .dir) ∨ (n = .dir ∧ o <+: q ∧ ¬ q <+: work ∧ Empty b q) := by
  induction h with
  | refl => exact fun _ _ h k => absurd h k
  | @file fs f hf _ =>
    intro q n h k
    have : isFileAt f (q, n) = true := by
      refine Decidable.byContradiction fun hn => k (List.mem_filter.2 ⟨h, ?_⟩)
      simp [hn]
    simp [isFileAt] at this
    exact .inl ⟨this.1 ▸ hf, this.2⟩
  | @dir fs d ho hw _ he =>
    intro q n h k
    have : (q, n) = (d, Node.dir) := by
      refine Decidable.byContradiction fun hn => k (List.mem_filter.2 ⟨h, ?_⟩)
      simpa using hn
    cases this
    exact .inr ⟨rfl, ho, hw, fun c t m hm => empty_iff.1 he c t m (List.mem_filter.1 hm).1⟩
  | @trans a b c r s _ hbc h k =>
    intro q n ha hc
    by_cases hb : (q, n) ∈ b
    · exact k q n hb hc
    · rcases h q n ha hb with h | ⟨h1, h0, h2, h3⟩
      · exact .inl h
      · exact .inr ⟨h1, h0, h2, fun x t m hm => h3 x t m (hbc.sub _ hm)⟩

theorem rmdir_cleans {work F o fs d} (ho : o <+: d) :
    Cleans work F o fs (rmdir work fs d).1 (ok (rmdir work fs d).2) := by
  unfold rmdir
  split
  · exact .refl
  · rename_i hw
    split
    · exact .refl
    · rename_i hd
      split
      · rename_i he
        exact .dir ho (fun h => hw (List.isPrefixOf_iff_prefix.2 h)) (by simpa [isDir] using hd) he
      · exact .refl

theorem rmfile_cleans {work o fs f} {F : Path → Prop} (hf : F f) :
    Cleans work F o fs (rmfile fs f).1 (rmfile fs f).2 := by
  unfold rmfile
  split
  · rename_i h; exact .file hf h
  · exact .refl

theorem parents_cleans {work out F} : ∀ {rev fs},
    Cleans work F out fs (parents work out rev fs).1 (parents work out rev fs).2
  | [], _ => .refl
  | c :: rev, fs => by
    have h := @rmdir_cleans work F out fs (out ++ (c :: rev).reverse) ⟨_, rfl⟩
    simp only [parents]
    split
    · rename_i e
      rw [e] at h
      exact h
    · exact .trans h parents_cleans

/-- Files of one project. -/
def Own (o : Path) (q : Proj) (f : Path) : Prop := IsConfig o q f ∨ (IsSrcRoot o q f ∧ o ≠ q.src)

theorem config_is {o : Path} {q : Proj} : IsConfig o q (o ++ configFile q.alt) := by
  unfold IsConfig configFile buildDir
  cases q.alt <;> rfl

theorem srcRoot_is {o : Path} {q : Proj} : IsSrcRoot o q (o ++ srcRootFile q.alt) := by
  unfold IsSrcRoot srcRootFile bootstrapDir buildDir
  cases q.alt <;> rfl

theorem own_cleans {work out p fs} :
    Cleans work (Own out p) out fs (disfigureOwn work out p fs).1 (disfigureOwn work out p fs).2 := by
  have ha := @rmfile_cleans work out fs _ (Own out p) (.inl config_is)
  unfold disfigureOwn
  simp only
  split
  · exact ha
  · rename_i hs
    exact ((((ha.trans (rmfile_cleans (.inr ⟨srcRoot_is, hs⟩))).trans
      (rmdir_cleans ⟨_, rfl⟩)).trans (rmdir_cleans ⟨_, rfl⟩)).trans (rmdir_cleans ⟨_, rfl⟩)).trans
      (rmdir_cleans ⟨[], List.append_nil _⟩)

theorem subs_cleans {work} : ∀ {s : Subs} {src out fs},
    Cleans work (fun f => ∃ o q, Has out s o q ∧ Own o q f) out fs
      (disfigureSubs work src out s fs).1 (disfigureSubs work src out s fs).2
  | .nil, _, _, _ => .refl
  | .cons d p s r, src, out, fs => by
    simp only [disfigureSubs]
    refine .trans (.trans (.trans ((subs_cleans (s := s)).mono ⟨_, rfl⟩ ?_)
      ((own_cleans).mono ⟨_, rfl⟩ ?_)) ?_)
      ((subs_cleans (s := r)).mono ⟨[], List.append_nil _⟩ ?_)
    · rintro f ⟨o, q, h, k⟩; exact ⟨o, q, .sub h, k⟩
    · intro f h; exact ⟨_, _, .here, h⟩
    · split
      · exact parents_cleans
      · exact .refl
    · rintro f ⟨o, q, h, k⟩; exact ⟨o, q, .rest h, k⟩

theorem disfigure_cleans {work out p s fs} :
    Cleans work (Made out p s) out fs (disfigure work out p s fs).1 (disfigure work out p s fs).2 := by
  unfold disfigure
  refine .trans (subs_cleans.mono ⟨[], List.append_nil _⟩ ?_) (own_cleans.mono ⟨[], List.append_nil _⟩ ?_)
  · rintro f ⟨o, q, h, k⟩; exact ⟨o, q, .inr h, k⟩
  · intro f h; exact ⟨_, _, .inl ⟨rfl, rfl⟩, h⟩

theorem rmfile_gone {fs f n} (h : (f, n) ∈ (rmfile fs f).1) : n = .dir := by
  unfold rmfile at h
  refine Decidable.byContradiction fun hn => ?_
  split at h
  · have := (List.mem_filter.1 h).2
    simp [isFileAt, hn] at this
  · rename_i hk
    exact hk (List.any_eq_true.2 ⟨_, h, by simp [isFileAt, hn]⟩)

theorem own_gone {work out p fs f n} (hf : Own out p f)
    (h : (f, n) ∈ (disfigureOwn work out p fs).1) : n = .dir := by
  unfold disfigureOwn at h
  simp only at h
  have hc : ∀ {f}, IsConfig out p f → f = out ++ configFile p.alt := by
    intro f hf; rw [hf]; unfold configFile buildDir; cases p.alt <;> rfl
  have hsr : ∀ {f}, IsSrcRoot out p f → f = out ++ srcRootFile p.alt := by
    intro f hf; rw [hf]; unfold srcRootFile bootstrapDir buildDir; cases p.alt <;> rfl
  split at h
  · rename_i hs
    rcases hf with hf | ⟨_, hf⟩
    · rw [hc hf] at h; exact rmfile_gone h
    · exact absurd hs hf
  · have h := (@rmdir_cleans work (fun _ => False) [] _ _ List.nil_prefix).sub _ h
    have h := (@rmdir_cleans work (fun _ => False) [] _ _ List.nil_prefix).sub _ h
    have h := (@rmdir_cleans work (fun _ => False) [] _ _ List.nil_prefix).sub _ h
    have h := (@rmdir_cleans work (fun _ => False) [] _ _ List.nil_prefix).sub _ h
    rcases hf with hf | ⟨hf, _⟩
    · have h := (@rmfile_cleans work [] _ _ (fun _ => True) trivial).sub _ h
      rw [hc hf] at h; exact rmfile_gone h
    · rw [hsr hf] at h; exact rmfile_gone h

theorem subs_gone {work} : ∀ {s : Subs} {src out fs o q f n}, Has out s o q → Own o q f →
    (f, n) ∈ (disfigureSubs work src out s fs).1 → n = .dir
  | .cons d p s r, src, out, fs, o, q, f, n, hh, hf, h => by
    simp only [disfigureSubs] at h
    have hp : ∀ {x : FS}, (f, n) ∈ (if d.length ≠ 1 ∧ out ≠ src then parents work out d.reverse.tail x
        else (x, false)).1 → (f, n) ∈ x := by
      intro x hx
      split at hx
      · exact (@parents_cleans work out (fun _ => False) _ _).sub _ hx
      · exact hx
    cases hh with
    | here => exact own_gone hf (hp (subs_cleans.sub _ h))
    | sub hh => exact subs_gone hh hf (own_cleans.sub _ (hp (subs_cleans.sub _ h)))
    | rest hh => exact subs_gone hh hf h

end Verif.Configure
