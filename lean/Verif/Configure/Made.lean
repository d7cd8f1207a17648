import Verif.Configure.Round

/-! # Configuring and disfiguring an output directory: what configuring makes -/

namespace Verif.Configure

variable {top : Path} {p : Proj} {s : Subs}

/-- What there is in the output directory. -/
def Kinds (top : Path) (p : Proj) (s : Subs) (fs : FS) : Prop :=
  ∀ x n, top <+: x → (x, n) ∈ fs →
    (n = .dir ∧ ∃ o q, Within top p s o q ∧ x <+: o ++ bootstrapDir q.alt) ∨ (n ≠ .dir ∧ Made top p s x)

/-- The invariant. -/
def J (top : Path) (p : Proj) (s : Subs) (P : Path → Node → Prop) (fs : FS) : Prop :=
  I top P fs ∧ Kinds top p s fs

theorem J.mono {P Q fs} (h : J top p s P fs) (k : ∀ x n, top <+: x → P x n → Q x n) : J top p s Q fs :=
  ⟨h.1.mono k, h.2⟩

theorem last_config {o : Path} {q : Proj} {f : Path} (h : Own o q f) :
    f.getLast? = some "config.build" ∨ f.getLast? = some "config.build2" ∨
    f.getLast? = some "src-root.build" ∨ f.getLast? = some "src-root.build2" := by
  rcases h with h | ⟨h, -⟩ <;> rw [h] <;> cases q.alt <;> simp

theorem clash (ha : Apart top p s) {f o q} (hf : Made top p s f) (hw : Within top p s o q) :
    ¬ f <+: o ++ bootstrapDir q.alt := by
  intro h
  have hcase : f <+: o ∨ ∃ t, f = o ++ t ∧ t <+: bootstrapDir q.alt := by
    rcases List.prefix_or_prefix_of_prefix h (List.prefix_append o _) with h' | ⟨t, rfl⟩
    · exact .inl h'
    · exact .inr ⟨t, rfl, (List.prefix_append_right_inj o).1 h⟩
  rcases hcase with h | ⟨t, rfl, ht⟩
  · exact ha f o q hf hw h
  · obtain ⟨o', q', hw', hf'⟩ := id hf
    have hl := last_config hf'
    unfold bootstrapDir buildDir at ht
    match t, ht with
    | [], _ => exact ha _ o q hf hw ⟨[], by simp⟩
    | [a], ht =>
      cases hq : q.alt <;> simp [hq, List.cons_prefix_cons] at ht <;> subst ht <;> simp at hl
    | [a, b], ht =>
      cases hq : q.alt <;> simp [hq, List.cons_prefix_cons] at ht <;> obtain ⟨rfl, rfl⟩ := ht <;> simp at hl
    | a :: b :: c :: t, ht =>
      have := ht.length_le
      cases hq : q.alt <;> simp [hq] at this

theorem mkdir_step (ha : Apart top p s) {P fs o q done c} (hw : Within top p s o q)
    (hd : done ++ [c] <+: o ++ bootstrapDir q.alt) (hin : top <+: done → (done, .dir) ∈ fs)
    (h : J top p s (Or P done) fs) :
    J top p s (Or P (done ++ [c])) (mkdir fs (done ++ [c])) ∧
      (top <+: done ++ [c] → (done ++ [c], .dir) ∈ mkdir fs (done ++ [c])) := by
  obtain ⟨⟨hc, hl⟩, hk⟩ := h
  have hdir : ∀ x n, top <+: x → x <+: o ++ bootstrapDir q.alt → (x, n) ∈ fs → n = .dir := by
    intro x n ht hx hm
    rcases hk x n ht hm with h | h
    · exact h.1
    · exact absurd hx (clash ha h.2 hw)
  unfold mkdir
  split
  · rename_i hany
    obtain ⟨⟨y, n⟩, hm, hy⟩ := List.any_eq_true.1 hany
    simp at hy
    subst hy
    refine ⟨⟨⟨hc, fun x m ht hx he => ?_⟩, hk⟩, fun ht => ?_⟩
    · rcases hl x m ht hx he with h | ⟨rfl, rfl⟩
      · exact .inl h
      · exact absurd hm (he c [] n)
    · exact hdir _ n ht hd hm ▸ hm
  · refine ⟨⟨⟨?_, ?_⟩, ?_⟩, fun _ => List.mem_cons_self ..⟩
    · intro x c' n ht hm
      have h1 : (x, .dir) ∈ fs ∧ ∀ m, (x, m) ∈ fs → m = .dir := by
        rcases List.mem_cons.1 hm with e | hm
        · have e1 := (Prod.mk.inj e).1
          have e2 := List.append_inj_left' e1 rfl
          subst e2
          exact ⟨hin ht, fun m hm => hdir _ m ht ((List.prefix_append _ _).trans hd) hm⟩
        · exact hc x c' n ht hm
      refine ⟨List.mem_cons_of_mem _ h1.1, fun m hm => ?_⟩
      rcases List.mem_cons.1 hm with e | hm
      · exact (Prod.mk.inj e).2
      · exact h1.2 m hm
    · intro x n ht hm he
      rcases List.mem_cons.1 hm with e | hm
      · obtain ⟨rfl, rfl⟩ := Prod.mk.inj e
        exact .inr ⟨rfl, rfl⟩
      · rcases hl x n ht hm (fun c t m h => he c t m (List.mem_cons_of_mem _ h)) with h | ⟨rfl, rfl⟩
        · exact .inl h
        · exact absurd (List.mem_cons_self ..) (he c [] .dir)
    · intro x n ht hm
      rcases List.mem_cons.1 hm with e | hm
      · obtain ⟨rfl, rfl⟩ := Prod.mk.inj e
        exact .inl ⟨rfl, o, q, hw, hd⟩
      · exact hk x n ht hm

theorem mkdirP_inv (ha : Apart top p s) {P o q} (hw : Within top p s o q) : ∀ {cs done fs},
    done ++ cs <+: o ++ bootstrapDir q.alt → (top <+: done → (done, .dir) ∈ fs) →
    J top p s (Or P done) fs →
    J top p s (Or P (done ++ cs)) (mkdirP fs done cs) ∧
      (top <+: done ++ cs → (done ++ cs, .dir) ∈ mkdirP fs done cs)
  | [], done, fs, _, hin, h => by simpa [mkdirP] using ⟨h, hin⟩
  | c :: cs, done, fs, hd, hin, h => by
    have e : done ++ c :: cs = (done ++ [c]) ++ cs := by simp
    rw [e] at hd ⊢
    have hs := mkdir_step ha hw ((List.prefix_append _ _).trans hd) hin h
    exact mkdirP_inv ha hw hd hs.2 hs.1

theorem write_inv (ha : Apart top p s) {P fs d c v} (hf : Made top p s (d ++ [c]))
    (hd : top <+: d) (hin : (d, .dir) ∈ fs) (hdir : ∀ m, (d, m) ∈ fs → m = .dir)
    (hP : P (d ++ [c]) (.file v)) (h : J top p s (Or P d) fs) :
    J top p s P (write fs (d ++ [c]) v) := by
  obtain ⟨⟨hc, hl⟩, hk⟩ := h
  have hne : ∀ x, (x, .dir) ∈ fs → x ≠ d ++ [c] := by
    rintro x hx rfl
    rcases hk _ _ (hd.trans ⟨_, rfl⟩) hx with ⟨_, o, q, hw, h⟩ | h
    · exact clash ha hf hw h
    · exact h.1 rfl
  have up : ∀ x n, (x, n) ∈ fs → x ≠ d ++ [c] → (x, n) ∈ write fs (d ++ [c]) v := by
    intro x n h hx
    exact List.mem_cons_of_mem _ (List.mem_filter.2 ⟨h, by simpa using hx⟩)
  have dn : ∀ x n, (x, n) ∈ write fs (d ++ [c]) v →
      (x = d ++ [c] ∧ n = .file v) ∨ ((x, n) ∈ fs ∧ x ≠ d ++ [c]) := by
    intro x n h
    rcases List.mem_cons.1 h with e | h
    · exact .inl (Prod.mk.inj e)
    · obtain ⟨h, k⟩ := List.mem_filter.1 h
      exact .inr ⟨h, by simpa using k⟩
  refine ⟨⟨?_, ?_⟩, ?_⟩
  · intro x c' n ht hm
    have h1 : (x, .dir) ∈ fs ∧ ∀ m, (x, m) ∈ fs → m = .dir := by
      rcases dn _ _ hm with ⟨e, -⟩ | ⟨hm, -⟩
      · have e2 := List.append_inj_left' e rfl
        subst e2
        exact ⟨hin, hdir⟩
      · exact hc x c' n ht hm
    refine ⟨up _ _ h1.1 (hne _ h1.1), fun m hm => ?_⟩
    rcases dn _ _ hm with ⟨e, -⟩ | ⟨hm, -⟩
    · exact absurd e (hne _ h1.1)
    · exact h1.2 m hm
  · intro x n ht hm he
    rcases dn _ _ hm with ⟨rfl, rfl⟩ | ⟨hm, -⟩
    · exact hP
    · have he' : Empty fs x := by
        intro c' t m h
        by_cases e : x ++ c' :: t = d ++ [c]
        · exact he c' t (.file v) (e ▸ List.mem_cons_self ..)
        · exact he c' t m (up _ _ h e)
      rcases hl x n ht hm he' with h | ⟨rfl, rfl⟩
      · exact h
      · exact absurd (List.mem_cons_self ..) (he c [] (.file v))
  · intro x n ht hm
    rcases dn _ _ hm with ⟨rfl, rfl⟩ | ⟨hm, -⟩
    · exact .inr ⟨nofun, hf⟩
    · exact hk x n ht hm

/-- What all of the projects make. -/
def All (top : Path) (p : Proj) (s : Subs) (x : Path) (n : Node) : Prop :=
  ∃ o q, Within top p s o q ∧ Pend o q x n

theorem J.isDir {P fs o q x} (ha : Apart top p s) (h : J top p s P fs) (hw : Within top p s o q)
    (ht : top <+: x) (hx : x <+: o ++ bootstrapDir q.alt) : ∀ m, (x, m) ∈ fs → m = .dir := by
  intro m hm
  rcases h.2 x m ht hm with h | h
  · exact h.1
  · exact absurd hx (clash ha h.2 hw)

theorem configureOwn_inv (ha : Apart top p s) {fs o q} (hw : Within top p s o q) (ht : top <+: o)
    (hs : o ≠ q.src) (hne : top ≠ []) (h : J top p s (All top p s) fs) :
    J top p s (All top p s) (configureOwn o q fs) := by
  have hb : o ++ buildDir q.alt <+: o ++ bootstrapDir q.alt := by
    unfold bootstrapDir; rw [← List.append_assoc]; exact List.prefix_append _ _
  have hab : All top p s (o ++ buildDir q.alt) .dir := ⟨o, q, hw, .inr ⟨rfl, .inr (.inl rfl)⟩⟩
  have habs : All top p s (o ++ bootstrapDir q.alt) .dir := ⟨o, q, hw, .inr ⟨rfl, .inl rfl⟩⟩
  unfold configureOwn
  rw [if_neg hs]
  simp only
  obtain ⟨h1, m1⟩ := mkdirP_inv (P := All top p s) ha hw (cs := o ++ buildDir q.alt) (done := []) (fs := fs)
    (by simpa using hb) (fun h => absurd (List.prefix_nil.1 h) hne) (h.mono fun _ _ _ h => .inl h)
  rw [List.nil_append] at h1 m1
  have m1 := m1 (ht.trans ⟨_, rfl⟩)
  have eb : o ++ bootstrapDir q.alt = (o ++ buildDir q.alt) ++ ["bootstrap"] := by
    unfold bootstrapDir; rw [List.append_assoc]
  obtain ⟨h2, m2⟩ := mkdir_step ha hw (done := o ++ buildDir q.alt) (c := "bootstrap")
    (eb ▸ ⟨[], List.append_nil _⟩) (fun _ => m1) h1
  rw [← eb] at h2 m2
  have m2 := m2 (ht.trans ⟨_, rfl⟩)
  have m1' : (o ++ buildDir q.alt, Node.dir) ∈ mkdir (mkdirP fs [] (o ++ buildDir q.alt))
      (o ++ bootstrapDir q.alt) := by
    unfold mkdir; split
    · exact m1
    · exact List.mem_cons_of_mem _ m1
  have es : ∃ c, o ++ srcRootFile q.alt = (o ++ bootstrapDir q.alt) ++ [c] :=
    ⟨_, by unfold srcRootFile; rw [List.append_assoc]⟩
  have ec : ∃ c, o ++ configFile q.alt = (o ++ buildDir q.alt) ++ [c] :=
    ⟨_, by unfold configFile; rw [List.append_assoc]⟩
  obtain ⟨cs, es⟩ := es
  obtain ⟨cc, ec⟩ := ec
  have os : Own o q (o ++ srcRootFile q.alt) := .inr ⟨srcRoot_is, hs⟩
  have oc : Own o q (o ++ configFile q.alt) := .inl config_is
  have ms : Made top p s ((o ++ bootstrapDir q.alt) ++ [cs]) := es ▸ (⟨o, q, hw, os⟩ : Made top p s _)
  have mc : Made top p s ((o ++ buildDir q.alt) ++ [cc]) := ec ▸ (⟨o, q, hw, oc⟩ : Made top p s _)
  have as : All top p s ((o ++ bootstrapDir q.alt) ++ [cs]) (.file q.srcRoot) :=
    es ▸ (⟨o, q, hw, .inl ⟨nofun, os⟩⟩ : All top p s _ (.file q.srcRoot))
  have ac : All top p s ((o ++ buildDir q.alt) ++ [cc]) (.file q.config) :=
    ec ▸ (⟨o, q, hw, .inl ⟨nofun, oc⟩⟩ : All top p s _ (.file q.config))
  have h3 := write_inv ha (P := All top p s) (v := q.srcRoot) ms (ht.trans ⟨_, rfl⟩) m2
    (h2.isDir ha hw (ht.trans ⟨_, rfl⟩) ⟨[], List.append_nil _⟩)
    as h2
  rw [← es] at h3
  have m3 : (o ++ buildDir q.alt, Node.dir) ∈ write (mkdir (mkdirP fs [] (o ++ buildDir q.alt))
      (o ++ bootstrapDir q.alt)) (o ++ srcRootFile q.alt) q.srcRoot := by
    refine List.mem_cons_of_mem _ (List.mem_filter.2 ⟨m1', ?_⟩)
    rw [es, eb]
    simp
  have h4 := write_inv ha (P := All top p s) (v := q.config) mc (ht.trans ⟨_, rfl⟩) m3
    (h3.isDir ha hw (ht.trans ⟨_, rfl⟩) hb)
    ac (h3.mono fun _ _ _ h => .inl h)
  rw [← ec] at h4
  exact h4

theorem configureSubs_inv (ha : Apart top p s) (hne : top ≠ [])
    (hs : ∀ o q, Within top p s o q → o ≠ q.src) : ∀ {s' : Subs} {out fs}, top <+: out →
    (∀ o q, Has out s' o q → Has top s o q) → J top p s (All top p s) fs →
    J top p s (All top p s) (configureSubs out s' fs)
  | .nil, _, _, _, _, h => h
  | .cons d q s' r, out, fs, ht, hh, h => by
    simp only [configureSubs]
    refine configureSubs_inv ha hne hs ht (fun o q k => hh o q (.rest k)) ?_
    have hw : Within top p s (out ++ d) q := .inr (hh _ _ .here)
    split
    · exact configureSubs_inv ha hne hs (ht.trans ⟨_, rfl⟩) (fun o q k => hh o q (.sub k))
        (configureOwn_inv ha hw (ht.trans ⟨_, rfl⟩) (hs _ _ hw) hne h)
    · exact h

theorem configure_inv (ha : Apart top p s) (hne : top ≠ []) (hs : ∀ o q, Within top p s o q → o ≠ q.src)
    {fs} (h : ∀ x n, top <+: x → (x, n) ∉ fs) :
    J top p s (All top p s) (configure top p s fs) := by
  have hr : top <+: top := ⟨[], List.append_nil _⟩
  have hw : Within top p s top p := .inl ⟨rfl, rfl⟩
  refine configureSubs_inv ha hne hs hr (fun _ _ k => k) (configureOwn_inv ha hw hr (hs _ _ hw) hne ?_)
  exact ⟨⟨fun x c n ht hm => absurd hm (h _ n (ht.trans ⟨_, rfl⟩)), fun x n ht hm => absurd hm (h x n ht)⟩,
    fun x n ht hm => absurd hm (h x n ht)⟩

/-! Outside of the output directory. -/

theorem mkdir_sub {fs : FS} {d : Path} {e} (h : e ∈ fs) : e ∈ mkdir fs d := by
  unfold mkdir; split
  · exact h
  · exact List.mem_cons_of_mem _ h

theorem mkdir_new {fs : FS} {d q : Path} {n} (h : (q, n) ∈ mkdir fs d) : (q, n) ∈ fs ∨ (q = d ∧ n = .dir) := by
  unfold mkdir at h; split at h
  · exact .inl h
  · rcases List.mem_cons.1 h with e | h
    · exact .inr (Prod.mk.inj e)
    · exact .inl h

theorem mkdirP_sub : ∀ {cs done : Path} {fs : FS} {e}, e ∈ fs → e ∈ mkdirP fs done cs
  | [], _, _, _, h => h
  | c :: cs, done, fs, _, h => mkdirP_sub (cs := cs) (fs := mkdir fs (done ++ [c])) (mkdir_sub h)

theorem mkdirP_new : ∀ {cs done : Path} {fs : FS} {q n}, (q, n) ∈ mkdirP fs done cs →
    (q, n) ∈ fs ∨ (n = .dir ∧ q ≠ [] ∧ q <+: done ++ cs)
  | [], _, _, _, _, h => .inl h
  | c :: cs, done, fs, q, n, h => by
    have e : done ++ c :: cs = (done ++ [c]) ++ cs := by simp
    rcases mkdirP_new (cs := cs) h with h | ⟨h1, h2, h3⟩
    · rcases mkdir_new h with h | ⟨rfl, hn⟩
      · exact .inl h
      · exact .inr ⟨hn, by simp, e ▸ List.prefix_append _ _⟩
    · exact .inr ⟨h1, h2, e ▸ h3⟩

theorem write_out {fs : FS} {f q : Path} {v n} (h : q ≠ f) : (q, n) ∈ write fs f v ↔ (q, n) ∈ fs := by
  unfold write
  rw [List.mem_cons, List.mem_filter]
  constructor
  · rintro (e | h')
    · exact absurd (Prod.mk.inj e).1 h
    · exact h'.1
  · exact fun h' => .inr ⟨h', by simpa using h⟩

theorem prefix_cases {a b c : Path} (h1 : a <+: c) (h2 : b <+: c) (h : ¬ b <+: a) : a <+: b := by
  rcases List.prefix_or_prefix_of_prefix h1 h2 with h | h'
  · exact h
  · exact absurd h' h

/-- What is made outside. -/
def Above (top q : Path) (n : Node) : Prop := n = .dir ∧ q ≠ [] ∧ q <+: top

theorem configureOwn_out {top o : Path} {p fs q n} (ht : top <+: o) (hq : ¬ top <+: q) :
    ((q, n) ∈ fs → (q, n) ∈ configureOwn o p fs) ∧
    ((q, n) ∈ configureOwn o p fs → (q, n) ∈ fs ∨ Above top q n) := by
  have hne : ∀ t, q ≠ o ++ t := fun t e => hq (e ▸ ht.trans ⟨_, rfl⟩)
  unfold configureOwn
  split
  · rw [write_out (hne _)]; exact ⟨id, .inl⟩
  · simp only
    rw [write_out (hne _), write_out (hne _)]
    refine ⟨fun h => mkdir_sub (mkdirP_sub h), fun h => ?_⟩
    rcases mkdir_new h with h | ⟨h, -⟩
    · rcases mkdirP_new h with h | ⟨h1, h2, h3⟩
      · exact .inl h
      · exact .inr ⟨h1, h2, prefix_cases h3 (ht.trans ⟨_, rfl⟩) hq⟩
    · exact absurd h (hne _)

theorem configureSubs_out {q n} {top : Path} (hq : ¬ top <+: q) : ∀ {s : Subs} {out fs}, top <+: out →
    ((q, n) ∈ fs → (q, n) ∈ configureSubs out s fs) ∧
    ((q, n) ∈ configureSubs out s fs → (q, n) ∈ fs ∨ Above top q n)
  | .nil, _, _, _ => ⟨id, .inl⟩
  | .cons d p s r, out, fs, ht => by
    have hd : top <+: out ++ d := ht.trans ⟨_, rfl⟩
    simp only [configureSubs]
    split
    · have h1 := configureOwn_out (p := p) (fs := fs) (n := n) hd hq
      have h2 := configureSubs_out (n := n) hq (s := s) (fs := configureOwn (out ++ d) p fs) hd
      have h3 := configureSubs_out (n := n) hq (s := r)
        (fs := configureSubs (out ++ d) s (configureOwn (out ++ d) p fs)) ht
      exact ⟨fun h => h3.1 (h2.1 (h1.1 h)), fun h => (h3.2 h).elim (fun h => (h2.2 h).elim h1.2 .inr) .inr⟩
    · exact configureSubs_out (n := n) hq ht

theorem configure_out {q n fs} {top : Path} (hq : ¬ top <+: q) :
    ((q, n) ∈ fs → (q, n) ∈ configure top p s fs) ∧
    ((q, n) ∈ configure top p s fs → (q, n) ∈ fs ∨ Above top q n) := by
  have hr : top <+: top := ⟨[], List.append_nil _⟩
  have h1 := configureOwn_out (p := p) (fs := fs) (n := n) hr hq
  have h2 := configureSubs_out (n := n) hq (s := s) (fs := configureOwn top p fs) hr
  exact ⟨fun h => h2.1 (h1.1 h), fun h => (h2.2 h).elim h1.2 .inr⟩

/-! What is in the files. -/

/-- A file with what a project has in it. -/
def Good (W : Path → Proj → Prop) (f : Path) (fs : FS) : Prop :=
  ∃ v, (f, .file v) ∈ fs ∧ ∃ o q, W o q ∧ ((IsConfig o q f ∧ v = q.config) ∨
    (IsSrcRoot o q f ∧ v = q.srcRoot))

theorem write_good {W : Path → Proj → Prop} {f g fs v} (h : Good W f fs)
    (hg : ∃ o q, W o q ∧ ((IsConfig o q g ∧ v = q.config) ∨ (IsSrcRoot o q g ∧ v = q.srcRoot))) :
    Good W f (write fs g v) := by
  by_cases e : f = g
  · subst e; exact ⟨v, List.mem_cons_self .., hg⟩
  · obtain ⟨w, hm, h⟩ := h
    exact ⟨w, (write_out e).2 hm, h⟩

theorem configureOwn_good {W : Path → Proj → Prop} {o q fs} (hw : W o q) :
    (∀ f, Good W f fs → Good W f (configureOwn o q fs)) ∧
    (∀ f, Own o q f → Good W f (configureOwn o q fs)) := by
  have hc : ∃ o' q', W o' q' ∧ ((IsConfig o' q' (o ++ configFile q.alt) ∧ q.config = q'.config) ∨
      (IsSrcRoot o' q' (o ++ configFile q.alt) ∧ q.config = q'.srcRoot)) := ⟨o, q, hw, .inl ⟨config_is, rfl⟩⟩
  have hr : ∃ o' q', W o' q' ∧ ((IsConfig o' q' (o ++ srcRootFile q.alt) ∧ q.srcRoot = q'.config) ∨
      (IsSrcRoot o' q' (o ++ srcRootFile q.alt) ∧ q.srcRoot = q'.srcRoot)) :=
    ⟨o, q, hw, .inr ⟨srcRoot_is, rfl⟩⟩
  unfold configureOwn
  split
  · rename_i hs
    refine ⟨fun f h => write_good h hc, fun f h => ?_⟩
    rcases h with h | h
    · rw [config_eq h]; exact ⟨_, List.mem_cons_self .., hc⟩
    · exact absurd hs h.2
  · simp only
    refine ⟨fun f h => write_good (write_good ?_ hr) hc, fun f h => ?_⟩
    · obtain ⟨v, hm, h⟩ := h
      exact ⟨v, mkdir_sub (mkdirP_sub hm), h⟩
    · rcases h with h | h
      · rw [config_eq h]; exact ⟨_, List.mem_cons_self .., hc⟩
      · rw [srcRoot_eq h.1]; exact write_good ⟨_, List.mem_cons_self .., hr⟩ hc

theorem configureSubs_good {W : Path → Proj → Prop} : ∀ {s : Subs} {out fs},
    (∀ o q, Has out s o q → W o q) →
    (∀ f, Good W f fs → Good W f (configureSubs out s fs)) ∧
    (∀ o q f, Loaded out s o q → Own o q f → Good W f (configureSubs out s fs))
  | .nil, _, _, _ => ⟨fun _ h => h, fun _ _ _ h => nomatch h⟩
  | .cons d p s r, out, fs, hw => by
    simp only [configureSubs]
    split
    · have h1 := configureOwn_good (fs := fs) (hw _ _ .here)
      have h2 := configureSubs_good (s := s) (fs := configureOwn (out ++ d) p fs)
        (fun o q k => hw o q (.sub k))
      have h3 := configureSubs_good (s := r)
        (fs := configureSubs (out ++ d) s (configureOwn (out ++ d) p fs)) (fun o q k => hw o q (.rest k))
      refine ⟨fun f h => h3.1 f (h2.1 f (h1.1 f h)), fun o q f hl hf => ?_⟩
      cases hl with
      | here => exact h3.1 f (h2.1 f (h1.2 f hf))
      | sub _ hl => exact h3.1 f (h2.2 o q f hl hf)
      | rest hl => exact h3.2 o q f hl hf
    · rename_i hn
      have h3 := configureSubs_good (s := r) (fs := fs) (fun o q k => hw o q (.rest k))
      refine ⟨h3.1, fun o q f hl hf => ?_⟩
      cases hl with
      | here h => exact absurd h hn
      | sub h _ => exact absurd h hn
      | rest hl => exact h3.2 o q f hl hf

theorem has_within {s : Subs} {out o q} (h : Has out s o q) : out <+: o := by
  induction h with
  | here => exact List.prefix_append _ _
  | sub _ ih => exact (List.prefix_append _ _).trans ih
  | rest _ ih => exact ih

theorem made_within {out p s f} (h : Made out p s f) : out <+: f := by
  obtain ⟨o, q, hw, hf⟩ := h
  have ho : out <+: o := by
    rcases hw with ⟨rfl, -⟩ | hw
    · exact ⟨[], List.append_nil _⟩
    · exact has_within hw
  rcases hf with hf | ⟨hf, -⟩ <;> rw [hf] <;> exact ho.trans (List.prefix_append _ _)

theorem loaded_has {s : Subs} {out o q} (h : Loaded out s o q) : Has out s o q := by
  induction h with
  | here => exact .here
  | sub _ _ ih => exact .sub ih
  | rest _ ih => exact .rest ih

theorem config_inj {o o' : Path} {q q' : Proj} {f} (h : IsConfig o q f) (h' : IsConfig o' q' f) : o = o' := by
  have e := h.symm.trans h'
  cases hq : q.alt <;> cases hq' : q'.alt <;> simp [hq, hq'] at e
  · exact e
  · have := congrArg List.getLast? e; simp at this
  · have := congrArg List.getLast? e; simp at this
  · exact e

theorem srcRoot_inj {o o' : Path} {q q' : Proj} {f} (h : IsSrcRoot o q f) (h' : IsSrcRoot o' q' f) :
    o = o' := by
  have e := h.symm.trans h'
  cases hq : q.alt <;> cases hq' : q'.alt <;> simp [hq, hq'] at e
  · exact e
  · have := congrArg List.getLast? e; simp at this
  · have := congrArg List.getLast? e; simp at this
  · exact e

theorem config_not_srcRoot {o o' : Path} {q q' : Proj} {f} (h : IsConfig o q f) (h' : IsSrcRoot o' q' f) :
    False := by
  have e := congrArg List.getLast? (h.symm.trans h')
  cases hq : q.alt <;> cases hq' : q'.alt <;> simp [hq, hq'] at e

end Verif.Configure
