import Verif.Install.Uninstall
/-!
# Installing: what comes
-/

namespace Verif.Install

/-- The directory and all those it is in are there, the rest is as it was. -/
structure Made (fs fs' : FS) (d : Path) : Prop where
  wf : Wf fs'
  dirs : ∀ p, Above p d → get fs' p = some .dir
  rest : ∀ p, ¬ Above p d → get fs' p = get fs p

/-- Nothing is in the way of the directory. -/
def Clear (fs : FS) (d : Path) : Prop :=
  ∀ p, Above p d → get fs p = none ∨ get fs p = some .dir

theorem made_self {fs : FS} (hw : Wf fs) {d : Path} (h : get fs d = some .dir) :
    Made fs fs d := by
  refine ⟨hw, fun p hp => ?_, fun _ _ => rfl⟩
  by_cases e : p = d
  · subst e; exact h
  · exact hw.above hp (by rw [h]; simp) e

theorem made_trans {fs f1 f2 : FS} {a d : Path} (h1 : Made fs f1 a) (h2 : Made f1 f2 d)
    (had : Above a d) : Made fs f2 d := by
  refine ⟨h2.wf, h2.dirs, fun p hp => ?_⟩
  rw [h2.rest p hp, h1.rest p fun h => hp (above_trans h had)]

theorem made_clear {fs f1 : FS} {a d : Path} (h : Made fs f1 a) (hc : Clear fs d) :
    Clear f1 d := by
  intro p hp
  by_cases e : Above p a
  · exact Or.inr (h.dirs p e)
  · rw [h.rest p e]; exact hc p hp

theorem clear_above {fs : FS} {a d : Path} (hc : Clear fs d) (h : Above a d) : Clear fs a :=
  fun p hp => hc p (above_trans hp h)

theorem wf_set_dir {fs : FS} (hw : Wf fs) {x : String} {d : Path} (hd : get fs d = some .dir) :
    Wf (set fs (x :: d) .dir) := by
  intro y p hp
  rw [get_set _ _ _ _ (by simp)] at hp ⊢
  split
  · rfl
  · split at hp
    · next h => simp at h; rw [h.2]; exact hd
    · exact hw y p hp

theorem wf_set_leaf {fs : FS} (hw : Wf fs) {x : String} {d : Path} {e : Entry}
    (hd : get fs d = some .dir) (hx : get fs (x :: d) ≠ some .dir) :
    Wf (set fs (x :: d) e) := by
  intro y p hp
  rw [get_set _ _ _ _ (by simp)] at hp ⊢
  split at hp
  · next h =>
    simp at h
    rw [if_neg (by rw [h.2]; exact fun h => by simpa using congrArg List.length h), h.2]
    exact hd
  · have := hw y p hp
    split
    · next h => rw [h] at this; exact absurd this hx
    · exact this

theorem mkdirp_made {fs : FS} (hw : Wf fs) {d : Path} (hc : Clear fs d) :
    ∃ fs', mkdirp fs d = .ok fs' ∧ Made fs fs' d := by
  induction d with
  | nil => exact ⟨fs, rfl, made_self hw (get_nil fs)⟩
  | cons x d ih =>
    rw [mkdirp]
    rcases hc (x :: d) (above_refl _) with h | h
    · obtain ⟨f1, h1, hm⟩ := ih (clear_above hc (above_cons x (above_refl d)))
      refine ⟨set f1 (x :: d) .dir, by rw [h]; simp only [h1]; rfl, ?_, ?_, ?_⟩
      · exact wf_set_dir hm.wf (hm.dirs d (above_refl d))
      · intro p hp
        rw [get_set _ _ _ _ (by simp)]
        rcases above_cons_iff.mp hp with e | e
        · rw [if_pos e]
        · split
          · rfl
          · exact hm.dirs p e
      · intro p hp
        rw [get_set _ _ _ _ (by simp), if_neg fun e => hp (by rw [e]; exact above_refl _)]
        exact hm.rest p fun e => hp (above_cons x e)
    · exact ⟨fs, by rw [h], made_self hw h⟩

theorem installD_made {flt : Filter} {fs : FS} (hw : Wf fs) {base d : Path} (hc : Clear fs d)
    (hb : Above base d) (hf : ∀ p, Above base p → Above p d → flt.dir p = true) :
    ∃ fs', installD flt fs base d = .ok fs' ∧ Made fs fs' d := by
  induction d generalizing fs with
  | nil => exact ⟨fs, rfl, made_self hw (get_nil fs)⟩
  | cons x d ih =>
    rw [installD, hf (x :: d) hb (above_refl _)]
    simp only [Bool.not_true, Bool.false_eq_true, if_false]
    by_cases h : isDir fs (x :: d) = true
    · exact ⟨fs, by rw [if_pos h], made_self hw (isDir_iff.mp h)⟩
    · rw [if_neg h]
      have hpd : Above d (x :: d) := above_cons x (above_refl d)
      by_cases h2 : x :: d ≠ base ∧ d ≠ base
      · have hb' : Above base d := by
          rcases above_cons_iff.mp hb with e | e
          · exact absurd e.symm h2.1
          · exact e
        obtain ⟨f1, h1, hm⟩ := ih hw (clear_above hc hpd) hb'
          fun p h3 h4 => hf p h3 (above_cons x h4)
        obtain ⟨f2, h3, hm2⟩ := mkdirp_made hm.wf (made_clear hm hc)
        refine ⟨f2, ?_, made_trans hm hm2 hpd⟩
        rw [if_pos h2, h1]
        exact h3
      · obtain ⟨f2, h3, hm2⟩ := mkdirp_made hw hc
        refine ⟨f2, ?_, hm2⟩
        rw [if_neg h2]
        exact h3

theorem nested_above {a : Path} {ds : List Path} (h : Nested (a :: ds)) :
    ∀ d, (a :: ds).getLast? = some d → Above a d := by
  induction ds generalizing a with
  | nil => intro d hd; simp at hd; subst hd; exact above_refl _
  | cons b ds ih =>
    intro d hd
    rw [List.getLast?_cons_cons] at hd
    exact above_trans h.1 (ih h.2 d hd)

theorem installDs_made {flt : Filter} {fs : FS} (hw : Wf fs) {base : Path} {ds : List Path}
    (hn : Nested (base :: ds)) {d : Path} (hd : ds.getLast? = some d) (hc : Clear fs d)
    (hf : ∀ p, Above base p → Above p d → flt.dir p = true) :
    ∃ fs', installDs flt fs base ds = .ok fs' ∧ Made fs fs' d := by
  induction ds generalizing fs base with
  | nil => cases hd
  | cons a ds ih =>
    rw [installDs]
    have had : Above a d := nested_above hn.2 d hd
    obtain ⟨f1, h1, hm⟩ := installD_made hw (base := base) (clear_above hc had) hn.1
      fun p h3 h4 => hf p h3 (above_trans h4 had)
    rw [h1]
    cases ds with
    | nil =>
      simp at hd
      subst hd
      exact ⟨f1, rfl, hm⟩
    | cons b ds =>
      rw [List.getLast?_cons_cons] at hd
      obtain ⟨f2, h2, hm2⟩ := ih hm.wf hn.2 hd (made_clear hm hc)
        fun p h3 h4 => hf p (above_trans hn.1 h3) h4
      exact ⟨f2, h2, made_trans hm hm2 had⟩

/-! ## Files and links -/

def putAll (fs : FS) (ps : List (Path × Entry)) : FS := ps.foldl (fun fs x => set fs x.1 x.2) fs

theorem get_putAll (fs : FS) (ps : List (Path × Entry)) (hne : ∀ x ∈ ps, x.1 ≠ []) (p : Path) :
    get (putAll fs ps) p =
      match (ps.reverse.find? fun e => e.1 = p).map (·.2) with
      | some e => some e
      | none => get fs p := by
  induction ps generalizing fs with
  | nil => rfl
  | cons a ps ih =>
    rw [show putAll fs (a :: ps) = putAll (set fs a.1 a.2) ps from rfl,
      ih (set fs a.1 a.2) fun x hx => hne x (List.mem_cons_of_mem _ hx), List.reverse_cons,
      List.find?_append]
    cases h : ps.reverse.find? fun e => e.1 = p with
    | some e => rfl
    | none =>
      simp only [Option.map_none, Option.none_or]
      rw [get_set _ _ _ _ (hne a (by simp)), List.find?_cons]
      by_cases e : a.1 = p
      · subst e; simp
      · rw [decide_eq_false e, if_neg (fun h => e h.symm)]
        rfl

theorem installF_ok {flt : Filter} {fs : FS} {t : Item}
    (hd : get fs t.dest = some .dir)
    (hx : flt.ent t.dest t.leaf .regular = true → get fs (t.leaf :: t.dest) ≠ some .dir) :
    installF flt fs t.dest (nameArg t) t.src t.content =
    .ok (putAll fs
      (if flt.ent t.dest t.leaf .regular then [(t.leaf :: t.dest, .file t.content)] else [])) := by
  unfold Item.leaf at hx ⊢
  unfold nameArg
  have put_ok : ∀ n, get fs (n :: t.dest) ≠ some .dir →
      put fs (n :: t.dest) (.file t.content) =
        .ok (set fs (n :: t.dest) (.file t.content)) := by
    intro n hn
    unfold put
    simp only
    rw [if_neg (by rw [isDir_iff]; exact hn), if_pos (isDir_iff.mpr hd)]
  cases hname : t.name with
  | some n =>
    simp only [hname, Option.getD_some] at hx ⊢
    unfold installF
    simp only [Option.getD_some]
    by_cases h : flt.ent t.dest n .regular = true
    · simp only [h, Bool.not_true, Bool.false_eq_true, if_false, if_true]
      unfold installCmd
      rw [if_neg (by rw [isDir_iff]; exact hx h), put_ok n (hx h)]
      rfl
    · simp only [h, Bool.not_false, if_true]
      rfl
  | none =>
    simp only [hname, Option.getD_none] at hx ⊢
    by_cases hs : t.src ≠ t.orig
    · rw [if_pos hs]
      unfold installF
      simp only [Option.getD_some]
      by_cases h : flt.ent t.dest t.orig .regular = true
      · simp only [h, Bool.not_true, Bool.false_eq_true, if_false, if_true]
        unfold installCmd
        rw [if_neg (by rw [isDir_iff]; exact hx h), put_ok _ (hx h)]
        rfl
      · simp only [h, Bool.not_false, if_true]
        rfl
    · rw [if_neg hs]
      have hs' : t.src = t.orig := Decidable.not_not.mp hs
      unfold installF
      simp only [Option.getD_none]
      rw [hs']
      by_cases h : flt.ent t.dest t.orig .regular = true
      · simp only [h, Bool.not_true, Bool.false_eq_true, if_false, if_true]
        unfold installCmd
        rw [if_pos (isDir_iff.mpr hd), put_ok _ (hx h)]
        rfl
      · simp only [h, Bool.not_false, if_true]
        rfl

theorem installLs_ok {flt : Filter} {fs : FS} {d : Path} (ls : List (String × String))
    (hd : get fs d = some .dir)
    (hx : ∀ l ∈ ls, flt.ent d l.1 .symlink = true → get fs (l.1 :: d) ≠ some .dir) :
    installLs flt fs d ls =
    .ok (putAll fs
      ((ls.filter fun l => flt.ent d l.1 .symlink).map fun l => (l.1 :: d, .link l.2))) := by
  induction ls generalizing fs with
  | nil => rfl
  | cons l ls ih =>
    rw [installLs]
    unfold installL
    by_cases h : flt.ent d l.1 .symlink = true
    · simp only [h, Bool.not_true, Bool.false_eq_true, if_false]
      have hl := hx l (by simp) h
      unfold lnCmd
      rw [if_neg (by rw [isDir_iff]; exact hl)]
      have hput : put fs (l.1 :: d) (.link l.2) = .ok (set fs (l.1 :: d) (.link l.2)) := by
        unfold put
        simp only
        rw [if_neg (by rw [isDir_iff]; exact hl), if_pos (isDir_iff.mpr hd)]
      rw [hput, List.filter_cons_of_pos (by simpa using h)]
      refine ih ?_ ?_
      · rw [get_set _ _ _ _ (by simp), if_neg (fun e => by simpa using congrArg List.length e)]
        exact hd
      · intro k hk hke
        rw [get_set _ _ _ _ (by simp)]
        split
        · simp
        · exact hx k (List.mem_cons_of_mem _ hk) hke
    · simp only [h, Bool.not_false, if_true]
      rw [List.filter_cons_of_neg (by simpa using h)]
      exact ih hd fun k hk => hx k (List.mem_cons_of_mem _ hk)

theorem wf_putAll {fs : FS} (hw : Wf fs) (ps : List (Path × Entry))
    (h : ∀ x ∈ ps, ∃ n d, x.1 = n :: d ∧ get fs d = some .dir ∧ get fs x.1 ≠ some .dir ∧
      x.2 ≠ .dir) : Wf (putAll fs ps) := by
  induction ps generalizing fs with
  | nil => exact hw
  | cons a ps ih =>
    obtain ⟨⟨q, e⟩, rfl⟩ : ∃ b : Path × Entry, a = b := ⟨a, rfl⟩
    obtain ⟨n, d, h1, h2, h3, h4⟩ := h (q, e) (by simp)
    simp only at h1 h3 h4
    subst h1
    refine ih (wf_set_leaf hw h2 h3) fun x hx => ?_
    obtain ⟨m, c, k1, k2, k3, k4⟩ := h x (List.mem_cons_of_mem _ hx)
    refine ⟨m, c, k1, ?_, ?_, k4⟩
    · rw [get_set _ _ _ _ (by simp), if_neg]
      · exact k2
      · rintro rfl; exact h3 k2
    · rw [get_set _ _ _ _ (by simp)]
      split
      · intro e'; exact h4 (Option.some.inj e')
      · exact k3

theorem mem_puts_dest {flt : Filter} {t : Item} {x : Path × Entry} (h : x ∈ t.puts flt) :
    (∃ n, x.1 = n :: t.dest) ∧ x.2 ≠ .dir := by
  unfold Item.puts at h
  rcases List.mem_append.mp h with h | h
  · split at h
    · simp at h; subst h; exact ⟨⟨_, rfl⟩, by simp⟩
    · cases h
  · obtain ⟨l, -, rfl⟩ := List.mem_map.mp h
    exact ⟨⟨_, rfl⟩, by simp⟩

theorem lastPut_none {flt : Filter} {ts : List Item} {p : Path} :
    lastPut flt ts p = none ↔ ¬ Installed flt ts p := by
  unfold lastPut Installed
  rw [Option.map_eq_none_iff, List.find?_eq_none]
  constructor
  · rintro h ⟨t, ht, e, he⟩
    have := h (p, e) (List.mem_reverse.mpr (List.mem_flatMap.mpr ⟨t, ht, he⟩))
    simp at this
  · intro h x hx
    obtain ⟨t, ht, hm⟩ := List.mem_flatMap.mp (List.mem_reverse.mp hx)
    simp only [decide_eq_true_eq]
    rintro rfl
    exact h ⟨t, ht, x.2, hm⟩

theorem lastPut_not_dir {flt : Filter} {ts : List Item} {p : Path} {e : Entry}
    (h : lastPut flt ts p = some e) : e ≠ .dir := by
  unfold lastPut at h
  rw [Option.map_eq_some_iff] at h
  obtain ⟨x, hx, rfl⟩ := h
  obtain ⟨t, -, hm⟩ := List.mem_flatMap.mp (List.mem_reverse.mp (List.mem_of_find?_eq_some hx))
  exact (mem_puts_dest hm).2

theorem lastPut_cons (flt : Filter) (t : Item) (ts : List Item) (p : Path) :
    lastPut flt (t :: ts) p = (lastPut flt ts p).or (lastPut flt [t] p) := by
  unfold lastPut
  rw [List.flatMap_cons, List.reverse_append, List.find?_append, List.flatMap_cons,
    List.flatMap_nil, List.append_nil]
  cases h : (ts.flatMap (Item.puts flt)).reverse.find? fun e => e.1 = p with
  | none => simp
  | some e => simp

theorem installTarget_ok {flt : Filter} {fs : FS} (hw : Wf fs) {t : Item} (hr : Regular flt t)
    (hc : Compatible flt fs [t]) :
    ∃ fs', installTarget flt fs t = .ok fs' ∧ Wf fs' ∧ ∀ p,
      (∀ e, lastPut flt [t] p = some e → get fs' p = some e) ∧
      (lastPut flt [t] p = none → Above p t.dest → get fs' p = some .dir) ∧
      (lastPut flt [t] p = none → ¬ Above p t.dest → get fs' p = get fs p) := by
  obtain ⟨hc1, hc2, hc3⟩ := hc
  have hinst : ∀ p e, (p, e) ∈ t.puts flt → Installed flt [t] p :=
    fun p e h => ⟨t, by simp, e, h⟩
  have hlast : lastPut flt [t] = fun p => ((t.puts flt).reverse.find? fun e => e.1 = p).map (·.2) := by
    funext p
    unfold lastPut
    simp
  cases hdirs : t.dirs with
  | nil => exact absurd hdirs hr.1
  | cons r ds =>
    have hdest : (r :: ds).getLast? = some t.dest := by
      have := (t.reverse_head hr.1).1
      rw [List.head?_reverse, hdirs] at this
      exact this
    have hroot : t.root = r := by unfold Item.root; rw [hdirs]; rfl
    have hn : Nested (r :: r :: ds) := by
      refine ⟨above_refl r, ?_⟩
      have := hr.2.1
      rw [hdirs] at this
      exact this
    obtain ⟨f1, h1, hm⟩ := installDs_made (flt := flt) hw hn hdest (fun p hp => hc1 t (by simp) p hp)
      (by rw [← hroot]; exact hr.2.2)
    have hdir : get f1 t.dest = some .dir := hm.dirs _ (above_refl _)
    have hfree : ∀ n e, (n :: t.dest, e) ∈ t.puts flt → get f1 (n :: t.dest) ≠ some .dir := by
      intro n e h
      rw [hm.rest _ (not_above_cons n t.dest)]
      exact hc2 _ (hinst _ e h)
    have hF := installF_ok (flt := flt) (fs := f1) (t := t) hdir (by
      intro h
      apply hfree _ (.file t.content)
      unfold Item.puts
      rw [if_pos h]
      simp)
    have hL := installLs_ok (flt := flt) (d := t.dest) t.links
      (fs := putAll f1
        (if flt.ent t.dest t.leaf .regular then [(t.leaf :: t.dest, .file t.content)] else []))
      (by
        split
        · rw [putAll, List.foldl_cons, List.foldl_nil, get_set _ _ _ _ (by simp),
            if_neg (fun e => by simpa using congrArg List.length e)]
          exact hdir
        · exact hdir)
      (by
        intro l hl hle
        have hk : get f1 (l.1 :: t.dest) ≠ some .dir := by
          apply hfree _ (.link l.2)
          unfold Item.puts
          apply List.mem_append_right
          exact List.mem_map.mpr ⟨l, List.mem_filter.mpr ⟨hl, hle⟩, rfl⟩
        split
        · rw [putAll, List.foldl_cons, List.foldl_nil, get_set _ _ _ _ (by simp)]
          split
          · simp
          · exact hk
        · exact hk)
    have hall : ∀ fs, putAll (putAll fs
        (if flt.ent t.dest t.leaf .regular then [(t.leaf :: t.dest, .file t.content)] else []))
        ((t.links.filter fun l => flt.ent t.dest l.1 .symlink).map
          fun l => (l.1 :: t.dest, .link l.2)) = putAll fs (t.puts flt) := by
      intro fs
      unfold putAll Item.puts
      rw [List.foldl_append]
    refine ⟨putAll f1 (t.puts flt), ?_, ?_, ?_⟩
    · unfold installTarget
      rw [hdirs]
      simp only
      rw [h1, ← hall, ← hL]
      simp only [bind, Except.bind]
      rw [hF]
    · refine wf_putAll hm.wf _ fun x hx => ?_
      obtain ⟨⟨n, hxn⟩, hxd⟩ := mem_puts_dest hx
      refine ⟨n, t.dest, hxn, hdir, ?_, hxd⟩
      rw [hxn]
      refine hfree n x.2 ?_
      rw [← hxn]; exact hx
    · intro p
      have hg := get_putAll f1 (t.puts flt) (fun x hx => by
        obtain ⟨⟨n, hxn⟩, -⟩ := mem_puts_dest hx
        rw [hxn]; simp) p
      rw [hlast]
      refine ⟨fun e he => ?_, fun he hp => ?_, fun he hp => ?_⟩
      · simp only at he
        rw [he] at hg
        exact hg
      · simp only at he
        rw [he] at hg
        rw [hg]
        exact hm.dirs p hp
      · simp only at he
        rw [he] at hg
        rw [hg]
        exact hm.rest p hp

theorem install_ok {flt : Filter} {fs : FS} (hw : Wf fs) {ts : List Item}
    (hr : ∀ t ∈ ts, Regular flt t) (hc : Compatible flt fs ts) :
    ∃ fs', install flt fs ts = .ok fs' ∧ Wf fs' ∧ ∀ p,
      (∀ e, lastPut flt ts p = some e → get fs' p = some e) ∧
      (lastPut flt ts p = none → (∃ t ∈ ts, Above p t.dest) → get fs' p = some .dir) ∧
      (lastPut flt ts p = none → ¬ (∃ t ∈ ts, Above p t.dest) → get fs' p = get fs p) := by
  induction ts generalizing fs with
  | nil =>
    refine ⟨fs, rfl, hw, fun p => ⟨fun e he => ?_, fun _ h => ?_, fun _ _ => rfl⟩⟩
    · cases he
    · obtain ⟨t, ht, -⟩ := h; cases ht
  | cons t ts ih =>
    obtain ⟨hc1, hc2, hc3⟩ := hc
    have sub1 : ∀ p, Installed flt [t] p → Installed flt (t :: ts) p := by
      rintro p ⟨s, hs, h⟩
      rw [List.mem_singleton] at hs
      exact ⟨s, by simp [hs], h⟩
    have sub2 : ∀ p, Installed flt ts p → Installed flt (t :: ts) p := by
      rintro p ⟨s, hs, h⟩
      exact ⟨s, List.mem_cons_of_mem _ hs, h⟩
    obtain ⟨f1, h1, hw1, hg1⟩ := installTarget_ok hw (hr t (by simp)) (fs := fs)
      ⟨fun s hs => hc1 s (by rw [List.mem_singleton] at hs; simp [hs]),
       fun p hp => hc2 p (sub1 p hp),
       fun p hp s hs => hc3 p (sub1 p hp) s (by rw [List.mem_singleton] at hs; simp [hs])⟩
    obtain ⟨f2, h2, hw2, hg2⟩ := ih (fs := f1) hw1 (fun s hs => hr s (List.mem_cons_of_mem _ hs)) (by
      refine ⟨?_, ?_, ?_⟩
      · intro s hs d hd
        cases hl : lastPut flt [t] d with
        | some e =>
          exfalso
          have : Installed flt [t] d := Classical.byContradiction fun h => by
            rw [lastPut_none.mpr h] at hl
            cases hl
          exact hc3 d (sub1 d this) s (List.mem_cons_of_mem _ hs) hd
        | none =>
          by_cases ha : Above d t.dest
          · exact Or.inr ((hg1 d).2.1 hl ha)
          · rw [(hg1 d).2.2 hl ha]
            exact hc1 s (List.mem_cons_of_mem _ hs) d hd
      · intro p hp
        cases hl : lastPut flt [t] p with
        | some e =>
          rw [(hg1 p).1 e hl]
          intro h
          exact lastPut_not_dir hl (Option.some.inj h)
        | none =>
          rw [(hg1 p).2.2 hl (hc3 p (sub2 p hp) t (by simp))]
          exact hc2 p (sub2 p hp)
      · intro p hp s hs
        exact hc3 p (sub2 p hp) s (List.mem_cons_of_mem _ hs))
    refine ⟨f2, by rw [install, h1]; exact h2, hw2, fun p => ?_⟩
    rw [lastPut_cons]
    cases hl2 : lastPut flt ts p with
    | some e2 =>
      refine ⟨fun e he => ?_, fun he _ => (by cases he), fun he _ => (by cases he)⟩
      rw [Option.some_or] at he
      rw [(hg2 p).1 e2 hl2]
      exact he
    | none =>
      rw [Option.none_or]
      refine ⟨fun e he => ?_, fun he h => ?_, fun he h => ?_⟩
      · have hi : Installed flt [t] p := Classical.byContradiction fun h => by
          rw [lastPut_none.mpr h] at he
          cases he
        rw [(hg2 p).2.2 hl2, (hg1 p).1 e he]
        rintro ⟨s, hs, hp⟩
        exact hc3 p (sub1 p hi) s (List.mem_cons_of_mem _ hs) hp
      · by_cases h3 : ∃ s ∈ ts, Above p s.dest
        · exact (hg2 p).2.1 hl2 h3
        · rw [(hg2 p).2.2 hl2 h3]
          obtain ⟨s, hs, hp⟩ := h
          rcases List.mem_cons.mp hs with rfl | hs
          · exact (hg1 p).2.1 he hp
          · exact absurd ⟨s, hs, hp⟩ h3
      · rw [(hg2 p).2.2 hl2 fun ⟨s, hs, hp⟩ => h ⟨s, List.mem_cons_of_mem _ hs, hp⟩]
        exact (hg1 p).2.2 he fun hp => h ⟨t, by simp, hp⟩

end Verif.Install
