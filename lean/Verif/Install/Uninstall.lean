import Verif.Install.Lemmas
/-!
# Uninstalling: what goes and what stays
-/

namespace Verif.Install

/-- Nothing appears. -/
theorem step_get {ok : Path → Bool} {fs : FS} (s : Step) (p : Path) :
    get (step ok fs s) p = get fs p ∨ get (step ok fs s) p = none := by
  cases s with
  | rm q =>
    unfold step
    simp only
    split
    · next h =>
      have hq : q ≠ [] := by
        rintro rfl
        exact (isFile_iff.mp h).2 (get_nil fs)
      rw [get_erase _ _ _ hq]
      split
      · exact Or.inr rfl
      · exact Or.inl rfl
    · exact Or.inl rfl
  | «try» d =>
    unfold step
    simp only
    split
    · next h =>
      rw [get_erase _ _ _ h.1]
      split
      · exact Or.inr rfl
      · exact Or.inl rfl
    · exact Or.inl rfl

theorem run_get {ok : Path → Bool} {fs : FS} (ss : List Step) (p : Path) :
    get (run ok fs ss) p = get fs p ∨ get (run ok fs ss) p = none := by
  induction ss generalizing fs with
  | nil => exact Or.inl rfl
  | cons s ss ih =>
    rcases ih (fs := step ok fs s) with h | h
    · rcases step_get (ok := ok) (fs := fs) s p with k | k
      · exact Or.inl (by rw [run_cons, h, k])
      · exact Or.inr (by rw [run_cons, h, k])
    · exact Or.inr h

/-- What goes: files and links that are named, directories that are tried
and have only what went. -/
theorem run_gone {ok : Path → Bool} {fs : FS} (ss : List Step) (p : Path) (e : Entry)
    (hp : get fs p = some e) (hg : get (run ok fs ss) p = none) :
    (e ≠ .dir ∧ Step.rm p ∈ ss) ∨
    (e = .dir ∧ p ≠ [] ∧ ok p = true ∧ Step.try p ∈ ss ∧ ∀ x, get (run ok fs ss) (x :: p) = none) := by
  induction ss generalizing fs with
  | nil => rw [show run ok fs [] = fs from rfl, hp] at hg; cases hg
  | cons s ss ih =>
    rw [run_cons] at hg
    rcases step_get (ok := ok) (fs := fs) s p with k | k
    · rw [hp] at k
      rcases ih k hg with ⟨h1, h2⟩ | ⟨h1, h2, h3, h4, h5⟩
      · exact Or.inl ⟨h1, List.mem_cons_of_mem _ h2⟩
      · exact Or.inr ⟨h1, h2, h3, List.mem_cons_of_mem _ h4, h5⟩
    · cases s with
      | rm q =>
        unfold step at k
        simp only at k
        split at k
        · next hf =>
          have hq : q ≠ [] := by
            rintro rfl
            exact (isFile_iff.mp hf).2 (get_nil fs)
          rw [get_erase _ _ _ hq] at k
          split at k
          · next hpq =>
            subst hpq
            refine Or.inl ⟨?_, by simp⟩
            rintro rfl
            exact (isFile_iff.mp hf).2 hp
          · rw [hp] at k; cases k
        · rw [hp] at k; cases k
      | «try» d =>
        have hs : step ok fs (.try d) =
            if d ≠ [] ∧ isDir fs d ∧ isEmpty fs d ∧ ok d then erase fs d else fs := rfl
        rw [hs] at k
        split at k
        · next hc =>
          rw [get_erase _ _ _ hc.1] at k
          split at k
          · next hpd =>
            subst hpd
            have he : e = .dir := by
              have := isDir_iff.mp hc.2.1
              rw [hp] at this
              exact Option.some.inj this
            refine Or.inr ⟨he, hc.1, hc.2.2.2, by simp, fun x => ?_⟩
            have h0 := isEmpty_iff.mp hc.2.2.1 x
            rcases run_get (ok := ok) (fs := fs) (.try p :: ss) (x :: p) with h | h
            · rw [h, h0]
            · exact h
          · rw [hp] at k; cases k
        · rw [hp] at k; cases k

/-- What is named goes. -/
theorem run_rm {ok : Path → Bool} {fs : FS} (ss : List Step) (p : Path)
    (h : Step.rm p ∈ ss) (hd : get fs p ≠ some .dir) : get (run ok fs ss) p = none := by
  induction ss generalizing fs with
  | nil => cases h
  | cons s ss ih =>
    rw [run_cons]
    have hd' : get (step ok fs s) p ≠ some .dir := by
      rcases step_get (ok := ok) (fs := fs) s p with k | k
      · rw [k]; exact hd
      · rw [k]; simp
    rcases List.mem_cons.mp h with rfl | h
    · have : get (step ok fs (.rm p)) p = none := by
        unfold step
        simp only
        split
        · next hf =>
          have hq : p ≠ [] := by
            rintro rfl
            exact (isFile_iff.mp hf).2 (get_nil fs)
          rw [get_erase _ _ _ hq, if_pos rfl]
        · next hf =>
          apply Decidable.byContradiction
          intro hn
          exact hf (isFile_iff.mpr ⟨hn, hd⟩)
      rcases run_get (ok := ok) (fs := step ok fs (.rm p)) ss p with k | k
      · rw [k, this]
      · exact k
    · exact ih h hd'

/-- The directories that could be removed are still to be tried. -/
theorem run_tried {ok : Path → Bool} {C : Path → Prop} {fs : FS} (ss : List Step)
    (hl : Later C ss)
    (inv : ∀ d, C d → d ≠ [] → ok d = true → get fs d = some .dir →
      (∀ x, get fs (x :: d) = none) → Step.try d ∈ ss) :
    ∀ d, C d → d ≠ [] → ok d = true → get (run ok fs ss) d = some .dir →
      ¬ ∀ x, get (run ok fs ss) (x :: d) = none := by
  induction ss generalizing fs with
  | nil =>
    intro d hC hn ho hg he
    exact absurd (inv d hC hn ho hg he) (by simp)
  | cons s ss ih =>
    rw [run_cons]
    have key : Later C ss ∧ (∀ d, C d → d ≠ [] → ok d = true →
        get (step ok fs s) d = some .dir →
        (∀ x, get (step ok fs s) (x :: d) = none) → Step.try d ∈ ss) := by
      cases hl with
      | rm hpar hpost =>
        rename_i p
        refine ⟨hpost, ?_⟩
        intro d hC hn ho hg he
        have hs : step ok fs (.rm p) = if isFile fs p then erase fs p else fs := rfl
        rw [hs] at hg he
        split at hg
        · next hf =>
          rw [if_pos hf] at he
          have hq : p ≠ [] := by
            rintro rfl
            exact (isFile_iff.mp hf).2 (get_nil fs)
          rw [get_erase _ _ _ hq] at hg
          split at hg
          · cases hg
          · by_cases hpd : ∃ x, p = x :: d
            · obtain ⟨x, hx⟩ := hpd
              exact hpar x d hx hC
            · have : ∀ x, get fs (x :: d) = none := by
                intro x
                have := he x
                rw [get_erase _ _ _ hq, if_neg (fun h => hpd ⟨x, h.symm⟩)] at this
                exact this
              rcases List.mem_cons.mp (inv d hC hn ho hg this) with h | h
              · cases h
              · exact h
        · next hf =>
          rw [if_neg hf] at he
          rcases List.mem_cons.mp (inv d hC hn ho hg he) with h | h
          · cases h
          · exact h
      | «try» hpar hpost =>
        rename_i q
        refine ⟨hpost, ?_⟩
        intro d hC hn ho hg he
        have hs : step ok fs (.try q) =
            if q ≠ [] ∧ isDir fs q ∧ isEmpty fs q ∧ ok q then erase fs q else fs := rfl
        rw [hs] at hg he
        split at hg
        · next hc =>
          rw [if_pos hc] at he
          rw [get_erase _ _ _ hc.1] at hg
          split at hg
          · cases hg
          · next hdq =>
            by_cases hpd : ∃ x, q = x :: d
            · obtain ⟨x, hx⟩ := hpd
              exact hpar x d hx hC
            · have : ∀ x, get fs (x :: d) = none := by
                intro x
                have := he x
                rw [get_erase _ _ _ hc.1, if_neg (fun h => hpd ⟨x, h.symm⟩)] at this
                exact this
              rcases List.mem_cons.mp (inv d hC hn ho hg this) with h | h
              · exact absurd (Step.try.inj h) hdq
              · exact h
        · next hc =>
          rw [if_neg hc] at he
          rcases List.mem_cons.mp (inv d hC hn ho hg he) with h | h
          · have := Step.try.inj h
            subst this
            exact absurd ⟨hn, isDir_iff.mpr hg, isEmpty_iff.mpr he, ho⟩ hc
          · exact h
    exact ih key.1 key.2

/-! ## The steps of the targets -/

theorem Item.reverse_head (t : Item) (h : t.dirs ≠ []) :
    t.dirs.reverse.head? = some t.dest ∧ t.dirs.reverse.getLast? = some t.root := by
  unfold Item.dest Item.root
  rw [List.head?_reverse, List.getLast?_reverse]
  cases hd : t.dirs with
  | nil => exact absurd hd h
  | cons a ds =>
    constructor
    · cases hl : (a :: ds).getLast? with
      | none => simp at hl
      | some b => rfl
    · rfl

theorem root_above_dest {flt : Filter} {t : Item} (h : Regular flt t) : Above t.root t.dest :=
  nestedRev_last (nested_reverse h.2.1) (t.reverse_head h.1).1 (t.reverse_head h.1).2

theorem mem_ups_item {flt : Filter} {t : Item} (h : Regular flt t) (p : Path) :
    p ∈ ups t.dirs.reverse ↔ Above t.root p ∧ Above p t.dest :=
  mem_ups (nested_reverse h.2.1) (t.reverse_head h.1).1 (t.reverse_head h.1).2 p

theorem uninstall_steps {flt : Filter} {ok : Path → Bool} {fs : FS} (hw : Wf fs)
    {ts : List Item} (hr : ∀ t ∈ ts, Regular flt t) :
    uninstall flt ok fs ts = run ok fs (ts.flatMap (stepsOf flt)) := by
  apply uninstall_run hw
  intro t ht p hp
  rw [mem_ups_item (hr t ht)] at hp
  exact (hr t ht).2.2 p hp.1 hp.2

theorem mem_puts {flt : Filter} {t : Item} {p : Path} :
    (∃ e, (p, e) ∈ t.puts flt) ↔ Step.rm p ∈ stepsOf flt t := by
  unfold Item.puts stepsOf
  simp only [List.mem_append, List.mem_map, List.mem_filter]
  constructor
  · rintro ⟨e, h | ⟨l, hl, h⟩⟩
    · split at h
      · next hf =>
        simp at h
        left; right
        rw [if_pos hf, h.1]; simp
      · cases h
    · left; left
      simp at h
      exact ⟨l, hl, by rw [h.1]⟩
  · rintro ((⟨l, hl, h⟩ | h) | ⟨q, hq, h⟩)
    · simp at h
      exact ⟨.link l.2, Or.inr ⟨l, hl, by rw [h]⟩⟩
    · split at h
      · next hf =>
        simp at h
        exact ⟨.file t.content, Or.inl (by simp [h, hf])⟩
      · cases h
    · cases h

theorem mem_rm {flt : Filter} {ts : List Item} {p : Path} :
    Step.rm p ∈ ts.flatMap (stepsOf flt) ↔ Installed flt ts p := by
  rw [List.mem_flatMap]
  unfold Installed
  constructor
  · rintro ⟨t, ht, h⟩; exact ⟨t, ht, mem_puts.mpr h⟩
  · rintro ⟨t, ht, h⟩; exact ⟨t, ht, mem_puts.mp h⟩

theorem try_mem {flt : Filter} {t : Item} {d : Path} :
    Step.try d ∈ stepsOf flt t ↔ d ∈ ups t.dirs.reverse := by
  unfold stepsOf
  simp only [List.mem_append, List.mem_map]
  constructor
  · rintro ((⟨l, -, h⟩ | h) | ⟨q, hq, h⟩)
    · cases h
    · split at h
      · simp at h
      · cases h
    · rw [← Step.try.inj h]; exact hq
  · intro h
    exact Or.inr ⟨d, h, rfl⟩

theorem mem_try {flt : Filter} {ts : List Item} (hr : ∀ t ∈ ts, Regular flt t) {d : Path} :
    Step.try d ∈ ts.flatMap (stepsOf flt) ↔ Covered ts d := by
  rw [List.mem_flatMap]
  unfold Covered
  constructor
  · rintro ⟨t, ht, h⟩
    exact ⟨t, ht, (mem_ups_item (hr t ht) d).mp (try_mem.mp h)⟩
  · rintro ⟨t, ht, h⟩
    exact ⟨t, ht, try_mem.mpr ((mem_ups_item (hr t ht) d).mpr h)⟩

theorem later_rms {C : Path → Prop} (rs : List Step) (d : Path)
    (hrs : ∀ s ∈ rs, ∃ x, s = .rm (x :: d)) {post : List Step} (hd : .try d ∈ post)
    (hp : Later C post) : Later C (rs ++ post) := by
  induction rs with
  | nil => exact hp
  | cons s rs ih =>
    obtain ⟨x, rfl⟩ := hrs s (by simp)
    refine .rm ?_ (ih fun s hs => hrs s (List.mem_cons_of_mem _ hs))
    intro y q e _
    simp at e
    obtain ⟨-, rfl⟩ := e
    exact List.mem_append_right _ hd

theorem later_steps {flt : Filter} {ts : List Item} (hr : ∀ t ∈ ts, Regular flt t)
    (hroots : SameRoots ts) : Later (Covered ts) (ts.flatMap (stepsOf flt)) := by
  suffices h : ∀ us : List Item, (∀ u ∈ us, u ∈ ts) → Later (Covered ts) (us.flatMap (stepsOf flt)) from
    h ts fun _ h => h
  intro us
  induction us with
  | nil => intro _; exact .nil
  | cons u us ih =>
    intro hu
    rw [List.flatMap_cons]
    refine later_append ?_ (ih fun v hv => hu v (List.mem_cons_of_mem _ hv))
    have hut := hu u (by simp)
    unfold stepsOf
    apply later_rms _ u.dest
    · intro s hs
      rcases List.mem_append.mp hs with h | h
      · obtain ⟨l, -, rfl⟩ := List.mem_map.mp h
        exact ⟨l.1, rfl⟩
      · split at h
        · simp at h; exact ⟨_, h⟩
        · cases h
    · apply List.mem_map_of_mem
      rw [mem_ups_item (hr u hut)]
      exact ⟨root_above_dest (hr u hut), above_refl _⟩
    · refine later_ups (nested_reverse (hr u hut).2.1) (u.reverse_head (hr u hut).1).2 ?_
      rintro x p e ⟨s, hs, h1, h2⟩
      exact hroots s hs u hut x p e ⟨h1, h2⟩

/-! ## The result -/

theorem uninstall_file {flt : Filter} {ok : Path → Bool} {fs : FS} (hw : Wf fs)
    {ts : List Item} (hr : ∀ t ∈ ts, Regular flt t) {p : Path}
    (hp : Installed flt ts p) (hd : get fs p ≠ some .dir) :
    get (uninstall flt ok fs ts) p = none := by
  rw [uninstall_steps hw hr]
  exact run_rm _ p (mem_rm.mpr hp) hd

/-- The one with the longest path. -/
theorem deepest (P : Path → Prop) (bound : Nat) (hb : ∀ p, P p → p.length ≤ bound) {p : Path}
    (hp : P p) : ∃ q, P q ∧ ∀ r, P r → r.length ≤ q.length := by
  induction hn : bound - p.length using Nat.strongRecOn generalizing p with
  | ind n ih =>
    by_cases h : ∃ r, P r ∧ p.length < r.length
    · obtain ⟨r, hr, hlt⟩ := h
      have := hb r hr
      exact ih (bound - r.length) (by omega) hr rfl
    · refine ⟨p, hp, fun r hr => ?_⟩
      have : ¬ p.length < r.length := fun hlt => h ⟨r, hr, hlt⟩
      omega

theorem get_bound (fs : FS) : ∃ n, ∀ p, get fs p ≠ none → p.length ≤ n := by
  induction fs with
  | nil =>
    refine ⟨0, fun p hp => ?_⟩
    cases p with
    | nil => simp
    | cons x p => simp [get] at hp
  | cons a fs ih =>
    obtain ⟨n, hn⟩ := ih
    refine ⟨max n a.1.length, fun p hp => ?_⟩
    by_cases h : a.1 = p
    · subst h; omega
    · have : get fs p ≠ none := by
        unfold get at hp ⊢
        split
        · simp
        · next hp0 =>
          rw [if_neg hp0, List.find?_cons, decide_eq_false h] at hp
          exact hp
      have := hn p this
      omega

theorem uninstall_hollow {flt : Filter} {ok : Path → Bool} {fs : FS} (hw : Wf fs)
    {ts : List Item} (hr : ∀ t ∈ ts, Regular flt t) (hroots : SameRoots ts) (hok : ok [] = false)
    {d : Path} (hd : Hollow flt ok ts fs d) :
    get (uninstall flt ok fs ts) d = none := by
  rw [uninstall_steps hw hr]
  apply Decidable.byContradiction
  intro hn
  obtain ⟨n, hb⟩ := get_bound (run ok fs (ts.flatMap (stepsOf flt)))
  obtain ⟨q, ⟨hdq, hq⟩, hmax⟩ := deepest
    (fun p => Above d p ∧ get (run ok fs (ts.flatMap (stepsOf flt))) p ≠ none) n
    (fun p hp => hb p hp.2) ⟨above_refl d, hn⟩
  have hsame : get (run ok fs (ts.flatMap (stepsOf flt))) q = get fs q := by
    rcases run_get (ok := ok) (fs := fs) (ts.flatMap (stepsOf flt)) q with h | h
    · exact h
    · exact absurd h hq
  cases he : get fs q with
  | none => rw [hsame, he] at hq; exact hq rfl
  | some e =>
    have hh := hd.2 q e hdq he
    split at hh
    · next hdir =>
      subst hdir
      have hqn : q ≠ [] := by
        rintro rfl
        rw [hok] at hh
        exact absurd hh.2 (by simp)
      refine run_tried _ (later_steps hr hroots) ?_ q hh.1 hqn hh.2 (by rw [hsame, he]) ?_
      · intro d' hC _ _ _ _
        exact (mem_try hr).mpr hC
      · intro x
        apply Decidable.byContradiction
        intro hx
        have := hmax (x :: q) ⟨above_cons x hdq, hx⟩
        simp at this
        omega
    · next hdir =>
      have := run_rm (ok := ok) (fs := fs) _ q (mem_rm.mpr hh)
        (by rw [he]; intro h; exact hdir (Option.some.inj h))
      exact hq this

theorem uninstall_keeps {flt : Filter} {ok : Path → Bool} {fs : FS} (hw : Wf fs)
    {ts : List Item} (hr : ∀ t ∈ ts, Regular flt t) {p : Path}
    (h1 : ¬ (Installed flt ts p ∧ get fs p ≠ some .dir)) (h2 : ¬ Hollow flt ok ts fs p) :
    get (uninstall flt ok fs ts) p = get fs p := by
  rw [uninstall_steps hw hr]
  rcases run_get (ok := ok) (fs := fs) (ts.flatMap (stepsOf flt)) p with h | hg
  · exact h
  · cases he : get fs p with
    | none => exact hg
    | some e =>
      exfalso
      rcases run_gone _ p e he hg with ⟨h3, h4⟩ | ⟨h3, -, -, -, -⟩
      · refine h1 ⟨mem_rm.mp h4, ?_⟩
        rw [he]
        intro h
        exact h3 (Option.some.inj h)
      · subst h3
        refine h2 ⟨he, ?_⟩
        -- Everything inside is gone.
        have hgone : ∀ q, Above p q → get (run ok fs (ts.flatMap (stepsOf flt))) q = none := by
          rintro q ⟨s, rfl⟩
          induction s with
          | nil => exact hg
          | cons x s ih =>
            have hwf := run_wf (ok := ok) hw (ts.flatMap (stepsOf flt))
            exact hwf.leaf (q := s ++ p) (by rw [ih]; simp) x
        intro q e hq heq
        rcases run_gone _ q e heq (hgone q hq) with ⟨h5, h6⟩ | ⟨h5, -, h7, h8, -⟩
        · rw [if_neg h5]
          exact mem_rm.mp h6
        · rw [if_pos h5]
          exact ⟨(mem_try hr).mp h8, h7⟩

end Verif.Install
