import Verif.Install.Install
/-!
# Installing: what success means
-/

namespace Verif.Install

/-- Directories stay. -/
def Keeps (fs fs' : FS) : Prop := ∀ p, get fs p = some .dir → get fs' p = some .dir

theorem keeps_refl (fs : FS) : Keeps fs fs := fun _ h => h

theorem keeps_trans {a b c : FS} (h1 : Keeps a b) (h2 : Keeps b c) : Keeps a c :=
  fun p h => h2 p (h1 p h)

theorem bind_ok {α β : Type} {x : Except Err α} {f : α → Except Err β} {b : β}
    (h : (x >>= f) = .ok b) : ∃ a, x = .ok a ∧ f a = .ok b := by
  cases x with
  | error e => cases h
  | ok a => exact ⟨a, rfl, h⟩

theorem mkdirp_success {fs fs' : FS} {d : Path} (h : mkdirp fs d = .ok fs') :
    get fs' d = some .dir ∧ Keeps fs fs' := by
  induction d generalizing fs' with
  | nil => rw [mkdirp] at h; cases h; exact ⟨get_nil _, keeps_refl _⟩
  | cons x d ih =>
    rw [mkdirp] at h
    split at h
    · next he => cases h; exact ⟨he, keeps_refl _⟩
    · cases h
    · obtain ⟨f1, h1, h2⟩ := bind_ok h
      cases h2
      refine ⟨by rw [get_set _ _ _ _ (by simp), if_pos rfl], fun p hp => ?_⟩
      rw [get_set _ _ _ _ (by simp)]
      split
      · rfl
      · exact (ih h1).2 p hp

theorem installD_success {flt : Filter} {fs fs' : FS} {base d : Path}
    (h : installD flt fs base d = .ok fs') :
    (flt.dir d = true → get fs' d = some .dir) ∧ Keeps fs fs' := by
  induction d generalizing fs' with
  | nil => rw [installD] at h; cases h; exact ⟨fun _ => get_nil _, keeps_refl _⟩
  | cons x d ih =>
    rw [installD] at h
    split at h
    · next hf => cases h; exact ⟨fun h => by (rw [h] at hf; cases hf), keeps_refl _⟩
    · split at h
      · next hd => cases h; exact ⟨fun _ => isDir_iff.mp hd, keeps_refl _⟩
      · obtain ⟨f1, h1, h2⟩ := bind_ok h
        have hm := mkdirp_success h2
        refine ⟨fun _ => hm.1, keeps_trans ?_ hm.2⟩
        split at h1
        · exact (ih h1).2
        · cases h1; exact keeps_refl _

theorem installDs_success {flt : Filter} {fs fs' : FS} {base : Path} {ds : List Path}
    (h : installDs flt fs base ds = .ok fs') :
    (∀ d ∈ ds, flt.dir d = true → get fs' d = some .dir) ∧ Keeps fs fs' := by
  induction ds generalizing fs base with
  | nil => rw [installDs] at h; cases h; exact ⟨fun _ hd => (by cases hd), keeps_refl _⟩
  | cons d ds ih =>
    rw [installDs] at h
    obtain ⟨f1, h1, h2⟩ := bind_ok h
    have hd := installD_success h1
    have hr := ih h2
    refine ⟨fun p hp hf => ?_, keeps_trans hd.2 hr.2⟩
    rcases List.mem_cons.mp hp with rfl | hp
    · exact hr.2 _ (hd.1 hf)
    · exact hr.1 p hp hf

theorem put_success {fs fs' : FS} {p : Path} {e : Entry} (h : put fs p e = .ok fs') :
    Keeps fs fs' := by
  unfold put at h
  split at h
  · cases h
  · split at h
    · cases h
    · next hd =>
      split at h
      · cases h
        intro q hq
        rw [get_set _ _ _ _ (by simp)]
        split
        · next he => subst he; rw [isDir_iff] at hd; exact absurd hq hd
        · exact hq
      · cases h

theorem installF_success {flt : Filter} {fs fs' : FS} {base : Path} {name : Option String}
    {src content : String} (h : installF flt fs base name src content = .ok fs') :
    Keeps fs fs' := by
  unfold installF installCmd at h
  split at h
  · cases h; exact keeps_refl _
  · split at h <;> split at h <;> exact put_success h

theorem installLs_success {flt : Filter} {fs fs' : FS} {base : Path}
    {ls : List (String × String)} (h : installLs flt fs base ls = .ok fs') : Keeps fs fs' := by
  induction ls generalizing fs with
  | nil => rw [installLs] at h; cases h; exact keeps_refl _
  | cons l ls ih =>
    rw [installLs] at h
    obtain ⟨f1, h1, h2⟩ := bind_ok h
    refine keeps_trans ?_ (ih h2)
    unfold installL lnCmd at h1
    split at h1
    · cases h1; exact keeps_refl _
    · split at h1 <;> exact put_success h1

theorem installTarget_success {flt : Filter} {fs fs' : FS} {t : Item}
    (h : installTarget flt fs t = .ok fs') :
    (∀ d ∈ t.dirs, flt.dir d = true → get fs' d = some .dir) ∧ Keeps fs fs' := by
  unfold installTarget at h
  split at h
  · next hd => cases h; rw [hd]; exact ⟨fun _ hd => (by cases hd), keeps_refl _⟩
  · next d ds hd =>
    obtain ⟨f1, h1, h2⟩ := bind_ok h
    obtain ⟨f2, h3, h4⟩ := bind_ok h2
    have hk := keeps_trans (installF_success h3) (installLs_success h4)
    have hs := installDs_success h1
    rw [hd]
    exact ⟨fun p hp hf => hk p (hs.1 p hp hf), keeps_trans hs.2 hk⟩

theorem install_success {flt : Filter} {fs fs' : FS} {ts : List Item}
    (h : install flt fs ts = .ok fs') :
    (∀ t ∈ ts, ∀ d ∈ t.dirs, flt.dir d = true → get fs' d = some .dir) ∧ Keeps fs fs' := by
  induction ts generalizing fs with
  | nil => rw [install] at h; cases h; exact ⟨fun _ hd => (by cases hd), keeps_refl _⟩
  | cons t ts ih =>
    rw [install] at h
    obtain ⟨f1, h1, h2⟩ := bind_ok h
    have ht := installTarget_success h1
    have hr := ih h2
    refine ⟨fun u hu d hd hf => ?_, keeps_trans ht.2 hr.2⟩
    rcases List.mem_cons.mp hu with rfl | hu
    · exact hr.2 _ (ht.1 d hd hf)
    · exact hr.1 u hu d hd hf

end Verif.Install
