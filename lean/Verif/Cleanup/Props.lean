import Verif.Cleanup.Tidy
/-!
# Cleaning up after scripts: the properties
-/

namespace Verif.Cleanup

/-- C61. Whether or not it fails halfway, cleaning up removes only what is
registered for it and adds nothing. -/
theorem clean_only_registered {env : Env} (hs : Sound env) (fs : FS) (cs : List Entry) :
    Removed fs (clean env fs cs).1 (fun q => ∃ c ∈ cs, Covers env c q) := by
  refine removed_mono (cleanAll_removed hs cs.reverse fs) ?_
  rintro q ⟨c, hc, h⟩
  exact ⟨c, List.mem_reverse.mp hc, h⟩

/-- Inside the sandbox. -/
def AllIn (d : Path) (cs : List Entry) : Prop := ∀ c ∈ cs, d <+: c.path

theorem register_in {env : Env} {d : Path} {cs : List Entry} {c : Entry} {b : Bool}
    (hsb : env.sandbox = some d) (h : AllIn d cs) (hc : b = false → d <+: c.path) :
    AllIn d (register env cs c b) := by
  unfold register
  split
  · exact h
  · next hn =>
    split
    · split
      · exact h
      · intro x hx
        obtain ⟨y, hy, rfl⟩ := List.mem_map.mp hx
        split
        · exact h y hy
        · exact h y hy
    · intro x hx
      rcases List.mem_append.mp hx with hx | hx
      · exact h x hx
      · rw [List.mem_singleton] at hx
        subst hx
        cases b with
        | false => exact hc rfl
        | true =>
          simp only [Bool.true_and, Bool.not_eq_true, Bool.not_eq_false'] at hn
          unfold inside at hn
          rw [hsb] at hn
          simp only at hn
          exact (sub_iff _ _).mp hn

theorem run_in {env : Env} {d : Path} {s s' : St} {o : Op} (hsb : env.sandbox = some d)
    (h : AllIn d s.cs) (hr : run env s o = some s') : AllIn d s'.cs := by
  cases o with
  | register c =>
    rw [run] at hr
    cases hx : explicit env s.cs c with
    | none => rw [hx] at hr; cases hr
    | some cs =>
      rw [hx] at hr
      injection hr with hr
      subst hr
      unfold explicit at hx
      simp only at hx
      rw [Option.ite_none_right_eq_some] at hx
      obtain ⟨hi, hx⟩ := hx
      injection hx with hx
      subst hx
      show AllIn d (register env s.cs c false)
      refine register_in hsb h fun _ => ?_
      unfold inside at hi
      rw [hsb] at hi
      simp only at hi
      rw [sub_iff] at hi
      split at hi
      · exact hi.trans (List.dropLast_prefix _)
      · exact hi
  | redirect p =>
    rw [run] at hr
    split at hr
    · cases hr
    · injection hr with hr
      subst hr
      exact register_in hsb h (fun h => by cases h)
    · rw [Option.ite_none_right_eq_some] at hr
      obtain ⟨-, hr⟩ := hr
      injection hr with hr
      subst hr
      exact register_in hsb h (fun h => by cases h)
  | create p k cleanup =>
    rw [run] at hr
    split at hr
    · cases hr
    · rw [Option.ite_none_right_eq_some] at hr
      obtain ⟨-, hr⟩ := hr
      injection hr with hr
      subst hr
      exact h
    · rw [Option.ite_none_right_eq_some] at hr
      obtain ⟨-, hr⟩ := hr
      injection hr with hr
      subst hr
      cases cleanup with
      | false => exact h
      | true => exact register_in hsb h (fun h => by cases h)
  | move source dest cleanup force =>
    rw [run] at hr
    split at hr
    · cases hr
    · simp only at hr
      split at hr
      · cases hr
      · injection hr with hr
        subst hr
        cases cleanup with
        | false => exact h
        | true =>
          simp only [if_true]
          intro c hc
          unfold moved at hc
          rcases List.mem_append.mp hc with hc | hc
          · exact h c (List.mem_filter.mp hc).1
          · split at hc
            · next hm =>
              obtain ⟨x, -, rfl⟩ := List.mem_map.mp hc
              rw [Bool.and_eq_true] at hm
              have hi := hm.2
              unfold inside at hi
              rw [hsb] at hi
              exact ((sub_iff _ _).mp hi).trans (List.prefix_append _ _)
            · cases hc
  | remove p r f =>
    rw [run] at hr
    split at hr
    · cases hr
    · split at hr
      · rw [Option.ite_none_right_eq_some] at hr
        obtain ⟨-, hr⟩ := hr
        injection hr with hr
        subst hr
        exact h
      · injection hr with hr
        subst hr
        exact h
      · rw [Option.ite_none_right_eq_some] at hr
        obtain ⟨-, hr⟩ := hr
        injection hr with hr
        subst hr
        exact h
  | program fs =>
    injection hr with hr
    subst hr
    exact h

theorem runAll_in {env : Env} {d : Path} {s s' : St} {os : List Op} (hsb : env.sandbox = some d)
    (h : AllIn d s.cs) (hr : runAll env s os = some s') : AllIn d s'.cs := by
  induction os generalizing s with
  | nil =>
    injection hr with hr
    subst hr
    exact h
  | cons o os ih =>
    unfold runAll at hr
    cases hx : run env s o with
    | none => rw [hx] at hr; cases hr
    | some s1 =>
      rw [hx] at hr
      exact ih (run_in hsb h hx) hr

theorem covers_in {env : Env} (hs : Sound env) {d : Path} {c : Entry} {q : Path}
    (hw : d.any env.wild = false) (hst : env.wild "***" = true) (h : d <+: c.path)
    (hc : Covers env c q) : d <+: q := by
  have hpat : ∀ {p q : Path}, d <+: p → env.hit p q = true → d <+: q := by
    intro p q hp hh
    refine List.IsPrefix.trans ?_ (hs.inside hh)
    obtain ⟨r, rfl⟩ := hp
    rw [List.takeWhile_append_of_pos]
    · exact List.prefix_append _ _
    · intro a ha
      rw [List.any_eq_false] at hw
      simpa using hw a ha
  obtain ⟨-, hc⟩ := hc
  by_cases hr : recursive c = true
  · rw [if_pos hr] at hc
    have hd : d <+: c.path.dropLast := by
      unfold recursive at hr
      simp only [Bool.and_eq_true, decide_eq_true_eq] at hr
      obtain ⟨t, ht⟩ := h
      rcases List.eq_nil_or_concat t with rfl | ⟨t', a, rfl⟩
      · exfalso
        rw [List.append_nil] at ht
        have := List.mem_of_getLast? hr.2
        rw [← ht] at this
        rw [List.any_eq_false] at hw
        exact hw _ this hst
      · rw [List.concat_eq_append] at ht
        rw [← ht, ← List.append_assoc, List.dropLast_concat]
        exact List.prefix_append _ _
    split at hc
    · obtain ⟨e, he, hq⟩ := hc
      exact (hpat hd he).trans hq
    · exact hd.trans hc
  · rw [if_neg hr] at hc
    split at hc
    · exact hpat h hc
    · rw [hc]
      exact h

/-- C61. Whatever the script does, including running programs that do anything,
and whether or not it fails halfway, cleaning up after it removes nothing
outside of the sandbox, unless the path of the sandbox itself has wildcards. -/
theorem clean_inside_sandbox_partial {env : Env} (hs : Sound env) {d : Path} {fs : FS}
    {ops : List Op} {s : St} (hsb : env.sandbox = some d) (hw : d.any env.wild = false)
    (hst : env.wild "***" = true) (hr : runAll env ⟨fs, []⟩ ops = some s) :
    Removed s.fs (clean env s.fs s.cs).1 (fun q => d <+: q) := by
  refine removed_mono (clean_only_registered hs s.fs s.cs) ?_
  rintro q ⟨c, hc, h⟩
  exact covers_in hs hw hst
    (runAll_in (d := d) hsb (fun c h => (by cases h)) hr c hc) h

theorem nodup_rev {l : List Path} (h : l.Nodup) : l.reverse.Nodup := by
  unfold List.Nodup at h ⊢
  rw [List.pairwise_reverse]
  exact h.imp fun h => h.symm

/-- What `rmdir` does. -/
theorem rmdir_success {cwd : Path} {fs : FS} {p : Path} :
    (rmdir cwd fs p).2 = .success ↔ ¬ p <+: cwd ∧ fs.at p = some .dir ∧
      ∀ q, Below q p → fs.at q = none := by
  unfold rmdir
  by_cases hc : sub cwd p = true
  · rw [if_pos hc]
    simp only [reduceCtorEq, false_iff, not_and]
    exact fun h => absurd ((sub_iff _ _).mp hc) h
  · rw [if_neg hc]
    have hc' : ¬ p <+: cwd := fun h => hc ((sub_iff _ _).mpr h)
    cases hk : fs.at p with
    | none => simp
    | some k =>
      cases k with
      | file => simp
      | dir =>
        simp only
        by_cases hb : (fs.any fun e => decide (Below e.1 p)) = true
        · rw [if_pos hb]
          simp only [reduceCtorEq, false_iff, not_and]
          obtain ⟨q, h1, h2⟩ := (below_any _ _).mp hb
          exact fun _ _ h => h2 (h q h1)
        · rw [if_neg hb]
          simp only [true_iff]
          refine ⟨hc', trivial, fun q hq => ?_⟩
          cases hx : fs.at q with
          | none => rfl
          | some k => exact absurd ((below_any _ _).mpr ⟨q, hq, by rw [hx]; simp⟩) hb

theorem rmdir_at {cwd : Path} {fs : FS} {p : Path} (h : (rmdir cwd fs p).2 = .success) (q : Path) :
    (rmdir cwd fs p).1.at q = if q = p then none else fs.at q := by
  obtain ⟨h1, h2, h3⟩ := rmdir_success.mp h
  unfold rmdir
  rw [if_neg (fun hc => h1 ((sub_iff _ _).mp hc)), h2]
  simp only
  rw [if_neg]
  · simp only
    have := at_filter fs (fun q => decide (q ≠ p)) q
    rw [this]
    by_cases hq : q = p <;> simp [hq]
  · intro hb
    obtain ⟨q, hq, hx⟩ := (below_any _ _).mp hb
    exact hx (h3 q hq)

theorem leave_none {env : Env} {fs : FS} {cs : List Entry} :
    (leave env fs cs).2 = none ↔ (clean env fs cs).2 = none ∧
      (rmdir env.cwd (clean env fs cs).1 env.work).2 = .success := by
  unfold leave
  cases hc : clean env fs cs with
  | mk fs1 f =>
    cases f with
    | some f => simp
    | none =>
      simp only [true_and]
      cases hr : rmdir env.cwd fs1 env.work with
      | mk fs2 st => cases st <;> simp

theorem leave_fs {env : Env} {fs : FS} {cs : List Entry} (h : (leave env fs cs).2 = none) :
    (leave env fs cs).1 = (rmdir env.cwd (clean env fs cs).1 env.work).1 := by
  obtain ⟨h1, h2⟩ := leave_none.mp h
  unfold leave
  cases hc : clean env fs cs with
  | mk fs1 f =>
    rw [hc] at h1 h2
    simp only at h1
    subst h1
    simp only
    cases hr : rmdir env.cwd fs1 env.work with
    | mk fs2 st =>
      rw [hr] at h2
      simp only at h2
      subst h2
      rfl

/-- C61. If leaving the scope succeeds, then there is nothing left in its
working directory, nor the directory itself: no script that leaves something
behind passes. -/
theorem leave_leaves_nothing {env : Env} {fs fs' : FS} {cs : List Entry}
    (h : leave env fs cs = (fs', none)) : ∀ q, env.work <+: q → fs'.at q = none := by
  have hn : (leave env fs cs).2 = none := by rw [h]
  have hf : (leave env fs cs).1 = fs' := by rw [h]
  intro q hq
  have h2 := (leave_none.mp hn).2
  rw [← hf, leave_fs hn, rmdir_at h2]
  by_cases he : q = env.work
  · rw [if_pos he]
  · rw [if_neg he]
    exact (rmdir_success.mp h2).2.2 q ⟨hq, he⟩

/-- C61. When leaving succeeds, if what is registered is plain paths of which
none is registered twice or after something inside of it: everything registered
exists, except for what is registered with `&?`, and is what its path says,
everything in the directories that are registered and in the working directory
is registered, and the working directory is not. -/
theorem leave_iff {env : Env} {fs : FS} {cs : List Entry} (hp : ∀ c ∈ cs, Plain env c)
    (hcwd : ∀ c ∈ cs, ¬ c.path <+: env.cwd) (hwork : ¬ env.work <+: env.cwd)
    (hn : (cs.map (·.path)).Nodup) (ho : cs.Pairwise fun c d => ¬ Below c.path d.path) :
    (leave env fs cs).2 = none ↔
      (∀ c ∈ cs, Fine fs c (Reg cs)) ∧ ¬ Reg cs env.work ∧ fs.at env.work = some .dir ∧
      ∀ q, Below q env.work → fs.at q ≠ none → Reg cs q := by
  have hreg : ∀ q, Reg cs.reverse q ↔ Reg cs q := by
    intro q
    unfold Reg
    constructor
    · rintro ⟨c, hc, h⟩; exact ⟨c, List.mem_reverse.mp hc, h⟩
    · rintro ⟨c, hc, h⟩; exact ⟨c, List.mem_reverse.mpr hc, h⟩
  have hreg' : Reg cs.reverse = Reg cs := funext fun q => propext (hreg q)
  obtain ⟨h1, h2⟩ := cleanAll_plain (env := env) cs.reverse fs
    (fun c hc => hp c (List.mem_reverse.mp hc)) (fun c hc => hcwd c (List.mem_reverse.mp hc))
    (by rw [List.map_reverse]; exact nodup_rev hn)
    (List.pairwise_reverse.mpr ho)
  rw [hreg'] at h1 h2
  simp only [List.mem_reverse] at h1
  rw [leave_none, rmdir_success]
  unfold clean
  rw [h1]
  constructor
  · rintro ⟨hf, -, hd, hb⟩
    have hx := h2 (h1.mpr hf)
    refine ⟨hf, ?_, ?_, ?_⟩
    · intro hr
      rw [(hx _).1 hr] at hd
      cases hd
    · by_cases hr : Reg cs env.work
      · rw [(hx _).1 hr] at hd
        cases hd
      · rw [← (hx _).2 hr]
        exact hd
    · intro q hq hne
      by_cases hr : Reg cs q
      · exact hr
      · have := hb q hq
        rw [(hx q).2 hr] at this
        exact absurd this hne
  · rintro ⟨hf, hr, hd, hb⟩
    have hx := h2 (h1.mpr hf)
    refine ⟨hf, hwork, ?_, ?_⟩
    · rw [(hx _).2 hr]
      exact hd
    · intro q hq
      by_cases hr : Reg cs q
      · exact (hx q).1 hr
      · rw [(hx q).2 hr]
        cases hk : fs.at q with
        | none => rfl
        | some k => exact absurd (hb q hq (by rw [hk]; simp)) hr

/-- C61. A script that registers nothing explicitly but still creates whatever
it creates with builtins and redirects, and moves it around, is cleaned up
after: leaving succeeds and everything is as before, without the working
directory. -/
theorem tidy_leaves_nothing_partial {env : Env} {d : Path} {fs : FS} {ops : List Op} {s : St}
    (hsb : env.sandbox = some d) (hd : d <+: env.work) (hcwd : ¬ d <+: env.cwd)
    (hst : env.wild "***" = true) (hv : fs.Valid) (hw : fs.at env.work = some .dir)
    (he : ∀ q, Below q env.work → fs.at q = none)
    (ht : AllTidy env ⟨fs, []⟩ ops) (hr : runAll env ⟨fs, []⟩ ops = some s) :
    (leave env s.fs s.cs).2 = none ∧
    ∀ q, (leave env s.fs s.cs).1.at q = if q = env.work then none else fs.at q := by
  have hi := runAll_tidy hv (inv_init (env := env) hv) ht hr
  have hin : ∀ c ∈ s.cs, d <+: c.path := by
    intro c hc
    have := (hi.entries c hc).2.2.1
    unfold inside at this
    rw [hsb] at this
    exact (sub_iff _ _).mp this
  have hplain : ∀ c ∈ s.cs, Plain env c := by
    intro c hc
    have hnw := (hi.entries c hc).2.1
    refine ⟨?_, hnw⟩
    cases hrec : recursive c with
    | false => rfl
    | true =>
      unfold recursive at hrec
      simp only [Bool.and_eq_true, decide_eq_true_eq] at hrec
      rw [List.any_eq_false] at hnw
      exact absurd hst (hnw _ (List.mem_of_getLast? hrec.2))
  have hreg : ∀ q, Reg s.cs q ↔ ∃ c ∈ s.cs, c.path = q := by
    intro q
    constructor
    · rintro ⟨c, hc, h, -⟩; exact ⟨c, hc, h⟩
    · rintro ⟨c, hc, h⟩; exact ⟨c, hc, h, (hi.entries c hc).1⟩
  have hsome : ∀ q, s.fs.at q ≠ none → Reg s.cs q ∨ fs.at q ≠ none := by
    intro q hq
    by_cases hx : Reg s.cs q
    · exact Or.inl hx
    · right
      rw [← hi.others q fun c hc h => hx ((hreg q).mpr ⟨c, hc, h⟩)]
      exact hq
  have hnr : ¬ Reg s.cs env.work := by
    rw [hreg]
    rintro ⟨c, hc, h⟩
    have := (hi.entries c hc).2.2.2.2.1
    rw [h, hw] at this
    cases this
  have hc1 : ∀ c ∈ s.cs, ¬ c.path <+: env.cwd := fun c hc h => hcwd ((hin c hc).trans h)
  have hok : (leave env s.fs s.cs).2 = none := by
    rw [leave_iff hplain hc1 (fun h => hcwd (hd.trans h)) hi.nodup hi.order]
    refine ⟨?_, hnr, ?_, ?_⟩
    · intro c hc _
      obtain ⟨-, -, -, e4, e5, e6⟩ := hi.entries c hc
      refine ⟨fun h => ?_, fun k hk => ?_⟩
      · rw [e4] at h; cases h
      · rw [e4] at hk
        injection hk with hk
        refine ⟨hk.symm, fun _ q hq hne => ?_⟩
        rcases hsome q hne with h | h
        · exact h
        · exact absurd (absent_below hv e5 e6 hq.1) h
    · rw [hi.others env.work fun c hc h => hnr ((hreg _).mpr ⟨c, hc, h⟩)]
      exact hw
    · intro q hq hne
      rcases hsome q hne with h | h
      · exact h
      · exact absurd (he q hq) h
  refine ⟨hok, fun q => ?_⟩
  have h2 := (leave_none.mp hok)
  rw [leave_fs hok, rmdir_at h2.2]
  by_cases hq : q = env.work
  · rw [if_pos hq, if_pos hq]
  · rw [if_neg hq, if_neg hq]
    have hreg' : Reg s.cs.reverse = Reg s.cs := by
      funext q
      apply propext
      unfold Reg
      constructor
      · rintro ⟨c, hc, h⟩; exact ⟨c, List.mem_reverse.mp hc, h⟩
      · rintro ⟨c, hc, h⟩; exact ⟨c, List.mem_reverse.mpr hc, h⟩
    obtain ⟨-, h4⟩ := cleanAll_plain (env := env) s.cs.reverse s.fs
      (fun c hc => hplain c (List.mem_reverse.mp hc)) (fun c hc => hc1 c (List.mem_reverse.mp hc))
      (by rw [List.map_reverse]; exact nodup_rev hi.nodup)
      (List.pairwise_reverse.mpr hi.order)
    rw [hreg'] at h4
    have h5 := h4 h2.1 q
    unfold clean
    by_cases hr : Reg s.cs q
    · rw [h5.1 hr]
      obtain ⟨c, hc, hcq⟩ := (hreg q).mp hr
      rw [← hcq]
      exact (hi.entries c hc).2.2.2.2.1.symm
    · rw [h5.2 hr]
      exact hi.others q fun c hc h => hr ((hreg q).mpr ⟨c, hc, h⟩)

/-! ## Concrete cases -/

/-- A test that is run in `/out/t`, with `/out` the sandbox. -/
def env0 : Env where
  work := ["out", "t"]
  sandbox := some ["out"]
  cwd := ["home"]
  wild := fun a => a = "***" || a = "x[1]"
  hit := fun p q => p.takeWhile (fun a => !(a = "***" || a = "x[1]")) = q.take
    (p.takeWhile (fun a => !(a = "***" || a = "x[1]"))).length && p.length = q.length
  search := fun _ _ _ => []

def fs0 : FS := [(["home"], .dir), (["out"], .dir), (["out", "t"], .dir), (["out", "x"], .file)]

/-- As in `mkdir d; touch d/f; cat >=o; mv d e &?o`. -/
def ops0 : List Op :=
  [.create ["out", "t", "d"] .dir true, .create ["out", "t", "d", "f"] .file true,
   .redirect ["out", "t", "o"], .move ["out", "t", "d"] ["out", "t", "e"] true false,
   .register ⟨.maybe, ["out", "t", "o"], false⟩]

/-- What is registered and whether leaving succeeds. -/
def outcome (env : Env) (fs : FS) (ops : List Op) : Option (FS × Option Fault) :=
  (runAll env ⟨fs, []⟩ ops).map fun s => leave env s.fs s.cs

example : Sound env0 where
  found := fun h => by cases h
  inside := by
    intro p q h
    simp only [env0, Bool.and_eq_true, decide_eq_true_eq] at h ⊢
    rw [h.1]
    exact List.take_prefix _ _

example : fs0.Valid := by
  refine ⟨by decide, fun p a k h => ?_⟩
  have := at_mem h
  simp only [fs0, List.mem_cons, Prod.mk.injEq, List.not_mem_nil, or_false] at this
  rcases this with ⟨h, -⟩ | ⟨h, -⟩ | ⟨h, -⟩ | ⟨h, -⟩
  · left; exact (List.append_inj' (t₁ := [a]) (t₂ := ["home"]) (s₂ := []) h rfl).1
  · left; exact (List.append_inj' (t₁ := [a]) (t₂ := ["out"]) (s₂ := []) h rfl).1
  · right
    rw [(List.append_inj' (t₁ := [a]) (t₂ := ["t"]) (s₂ := ["out"]) h rfl).1]
    decide
  · right
    rw [(List.append_inj' (t₁ := [a]) (t₂ := ["x"]) (s₂ := ["out"]) h rfl).1]
    decide

example : outcome env0 fs0 ops0 =
    some ([(["home"], .dir), (["out"], .dir), (["out", "x"], .file)], none) := by
  decide +kernel

/-- Whether an operation is tidy can be computed for this. -/
def tidyB (env : Env) (s : St) : Op → Bool
  | .register c => c.type ≠ .never && s.cs.any fun d => d.path = c.path
  | .redirect p => inside env p && !p.any env.wild &&
    (s.fs.at p = none || s.cs.any fun d => d.path = p)
  | .create p _ cleanup => cleanup && inside env p && !p.any env.wild
  | .move source dest cleanup _ => cleanup && inside env dest && !dest.any env.wild &&
    (s.cs.any fun d => d.path = source) && s.fs.at dest ≠ some .dir
  | _ => false

theorem tidyB_sound {env : Env} {s : St} {o : Op} (h : tidyB env s o = true) : Tidy env s o := by
  cases o <;> simp only [tidyB, Tidy, Bool.and_eq_true, Bool.or_eq_true, List.any_eq_true,
    decide_eq_true_eq, Bool.not_eq_true'] at h ⊢
  · exact h
  · exact ⟨h.1.1, h.1.2, h.2⟩
  · exact ⟨h.1.1, h.1.2, h.2⟩
  · exact ⟨h.1.1.1.1, h.1.1.1.2, h.1.1.2, h.1.2, fun hd => absurd hd h.2⟩
  · cases h
  · cases h

def allTidyB (env : Env) : St → List Op → Bool
  | _, [] => true
  | s, o :: os => tidyB env s o && match run env s o with
    | none => true
    | some s' => allTidyB env s' os

theorem allTidyB_sound {env : Env} {s : St} {os : List Op} (h : allTidyB env s os = true) :
    AllTidy env s os := by
  induction os generalizing s with
  | nil => trivial
  | cons o os ih =>
    unfold allTidyB at h
    rw [Bool.and_eq_true] at h
    refine ⟨tidyB_sound h.1, fun s' hs => ih ?_⟩
    have := h.2
    rw [hs] at this
    exact this

example : AllTidy env0 ⟨fs0, []⟩ ops0 := allTidyB_sound (by decide +kernel)

/-! ## Where it does not clean up -/

/-- C61, negated. Moving a directory over an empty one cancels the cleanups of
what is in it: nothing but builtins, no cleanup turned off and still leaving
fails. -/
theorem move_over_directory_fails :
    (outcome env0 fs0
      [.create ["out", "t", "d"] .dir true, .create ["out", "t", "d", "f"] .file true,
       .create ["out", "t", "e"] .dir true,
       .move ["out", "t", "d"] ["out", "t", "e"] true false]).map (·.2) =
    some (some (.notEmpty ["out", "t", "e"])) := by
  decide +kernel

/-- C61, negated. A file that is removed and created again as a directory is
still registered as a file. -/
theorem recreated_fails :
    (outcome env0 fs0
      [.create ["out", "t", "d"] .file true, .remove ["out", "t", "d"] false false,
       .create ["out", "t", "d"] .dir true]).map (·.2) =
    some (some (.system ["out", "t", "d"])) := by
  decide +kernel

/-- C61, negated. Removing with `rm` what has been created with `touch` does
not cancel the cleanup, which then fails. -/
theorem removed_fails :
    (outcome env0 fs0
      [.create ["out", "t", "f"] .file true, .remove ["out", "t", "f"] false false]).map (·.2) =
    some (some (.doesNotExist ["out", "t", "f"])) := by
  decide +kernel

/-- C61, negated. A redirect to a file that an outer scope has created
registers it, so that leaving the inner scope removes it. -/
theorem redirect_takes_over :
    outcome env0 fs0 [.redirect ["out", "x"]] =
    some ([(["home"], .dir), (["out"], .dir)], none) := by
  decide +kernel

/-- C61, negated. `touch` then `***` for the directory: the latter is removed
first and with it the former, which then does not exist. -/
theorem registered_in_removed_fails :
    (outcome env0 fs0
      [.create ["out", "t", "d"] .dir false, .create ["out", "t", "d", "f"] .file true,
       .register ⟨.always, ["out", "t", "d", "***"], false⟩]).map (·.2) =
    some (some (.doesNotExist ["out", "t", "d", "f"])) := by
  decide +kernel

/-- The sandbox is `/x[1]`, which as a pattern matches `/x1`. -/
def env1 : Env where
  work := ["x[1]"]
  sandbox := some ["x[1]"]
  cwd := ["home"]
  wild := fun a => a = "***" || a = "x[1]"
  hit := fun p q => p = ["x[1]", "f"] && q = ["x1", "f"]
  search := fun p b fs =>
    if p = ["x[1]", "f"] ∧ b = false ∧ fs.at ["x1", "f"] = some .file then [(["x1", "f"], .file)]
    else []

example : Sound env1 where
  found := by
    intro p b fs q k h
    simp only [env1] at h ⊢
    split at h
    · next hc =>
      rw [List.mem_singleton] at h
      injection h with h1 h2
      subst h1
      subst h2
      simp [hc.1, hc.2.1, hc.2.2]
    · cases h
  inside := by
    intro p q h
    simp only [env1, Bool.and_eq_true, decide_eq_true_eq] at h ⊢
    rw [h.1]
    exact List.nil_prefix

/-- C61, negated. If the path of the sandbox has wildcards, then creating
a file in it with `touch` removes one that is not in it. -/
theorem wildcard_gets_out :
    (outcome env1 [(["x[1]"], .dir), (["x1"], .dir), (["x1", "f"], .file)]
      [.create ["x[1]", "f"] .file true]).map (·.1) =
    some [(["x[1]"], .dir), (["x1"], .dir), (["x[1]", "f"], .file)] := by
  decide +kernel

end Verif.Cleanup
