import Verif.FileCache.Model

/-! C07 and C08: the file cache. -/

namespace Verif.FileCache

/-! ### Specification -/

/-- The files hold the content `x` in the form the state says. -/
def Holds (C : Codec) (x : Bytes) (e : Entry) : Prop :=
  match e.st with
  | .uncomp => e.fs.u = some x
  | .comp => e.fs.c = some (C.comp x)
  | .decomp => e.fs.u = some x ∧ e.fs.c = some (C.comp x)
  | _ => False

/-- What a later run (with compression enabled) gets when it opens the existing entry. -/
def recovered (C : Codec) (fs : Fs) (rmOk : Bool) : Option Bytes :=
  match existing true fs rmOk with
  | none => none
  | some e => match e.open_ C {} with
    | (true, e) => e.fs.u
    | (false, _) => none

/-! ### Invariant -/

structure Inv (C : Codec) (x : Bytes) (e : Entry) : Prop where
  holds : Holds C x e
  pins : e.readers ≤ e.pin
  reading : 0 < e.readers → e.st ≠ .comp

theorem inv_preempt {C : Codec} {x : Bytes} {e : Entry} (h : Holds C x e) (hr : e.readers = 0)
    (hs : e.st = .uncomp ∨ e.st = .decomp) (f : Faults) :
    Holds C x (e.preempt C f) ∧ (e.preempt C f).readers = 0 ∧ (e.preempt C f).pin = e.pin := by
  unfold Entry.preempt
  rcases hs with hs | hs
  · simp only [Holds, hs] at h
    simp only [hs, Entry.compress_, h]
    cases hf : f.compress with
    | none =>
      cases hrm : f.remove <;> simp [Holds, Entry.setFs, h, hr]
    | some p =>
      obtain ⟨k, rm⟩ := p
      cases rm <;> simp [Holds, Entry.setFs, hs, h, hr]
  · simp only [Holds, hs] at h
    simp only [hs]
    cases hrm : f.remove <;> simp [Holds, Entry.setFs, h, hr, hs]

theorem inv_unpin {C : Codec} {x : Bytes} {e : Entry} (h : Holds C x e)
    (hp : e.readers < e.pin) (hr : 0 < e.readers → e.st ≠ .comp) (f : Faults) :
    Inv C x (e.unpin C f) := by
  unfold Entry.unpin
  have hp0 : e.pin ≠ 0 := by omega
  simp only [hp0, if_false]
  split
  · rename_i hc
    have hr0 : e.readers = 0 := by omega
    obtain ⟨h1, h2, h3⟩ := inv_preempt (e := { e with pin := e.pin - 1 }) (C := C) (x := x)
      h hr0 hc.2.2 f
    exact ⟨h1, by omega, by omega⟩
  · exact ⟨h, by simp only; omega, hr⟩

theorem decompress_eq {C : Codec} {x : Bytes} {e : Entry} (h : e.fs.c = some (C.comp x)) (f : Faults) :
    e.decompress_ C f =
      match f.decompress with
      | none => (true, { e with
          fs := { e.fs with u := some x }
          trace := (prefixes x).map (fun p => { e.fs with u := some p }) ++ e.trace })
      | some k => (false, { e with
          fs := { e.fs with u := some (x.take k) }
          trace := (prefixes (x.take k)).map (fun p => { e.fs with u := some p }) ++ e.trace }) := by
  unfold Entry.decompress_
  simp only [h, C.inv]
  cases f.decompress <;> rfl

theorem inv_open {C : Codec} {x : Bytes} {e : Entry} (h : Inv C x e) (f : Faults) :
    Inv C x (e.open_ C f).2 ∧ ((e.open_ C f).1 = true → (e.open_ C f).2.fs.u = some x) ∧
    (f.decompress = none → (e.open_ C f).1 = true) := by
  unfold Entry.open_
  obtain ⟨h1, h2, h3⟩ := h
  cases hs : e.st with
  | null => simp [Holds, hs] at h1
  | uninit => simp [Holds, hs] at h1
  | uncomp =>
    simp only [Holds, hs] at h1
    simp only [reduceCtorEq, if_false, if_true, Entry.pin_]
    refine ⟨⟨?_, ?_, ?_⟩, ?_, ?_⟩ <;> simp [Holds, hs, h1, h2]
  | decomp =>
    simp only [Holds, hs] at h1
    simp only [reduceCtorEq, if_false, if_true, Entry.pin_]
    refine ⟨⟨?_, ?_, ?_⟩, ?_, ?_⟩ <;> simp [Holds, hs, h1, h2]
  | comp =>
    simp only [Holds, hs] at h1
    simp only [if_true, decompress_eq h1 f]
    cases hf : f.decompress with
    | none =>
      simp only [if_true, Entry.pin_]
      refine ⟨⟨?_, ?_, ?_⟩, ?_, ?_⟩ <;> simp [Holds, h1, h2]
    | some k =>
      simp only [Bool.false_eq_true, if_false]
      refine ⟨⟨?_, h2, h3⟩, ?_, ?_⟩ <;> simp [Holds, hs, h1]

theorem inv_op {C : Codec} {x : Bytes} {e : Entry} (h : Inv C x e) (o : Op) (ho : e.legal o) :
    Inv C x (e.op C o) := by
  obtain ⟨h1, h2, h3⟩ := h
  cases o with
  | pin => exact ⟨h1, by simp [Entry.op, Entry.pin_]; omega, h3⟩
  | unpin f => exact inv_unpin h1 ho h3 f
  | «open» f => exact (inv_open ⟨h1, h2, h3⟩ f).1
  | closeRead f =>
    simp only [Entry.legal] at ho
    refine inv_unpin (e := { e with readers := e.readers - 1 }) h1 ?_ ?_ f
    · simp only; omega
    · intro _; exact h3 ho

theorem inv_reach {C : Codec} {x : Bytes} {e0 e : Entry} (h0 : Inv C x e0) (h : Reach C e0 e) :
    Inv C x e := by
  induction h with
  | refl => exact h0
  | step o _ hl ih => exact inv_op ih o hl

theorem inv_create (C : Codec) (compress : Bool) (x : Bytes) (old : Fs) (rmOk : Bool) :
    Inv C x (create compress x old rmOk) :=
  ⟨rfl, by simp [create], by simp [create]⟩

/-! ### C07 -/

/-- **C07**. After any history of legal operations on an entry created with the content `x`
(whatever the file system contained and whichever compressions and removals fail), the files
on disk are what the state says, as long as there is a read handle the file holds `x`, and
opening the entry makes the file hold `x` (and only fails if decompression fails). -/
theorem cache_content (C : Codec) (compress : Bool) (x : Bytes) (old : Fs) (rmOk : Bool)
    (e : Entry) (h : Reach C (create compress x old rmOk) e) :
    Holds C x e ∧ (0 < e.readers → e.fs.u = some x) ∧
    (∀ f, (e.open_ C f).1 = true → (e.open_ C f).2.fs.u = some x) ∧
    (∀ f, f.decompress = none → (e.open_ C f).1 = true) := by
  have hi := inv_reach (inv_create C compress x old rmOk) h
  refine ⟨hi.holds, ?_, fun f => (inv_open hi f).2.1, fun f => (inv_open hi f).2.2⟩
  intro hr
  have h1 := hi.holds
  have h2 := hi.reading hr
  unfold Holds at h1
  cases hs : e.st <;> simp_all

/-- **C07**, compression is done: an entry that is no longer pinned and whose compression and
removal do not fail only exists in compressed form. -/
theorem cache_compressed (C : Codec) (x : Bytes) (old : Fs) (rmOk : Bool)
    (e : Entry) (h : Reach C (create true x old rmOk) e) (hp : e.pin = 1) (hr : e.readers = 0) :
    (e.unpin C {}).fs.c = some (C.comp x) ∧
    ((e.st = .uncomp ∨ e.st = .decomp) → (e.unpin C {}).fs.u = none) := by
  have hi := (inv_reach (inv_create C true x old rmOk) h).holds
  have hc : e.compress = true := by
    clear hp hr hi
    have hpre : ∀ (e : Entry) f, (e.preempt C f).compress = e.compress := by
      intro e f
      unfold Entry.preempt Entry.compress_
      cases e.st <;> simp only
      · cases e.fs.u with
        | none => rfl
        | some x =>
          cases f.compress with
          | none => simp only; split <;> rfl
          | some p => obtain ⟨k, rm⟩ := p; cases rm <;> rfl
      · split <;> rfl
    have hun : ∀ (e : Entry) f, (e.unpin C f).compress = e.compress := by
      intro e f
      unfold Entry.unpin
      simp only
      generalize (if e.pin = 0 then 2 ^ 64 - 1 else e.pin - 1) = q
      split
      · rw [hpre]
      · rfl
    have hde : ∀ (e : Entry) f, (e.decompress_ C f).2.compress = e.compress := by
      intro e f
      unfold Entry.decompress_
      cases e.fs.c with
      | none => rfl
      | some z =>
        simp only
        cases C.decomp z with
        | none => rfl
        | some y => cases f.decompress <;> rfl
    have hop : ∀ (e : Entry) f, (e.open_ C f).2.compress = e.compress := by
      intro e f
      have := hde e f
      unfold Entry.open_
      by_cases hs : e.st = .comp
      · simp only [hs, if_true]
        generalize e.decompress_ C f = r at *
        obtain ⟨b, e1⟩ := r
        cases b <;> exact this
      · simp [hs, Entry.pin_]
    induction h with
    | refl => rfl
    | step o _ _ ih =>
      rw [← ih]
      cases o with
      | pin => rfl
      | unpin f => exact hun _ f
      | closeRead f => exact hun _ f
      | «open» f => exact hop _ f
  unfold Entry.unpin
  cases hs : e.st with
  | null => simp [Holds, hs] at hi
  | uninit => simp [Holds, hs] at hi
  | uncomp =>
    simp only [Holds, hs] at hi
    simp [hp, hc, Entry.preempt, Entry.compress_, hi, Entry.setFs, hs]
  | decomp =>
    simp only [Holds, hs] at hi
    simp [hp, hc, Entry.preempt, hi, Entry.setFs, hs]
  | comp =>
    simp only [Holds, hs] at hi
    simp [hi, hs]

/- A concrete codec for the examples: prepend a byte. -/
def sample : Codec where
  comp x := 4 :: x
  decomp | 4 :: x => some x
         | _ => none
  inv _ := rfl

/- Non-vacuity: a new entry is unpinned (compressed), opened, and a compression failure. -/
example : let e := ((create true [1, 2] ⟨none, some [9]⟩ true).op sample (.unpin {})).op sample (.open {})
    e.st = .decomp ∧ e.readers = 1 ∧ e.fs.u = some [1, 2] ∧ e.fs.c = some [4, 1, 2] := by
  decide +kernel
example : Reach sample (create true [1, 2] ⟨none, none⟩ true)
    (((create true [1, 2] ⟨none, none⟩ true).op sample (.unpin {})).op sample (.open {})) :=
  .step _ (.step _ .refl (by show 0 < 1; decide)) trivial

/-! ### C08 -/

/-- A history in which decompression does not fail. -/
inductive ReachOk (C : Codec) (e0 : Entry) : Entry → Prop
  | refl : ReachOk C e0 e0
  | step {e : Entry} (o : Op) : ReachOk C e0 e → e.legal o →
      (∀ f, o = .open f → f.decompress = none) → ReachOk C e0 (e.op C o)

theorem ReachOk.reach {C : Codec} {e0 e : Entry} (h : ReachOk C e0 e) : Reach C e0 e := by
  induction h with
  | refl => exact .refl
  | step o _ hl _ ih => exact .step o ih hl

theorem recovered_u (C : Codec) (x : Bytes) (c : Option Bytes) (rmOk : Bool) :
    recovered C { u := some x, c } rmOk = some x := by
  simp [recovered, existing, Entry.open_, Entry.pin_]

theorem recovered_c (C : Codec) (x : Bytes) (rmOk : Bool) :
    recovered C { u := none, c := some (C.comp x) } rmOk = some x := by
  simp [recovered, existing, Entry.open_, Entry.pin_, Entry.decompress_, C.inv]

/-- Compressed entries have no uncompressed file. -/
theorem comp_no_u {C : Codec} {compress : Bool} {x : Bytes} {old : Fs} {rmOk : Bool} {e : Entry}
    (h : ReachOk C (create compress x old rmOk) e) : e.st = .comp → e.fs.u = none := by
  induction h with
  | refl => simp [create]
  | @step e' o hr hl hf ih =>
    have hi := (inv_reach (inv_create C compress x old rmOk) hr.reach).holds
    have hpre : ∀ (e : Entry) f, (e.st = .uncomp ∨ e.st = .decomp) →
        (e.preempt C f).st = .comp → (e.preempt C f).fs.u = none := by
      intro e f hs
      unfold Entry.preempt Entry.compress_
      rcases hs with hs | hs
      · simp only [hs]
        cases e.fs.u with
        | none => simp [Entry.setFs, hs]
        | some x =>
          cases f.compress with
          | none => cases f.remove <;> simp [Entry.setFs]
          | some p => obtain ⟨k, rm⟩ := p; cases rm <;> simp [Entry.setFs, hs]
      · simp only [hs]
        cases f.remove <;> simp [Entry.setFs, hs]
    have hun : ∀ (e : Entry) f, (e.st = .comp → e.fs.u = none) →
        (e.unpin C f).st = .comp → (e.unpin C f).fs.u = none := by
      intro e f h
      unfold Entry.unpin
      simp only
      generalize (if e.pin = 0 then 2 ^ 64 - 1 else e.pin - 1) = q
      split
      · rename_i hc; exact hpre _ f hc.2.2
      · exact h
    cases o with
    | pin => exact ih
    | unpin f => exact hun e' f ih
    | closeRead f => exact hun { e' with readers := e'.readers - 1 } f ih
    | «open» f =>
      simp only [Entry.op, Entry.open_]
      cases hs : e'.st with
      | null => simp [Holds, hs] at hi
      | uninit => simp [Holds, hs] at hi
      | uncomp => simp [Entry.pin_, hs]
      | decomp => simp [Entry.pin_, hs]
      | comp =>
        simp only [Holds, hs] at hi
        simp [decompress_eq hi f, hf f rfl, Entry.pin_]

theorem preempt_trace {C : Codec} {x : Bytes} {e : Entry} (h : Holds C x e)
    (hs : e.st = .uncomp ∨ e.st = .decomp) (f : Faults) :
    ∃ new, (e.preempt C f).trace = new ++ e.trace ∧
      ∀ fs ∈ new, ∀ rmOk, recovered C fs rmOk = some x := by
  obtain ⟨st, cp, pin, ⟨u, c⟩, trace, readers⟩ := e
  unfold Entry.preempt
  rcases hs with hs | hs
  · simp only [Holds, hs] at h
    simp only at hs
    subst hs
    simp only [Entry.compress_, h]
    cases hf : f.compress with
    | none =>
      cases hrm : f.remove with
      | true =>
        refine ⟨(prefixes (C.comp x)).map (fun p => { u := some x, c := some p }), by simp, ?_⟩
        intro fs hfs rmOk
        obtain ⟨p, _, rfl⟩ := List.mem_map.1 hfs
        exact recovered_u C x _ rmOk
      | false =>
        refine ⟨{ u := none, c := some (C.comp x) } ::
          (prefixes (C.comp x)).map (fun p => { u := some x, c := some p }), by simp [Entry.setFs], ?_⟩
        intro fs hfs rmOk
        rcases List.mem_cons.1 hfs with rfl | hfs
        · exact recovered_c C x rmOk
        · obtain ⟨p, _, rfl⟩ := List.mem_map.1 hfs
          exact recovered_u C x _ rmOk
    | some q =>
      obtain ⟨k, rm⟩ := q
      cases rm with
      | false =>
        refine ⟨(prefixes ((C.comp x).take k)).map (fun p => { u := some x, c := some p }), by simp, ?_⟩
        intro fs hfs rmOk
        obtain ⟨p, _, rfl⟩ := List.mem_map.1 hfs
        exact recovered_u C x _ rmOk
      | true =>
        refine ⟨{ u := some x, c := none } ::
          (prefixes ((C.comp x).take k)).map (fun p => { u := some x, c := some p }), by simp [Entry.setFs], ?_⟩
        intro fs hfs rmOk
        rcases List.mem_cons.1 hfs with rfl | hfs
        · exact recovered_u C x _ rmOk
        · obtain ⟨p, _, rfl⟩ := List.mem_map.1 hfs
          exact recovered_u C x _ rmOk
  · simp only [Holds, hs] at h
    simp only at hs
    subst hs
    simp only
    cases hrm : f.remove with
    | true => exact ⟨[], by simp, by simp⟩
    | false =>
      refine ⟨[{ u := none, c := c }], by simp [Entry.setFs], ?_⟩
      intro fs hfs rmOk
      rw [List.mem_singleton.1 hfs, h.2]
      exact recovered_c C x rmOk

/-- **C08**, *partial*: at rest and at every moment of every operation except a decompression, a
crash leaves files from which a later run obtains the full content. Missing is the
decompression, for which the claim is false (`cache_crash_decompress`). -/
theorem cache_crash_safe_partial (C : Codec) (compress : Bool) (x : Bytes) (old : Fs) (rmOk : Bool)
    (e : Entry) (h : ReachOk C (create compress x old rmOk) e) (o : Op) (hl : e.legal o)
    (ho : ∀ f, o = .open f → e.st ≠ .comp) :
    (∀ rmOk, recovered C e.fs rmOk = some x) ∧
    ∃ new, (e.op C o).trace = new ++ e.trace ∧
      ∀ fs ∈ new, ∀ rmOk, recovered C fs rmOk = some x := by
  have hi := (inv_reach (inv_create C compress x old rmOk) h.reach).holds
  have hu := comp_no_u h
  have hun : ∀ (e : Entry) f, Holds C x e → ∃ new, (e.unpin C f).trace = new ++ e.trace ∧
      ∀ fs ∈ new, ∀ rmOk, recovered C fs rmOk = some x := by
    intro e f hh
    unfold Entry.unpin
    simp only
    generalize (if e.pin = 0 then 2 ^ 64 - 1 else e.pin - 1) = q
    split
    · rename_i hc
      exact preempt_trace (e := { e with pin := q }) hh hc.2.2 f
    · exact ⟨[], by simp, by simp⟩
  constructor
  · intro rmOk
    rcases hfs : e.fs with ⟨u, c⟩
    unfold Holds at hi
    rw [hfs] at hi hu
    cases hs : e.st <;> simp only [hs] at hi hu
    · rw [hi]; exact recovered_u C x c rmOk
    · rw [hi, hu trivial]; exact recovered_c C x rmOk
    · rw [hi.1]; exact recovered_u C x c rmOk
  · cases o with
    | pin => exact ⟨[], by simp [Entry.op, Entry.pin_], by simp⟩
    | unpin f => exact hun e f hi
    | closeRead f => exact hun { e with readers := e.readers - 1 } f hi
    | «open» f =>
      have := ho f rfl
      exact ⟨[], by simp [Entry.op, Entry.open_, this, Entry.pin_], by simp⟩

/-- **C08** is false for decompression, for every codec and every non-empty content: when an
entry that is compressed is opened, there is a moment such that if the process dies then,
a later run obtains a different content (the truncated file), although the valid compressed
file is still there (and is removed by that run). -/
theorem cache_crash_decompress (C : Codec) (x : Bytes) (hx : x ≠ []) :
    let e := (create true x { u := none, c := none } true).op C (.unpin {})
    e.st = .comp ∧
    ∃ fs ∈ (e.op C (.open {})).trace, fs.c = some (C.comp x) ∧
      recovered C fs true = some [] ∧ (existing true fs true).map (·.fs.c) = some none := by
  intro e
  have he : e = { st := .comp, compress := true, pin := 0, fs := { u := none, c := some (C.comp x) },
                  trace := e.trace, readers := 0 } := by
    simp [e, create, Entry.op, Entry.unpin, Entry.preempt, Entry.compress_, Entry.setFs]
  refine ⟨by rw [he], { u := some [], c := some (C.comp x) }, ?_, rfl, recovered_u C [] _ true, ?_⟩
  · rw [he]
    simp only [Entry.op, Entry.open_, if_true]
    rw [decompress_eq (x := x) rfl {}]
    simp only [if_true, Entry.pin_, List.mem_append, List.mem_map]
    left
    exact ⟨[], by simp [prefixes]; exact ⟨0, by omega, Or.inl rfl⟩, rfl⟩
  · simp [existing]

/- Non-vacuity: the compression of an entry that has been opened before. -/
example : ReachOk sample (create true [1, 2] ⟨none, none⟩ true)
    ((((create true [1, 2] ⟨none, none⟩ true).op sample (.unpin {})).op sample (.open {}))) :=
  .step _ (.step _ .refl (by show 0 < 1; decide) (by simp)) trivial (by intro f h; cases h; rfl)
example : (((create true [1, 2] ⟨none, none⟩ true).op sample (.unpin {})).trace) =
    [⟨none, some [4, 1, 2]⟩, ⟨some [1, 2], some [4, 1, 2]⟩, ⟨some [1, 2], some [4, 1]⟩,
     ⟨some [1, 2], some [4]⟩, ⟨some [1, 2], some []⟩, ⟨some [1, 2], none⟩] := by
  decide +kernel

end Verif.FileCache
