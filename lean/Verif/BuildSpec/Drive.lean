import Verif.BuildSpec.Model
/-!
# Build specifications: the driver
-/

namespace Verif.BuildSpec

variable {k : Known}

/-- The operation is a meta-operation. -/
def Lifts (k : Known) (o : OpSpec) : Prop := o.name ≠ "" ∧ k.late o.name = true

instance (o : OpSpec) : Decidable (Lifts k o) := by unfold Lifts; infer_instance

/-- The operation is known. -/
def Runs (k : Known) (o : OpSpec) : Prop :=
  o.name = "" ∨ (k.late o.name = false ∧ k.op o.name = true)

def runOf (o : OpSpec) : Event :=
  .run (if o.name = "" then "default" else o.name) o.params (dflt o.targets)

/-- The trace of batches, given whether the context has been used. -/
def trace (dirty : Bool) : List Batch → List Event
  | [] => []
  | b :: bs => (if dirty then [.newContext] else []) ++ b.events ++ trace true bs

theorem events_trace (bs : List Batch) : events bs = trace false bs := by
  have h : ∀ bs : List Batch, bs ≠ [] → trace true bs = .newContext :: trace false bs := by
    intro bs hb
    cases bs with
    | nil => exact absurd rfl hb
    | cons b bs => simp [trace]
  induction bs with
  | nil => rfl
  | cons b bs ih =>
    cases bs with
    | nil => simp [events, trace]
    | cons c bs =>
      have he : events (b :: c :: bs) = b.events ++ .newContext :: events (c :: bs) := rfl
      have ht : trace false (b :: c :: bs) = b.events ++ trace true (c :: bs) := rfl
      rw [he, ih, ht, h (c :: bs) (by simp)]

theorem trace_append (dirty : Bool) (as bs : List Batch) (h : as ≠ []) :
    trace dirty (as ++ bs) = trace dirty as ++ trace true bs := by
  induction as generalizing dirty with
  | nil => exact absurd rfl h
  | cons a as ih =>
    cases as with
    | nil => simp [trace]
    | cons b as =>
      rw [List.cons_append, trace, ih true (by simp)]
      simp [trace]

/-! ## Operations of a named meta-operation -/

theorem opLoop_run (hsub : ∀ s, k.early s = true → k.late s = true) (mname : String)
    (mps : List Val) (hm : mname = "" ∨ k.late mname = true) (pos : Nat) (mid : Bool)
    (o : OpSpec) (ho : Runs k o) (rest : List OpSpec) :
    opLoop k mname mps false pos mid (o :: rest) =
      let r := opLoop k mname mps false (pos + 1) true rest
      ((if mid then [] else [.begin (if mname = "" then "perform" else mname) mps]) ++
        runOf o :: r.1, r.2) := by
  rw [opLoop]
  have h1 : ¬ (o.name ≠ "" ∧ k.early o.name = true) := by
    rintro ⟨h1, h2⟩
    rcases ho with h | ⟨h, -⟩
    · exact h1 h
    · rw [hsub _ h2] at h; cases h
  have h2 : ¬ (o.name ≠ "" ∧ k.late o.name = true) := by
    rintro ⟨h1, h2⟩
    rcases ho with h | ⟨h, -⟩
    · exact h1 h
    · rw [h2] at h; cases h
  have h3 : ¬ (mname ≠ "" ∧ ¬ k.late mname = true) := by
    rintro ⟨h1, h2⟩
    rcases hm with h | h
    · exact h1 h
    · exact h2 h
  have h4 : ¬ (o.name ≠ "" ∧ ¬ k.op o.name = true) := by
    rintro ⟨h1, h2⟩
    rcases ho with h | ⟨-, h⟩
    · exact h1 h
    · exact h2 h
  simp only [Bool.false_eq_true, if_false]
  rw [if_neg h1, if_neg h2, if_neg h3, if_neg h4]
  rfl

theorem opLoop_runs (hsub : ∀ s, k.early s = true → k.late s = true) (mname : String)
    (mps : List Val) (hm : mname = "" ∨ k.late mname = true) (pos : Nat) (mid : Bool)
    (pre : List OpSpec) (hp : ∀ o ∈ pre, Runs k o) (rest : List OpSpec) :
    opLoop k mname mps false pos mid (pre ++ rest) =
      let r := opLoop k mname mps false (pos + pre.length) (mid || !pre.isEmpty) rest
      ((if mid || pre.isEmpty then []
        else [.begin (if mname = "" then "perform" else mname) mps]) ++ pre.map runOf ++ r.1, r.2) := by
  induction pre generalizing pos mid with
  | nil => simp
  | cons o pre ih =>
    rw [List.cons_append, opLoop_run hsub mname mps hm pos mid o (hp o (by simp))]
    rw [ih (pos + 1) true (fun p h => hp p (by simp [h]))]
    have : pos + 1 + pre.length = pos + (o :: pre).length := by simp; omega
    simp [this]

theorem opLoop_bad (hsub : ∀ s, k.early s = true → k.late s = true) (mname : String) (mps : List Val) (pos : Nat) (mid : Bool)
    (o : OpSpec) (ho : ¬ Runs k o) (hl : mname ≠ "" ∨ ¬ Lifts k o) :
    ∃ e, e ≠ .fuel ∧ ∀ rest, opLoop k mname mps false pos mid (o :: rest) = ([], mid, .failed e) := by
  have hn : o.name ≠ "" := fun h => ho (Or.inl h)
  by_cases hm : mname ≠ ""
  · by_cases h1 : k.early o.name = true
    · refine ⟨.nestedMeta, by decide, fun rest => ?_⟩
      rw [opLoop]
      simp [hn, h1, hm]
    · by_cases h2 : k.late o.name = true
      · refine ⟨.nestedMeta, by decide, fun rest => ?_⟩
        rw [opLoop]
        simp [hn, h1, h2, hm]
      · by_cases h3 : k.late mname = true
        · have h4 : k.op o.name = false := by
            cases h : k.op o.name with
            | false => rfl
            | true => exact absurd (Or.inr ⟨by simpa using h2, h⟩) ho
          refine ⟨.unknownOp, by decide, fun rest => ?_⟩
          rw [opLoop]
          simp [hn, h1, h2, hm, h3, h4]
        · refine ⟨.unknownMeta, by decide, fun rest => ?_⟩
          rw [opLoop]
          simp [hn, h1, h2, hm, h3]
  · have hl : ¬ Lifts k o := by
      rcases hl with h | h
      · exact absurd h hm
      · exact h
    have h2 : k.late o.name = false := by
      cases h : k.late o.name with
      | false => rfl
      | true => exact absurd ⟨hn, h⟩ hl
    have h4 : k.op o.name = false := by
      cases h : k.op o.name with
      | false => rfl
      | true => exact absurd (Or.inr ⟨h2, h⟩) ho
    have hm : mname = "" := Decidable.byContradiction hm
    have h1 : k.early o.name = false := by
      cases h : k.early o.name with
      | false => rfl
      | true => rw [hsub _ h] at h2; cases h2
    refine ⟨.unknownOp, by decide, fun rest => ?_⟩
    rw [opLoop]
    simp [hn, h1, h2, hm, h4]

theorem opLoop_lift (mps : List Val) (pos : Nat) (mid : Bool) (o : OpSpec) (ho : Lifts k o)
    (rest : List OpSpec) :
    opLoop k "" mps false pos mid (o :: rest) = ([], mid, .lifted o (pos + 1)) := by
  obtain ⟨h1, h2⟩ := ho
  rw [opLoop]
  by_cases h : k.early o.name = true
  · simp [h1, h]
  · simp [h1, h2, h]

theorem opLoop_unknown (mname : String) (hn : mname ≠ "") (hm : k.late mname = false)
    (mps : List Val) (pos : Nat) (mid : Bool) (o : OpSpec) :
    ∃ e, e ≠ .fuel ∧ ∀ rest, opLoop k mname mps false pos mid (o :: rest) = ([], mid, .failed e) := by
  by_cases h1 : o.name ≠ "" ∧ k.early o.name = true
  · refine ⟨.nestedMeta, by decide, fun rest => ?_⟩
    rw [opLoop]
    simp [h1, hn]
  · by_cases h2 : o.name ≠ "" ∧ k.late o.name = true
    · refine ⟨.nestedMeta, by decide, fun rest => ?_⟩
      rw [opLoop]
      simp only [Bool.false_eq_true, if_false]
      rw [if_neg h1, if_pos h2, if_pos hn]
    · refine ⟨.unknownMeta, by decide, fun rest => ?_⟩
      rw [opLoop]
      simp only [Bool.false_eq_true, if_false]
      rw [if_neg h1, if_neg h2, if_pos ⟨hn, by simp [hm]⟩]

/-- Runs, then something else. -/
theorem runs_split (k : Known) (os : List OpSpec) :
    ∃ pre tail, os = pre ++ tail ∧ (∀ o ∈ pre, Runs k o) ∧
      (tail = [] ∨ ∃ o t, tail = o :: t ∧ ¬ Runs k o) := by
  induction os with
  | nil => exact ⟨[], [], rfl, fun _ h => (by cases h), Or.inl rfl⟩
  | cons o os ih =>
    by_cases h : Runs k o
    · obtain ⟨pre, tail, h1, h2, h3⟩ := ih
      refine ⟨o :: pre, tail, by rw [h1]; rfl, ?_, h3⟩
      intro p hp
      rcases List.mem_cons.mp hp with rfl | hp
      · exact h
      · exact h2 p hp
    · exact ⟨[], o :: os, rfl, fun _ h => (by cases h), Or.inr ⟨o, os, rfl, h⟩⟩

theorem runs_not_lifts {o : OpSpec} (h : Runs k o) : ¬ Lifts k o := by
  rintro ⟨h1, h2⟩
  rcases h with h | ⟨h, -⟩
  · exact h1 h
  · rw [h2] at h; cases h

theorem split_lift {o : OpSpec} (h : Lifts k o) (os : List OpSpec) :
    split k (o :: os) = ⟨o.name, o.params, [⟨"", [], o.targets⟩]⟩ :: split k os := by
  have h' : o.name ≠ "" ∧ k.late o.name = true := h
  rw [split.eq_def]
  simp only
  rw [if_pos h']

theorem split_runs (pre tail : List OpSpec) (hne : pre ≠ []) (hp : ∀ o ∈ pre, Runs k o)
    (ht : tail = [] ∨ ∃ o t, tail = o :: t ∧ Lifts k o) :
    split k (pre ++ tail) = ⟨"", [], pre⟩ :: split k tail := by
  induction pre with
  | nil => exact absurd rfl hne
  | cons o pre ih =>
    have hno : ¬ (o.name ≠ "" ∧ k.late o.name = true) := runs_not_lifts (hp o (by simp))
    cases pre with
    | nil =>
      rcases ht with rfl | ⟨p, t, rfl, hl⟩
      · show split k [o] = _
        rw [split.eq_def]
        simp only
        rw [if_neg hno]
      · show split k (o :: p :: t) = _
        have hl' : p.name ≠ "" ∧ k.late p.name = true := hl
        rw [split.eq_def]
        simp only
        rw [if_neg hno, split_lift hl]
        simp only
        rw [if_pos hl']
    | cons p pre =>
      have ih := ih (by simp) (fun q hq => hp q (by simp [hq]))
      have hnp : ¬ (p.name ≠ "" ∧ k.late p.name = true) := runs_not_lifts (hp p (by simp))
      rw [List.cons_append] at ih
      rw [List.cons_append, List.cons_append, split.eq_def]
      simp only
      rw [if_neg hno, ih]
      simp only
      rw [if_neg hnp]

/-! ## The loop over meta-operations -/

/-- The operations of a meta-operation. -/
def osOf (m : MetaSpec) : List OpSpec := if m.ops = [] then [⟨"", [], []⟩] else m.ops

theorem metaLoop_empty (f : Nat) (ms : MetaSpec) (rest : List MetaSpec) (skip : Nat) (dirty : Bool)
    (h : (osOf ms).drop skip = []) :
    metaLoop k (f + 1) (ms :: rest) none skip dirty = metaLoop k f rest none 0 dirty := by
  unfold osOf at h
  rw [metaLoop]
  simp only
  rw [if_pos ⟨trivial, h⟩]

/-- One pass. -/
def pass (k : Known) (f : Nat) (ms : MetaSpec) (rest : List MetaSpec) (mname : String) (skip' : Nat)
    (dirty : Bool) (r : List Event × Bool × End) : List Event × Option Err :=
  let ctx := if dirty then [Event.newContext] else []
  let fin := if r.2.1 then [Event.done (if mname = "" then "perform" else mname)] else []
  match r.2.2 with
  | .failed e => (ctx ++ r.1, some e)
  | .lifted o s =>
    let q := metaLoop k f (ms :: rest) (some o) s r.2.1
    (ctx ++ r.1 ++ fin ++ q.1, q.2)
  | .all =>
    let q := if skip' = 0 then metaLoop k f rest none 0 r.2.1
      else metaLoop k f (ms :: rest) none skip' r.2.1
    (ctx ++ r.1 ++ fin ++ q.1, q.2)

theorem metaLoop_none (f : Nat) (ms : MetaSpec) (rest : List MetaSpec) (skip : Nat) (dirty : Bool)
    (h : (osOf ms).drop skip ≠ []) :
    metaLoop k (f + 1) (ms :: rest) none skip dirty =
      pass k f ms rest ms.name 0 dirty
        (opLoop k ms.name ms.params false skip false ((osOf ms).drop skip)) := by
  unfold osOf at h ⊢
  rw [metaLoop]
  simp only
  rw [if_neg (fun hc => h hc.2)]
  rfl

theorem metaLoop_some (f : Nat) (ms : MetaSpec) (rest : List MetaSpec) (o : OpSpec)
    (ho : Lifts k o) (skip : Nat) (hs : skip ≠ 0) (dirty : Bool) :
    metaLoop k (f + 1) (ms :: rest) (some o) skip dirty =
      let q := metaLoop k f (ms :: rest) none skip true
      ((if dirty then [.newContext] else []) ++
        Batch.events ⟨o.name, o.params, [⟨"", [], o.targets⟩]⟩ ++ q.1, q.2) := by
  obtain ⟨h1, h2⟩ := ho
  have hl : opLoop k o.name o.params true skip false [o] =
      ([.begin o.name o.params, .run "default" [] (dflt o.targets)], true, .all) := by
    rw [opLoop, opLoop]
    simp [h1, h2]
  rw [metaLoop]
  simp only [Option.isSome_some, hl]
  rw [if_neg (by simp)]
  simp [hs, h1, Batch.events]

/-- The parameters are for the default ones. -/
def withParams (ps : List Val) (b : Batch) : Batch := if b.name = "" then { b with params := ps } else b

theorem trace_pre (dirty : Bool) (ps : List Val) (pre : List OpSpec) :
    (if dirty then [Event.newContext] else []) ++
      ([.begin "perform" ps] ++ pre.map runOf) ++ [.done "perform"] =
    trace dirty [withParams ps ⟨"", [], pre⟩] := by
  have : pre.map runOf = pre.map (fun o =>
      .run (if o.name = "" then "default" else o.name) o.params (dflt o.targets)) := rfl
  simp [trace, withParams, Batch.events, this]

theorem metaLoop_default (hsub : ∀ s, k.early s = true → k.late s = true) (ms : MetaSpec)
    (hm : ms.name = "") (os : List OpSpec) (hv : ∀ o ∈ os, Lifts k o ∨ Runs k o) (skip : Nat)
    (hos : (osOf ms).drop skip = os) (rest : List MetaSpec) (dirty : Bool) (f : Nat)
    (hf : 2 * os.length + 1 ≤ f) :
    ∃ f', f ≤ f' + (2 * os.length + 1) ∧
      metaLoop k f (ms :: rest) none skip dirty =
        let q := metaLoop k f' rest none 0 (dirty || !os.isEmpty)
        (trace dirty ((split k os).map (withParams ms.params)) ++ q.1, q.2) := by
  induction hn : os.length using Nat.strongRecOn generalizing os skip dirty f with
  | ind n ih =>
    obtain ⟨pre, tail, rfl, hp, ht⟩ := runs_split k os
    cases f with
    | zero => omega
    | succ f =>
      by_cases hnil : pre ++ tail = []
      · refine ⟨f, by omega, ?_⟩
        rw [metaLoop_empty f ms rest skip dirty (hos.trans hnil), hnil]
        simp [split, trace]
      · have hrun := opLoop_runs hsub ms.name ms.params (Or.inl hm) skip false pre hp tail
        rw [metaLoop_none f ms rest skip dirty (by rw [hos]; exact hnil), hos, hrun]
        rcases ht with rfl | ⟨o, t, rfl, ho⟩
        · have hpre : pre ≠ [] := by rintro rfl; exact hnil rfl
          have hpe : pre.isEmpty = false := by cases pre; exact absurd rfl hpre; rfl
          refine ⟨f, by omega, ?_⟩
          have hsp := split_runs pre [] hpre hp (Or.inl rfl)
          rw [hsp, split]
          have htr := trace_pre dirty ms.params pre
          simp only [pass, opLoop, hm, hpe]
          simp only [List.map_cons, List.map_nil]
          rw [← htr]
          have hd : (dirty || !pre.isEmpty) = true := by simp [hpe]
          simp [hd]
        · have hlift : Lifts k o := by
            rcases hv o (by simp) with h | h
            · exact h
            · exact absurd h ho
          have hlen : t.length < n := by rw [← hn]; simp; omega
          have hdrop : (osOf ms).drop (skip + pre.length + 1) = t := by
            have := congrArg (List.drop (pre.length + 1)) hos
            rw [List.drop_drop] at this
            rw [Nat.add_assoc, this]
            simp
          have hf2 : 2 * t.length + 1 ≤ f - 1 := by
            simp at hf; omega
          obtain ⟨g, hg⟩ : ∃ g, f = g + 1 := ⟨f - 1, by simp at hf; omega⟩
          obtain ⟨f', hf', hih⟩ := ih t.length hlen t (fun p hp => hv p (by simp [hp])) _ hdrop true g
            (by omega) rfl
          refine ⟨f', by simp at hn hf ⊢; omega, ?_⟩
          rw [hm, opLoop_lift _ _ _ _ hlift]
          simp only [pass]
          rw [hg, metaLoop_some g ms rest o hlift _ (by omega), hih]
          by_cases hpre : pre = []
          · subst hpre
            simp [split_lift hlift, trace, withParams, hlift.1]
          · have hpe : pre.isEmpty = false := by cases pre; exact absurd rfl hpre; rfl
            rw [split_runs pre (o :: t) hpre hp (Or.inr ⟨o, t, rfl, hlift⟩), split_lift hlift]
            have htr := trace_pre dirty ms.params pre
            have htc : ∀ b bs, trace dirty (b :: bs) = trace dirty [b] ++ trace true bs := by
              intro b bs; simp [trace]
            rw [List.map_cons, htc, ← htr]
            have hd : (dirty || !(pre ++ o :: t).isEmpty) = true := by
              cases pre <;> simp
            simp [hpe, trace, withParams, hlift.1, hd]

theorem metaLoop_default_bad (hsub : ∀ s, k.early s = true → k.late s = true) (ms : MetaSpec)
    (hm : ms.name = "") (os : List OpSpec) (hv : ¬ ∀ o ∈ os, Lifts k o ∨ Runs k o) (skip : Nat)
    (hos : (osOf ms).drop skip = os) (dirty : Bool) :
    ∃ t e, e ≠ .fuel ∧ ∀ rest f, 2 * os.length + 1 ≤ f →
      metaLoop k f (ms :: rest) none skip dirty = (t, some e) := by
  induction hn : os.length using Nat.strongRecOn generalizing os skip dirty with
  | ind n ih =>
    obtain ⟨pre, tail, rfl, hp, ht⟩ := runs_split k os
    rcases ht with rfl | ⟨o, t, rfl, ho⟩
    · exact absurd (fun o h => Or.inr (hp o (by simpa using h))) hv
    · have hrun := opLoop_runs hsub ms.name ms.params (Or.inl hm) skip false pre hp (o :: t)
      by_cases hlift : Lifts k o
      · have hlen : t.length < n := by rw [← hn]; simp; omega
        have hdrop : (osOf ms).drop (skip + pre.length + 1) = t := by
          have := congrArg (List.drop (pre.length + 1)) hos
          rw [List.drop_drop] at this
          rw [Nat.add_assoc, this]
          simp
        have hv' : ¬ ∀ p ∈ t, Lifts k p ∨ Runs k p := by
          intro h
          apply hv
          intro p hp'
          rcases List.mem_append.mp hp' with h' | h'
          · exact Or.inr (hp p h')
          · rcases List.mem_cons.mp h' with rfl | h'
            · exact Or.inl hlift
            · exact h p h'
        obtain ⟨t', e, he, hih⟩ := ih t.length hlen t hv' _ hdrop true rfl
        refine ⟨(if dirty then [.newContext] else []) ++
          ((if false || pre.isEmpty then [] else [.begin "perform" ms.params]) ++
            pre.map runOf ++ []) ++
          (if (false || !pre.isEmpty) = true then [.done "perform"] else []) ++
          ((if (false || !pre.isEmpty) = true then [.newContext] else []) ++
            Batch.events ⟨o.name, o.params, [⟨"", [], o.targets⟩]⟩ ++ t'), e, he, fun rest f hf => ?_⟩
        obtain ⟨g, rfl⟩ : ∃ g, f = g + 2 := ⟨f - 2, by simp at hn; omega⟩
        rw [metaLoop_none (g + 1) ms rest skip dirty (by rw [hos]; simp), hos, hrun, hm,
          opLoop_lift _ _ _ _ hlift]
        simp only [pass]
        rw [metaLoop_some g ms rest o hlift _ (by omega), hih rest g (by simp at hn; omega)]
        rfl
      · obtain ⟨e, he, hbad⟩ := opLoop_bad hsub ms.name ms.params (skip + pre.length)
          (false || !pre.isEmpty) o ho (Or.inr hlift)
        refine ⟨(if dirty then [.newContext] else []) ++
          ((if false || pre.isEmpty then []
            else [.begin (if ms.name = "" then "perform" else ms.name) ms.params]) ++
            pre.map runOf ++ []), e, he, fun rest f hf => ?_⟩
        obtain ⟨g, rfl⟩ : ∃ g, f = g + 1 := ⟨f - 1, by omega⟩
        rw [metaLoop_none g ms rest skip dirty (by rw [hos]; simp), hos, hrun, hbad]
        simp only [pass]

theorem osOf_ne (ms : MetaSpec) : osOf ms ≠ [] := by
  unfold osOf
  split
  · simp
  · assumption

theorem osOf_length (ms : MetaSpec) : 2 * (osOf ms).length + 1 ≤ 2 * ms.ops.length + 3 := by
  unfold osOf
  split
  · next h => simp [h]
  · omega

theorem osOf_mem {ms : MetaSpec} {P : OpSpec → Prop} (hd : P ⟨"", [], []⟩) :
    (∀ o ∈ osOf ms, P o) ↔ ∀ o ∈ ms.ops, P o := by
  unfold osOf
  split
  · next h => simp [h, hd]
  · exact Iff.rfl

theorem valid_default {ms : MetaSpec}
    (hm : ms.name = "") : ms.Valid k ↔ ∀ o ∈ osOf ms, Lifts k o ∨ Runs k o := by
  rw [osOf_mem (P := fun o => Lifts k o ∨ Runs k o) (Or.inr (Or.inl rfl))]
  unfold MetaSpec.Valid Lifts Runs
  simp only [hm, true_or, true_and]
  constructor
  · intro h o ho
    rcases h o ho with h1 | h1
    · exact Or.inr (Or.inl h1)
    · by_cases hn : o.name = ""
      · exact Or.inr (Or.inl hn)
      · cases hl : k.late o.name with
        | true => exact Or.inl ⟨hn, rfl⟩
        | false => rw [hl] at h1; exact Or.inr (Or.inr ⟨rfl, by simpa using h1⟩)
  · intro h o ho
    rcases h o ho with ⟨-, h1⟩ | h1 | ⟨h1, h2⟩
    · exact Or.inr (by simp [h1])
    · exact Or.inl h1
    · exact Or.inr (by simp [h1, h2])

theorem valid_named {ms : MetaSpec} (hm : ms.name ≠ "") :
    ms.Valid k ↔ k.late ms.name = true ∧ ∀ o ∈ osOf ms, Runs k o := by
  rw [osOf_mem (P := fun o => Runs k o) (Or.inl rfl)]
  unfold MetaSpec.Valid Runs
  simp only [hm, false_or]
  refine and_congr_right fun _ => forall_congr' fun o => imp_congr_right fun _ => or_congr_right ?_
  cases k.late o.name <;> simp

theorem metaLoop_valid (hsub : ∀ s, k.early s = true → k.late s = true) (ms : MetaSpec)
    (hv : ms.Valid k) (rest : List MetaSpec) (dirty : Bool) (f : Nat)
    (hf : 2 * ms.ops.length + 3 ≤ f) :
    ∃ f', f ≤ f' + (2 * ms.ops.length + 3) ∧
      metaLoop k f (ms :: rest) none 0 dirty =
        let q := metaLoop k f' rest none 0 true
        (trace dirty (batches k ms) ++ q.1, q.2) := by
  have hlen := osOf_length ms
  have hne := osOf_ne ms
  by_cases hm : ms.name = ""
  · obtain ⟨f', h1, h2⟩ := metaLoop_default hsub ms hm (osOf ms) ((valid_default hm).mp hv) 0 rfl
      rest dirty f (by omega)
    refine ⟨f', by omega, ?_⟩
    have hemp : (osOf ms).isEmpty = false := by
      cases h : osOf ms with
      | nil => exact absurd h hne
      | cons a as => rfl
    have hb : batches k ms = (split k (osOf ms)).map (withParams ms.params) := by
      unfold batches
      simp only [hm, if_true]
      rfl
    rw [h2, hemp, hb]
    simp
  · obtain ⟨hl, hr⟩ := (valid_named hm).mp hv
    have hrun := opLoop_runs hsub ms.name ms.params (Or.inr hl) 0 false (osOf ms) hr []
    rw [List.append_nil] at hrun
    obtain ⟨g, rfl⟩ : ∃ g, f = g + 1 := ⟨f - 1, by omega⟩
    refine ⟨g, by omega, ?_⟩
    rw [metaLoop_none g ms rest 0 dirty hne, List.drop_zero, hrun]
    have hemp : (osOf ms).isEmpty = false := by
      cases h : osOf ms with
      | nil => exact absurd h hne
      | cons a as => rfl
    have hb : batches k ms = [⟨ms.name, ms.params, osOf ms⟩] := by
      unfold batches
      simp only [hm, if_false]
      rfl
    have hmap : (osOf ms).map runOf = (osOf ms).map (fun o =>
      .run (if o.name = "" then "default" else o.name) o.params (dflt o.targets)) := rfl
    simp [pass, opLoop, hemp, hb, trace, Batch.events, hm, hmap]

theorem metaLoop_invalid (hsub : ∀ s, k.early s = true → k.late s = true) (ms : MetaSpec)
    (hv : ¬ ms.Valid k) (dirty : Bool) :
    ∃ t e, e ≠ .fuel ∧ ∀ rest f, 2 * ms.ops.length + 3 ≤ f →
      metaLoop k f (ms :: rest) none 0 dirty = (t, some e) := by
  have hlen := osOf_length ms
  have hne := osOf_ne ms
  by_cases hm : ms.name = ""
  · obtain ⟨t, e, h1, h2⟩ := metaLoop_default_bad hsub ms hm (osOf ms)
      (fun h => hv ((valid_default hm).mpr h)) 0 rfl dirty
    exact ⟨t, e, h1, fun rest f hf => h2 rest f (by omega)⟩
  · cases hl : k.late ms.name with
    | false =>
      obtain ⟨o, os, ho⟩ : ∃ o os, osOf ms = o :: os := by
        cases h : osOf ms with
        | nil => exact absurd h hne
        | cons o os => exact ⟨o, os, rfl⟩
      obtain ⟨e, he, hu⟩ := opLoop_unknown ms.name hm hl ms.params 0 false o
      refine ⟨(if dirty then [.newContext] else []) ++ [], e, he, fun rest f hf => ?_⟩
      obtain ⟨g, rfl⟩ : ∃ g, f = g + 1 := ⟨f - 1, by omega⟩
      rw [metaLoop_none g ms rest 0 dirty hne, List.drop_zero, ho, hu]
      simp only [pass]
    | true =>
      obtain ⟨pre, tail, h1, hp, ht⟩ := runs_split k (osOf ms)
      rcases ht with rfl | ⟨o, t, rfl, ho⟩
      · rw [List.append_nil] at h1
        exact absurd ((valid_named hm).mpr ⟨hl, by rw [h1]; exact hp⟩) hv
      · have hrun := opLoop_runs hsub ms.name ms.params (Or.inr hl) 0 false pre hp (o :: t)
        obtain ⟨e, he, hbad⟩ := opLoop_bad hsub ms.name ms.params (0 + pre.length)
          (false || !pre.isEmpty) o ho (Or.inl hm)
        refine ⟨(if dirty then [.newContext] else []) ++
          ((if false || pre.isEmpty then []
            else [.begin (if ms.name = "" then "perform" else ms.name) ms.params]) ++
            pre.map runOf ++ []), e, he, fun rest f hf => ?_⟩
        obtain ⟨g, rfl⟩ : ∃ g, f = g + 1 := ⟨f - 1, by omega⟩
        rw [metaLoop_none g ms rest 0 dirty hne, List.drop_zero, h1, hrun, hbad]
        simp only [pass]

theorem split_ne (os : List OpSpec) (h : os ≠ []) : split k os ≠ [] := by
  cases os with
  | nil => exact absurd rfl h
  | cons o os =>
    rw [split.eq_def]
    simp only
    split
    · simp
    · split
      · split <;> simp
      · simp

theorem batches_ne (ms : MetaSpec) : batches k ms ≠ [] := by
  unfold batches
  simp only
  split
  · have := split_ne (k := k) (osOf ms) (osOf_ne ms)
    intro h
    rw [List.map_eq_nil_iff] at h
    exact this h
  · simp

theorem metaLoop_pre (hsub : ∀ s, k.early s = true → k.late s = true) (pre post : List MetaSpec)
    (hv : ∀ m ∈ pre, m.Valid k) (dirty : Bool) (f : Nat) (hf : steps (pre ++ post) ≤ f) :
    ∃ f', steps post ≤ f' ∧
      metaLoop k f (pre ++ post) none 0 dirty =
        let q := metaLoop k f' post none 0 (dirty || !pre.isEmpty)
        (trace dirty (pre.flatMap (batches k)) ++ q.1, q.2) := by
  induction pre generalizing dirty f with
  | nil => exact ⟨f, hf, by simp [trace]⟩
  | cons m pre ih =>
    rw [List.cons_append, steps] at hf
    obtain ⟨f1, h1, h2⟩ := metaLoop_valid hsub m (hv m (by simp)) (pre ++ post) dirty f (by omega)
    obtain ⟨f2, h3, h4⟩ := ih (fun p hp => hv p (by simp [hp])) true f1 (by omega)
    refine ⟨f2, h3, ?_⟩
    rw [List.cons_append, h2, h4]
    rw [List.flatMap_cons, trace_append _ _ _ (batches_ne m)]
    simp

end Verif.BuildSpec
