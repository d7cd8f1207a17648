import Verif.Update.Model

/-! C04: an interrupted update is redone. -/

namespace Verif.Update

open Verif.Depdb

/-! ### Hypotheses -/

/-- The lines are storable and their number is fixed for the rule. -/
def OkConfig (n : Nat) (ls : List Bytes) : Prop := ls.length = n ∧ ∀ l ∈ ls, OkLine l

/-- The clock ticks at least once before each event, a configuration always has the same number
of lines, and the tool does not leave a partial target behind when it is interrupted. -/
def OkEvent (n : Nat) (e : Nat × Event) : Prop :=
  1 ≤ e.1 ∧
  match e.2 with
  | .configure ls => OkConfig n ls
  | .run _ _ stop => stop ≠ .duringTarget
  | _ => True

/-! ### The invariant -/

structure Inv (n : Nat) (w : World) : Prop where
  cfg : OkConfig n w.cfg
  inp_le : ∀ i ∈ w.inputs, i.2 ≤ w.now
  db_le : ∀ f dm, w.db = some (f, dm) → dm ≤ w.now
  tgt_le : ∀ o tm, w.tgt = some (o, tm) → tm ≤ w.now
  main : ∀ o tm f dm, w.tgt = some (o, tm) → w.db = some (f, dm) → dm ≤ tm →
    ∃ ls vs, stored [] f = ([49] :: ls, true) ∧ ls.length = n ∧ o = .full ls vs ∧
      ((∀ i ∈ w.inputs, i.2 ≤ tm) → vs = w.inputs.map (·.1))

theorem expects_ok {n : Nat} {ls : List Bytes} (h : OkConfig n ls) :
    ∀ o ∈ ls.map Op.expect, o.Ok := by
  intro o ho
  obtain ⟨l, hl, rfl⟩ := List.mem_map.1 ho
  exact h.2 l hl

/-- When no update is needed, the target is the right one and the database is not modified. -/
theorem needsUpdate_false {n : Nat} {w : World} (h : Inv n w) (hu : needsUpdate w = false) :
    (∃ tm, w.tgt = some (.full w.cfg (w.inputs.map (·.1)), tm)) ∧
    ∃ f dm, w.db = some (f, dm) ∧ ((dbSession w).close).hist = [f] := by
  unfold needsUpdate at hu
  simp only [Bool.or_eq_false_iff, decide_eq_false_iff_not] at hu
  obtain ⟨⟨h1, h2⟩, h3⟩ := hu
  cases ht : w.tgt with
  | none => simp [ht, outOfDate] at h1
  | some p =>
    obtain ⟨o, tm⟩ := p
    cases hd : w.db with
    | none =>
      exfalso
      have := (depdb_expect_writing_iff (w.db.map Prod.fst) w.cfg h.cfg.2).1 h2
      simp [hd] at this
    | some q =>
      obtain ⟨f, dm⟩ := q
      simp only [ht, hd, decide_eq_false_iff_not] at h3
      have hdm : dm ≤ tm := by omega
      obtain ⟨ls, vs, h4, h5, h6, h7⟩ := h.main o tm f dm ht hd hdm
      have hin : ∀ i ∈ w.inputs, i.2 ≤ tm := by
        intro i hi
        rw [ht] at h1
        simp only [Option.map_some, outOfDate, newer, List.any_eq_false, decide_eq_true_eq] at h1
        have := h1 i hi
        omega
      obtain ⟨x, more, hx, h8⟩ := (depdb_expect_writing_iff (w.db.map Prod.fst) w.cfg h.cfg.2).1 h2
      simp only [hd, Option.map_some, Option.some.injEq] at hx
      subst hx
      rw [h4] at h8
      simp only [List.cons.injEq, true_and] at h8
      have hmore : more = [] := by
        have := congrArg List.length h8
        rw [List.length_append, h5, h.cfg.1] at this
        exact List.eq_nil_of_length_eq_zero (by omega)
      rw [hmore, List.append_nil] at h8
      subst h8
      refine ⟨⟨tm, by rw [h6, h7 hin]⟩, f, dm, rfl, ?_⟩
      -- the session reached the end of the database
      have hok := expects_ok h.cfg
      have hrel := rel_ops (rel_open (some f)) _ hok
      have ho : View.open (some f) = { done := [], cur := some [49], rest := some (w.cfg, true) } := by
        simp [View.open, h4]
      have hrest := (View.expects (View.open (some f)) w.cfg w.cfg true (by simp [ho])).2
      simp at hrest
      have heof : ((Db.open (some f)).ops (w.cfg.map .expect)).st = .readEof :=
        ((rel_writing hrel).2.1).2 hrest
      have hs : dbSession w = (Db.open (some f)).ops (w.cfg.map .expect) := by
        simp [dbSession, hd]
      rw [hs, close_eof _ heof]
      exact rel_hist_single hrel (by rw [hrest]; simp)

theorem inv_run {n : Nat} {w : World} (h : Inv n w)
    (hst : (∀ i ∈ w.inputs, i.2 < w.now) ∧ (∀ f dm, w.db = some (f, dm) → dm < w.now) ∧
           (∀ o tm, w.tgt = some (o, tm) → tm < w.now))
    (a b : Nat) (stop : Stop) (hs : stop ≠ .duringTarget) :
    Inv n (run w a b stop).2 ∧
    ((run w a b stop).1 ≠ .interrupted →
      ∃ tm, (run w a b stop).2.tgt = some (.full w.cfg (w.inputs.map (·.1)), tm)) := by
  -- a database that is not the one we had is newer than the target
  have hdb : ∀ m f' dm', dbAfter w ((dbSession w).close) m (w.now + a) = some (f', dm') →
      dm' ≤ w.now + a ∧ (w.db = some (f', dm') ∨ dm' = w.now + a) := by
    intro m f' dm' he
    unfold dbAfter at he
    split at he
    · exact ⟨Nat.le_trans (h.db_le _ _ he) (by omega), Or.inl he⟩
    · split at he
      · exact ⟨Nat.le_trans (h.db_le _ _ he) (by omega), Or.inl he⟩
      · simp at he; exact ⟨by omega, Or.inr he.2.symm⟩
  have mainDb : ∀ m, Inv n { w with now := w.now + a,
                                    db := dbAfter w ((dbSession w).close) m (w.now + a) } := by
    intro m
    refine ⟨h.cfg, ?_, ?_, ?_, ?_⟩
    · intro i hi; have := h.inp_le i hi; simp only; omega
    · intro f dm he; exact (hdb m f dm he).1
    · intro o tm he; have := h.tgt_le o tm he; simp only; omega
    · intro o tm f dm ht hd hle
      rcases (hdb m f dm hd).2 with h1 | h1
      · exact h.main o tm f dm ht h1 hle
      · have := hst.2.2 o tm ht
        omega
  unfold run
  cases stop with
  | duringDb m => exact ⟨mainDb m, by simp⟩
  | beforeTarget => exact ⟨mainDb _, by simp⟩
  | duringTarget => exact absurd rfl hs
  | complete =>
    simp only
    cases hu : needsUpdate w with
    | false =>
      simp only [Bool.false_eq_true, if_false]
      obtain ⟨⟨tm, h1⟩, _⟩ := needsUpdate_false h hu
      exact ⟨mainDb _, fun _ => ⟨tm, h1⟩⟩
    | true =>
      simp only [if_true]
      have hm := mainDb ((dbSession w).close.hist.length - 1)
      refine ⟨⟨h.cfg, ?_, ?_, ?_, ?_⟩, fun _ => ⟨_, rfl⟩⟩
      · intro i hi; have := h.inp_le i hi; simp only; omega
      · intro f dm he; have := (hdb _ f dm he).1; simp only; omega
      · intro o tm he; simp at he; simp only; omega
      · intro o tm f dm ht hd hle
        simp only [Option.some.injEq, Prod.mk.injEq] at ht
        refine ⟨w.cfg, w.inputs.map (·.1), ?_, h.cfg.1, ht.1.symm, fun _ => rfl⟩
        -- the file is the final content of the session
        have hcont := (depdb_expect_content (w.db.map (·.1)) w.cfg h.cfg.2 .absent).1
        have hfile : f = ((dbSession w).close).file := by
          simp only at hd
          have hends := close_ends (rel_ops (rel_open (w.db.map (·.1))) _ (expects_ok h.cfg)) .absent
          change Ends _ ((dbSession w).close) at hends
          generalize ((dbSession w).close) = d at *
          obtain ⟨e1, e2⟩ := hends
          have hl : d.hist.reverse[d.hist.length - 1]? = some d.file := by
            cases hh : d.hist with
            | nil => simp [hh] at e1
            | cons x xs => rw [hh] at e1; simpa using e1
          unfold dbAfter at hd
          rw [hl] at hd
          simp only at hd
          split at hd
          · rename_i hc
            cases hh : d.hist with
            | nil => simp [hh] at e1
            | cons x xs =>
              have : xs = [] := by
                have := hc.1; rw [hh] at this; simpa using this
              rw [hh, this] at e1 e2
              simp only [List.head?_cons, List.getLast?_singleton, Option.some.injEq, hd,
                Option.map_some, before, Option.getD_some] at e1 e2
              rw [← e1, e2]
          · simp at hd; exact hd.1.symm
        rw [hfile]
        exact hcont

theorem inv_step {n : Nat} {w : World} (h : Inv n w) (k : Nat) (e : Event)
    (hk : OkEvent n (k, e)) : Inv n (step w k e) := by
  obtain ⟨hk1, hk2⟩ := hk
  have h' : Inv n { w with now := w.now + k } :=
    ⟨h.cfg, fun i hi => Nat.le_trans (h.inp_le i hi) (by simp),
     fun f dm hd => Nat.le_trans (h.db_le f dm hd) (by simp),
     fun o tm ht => Nat.le_trans (h.tgt_le o tm ht) (by simp), h.main⟩
  have hst : (∀ i ∈ w.inputs, i.2 < w.now + k) ∧ (∀ f dm, w.db = some (f, dm) → dm < w.now + k) ∧
      (∀ o tm, w.tgt = some (o, tm) → tm < w.now + k) := by
    refine ⟨fun i hi => ?_, fun f dm hd => ?_, fun o tm ht => ?_⟩
    · have := h.inp_le i hi; simp only at hk1; omega
    · have := h.db_le f dm hd; simp only at hk1; omega
    · have := h.tgt_le o tm ht; simp only at hk1; omega
  cases e with
  | edit i v =>
    simp only [step]
    split
    · refine ⟨h'.cfg, ?_, h'.db_le, h'.tgt_le, ?_⟩
      · intro x hx
        rcases List.mem_or_eq_of_mem_set hx with hx | rfl
        · exact h'.inp_le x hx
        · exact Nat.le_refl _
      · intro o tm f dm ht hd hle
        obtain ⟨ls, vs, h1, h2, h3, h4⟩ := h'.main o tm f dm ht hd hle
        refine ⟨ls, vs, h1, h2, h3, ?_⟩
        intro hall
        exfalso
        rename_i hi
        have := hall (v, w.now + k) (List.mem_iff_getElem.2 ⟨i, by simpa using hi, by simp⟩)
        have := hst.2.2 o tm ht
        simp only at *
        omega
    · exact h'
  | configure ls => exact ⟨hk2, h'.inp_le, h'.db_le, h'.tgt_le, h'.main⟩
  | removeDb =>
    exact ⟨h'.cfg, h'.inp_le, by simp [step], h'.tgt_le, by simp [step]⟩
  | removeTarget =>
    exact ⟨h'.cfg, h'.inp_le, h'.db_le, by simp [step], by simp [step]⟩
  | run a b stop => exact (inv_run h' hst a b stop hk2).1

theorem inv_history {n : Nat} (es : List (Nat × Event)) (hes : ∀ e ∈ es, OkEvent n e) {w : World}
    (h : Inv n w) : Inv n (history w es) := by
  induction es generalizing w with
  | nil => exact h
  | cons e es ih =>
    exact ih (fun x hx => hes x (List.mem_cons_of_mem _ hx))
      (inv_step h e.1 e.2 (hes e (List.mem_cons_self ..)))

theorem inv_start {n : Nat} {cfg : List Bytes} {inputs : List (Nat × Nat)} {now : Nat}
    (hc : OkConfig n cfg) (hi : ∀ i ∈ inputs, i.2 ≤ now) : Inv n (start cfg inputs now) :=
  ⟨hc, hi, by simp [start], by simp [start], by simp [start]⟩

/-! ### The property -/

/-- **C04**. After any history of edits of the prerequisites, configuration changes, removals of
the database or of the target, complete runs and runs interrupted while the database was
being written (at any byte) or after that, a complete run leaves a target that has been
produced from the current configuration and the current contents of the prerequisites,
whether the run concludes that nothing has changed or not. In particular, an interrupted
update is always redone. -/
theorem interrupted_update_redone_partial (n : Nat) (cfg : List Bytes) (inputs : List (Nat × Nat)) (now : Nat)
    (hc : OkConfig n cfg) (hi : ∀ i ∈ inputs, i.2 ≤ now)
    (es : List (Nat × Event)) (hes : ∀ e ∈ es, OkEvent n e) (k a b : Nat) (hk : 1 ≤ k) :
    let w := history (start cfg inputs now) es
    let w' := step w k (.run a b .complete)
    ∃ tm, w'.tgt = some (.full w.cfg (w.inputs.map (·.1)), tm) := by
  intro w w'
  have h : Inv n w := inv_history es hes (inv_start hc hi)
  have h' : Inv n { w with now := w.now + k } :=
    ⟨h.cfg, fun i hi => Nat.le_trans (h.inp_le i hi) (by simp),
     fun f dm hd => Nat.le_trans (h.db_le f dm hd) (by simp),
     fun o tm ht => Nat.le_trans (h.tgt_le o tm ht) (by simp), h.main⟩
  refine (inv_run h' ⟨?_, ?_, ?_⟩ a b .complete (by simp)).2 ?_
  · intro i hi; have := h.inp_le i hi; simp only; omega
  · intro f dm hd; have := h.db_le f dm hd; simp only; omega
  · intro o tm ht; have := h.tgt_le o tm ht; simp only; omega
  · unfold run; simp only; split <;> simp

/-- **C04**, what "nothing has changed" means: if a run concludes so, then the target was
already up to date before the run, and the run modifies neither the target nor the
database. -/
theorem unchanged_is_up_to_date_partial (n : Nat) (cfg : List Bytes) (inputs : List (Nat × Nat)) (now : Nat)
    (hc : OkConfig n cfg) (hi : ∀ i ∈ inputs, i.2 ≤ now)
    (es : List (Nat × Event)) (hes : ∀ e ∈ es, OkEvent n e) (a b : Nat) :
    let w := history (start cfg inputs now) es
    (run w a b .complete).1 = .unchanged →
      (∃ tm, w.tgt = some (.full w.cfg (w.inputs.map (·.1)), tm)) ∧
      (run w a b .complete).2.tgt = w.tgt ∧ (run w a b .complete).2.db = w.db := by
  intro w hr
  have h : Inv n w := inv_history es hes (inv_start hc hi)
  have hu : needsUpdate w = false := by
    unfold run at hr
    simp only at hr
    split at hr
    · simp at hr
    · simpa using ‹¬ needsUpdate w = true›
  obtain ⟨h1, f, dm, h2, h3⟩ := needsUpdate_false h hu
  refine ⟨h1, ?_, ?_⟩
  · simp [run, hu]
  · simp [run, hu, dbAfter, h3, h2]

/-! ### What is missing, and why

The full property would not need `OkEvent`. Each of its three parts is necessary: -/

/-- A run that gets interrupted in the same clock tick in which the target was produced is not
redone. -/
theorem same_tick_not_redone :
    let es := [(1, Event.run 0 0 .complete), (0, .configure [[98]]), (0, .run 0 0 .beforeTarget)]
    let w := history (start [[97]] [] 0) es
    (run w 0 0 .complete).1 = .unchanged ∧ w.tgt = some (.full [[97]] [], 1) ∧ w.cfg = [[98]] := by
  decide +kernel

/-- A tool that leaves a partial target behind when interrupted: the next run concludes that
nothing has changed. -/
theorem partial_target_not_redone :
    let es := [(1, Event.run 0 0 .duringTarget)]
    let w := history (start [[97]] [] 0) es
    (run w 0 0 .complete).1 = .unchanged ∧ w.tgt = some (.incomplete, 1) := by
  decide +kernel

/-- A rule that states fewer expectations than before: the first run concludes that nothing has
changed (but it cuts off the database, so that the next run will update the target). -/
theorem fewer_lines_not_noticed :
    let es := [(1, Event.run 0 0 .complete), (1, .configure [[97]])]
    let w := history (start [[97], [98]] [] 0) es
    (run w 1 0 .complete).1 = .unchanged ∧ w.tgt = some (.full [[97], [98]] [], 1) ∧
    (run (run w 1 0 .complete).2 1 0 .complete).1 = .changed := by
  decide +kernel

/- Non-vacuity: a history with a change of options, a crash in the middle of the database
update and another one after it, that meets the hypotheses. -/
example : ∀ e ∈ [(1, Event.run 0 2 .complete), (3, .configure [[97], [99]]), (1, .run 1 0 (.duringDb 3)),
    (1, .run 0 0 .beforeTarget), (2, .edit 0 7)], OkEvent 2 e := by
  intro e he
  simp only [List.mem_cons, List.not_mem_nil, or_false] at he
  rcases he with rfl | rfl | rfl | rfl | rfl <;> simp [OkEvent, OkConfig, OkLine]

example :
    let es := [(1, Event.run 0 2 .complete), (3, .configure [[97], [99]]), (1, .run 1 0 (.duringDb 3)),
      (1, .run 0 0 .beforeTarget), (2, .edit 0 7)]
    let w := history (start [[97], [98]] [(5, 0)] 0) es
    w.tgt = some (.full [[97], [98]] [5], 3) ∧
    (step w 1 (.run 0 0 .complete)).tgt = some (.full [[97], [99]] [7], 12) := by
  decide +kernel

end Verif.Update
