import Verif.Active.Lemmas

/-! Helper lemmas: every step preserves the invariant. -/
set_option linter.unusedSimpArgs false
set_option linter.unusedVariables false

namespace Verif.Active

theorem running_some {s : St} {i : Nat} {t : Thr} (h : running s i = some t) :
    s.threads[i]? = some t ∧ t.st = .run ∧ t.pend = 0 := by
  unfold running at h
  split at h
  · split at h
    · cases h; exact ⟨‹_›, ‹_ ∧ _›.1, ‹_ ∧ _›.2⟩
    · cases h
  · cases h

/-- An active thread makes the count positive. -/
theorem active_pos {s : St} (c : Core s) {i : Nat} {t : Thr} (h : s.threads[i]? = some t)
    (hr : t.st = .run) : 1 + t.extra + s.jsActive ≤ s.active := by
  have h1 := tally_le (w := wSt .run) h
  have h2 := tally_le (w := (·.extra)) h
  have := c.act
  simp only [wSt, hr, if_true] at h1
  omega

theorem run_stall {s : St} (h : s.active ≠ 0) : Stall s := fun h' => absurd h' h

syntax "eqs_tac " ident ", " term ", " ident : tactic
set_option hygiene false in
macro_rules
  | `(tactic| eqs_tac $h, $q, $l) => `(tactic| (
      have e := (chg_set (q := $q) $h).eqs
      generalize List.set _ _ $q = $l at e ⊢
      obtain ⟨e1, e2, e3, e4, e5, e6, e7, e8, e9, e10, e11, e12, e13, en⟩ := e))

theorem deallocEnd_inv {s : St} {n : Nat} (h : Inv s) (ha : n ≠ 0 → s.active < s.max) :
    Inv (deallocEnd s n) := by
  unfold deallocEnd
  split
  · obtain ⟨h1, h2, h3, h4, h5, h6⟩ := payDebt_spec h.core (ha ‹_›)
    exact ⟨h1, h2 _ h.live, h3 h.stall, h6 h.mon⟩
  · exact h

theorem deallocLoop_inv {i k : Nat} : ∀ (n : Nat) {s : St}, Inv s → (n ≠ 0 → s.active < s.max) →
    (∃ t, s.threads[i]? = some t ∧ t.st = .run) → Inv (deallocLoop i k n s)
  | 0, s, h, _, _ => h
  | n + 1, s, h, ha, hi => by
    obtain ⟨t, ht, hst⟩ := hi
    unfold deallocLoop
    split
    · split
      · rename_i s' hs'
        obtain ⟨h1, h2, h3, h4, h5, h6, h7, h8, h9, _⟩ := activateHelper_spec h.core k (Or.inl hs')
        refine deallocLoop_inv n ⟨h1, h2 _ h.live, h3, h.mon.congr h6 h7 h8 h9⟩ ?_ ?_
        · intro _; rw [h4, h5]; exact ha (by simp)
        · -- the notified thread is another one
          unfold activateHelper at hs'
          split at hs'
          · injection hs' with hs'
            rw [← hs']
            unfold notifyOne
            split
            · rename_i j hj
              obtain ⟨u, hu, hus⟩ := pick_some hj
              have hne : j ≠ i := by
                intro e; subst e
                rw [ht] at hu; cases hu
                rw [hst] at hus; cases hus
              refine ⟨t, ?_, hst⟩
              simp only [setSt, hu]
              rw [List.getElem?_set_ne hne]; exact ht
            · exact ⟨t, ht, hst⟩
          · split at hs' <;> cases hs'
      · rename_i s' hs'
        obtain ⟨h1, h2, h3, h4, h5, h6, h7, h8, h9, _⟩ := activateHelper_spec h.core k (Or.inr hs')
        have hinv : Inv s' := ⟨h1, h2 _ h.live, h3, h.mon.congr h6 h7 h8 h9⟩
        have hg : s'.threads[i]? = some t := by
          unfold activateHelper at hs'
          split at hs'
          · cases hs'
          · split at hs'
            · injection hs' with hs'
              rw [← hs']
              dsimp only
              rw [List.getElem?_append_left, ht]
              rw [List.getElem?_eq_some_iff] at ht; exact ht.1
            · cases hs'
        simp only [hg]
        obtain ⟨c, l, st, m⟩ := hinv
        refine ⟨?_, ?_, ?_, m.congr rfl rfl rfl rfl⟩ <;>
          (eqs_tac hg, { t with pend := n + 1 }, l') <;>
          simp only [wSt, wWait, wExt, wHelper, wBad, wBad2, hst, reduceCtorEq, if_true, if_false,
            ne_eq, not_true_eq_false, not_false_eq_true, false_and, and_false, and_true,
            Nat.add_zero]
            at e1 e2 e3 e4 e5 e6 e7 e8 e9 e10 e11 e12 e13
        · obtain ⟨c1, c2, c3, c4, c5, c6, c7, c8, c9, c10, c11, c12, c13, c14⟩ := c
          refine ⟨c1, c2, ?_, ?_, ?_, ?_, ?_, ?_, ?_, ?_, ?_, ?_, ?_, c14⟩ <;> dsimp only <;>
            omega
        · simp only [Live] at *; omega
        · simp only [Stall] at *; omega
      · exact deallocEnd_inv h ha
    · exact deallocEnd_inv h ha

theorem inv_step {s s' : St} (h : Inv s) {o : Op} (e : step s o = some s') : Inv s' := by
  obtain ⟨c, l, st, m⟩ := h
  cases o with
  | deactivate i ext k =>
    simp only [step] at e
    split at e
    · rename_i t hr
      obtain ⟨hg, hst, hpd⟩ := running_some hr
      split at e
      · rename_i hh
        cases e
        have hp := active_pos c hg hst
        have hc0 := c
        apply release_inv
        · eqs_tac hg, { t with st := .wait ext }, l'
          cases ext <;>
          simp only [wSt, wWait, wExt, wHelper, wBad, wBad2, hst, hh, hpd, reduceCtorEq, if_true,
            if_false, Bool.false_eq_true,
            ne_eq, not_true_eq_false, not_false_eq_true, false_and, and_false, and_true,
            Nat.add_zero]
            at e1 e2 e3 e4 e5 e6 e7 e8 e9 e10 e11 e12 e13 ⊢ <;>
          (obtain ⟨c1, c2, c3, c4, c5, c6, c7, c8, c9, c10, c11, c12, c13, c14⟩ := c
           refine ⟨c1, ?_, ?_, ?_, ?_, ?_, ?_, ?_, ?_, ?_, ?_, ?_, ?_, c14⟩ <;> dsimp only <;>
            (try simp only [wHelper] at *) <;> omega)
        · eqs_tac hg, { t with st := .wait ext }, l'
          simp only [wSt, hst, reduceCtorEq, if_true, if_false] at e4 e5
          simp only [Live] at *; omega
        · have := c.le; dsimp only; omega
        · exact m.congr rfl rfl rfl rfl
      · cases e
    · cases e
  | activateBegin i =>
    simp only [step] at e
    split at e
    · rename_i t hg
      split at e
      · rename_i ext hst
        cases e
        have hb := bad_zero c hg (by simp [hst])
        have hw := tally_le (w := wWait) hg
        have hx := tally_le (w := wExt) hg
        eqs_tac hg, { t with st := .readyRun }, l'
        cases ext <;>
        simp only [wSt, wWait, wExt, wHelper, wBad, wBad2, hst, hb, reduceCtorEq, if_true, if_false,
          Bool.false_eq_true, ne_eq, not_true_eq_false, not_false_eq_true, false_and, and_false,
          and_true, Nat.add_zero]
          at e1 e2 e3 e4 e5 e6 e7 e8 e9 e10 e11 e12 e13 hw hx ⊢ <;>
        (refine ⟨?_, ?_, ?_, m.congr rfl rfl rfl rfl⟩
         · obtain ⟨c1, c2, c3, c4, c5, c6, c7, c8, c9, c10, c11, c12, c13, c14⟩ := c
           refine ⟨c1, ?_, ?_, ?_, ?_, ?_, ?_, ?_, ?_, ?_, ?_, ?_, ?_, c14⟩ <;> dsimp only <;>
            (try simp only [wHelper] at *) <;> omega
         · simp only [Live] at *; omega
         · simp only [Stall] at *; omega)
      · cases e
    · cases e
  | activateTry i =>
    simp only [step] at e
    split at e
    · rename_i t hg
      split at e
      · rename_i hst
        have hb := bad_zero c hg (by simp [hst])
        have hw := tally_le (w := wSt .readyRun) hg
        split at e
        · cases e
          eqs_tac hg, { t with st := .readySleep }, l'
          simp only [wSt, wWait, wExt, wHelper, wBad, wBad2, hst, hb, reduceCtorEq, if_true, if_false,
            Bool.false_eq_true, ne_eq, not_true_eq_false, not_false_eq_true, false_and, and_false,
            and_true, Nat.add_zero]
            at e1 e2 e3 e4 e5 e6 e7 e8 e9 e10 e11 e12 e13 hw ⊢
          obtain ⟨c1, c2, c3, c4, c5, c6, c7, c8, c9, c10, c11, c12, c13, c14⟩ := c
          refine ⟨⟨c1, ?_, ?_, ?_, ?_, ?_, ?_, ?_, ?_, ?_, ?_, ?_, ?_, c14⟩, ?_, ?_,
            m.congr rfl rfl rfl rfl⟩ <;> simp only [Live, Stall] at * <;>
            (try simp only [wHelper] at *) <;> omega
        · cases e
          eqs_tac hg, { t with st := .run }, l'
          simp only [wSt, wWait, wExt, wHelper, wBad, wBad2, hst, hb, reduceCtorEq, if_true, if_false,
            Bool.false_eq_true, ne_eq, not_true_eq_false, not_false_eq_true, false_and, and_false,
            and_true, Nat.add_zero]
            at e1 e2 e3 e4 e5 e6 e7 e8 e9 e10 e11 e12 e13 hw ⊢
          obtain ⟨c1, c2, c3, c4, c5, c6, c7, c8, c9, c10, c11, c12, c13, c14⟩ := c
          refine ⟨⟨c1, ?_, ?_, ?_, ?_, ?_, ?_, ?_, ?_, ?_, ?_, ?_, ?_, c14⟩, ?_, ?_,
            m.congr rfl rfl rfl rfl⟩ <;> simp only [Live, Stall] at * <;>
            (try simp only [wHelper] at *) <;> omega
      · cases e
    · cases e
  | spurious i =>
    simp only [step] at e
    split at e
    · rename_i t hg
      split at e
      · rename_i hst
        have hb := bad_zero c hg (by simp [hst])
        cases e
        eqs_tac hg, { t with st := .readyRun }, l'
        simp only [wSt, wWait, wExt, wHelper, wBad, wBad2, hst, hb, reduceCtorEq, if_true, if_false,
            Bool.false_eq_true, ne_eq, not_true_eq_false, not_false_eq_true, false_and, and_false,
            and_true, Nat.add_zero]
            at e1 e2 e3 e4 e5 e6 e7 e8 e9 e10 e11 e12 e13 ⊢
        obtain ⟨c1, c2, c3, c4, c5, c6, c7, c8, c9, c10, c11, c12, c13, c14⟩ := c
        refine ⟨⟨c1, ?_, ?_, ?_, ?_, ?_, ?_, ?_, ?_, ?_, ?_, ?_, ?_, c14⟩, ?_, ?_,
            m.congr rfl rfl rfl rfl⟩ <;> simp only [Live, Stall] at * <;>
            (try simp only [wHelper] at *) <;> omega
      · rename_i hst
        have hb := bad_zero c hg (by simp [hst])
        cases e
        eqs_tac hg, { t with st := .idleWoken }, l'
        simp only [wSt, wWait, wExt, wHelper, wBad, wBad2, hst, hb, reduceCtorEq, if_true, if_false,
            Bool.false_eq_true, ne_eq, not_true_eq_false, not_false_eq_true, false_and, and_false,
            and_true, Nat.add_zero]
            at e1 e2 e3 e4 e5 e6 e7 e8 e9 e10 e11 e12 e13 ⊢
        obtain ⟨c1, c2, c3, c4, c5, c6, c7, c8, c9, c10, c11, c12, c13, c14⟩ := c
        refine ⟨⟨c1, ?_, ?_, ?_, ?_, ?_, ?_, ?_, ?_, ?_, ?_, ?_, ?_, c14⟩, ?_, ?_,
            m.congr rfl rfl rfl rfl⟩ <;> simp only [Live, Stall] at * <;>
            (try simp only [wHelper] at *) <;> omega
      · cases e
    · cases e
  | push i =>
    simp only [step, Option.map_eq_some_iff] at e
    obtain ⟨t, hr, rfl⟩ := e
    obtain ⟨hg, hst, hpd⟩ := running_some hr
    have hp := active_pos c hg hst
    refine ⟨⟨c.pos, c.le, c.act, c.wai, c.ext, c.rdy, c.idl, c.sta, c.hel, c.len, c.bad, c.bad2,
      c.tok, c.debt⟩, l, run_stall ?_, m.congr rfl rfl rfl rfl⟩
    dsimp only; omega
  | pop i =>
    simp only [step, Option.bind_eq_some_iff] at e
    obtain ⟨t, hr, e⟩ := e
    obtain ⟨hg, hst, hpd⟩ := running_some hr
    have hp := active_pos c hg hst
    split at e
    · cases e
      refine ⟨⟨c.pos, c.le, c.act, c.wai, c.ext, c.rdy, c.idl, c.sta, c.hel, c.len, c.bad, c.bad2,
        c.tok, c.debt⟩, l, run_stall ?_, m.congr rfl rfl rfl rfl⟩
      dsimp only; omega
    · cases e
  | kick i k =>
    simp only [step, Option.map_eq_some_iff] at e
    obtain ⟨t, hr, rfl⟩ := e
    split
    · split
      · obtain ⟨h1, h2, h3, h4, h5, h6, h7, h8, h9, _⟩ := activateHelper_spec c k (Or.inl ‹_›)
        exact ⟨h1, h2 _ l, h3, m.congr h6 h7 h8 h9⟩
      · obtain ⟨h1, h2, h3, h4, h5, h6, h7, h8, h9, _⟩ := activateHelper_spec c k (Or.inr ‹_›)
        exact ⟨h1, h2 _ l, h3, m.congr h6 h7 h8 h9⟩
      · exact ⟨c, l, st, m⟩
    · exact ⟨c, l, st, m⟩
  | allocate i n =>
    simp only [step, Option.map_eq_some_iff] at e
    obtain ⟨t, hr, rfl⟩ := e
    obtain ⟨hg, hst, hpd⟩ := running_some hr
    have hp := active_pos c hg hst
    split
    · rename_i hlt
      have hn : (if n = 0 ∨ s.max - s.active < n then s.max - s.active else n) ≤
          s.max - s.active := by split <;> omega
      generalize (if n = 0 ∨ s.max - s.active < n then s.max - s.active else n) = d at hn ⊢
      eqs_tac hg, { t with extra := t.extra + d }, l'
      simp only [wSt, wWait, wExt, wHelper, wBad, wBad2, hst, hpd, reduceCtorEq, if_true, if_false,
            Bool.false_eq_true, ne_eq, not_true_eq_false, not_false_eq_true, false_and, and_false,
            and_true, Nat.add_zero]
            at e1 e2 e3 e4 e5 e6 e7 e8 e9 e10 e11 e12 e13 ⊢
      obtain ⟨c1, c2, c3, c4, c5, c6, c7, c8, c9, c10, c11, c12, c13, c14⟩ := c
      refine ⟨⟨c1, ?_, ?_, ?_, ?_, ?_, ?_, ?_, ?_, ?_, ?_, ?_, ?_, c14⟩, ?_, ?_,
            m.congr rfl rfl rfl rfl⟩ <;> simp only [Live, Stall] at * <;>
            (try simp only [wHelper] at *) <;> omega
    · exact ⟨c, l, st, m⟩
  | deallocate i n k =>
    simp only [step, Option.bind_eq_some_iff] at e
    obtain ⟨t, hr, e⟩ := e
    obtain ⟨hg, hst, hpd⟩ := running_some hr
    have hp := active_pos c hg hst
    split at e
    · rename_i hn
      have hle := c.le
      have hrdy := c.rdy
      have hi' : ∃ u, (s.threads.set i { t with extra := t.extra - n })[i]? = some u ∧
          u.st = .run := by
        refine ⟨{ t with extra := t.extra - n }, ?_, hst⟩
        rw [List.getElem?_set_self]
        rw [List.getElem?_eq_some_iff] at hg; exact hg.1
      -- the state after the release
      have hcore : Core { s with active := s.active - n, threads := s.threads.set i { t with extra := t.extra - n } } ∧
          Live n { s with active := s.active - n, threads := s.threads.set i { t with extra := t.extra - n } } := by
        eqs_tac hg, { t with extra := t.extra - n }, l'
        simp only [wSt, wWait, wExt, wHelper, wBad, wBad2, hst, hpd, reduceCtorEq, if_true, if_false,
            Bool.false_eq_true, ne_eq, not_true_eq_false, not_false_eq_true, false_and, and_false,
            and_true, Nat.add_zero]
            at e1 e2 e3 e4 e5 e6 e7 e8 e9 e10 e11 e12 e13 ⊢
        obtain ⟨c1, c2, c3, c4, c5, c6, c7, c8, c9, c10, c11, c12, c13, c14⟩ := c
        refine ⟨⟨c1, ?_, ?_, ?_, ?_, ?_, ?_, ?_, ?_, ?_, ?_, ?_, ?_, c14⟩, ?_⟩ <;>
            simp only [Live] at * <;> (try simp only [wHelper] at *) <;> omega
      have hact : s.active - n ≠ 0 := by omega
      have hmon : InvMon { s with active := s.active - n, threads := s.threads.set i { t with extra := t.extra - n } } :=
        m.congr rfl rfl rfl rfl
      have hlt : s.active - n < s.max := by omega
      generalize s.threads.set i { t with extra := t.extra - n } = l' at *
      obtain ⟨hc', hl'⟩ := hcore
      have hrdy' := hc'.rdy
      split at e
      · rename_i hr0
        injection e with e
        rw [← e]
        apply deallocEnd_inv
        · split
          · obtain ⟨h1, h2, h3, h4, h5, h6, h7, h8, h9⟩ := notifyAllReady_spec hc'
            exact ⟨h1, h2, h3 hr0, hmon.congr h6 h7 h8 h9⟩
          · rename_i hno
            obtain ⟨h1, h2, h3, h4, h5, h6, h7, h8, h9⟩ := notifyReady_spec hc' k
            refine ⟨h1, ?_, h3 hr0, hmon.congr h6 h7 h8 h9⟩
            by_cases hn1 : n = 1
            · subst hn1; exact h2 hl'
            · -- a single ready thread: after the notification nobody sleeps
              have hr1 : s.ready = 1 := by omega
              intro hs0
              have hrd := h1.rdy
              have hreq : (notifyOne { s with active := s.active - n, threads := l' } .readySleep
                .readyRun k).ready = s.ready := by
                unfold notifyOne; split <;> rfl
              rw [hreq] at hrd
              -- somebody was woken, so exactly this one
              exfalso
              have : tally (wSt .readyRun) (notifyOne { s with active := s.active - n, threads := l' }
                  .readySleep .readyRun k).threads ≠ 0 := by
                unfold notifyOne at hs0 ⊢
                split
                · rename_i j hj
                  obtain ⟨u, hu, hus⟩ := pick_some hj
                  simp only [setSt, hu]
                  have hl : j < l'.length := by
                    dsimp only at hu
                    rw [List.getElem?_eq_some_iff] at hu; exact hu.1
                  have hx : (l'.set j { u with st := .readyRun })[j]? =
                    some { u with st := .readyRun } := List.getElem?_set_self hl
                  have := tally_le (w := wSt .readyRun) hx
                  simp only [wSt, if_true] at this
                  omega
                · rename_i hj
                  have h0 := pick_none hj
                  rw [hj] at hs0
                  exact absurd h0 hs0
              generalize notifyOne { s with active := s.active - n, threads := l' } .readySleep .readyRun k = N at *
              omega
        · intro _
          split
          · exact hlt
          · obtain ⟨h1, h2, h3, h4, h5, h6, h7, h8, h9⟩ := notifyReady_spec hc' k
            rw [h4, h5]; exact hlt
      · rename_i hr0
        injection e with e
        rw [← e]
        apply deallocLoop_inv
        · refine ⟨hc', ?_, run_stall hact, hmon⟩
          intro h
          dsimp only at hrdy' h
          omega
        · intro _; exact hlt
        · exact hi'
    · cases e
  | deallocResume i k =>
    simp only [step] at e
    split at e
    · rename_i t hg
      split at e
      · rename_i hpd
        have hst : t.st = .run := by
          apply Decidable.byContradiction
          intro h
          exact hpd (bad_zero c hg h).2
        have hp := active_pos c hg hst
        injection e with e
        rw [← e]
        apply deallocLoop_inv
        · eqs_tac hg, { t with pend := 0 }, l'
          simp only [wSt, wWait, wExt, wHelper, wBad, wBad2, hst, hpd, reduceCtorEq, if_true,
            if_false,
            Bool.false_eq_true, ne_eq, not_true_eq_false, not_false_eq_true, false_and, and_false,
            and_true, Nat.add_zero]
            at e1 e2 e3 e4 e5 e6 e7 e8 e9 e10 e11 e12 e13 ⊢
          obtain ⟨c1, c2, c3, c4, c5, c6, c7, c8, c9, c10, c11, c12, c13, c14⟩ := c
          refine ⟨⟨c1, ?_, ?_, ?_, ?_, ?_, ?_, ?_, ?_, ?_, ?_, ?_, ?_, c14⟩, ?_, ?_,
            m.congr rfl rfl rfl rfl⟩ <;> simp only [Live, Stall] at * <;>
            (try simp only [wHelper] at *) <;> omega
        · dsimp only
          intro h
          have := c.le
          split at h <;> split at h <;> omega
        · refine ⟨{ t with pend := 0 }, ?_, hst⟩
          dsimp only
          rw [List.getElem?_set_self]
          rw [List.getElem?_eq_some_iff] at hg; exact hg.1
      · cases e
    · cases e
  | serialize i =>
    simp only [step, Option.bind_eq_some_iff] at e
    obtain ⟨t, hr, e⟩ := e
    obtain ⟨hg, hst, hpd⟩ := running_some hr
    have hp := active_pos c hg hst
    split at e
    · cases e
      eqs_tac hg, { t with extra := t.extra + (s.max - 1) }, l'
      simp only [wSt, wWait, wExt, wHelper, wBad, wBad2, hst, hpd, reduceCtorEq, if_true, if_false,
            Bool.false_eq_true, ne_eq, not_true_eq_false, not_false_eq_true, false_and, and_false,
            and_true, Nat.add_zero]
            at e1 e2 e3 e4 e5 e6 e7 e8 e9 e10 e11 e12 e13 ⊢
      obtain ⟨c1, c2, c3, c4, c5, c6, c7, c8, c9, c10, c11, c12, c13, c14⟩ := c
      refine ⟨⟨c1, ?_, ?_, ?_, ?_, ?_, ?_, ?_, ?_, ?_, ?_, ?_, ?_, c14⟩, ?_, ?_,
            m.congr rfl rfl rfl rfl⟩ <;> simp only [Live, Stall] at * <;>
            (try simp only [wHelper] at *) <;> omega
    · cases e
  | helperGo i =>
    simp only [step] at e
    split at e
    · rename_i t hg
      simp only [Option.map_eq_some_iff] at e
      obtain ⟨a, ha, e⟩ := e
      split at ha
      · rename_i hst
        have hb := bad_zero c hg (by simp [hst])
        have hw := tally_le (w := wSt .starting) hg
        cases ha
        rw [← e]
        dsimp only
        split
        · eqs_tac hg, { t with st := .run }, l'
          simp only [wSt, wWait, wExt, wHelper, wBad, wBad2, hst, hb, reduceCtorEq, if_true, if_false,
            Bool.false_eq_true, ne_eq, not_true_eq_false, not_false_eq_true, false_and, and_false,
            and_true, Nat.add_zero]
            at e1 e2 e3 e4 e5 e6 e7 e8 e9 e10 e11 e12 e13 hw ⊢
          obtain ⟨c1, c2, c3, c4, c5, c6, c7, c8, c9, c10, c11, c12, c13, c14⟩ := c
          refine ⟨⟨c1, ?_, ?_, ?_, ?_, ?_, ?_, ?_, ?_, ?_, ?_, ?_, ?_, c14⟩, ?_, ?_,
            m.congr rfl rfl rfl rfl⟩ <;> simp only [Live, Stall] at * <;>
            (try simp only [wHelper] at *) <;> omega
        · eqs_tac hg, { t with st := .idleSleep }, l'
          simp only [wSt, wWait, wExt, wHelper, wBad, wBad2, hst, hb, reduceCtorEq, if_true, if_false,
            Bool.false_eq_true, ne_eq, not_true_eq_false, not_false_eq_true, false_and, and_false,
            and_true, Nat.add_zero]
            at e1 e2 e3 e4 e5 e6 e7 e8 e9 e10 e11 e12 e13 hw ⊢
          obtain ⟨c1, c2, c3, c4, c5, c6, c7, c8, c9, c10, c11, c12, c13, c14⟩ := c
          refine ⟨⟨c1, ?_, ?_, ?_, ?_, ?_, ?_, ?_, ?_, ?_, ?_, ?_, ?_, c14⟩, ?_, ?_,
            m.congr rfl rfl rfl rfl⟩ <;> simp only [Live, Stall] at * <;>
            (try simp only [wHelper] at *) <;> omega
      · split at ha
        · rename_i hst
          have hb := bad_zero c hg (by simp [hst])
          have hw := tally_le (w := wSt .idleWoken) hg
          cases ha
          rw [← e]
          dsimp only
          split
          · eqs_tac hg, { t with st := .run }, l'
            simp only [wSt, wWait, wExt, wHelper, wBad, wBad2, hst, hb, reduceCtorEq, if_true,
              if_false,
              Bool.false_eq_true, ne_eq, not_true_eq_false, not_false_eq_true, false_and, and_false,
              and_true, Nat.add_zero]
              at e1 e2 e3 e4 e5 e6 e7 e8 e9 e10 e11 e12 e13 hw ⊢
            obtain ⟨c1, c2, c3, c4, c5, c6, c7, c8, c9, c10, c11, c12, c13, c14⟩ := c
            refine ⟨⟨c1, ?_, ?_, ?_, ?_, ?_, ?_, ?_, ?_, ?_, ?_, ?_, ?_, c14⟩, ?_, ?_,
              m.congr rfl rfl rfl rfl⟩ <;> simp only [Live, Stall] at * <;>
              (try simp only [wHelper] at *) <;> omega
          · eqs_tac hg, { t with st := .idleSleep }, l'
            simp only [wSt, wWait, wExt, wHelper, wBad, wBad2, hst, hb, reduceCtorEq, if_true,
              if_false,
              Bool.false_eq_true, ne_eq, not_true_eq_false, not_false_eq_true, false_and, and_false,
              and_true, Nat.add_zero]
              at e1 e2 e3 e4 e5 e6 e7 e8 e9 e10 e11 e12 e13 hw ⊢
            obtain ⟨c1, c2, c3, c4, c5, c6, c7, c8, c9, c10, c11, c12, c13, c14⟩ := c
            refine ⟨⟨c1, ?_, ?_, ?_, ?_, ?_, ?_, ?_, ?_, ?_, ?_, ?_, ?_, c14⟩, ?_, ?_,
              m.congr rfl rfl rfl rfl⟩ <;> simp only [Live, Stall] at * <;>
              (try simp only [wHelper] at *) <;> omega
        · cases ha
    · cases e
  | helperEnd i k =>
    simp only [step] at e
    split at e
    · rename_i t hr
      obtain ⟨hg, hst, hpd⟩ := running_some hr
      have hp := active_pos c hg hst
      split at e
      · rename_i hh
        have hle := c.le
        have hcore : Core { s with active := s.active - 1, idle := s.idle + 1, threads := s.threads.set i { t with st := .idleSleep } } ∧
            Live 1 { s with active := s.active - 1, idle := s.idle + 1, threads := s.threads.set i { t with st := .idleSleep } } := by
          eqs_tac hg, { t with st := .idleSleep }, l'
          simp only [wSt, wWait, wExt, wHelper, wBad, wBad2, hst, hh, hpd, reduceCtorEq, if_true,
            if_false,
            Bool.false_eq_true, ne_eq, not_true_eq_false, not_false_eq_true, false_and, and_false,
            and_true, Nat.add_zero]
            at e1 e2 e3 e4 e5 e6 e7 e8 e9 e10 e11 e12 e13 ⊢
          obtain ⟨c1, c2, c3, c4, c5, c6, c7, c8, c9, c10, c11, c12, c13, c14⟩ := c
          refine ⟨⟨c1, ?_, ?_, ?_, ?_, ?_, ?_, ?_, ?_, ?_, ?_, ?_, ?_, c14⟩, ?_⟩ <;>
            simp only [Live] at * <;> (try simp only [wHelper] at *) <;> omega
        have hmon : InvMon { s with active := s.active - 1, idle := s.idle + 1, threads := s.threads.set i { t with st := .idleSleep } } :=
          m.congr rfl rfl rfl rfl
        generalize s.threads.set i { t with st := .idleSleep } = l' at *
        obtain ⟨hc', hl'⟩ := hcore
        have hrdy' := hc'.rdy
        injection e with e
        rw [← e]
        split
        · rename_i hr0
          obtain ⟨h1, h2, h3, h4, h5, h6, h7, h8, h9⟩ := notifyReady_spec hc' k
          exact ⟨h1, h2 hl', h3 hr0, hmon.congr h6 h7 h8 h9⟩
        · rename_i hr0
          obtain ⟨h1, h2, h3, h4, h5, h6⟩ := payDebt_spec hc' (by dsimp only; omega)
          refine ⟨h1, h2 _ ?_, h3 ?_, h6 hmon⟩
          · intro h; dsimp only at hrdy' h; omega
          · intro _ hq; exact absurd hh.2.2 hq
      · cases e
    · cases e
  | clientTake i =>
    simp only [step, Option.bind_eq_some_iff] at e
    obtain ⟨t, hr, e⟩ := e
    obtain ⟨hg, hst, hpd⟩ := running_some hr
    split at e
    · cases e
      eqs_tac hg, { t with held := t.held + 1 }, l'
      simp only [wSt, wWait, wExt, wHelper, wBad, wBad2, hst, hpd, reduceCtorEq, if_true, if_false,
            Bool.false_eq_true, ne_eq, not_true_eq_false, not_false_eq_true, false_and, and_false,
            and_true, Nat.add_zero]
            at e1 e2 e3 e4 e5 e6 e7 e8 e9 e10 e11 e12 e13 ⊢
      obtain ⟨c1, c2, c3, c4, c5, c6, c7, c8, c9, c10, c11, c12, c13, c14⟩ := c
      refine ⟨⟨c1, ?_, ?_, ?_, ?_, ?_, ?_, ?_, ?_, ?_, ?_, ?_, ?_, c14⟩, ?_, ?_,
            m.congr rfl rfl rfl rfl⟩ <;> simp only [Live, Stall] at * <;>
            (try simp only [wHelper] at *) <;> omega
    · cases e
  | clientReturn i =>
    simp only [step, Option.bind_eq_some_iff] at e
    obtain ⟨t, hr, e⟩ := e
    obtain ⟨hg, hst, hpd⟩ := running_some hr
    split at e
    · cases e
      eqs_tac hg, { t with held := t.held - 1 }, l'
      simp only [wSt, wWait, wExt, wHelper, wBad, wBad2, hst, hpd, reduceCtorEq, if_true, if_false,
            Bool.false_eq_true, ne_eq, not_true_eq_false, not_false_eq_true, false_and, and_false,
            and_true, Nat.add_zero]
            at e1 e2 e3 e4 e5 e6 e7 e8 e9 e10 e11 e12 e13 ⊢
      obtain ⟨c1, c2, c3, c4, c5, c6, c7, c8, c9, c10, c11, c12, c13, c14⟩ := c
      refine ⟨⟨c1, ?_, ?_, ?_, ?_, ?_, ?_, ?_, ?_, ?_, ?_, ?_, ?_, c14⟩, ?_, ?_,
            m.congr rfl rfl rfl rfl⟩ <;> simp only [Live, Stall] at * <;>
            (try simp only [wHelper] at *) <;> omega
    · cases e
  | phase i mt r q =>
    simp only [step, Option.map_eq_some_iff] at e
    obtain ⟨t, hr, rfl⟩ := e
    obtain ⟨hg, hst, hpd⟩ := running_some hr
    have hp := active_pos c hg hst
    refine ⟨⟨c.pos, c.le, c.act, c.wai, c.ext, c.rdy, c.idl, c.sta, c.hel, c.len, c.bad, c.bad2,
      c.tok, c.debt⟩, l, run_stall ?_, m.congr rfl rfl rfl rfl⟩
    dsimp only; omega
  | monitor k =>
    simp only [step] at e
    injection e with e
    rw [← e]
    unfold monStep
    obtain ⟨c1, c2, c3, c4, c5, c6, c7, c8, c9, c10, c11, c12, c13, c14⟩ := id c
    split
    · rename_i hm
      simp only [InvMon, hm] at m
      exact ⟨⟨c1, c2, c3, c4, c5, c6, c7, c8, c9, c10, c11, c12, c13, c14⟩, l, st, m⟩
    · rename_i hm
      simp only [InvMon, hm] at m
      refine ⟨⟨c1, c2, c3, c4, c5, c6, c7, c8, c9, c10, c11, c12, c13, c14⟩, l, st, ?_⟩
      simp only [InvMon]
      omega
    · rename_i hm
      simp only [InvMon, hm] at m
      refine ⟨⟨c1, c2, c3, c4, c5, c6, c7, c8, c9, c10, c11, c12, ?_, ?_⟩, l, st, ?_⟩
      · dsimp only; omega
      · dsimp only; intro h; rw [m.2] at h; cases h
      · simp only [InvMon]; omega
    · rename_i hm
      simp only [InvMon, hm] at m
      split
      · refine ⟨⟨c1, c2, c3, c4, c5, c6, c7, c8, c9, c10, c11, c12, ?_, ?_⟩, l, st, ?_⟩
        · dsimp only; omega
        · dsimp only; intro h; rw [m.2] at h; cases h
        · simp only [InvMon]; omega
      · refine ⟨⟨c1, c2, c3, c4, c5, c6, c7, c8, c9, c10, c11, c12, c13, c14⟩, l, st, ?_⟩
        simp only [InvMon]; omega
    · rename_i hm
      simp only [InvMon, hm] at m
      split
      · split
        · refine ⟨⟨c1, ?_, ?_, c4, c5, c6, c7, c8, c9, c10, c11, c12, c13, ?_⟩, ?_, ?_, ?_⟩
          · dsimp only; omega
          · dsimp only; omega
          · intro h; cases h
          · simp only [Live] at *; omega
          · intro h; simp at h
          · simp only [InvMon]; refine ⟨by omega, trivial⟩
        · refine ⟨⟨c1, c2, c3, c4, c5, c6, c7, c8, c9, c10, c11, c12, c13, ?_⟩, l, st, ?_⟩
          · intro _; dsimp only; omega
          · simp only [InvMon]; omega
      · refine ⟨⟨c1, c2, c3, c4, c5, c6, c7, c8, c9, c10, c11, c12, c13, ?_⟩, l, st, ?_⟩
        · intro h; cases h
        · simp only [InvMon]; refine ⟨by omega, trivial⟩
    · rename_i r hm
      simp only [InvMon, hm] at m
      dsimp only
      split
      · rename_i heq
        have hcore : Core { s with jsActive := s.jsActive - 1, active := s.active - 1, jsDebt := false, mon := if r + 1 > 1 then .read else .sleep } := by
          refine ⟨c1, ?_, ?_, c4, c5, c6, c7, c8, c9, c10, c11, c12, c13, ?_⟩
          · dsimp only; omega
          · dsimp only; omega
          · intro h; cases h
        have hmon : InvMon { s with jsActive := s.jsActive - 1, active := s.active - 1, jsDebt := false, mon := if r + 1 > 1 then .read else .sleep } := by
          by_cases hr : r + 1 > 1
          · simp only [InvMon, hr, if_true, and_true]; omega
          · simp only [InvMon, hr, if_false]; omega
        have hlive : Live 1 { s with jsActive := s.jsActive - 1, active := s.active - 1, jsDebt := false, mon := if r + 1 > 1 then .read else .sleep } := by
          simp only [Live] at *; omega
        split
        · rename_i hr0
          obtain ⟨h1, h2, h3, h4, h5, h6, h7, h8, h9⟩ := notifyReady_spec hcore k
          exact ⟨h1, h2 hlive, h3 hr0, hmon.congr h6 h7 h8 h9⟩
        · rename_i hr0
          have hl0 : Live 0 { s with jsActive := s.jsActive - 1, active := s.active - 1, jsDebt := false, mon := if r + 1 > 1 then .read else .sleep } := by
            intro h; dsimp only at h hr0; omega
          split
          · split
            · obtain ⟨h1, h2, h3, h4, h5, h6, h7, h8, h9, _⟩ :=
                activateHelper_spec hcore k (Or.inl ‹_›)
              exact ⟨h1, h2 _ hl0, h3, hmon.congr h6 h7 h8 h9⟩
            · obtain ⟨h1, h2, h3, h4, h5, h6, h7, h8, h9, _⟩ :=
                activateHelper_spec hcore k (Or.inr ‹_›)
              exact ⟨h1, h2 _ hl0, h3, hmon.congr h6 h7 h8 h9⟩
            · have hn := activateHelper_no ‹_›
              exact ⟨hcore, hl0, fun h h' => absurd ⟨h, h'⟩ hn, hmon⟩
          · rename_i hq
            exact ⟨hcore, hl0, fun _ h' => absurd h' hq, hmon⟩
      · rename_i hne
        refine ⟨⟨c1, c2, c3, c4, c5, c6, c7, c8, c9, c10, c11, c12, c13, ?_⟩, l, st, ?_⟩
        · intro h; cases h
        · by_cases hr : r + 1 > 1
          · simp only [InvMon, hr, if_true, and_true]; omega
          · simp only [InvMon, hr, if_false]; omega

theorem notifyOne_max (s : St) (f g : TS) (k : Nat) : (notifyOne s f g k).max = s.max := by
  unfold notifyOne; split <;> rfl

theorem payDebt_max (s : St) : (payDebt s).max = s.max := by
  unfold payDebt; split <;> rfl

theorem activateHelper_max {s s' : St} {k : Nat}
    (h : activateHelper s k = .kept s' ∨ activateHelper s k = .created s') : s'.max = s.max := by
  unfold activateHelper at h
  split at h
  · rcases h with h | h
    · injection h with h; rw [← h]; exact notifyOne_max ..
    · cases h
  · split at h
    · rcases h with h | h
      · cases h
      · injection h with h; rw [← h]
    · rcases h with h | h <;> cases h

theorem release_max (s : St) (k : Nat) : (release s k).max = s.max := by
  unfold release
  split
  · exact notifyOne_max ..
  · split
    · split
      · exact activateHelper_max (Or.inl ‹_›)
      · exact activateHelper_max (Or.inr ‹_›)
      · exact payDebt_max _
    · exact payDebt_max _

theorem deallocEnd_max (s : St) (n : Nat) : (deallocEnd s n).max = s.max := by
  unfold deallocEnd; split
  · exact payDebt_max _
  · rfl

theorem deallocLoop_max (i k : Nat) : ∀ (n : Nat) (s : St), (deallocLoop i k n s).max = s.max
  | 0, s => rfl
  | n + 1, s => by
    unfold deallocLoop
    split
    · split
      · rw [deallocLoop_max]; exact activateHelper_max (Or.inl ‹_›)
      · have := activateHelper_max (Or.inr ‹_›)
        split <;> exact this
      · exact deallocEnd_max ..
    · exact deallocEnd_max ..

theorem monStep_max (s : St) (k : Nat) : (monStep s k).max = s.max := by
  unfold monStep
  split
  · rfl
  · rfl
  · rfl
  · split <;> rfl
  · split
    · split <;> rfl
    · rfl
  · dsimp only
    split
    · split
      · exact notifyOne_max ..
      · split
        · split
          · have := activateHelper_max (Or.inl ‹_›); exact this
          · have := activateHelper_max (Or.inr ‹_›); exact this
          · rfl
        · rfl
    · rfl

theorem step_max {s s' : St} {o : Op} (e : step s o = some s') : s'.max = s.max := by
  cases o <;> simp only [step, Option.map_eq_some_iff, Option.bind_eq_some_iff] at e
  case deactivate i ext k =>
    split at e
    · split at e
      · injection e with e; rw [← e]; exact release_max ..
      · cases e
    · cases e
  case deallocate i n k =>
    obtain ⟨t, _, e⟩ := e
    split at e
    · split at e
      · injection e with e; rw [← e, deallocEnd_max]
        split
        · rfl
        · exact notifyOne_max ..
      · injection e with e; rw [← e, deallocLoop_max]
    · cases e
  case deallocResume i k =>
    split at e
    · split at e
      · injection e with e; rw [← e, deallocLoop_max]
      · cases e
    · cases e
  case helperEnd i k =>
    split at e
    · split at e
      · injection e with e; rw [← e]
        split
        · exact notifyOne_max ..
        · exact payDebt_max _
      · cases e
    · cases e
  case kick i k =>
    obtain ⟨t, _, e⟩ := e
    rw [← e]
    split
    · split
      · exact activateHelper_max (Or.inl ‹_›)
      · exact activateHelper_max (Or.inr ‹_›)
      · rfl
    · rfl
  case monitor k => injection e with e; rw [← e]; exact monStep_max ..
  case helperGo i =>
    split at e
    · obtain ⟨a, ha, e⟩ := Option.map_eq_some_iff.1 e
      have : a.max = s.max := by
        split at ha
        · cases ha; rfl
        · split at ha <;> cases ha; rfl
      rw [← this, ← e]
      split <;> rfl
    · cases e
  case activateBegin i => 
    split at e
    · split at e
      · cases e; rfl
      · cases e
    · cases e
  case activateTry i => 
    split at e
    · split at e
      · split at e <;> (cases e; rfl)
      · cases e
    · cases e
  case spurious i => 
    split at e
    · split at e
      · cases e; rfl
      · cases e; rfl
      · cases e
    · cases e
  all_goals
    obtain ⟨t, _, e⟩ := e
    first
    | (cases e; rfl)
    | (rw [← e]; split <;> rfl)
    | (split at e <;> cases e; rfl)

theorem inv_reach {max maxThreads : Nat} (hm : 1 ≤ max) {s : St} (h : Reach max maxThreads s) :
    Inv s ∧ s.max = max := by
  induction h with
  | init =>
    refine ⟨⟨⟨hm, hm, rfl, rfl, rfl, rfl, rfl, rfl, rfl, rfl, rfl, rfl, rfl, ?_⟩, ?_, ?_, ?_⟩, rfl⟩
    · intro h; cases h
    · intro h; exact absurd rfl h
    · intro h; cases h
    · exact ⟨rfl, rfl⟩
  | step _ e ih => 
    exact ⟨inv_step ih.1 e, (step_max e).trans ih.2⟩

end Verif.Active
