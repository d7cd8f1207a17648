import Verif.Active.Step

/-!
# Threads and the jobserver (C14, C15, C43)

`Reach max maxThreads s`: `s` can be reached by a scheduler that was started
with at most `max` active threads by any sequence of steps of its threads, its
jobserver monitor and the jobserver clients. `s.num f` is the number of threads
that are in state `f`; `s.allocated` is the number of slots threads have
allocated and `s.clients` the number of jobserver tokens the clients hold.
-/
namespace Verif.Active

theorem num_tally (s : St) (f : TS) : s.num f = tally (wSt f) s.threads := by
  unfold St.num
  generalize s.threads = l
  induction l with
  | nil => rfl
  | cons a l ih =>
    simp only [List.countP_cons, tally, List.map_cons, List.sum_cons] at ih ⊢
    rw [ih]
    unfold wSt
    by_cases h : a.st = f <;> simp [h] <;> omega

theorem wWait_num (s : St) : tally wWait s.threads = s.num (.wait false) + s.num (.wait true) := by
  rw [num_tally, num_tally]
  generalize s.threads = l
  induction l with
  | nil => rfl
  | cons a l ih =>
    simp only [tally, List.map_cons, List.sum_cons] at ih ⊢
    have : wWait a = wSt (.wait false) a + wSt (.wait true) a := by
      unfold wWait wSt
      rcases a with ⟨st, _⟩
      cases st with
      | wait e => cases e <;> rfl
      | _ => rfl
    omega

theorem wExt_num (s : St) : tally wExt s.threads = s.num (.wait true) := by
  rw [num_tally]
  congr 1
  funext a
  rcases a with ⟨st, _⟩
  cases st with
  | wait e => cases e <;> rfl
  | _ => rfl

theorem num_pos {s : St} {f : TS} (h : s.num f ≠ 0) :
    ∃ (i : Nat) (t : Thr), s.threads[i]? = some t ∧ t.st = f := by
  unfold St.num at h
  have : 0 < s.threads.countP (fun t => t.st = f) := by omega
  rw [List.countP_pos_iff] at this
  obtain ⟨t, ht, hf⟩ := this
  obtain ⟨i, hi⟩ := List.getElem?_of_mem ht
  exact ⟨i, t, hi, by simpa using hf⟩

theorem try_active {s : St} {i : Nat} {t : Thr} (hi : s.threads[i]? = some t)
    (ht : t.st = .readyRun) (hl : s.active < s.max) :
    ∃ u, step s (.activateTry i) = some u ∧ u.active = s.active + 1 :=
  ⟨{ s with ready := s.ready - 1, active := s.active + 1,
            threads := s.threads.set i { t with st := .run } },
   by simp only [step, hi, ht, if_true]; rw [if_neg (by omega)], rfl⟩

theorem go_active {s : St} {i : Nat} {t : Thr} (hi : s.threads[i]? = some t)
    (ht : t.st = .starting ∨ t.st = .idleWoken) (hl : s.active < s.max) :
    ∃ u, step s (.helperGo i) = some u ∧ u.active = s.active + 1 := by
  rcases ht with ht | ht
  · exact ⟨{ s with starting := s.starting - 1, active := s.active + 1,
                    threads := s.threads.set i { t with st := .run } },
      by simp only [step, hi, ht, if_true, Option.map_some, hl], rfl⟩
  · exact ⟨{ s with idle := s.idle - 1, active := s.active + 1,
                    threads := s.threads.set i { t with st := .run } },
      by simp only [step, hi, ht, reduceCtorEq, if_false, if_true, Option.map_some, hl], rfl⟩

/-! ## C14 -/

/-- The active threads together with the allocated slots and the tokens the
jobserver accounts for never exceed the limit, and `active` is exactly their
number. -/
theorem active_limit {max maxThreads : Nat} (hm : 1 ≤ max) {s : St}
    (h : Reach max maxThreads s) :
    s.active = s.num .run + s.allocated + s.jsActive ∧ s.active ≤ max := by
  obtain ⟨⟨c, _, _, _⟩, hx⟩ := inv_reach hm h
  rw [num_tally, ← hx]
  exact ⟨c.act, c.le⟩

/-- Every thread is counted exactly once: the counters are the numbers of the
threads in the respective states and all the threads are the helpers and the
initial thread. -/
theorem counted_once {max maxThreads : Nat} (hm : 1 ≤ max) {s : St}
    (h : Reach max maxThreads s) :
    s.waiting = s.num (.wait false) + s.num (.wait true) ∧ s.external = s.num (.wait true) ∧
    s.ready = s.num .readyRun + s.num .readySleep ∧
    s.idle = s.num .idleSleep + s.num .idleWoken ∧ s.starting = s.num .starting ∧
    s.threads.length = 1 + s.helpers ∧
    1 + s.helpers = s.num .run + s.waiting + s.ready + s.idle + s.starting := by
  obtain ⟨⟨c, _, _, _⟩, _⟩ := inv_reach hm h
  have hl := c.len
  have hsum : s.threads.length = tally (wSt .run) s.threads + tally wWait s.threads +
      tally (wSt .readyRun) s.threads + tally (wSt .readySleep) s.threads +
      tally (wSt .starting) s.threads + tally (wSt .idleSleep) s.threads +
      tally (wSt .idleWoken) s.threads := by
    generalize s.threads = l
    induction l with
    | nil => rfl
    | cons a l ih =>
      simp only [tally, List.map_cons, List.sum_cons, List.length_cons] at ih ⊢
      have := wSum a
      omega
  rw [← wWait_num, ← wExt_num]
  simp only [num_tally]
  have := c.rdy; have := c.idl; have := c.sta; have := c.wai; have := c.ext
  refine ⟨c.wai, c.ext, c.rdy, c.idl, c.sta, ?_, ?_⟩ <;> omega

/-- A ready thread is never left asleep when there is a free slot: if one sleeps
and a slot is free then some ready thread is awake and its next step makes it
active. -/
theorem ready_not_stranded {max maxThreads : Nat} (hm : 1 ≤ max) {s : St}
    (h : Reach max maxThreads s) (hs : s.num .readySleep ≠ 0) (hf : s.active < max) :
    ∃ i t, step s (.activateTry i) = some t ∧ t.num .run = s.num .run + 1 := by
  obtain ⟨⟨c, l, _, _⟩, hx⟩ := inv_reach hm h
  have hl := l (by rw [num_tally] at hs; exact hs)
  rw [← num_tally] at hl
  obtain ⟨i, t, hi, ht⟩ := num_pos (s := s) (f := .readyRun) (by omega)
  have e1 := tally_set (w := wSt .run) (q := { t with st := .run }) hi
  simp only [wSt, ht, reduceCtorEq, if_false, if_true] at e1
  refine ⟨i, { s with ready := s.ready - 1, active := s.active + 1,
                      threads := s.threads.set i { t with st := .run } }, ?_, ?_⟩
  · simp only [step, hi, ht, if_true]
    rw [if_neg (by omega)]
  · rw [num_tally, num_tally]
    dsimp only
    omega

/-- Whenever there are queued tasks and no thread is active, some thread that
can become active is on its way. -/
theorem no_stall {max maxThreads : Nat} (hm : 1 ≤ max) {s : St} (h : Reach max maxThreads s)
    (hq : s.queued ≠ 0) (ha : s.active = 0) :
    ∃ i o t, (o = .activateTry i ∨ o = .helperGo i) ∧ step s o = some t ∧ t.active = 1 := by
  obtain ⟨⟨c, _, st, _⟩, hx⟩ := inv_reach hm h
  have := st ha hq
  rw [← num_tally, ← num_tally, ← num_tally] at this
  have hlt : s.active < s.max := by omega
  by_cases h1 : s.num .readyRun = 0
  · by_cases h2 : s.num .starting = 0
    · obtain ⟨i, t, hi, ht⟩ := num_pos (s := s) (f := .idleWoken) (by omega)
      obtain ⟨u, hu, hu'⟩ := go_active hi (Or.inr ht) hlt
      exact ⟨i, _, u, Or.inr rfl, hu, by omega⟩
    · obtain ⟨i, t, hi, ht⟩ := num_pos h2
      obtain ⟨u, hu, hu'⟩ := go_active hi (Or.inl ht) hlt
      exact ⟨i, _, u, Or.inr rfl, hu, by omega⟩
  · obtain ⟨i, t, hi, ht⟩ := num_pos h1
    obtain ⟨u, hu, hu'⟩ := try_active hi ht hlt
    exact ⟨i, _, u, Or.inl rfl, hu, by omega⟩

/-- A slot released by deactivate() while some thread is ready is offered to a
ready thread: no helper is created or woken, the jobserver doesn't get the slot
and a ready thread that is awake can take it. -/
theorem released_to_ready {max maxThreads : Nat} (hm : 1 ≤ max) {s t : St}
    (h : Reach max maxThreads s) {i k : Nat} {ext : Bool} (hr : s.ready ≠ 0)
    (e : step s (.deactivate i ext k) = some t) :
    t.active + 1 = s.active ∧ t.helpers = s.helpers ∧ t.num .idleWoken = s.num .idleWoken ∧
    t.jsActive = s.jsActive ∧
    ∃ j u, step t (.activateTry j) = some u ∧ u.active = s.active := by
  obtain ⟨hi, hx⟩ := inv_reach hm h
  obtain ⟨hi', hx'⟩ := inv_reach hm (h.step e)
  have hc := hi.core
  simp only [step] at e
  split at e
  · rename_i p hp
    obtain ⟨hg, hst, hpd⟩ := running_some hp
    have hpos := active_pos hc hg hst
    split at e
    · injection e with e
      unfold release at e
      rw [if_pos hr] at e
      have e7 := tally_set (w := wSt .idleWoken) (q := { p with st := .wait ext }) hg
      simp only [wSt, hst, reduceCtorEq, if_false] at e7
      have hw : t.num .idleWoken = s.num .idleWoken ∧ t.active = s.active - 1 ∧
          t.helpers = s.helpers ∧ t.jsActive = s.jsActive ∧ t.ready = s.ready ∧
          t.num .readyRun ≠ 0 := by
        simp only [num_tally]
        unfold notifyOne at e
        split at e
        · rename_i j hj
          obtain ⟨u, hu, hus⟩ := pick_some hj
          rw [← e]
          simp only [setSt, hu]
          have e8 := tally_set (w := wSt .idleWoken) (q := { u with st := .readyRun }) hu
          have e9 := tally_set (w := wSt .readyRun) (q := { u with st := .readyRun }) hu
          simp only [wSt, hus, reduceCtorEq, if_false, if_true] at e8 e9
          refine ⟨?_, by trivial, by trivial, by trivial, by trivial, ?_⟩
          · omega
          · omega
        · rename_i hj
          have h0 := pick_none hj
          have hrd := hi'.core.rdy
          rw [← e] at hrd ⊢
          refine ⟨?_, rfl, rfl, rfl, rfl, ?_⟩
          · dsimp only; omega
          · dsimp only at *; omega
      obtain ⟨w1, w2, w3, w4, w5, w6⟩ := hw
      refine ⟨by omega, w3, w1, w4, ?_⟩
      obtain ⟨j, v, hj, hv⟩ := num_pos w6
      have hle := hc.le
      obtain ⟨u, hu, hu'⟩ := try_active hj hv (by omega)
      exact ⟨j, u, hu, by omega⟩
    · cases e
  · cases e

/-! ## C15 -/

/-- Tokens are conserved: those issued are in the pipe or with the clients. -/
theorem tokens_conserved {max maxThreads : Nat} (hm : 1 ≤ max) {s : St}
    (h : Reach max maxThreads s) : s.jsIssued = s.pipe + s.clients :=
  (inv_reach hm h).1.core.tok

/-- At any time at most one of the tokens that clients hold is not accounted for
as active, so the threads that run, the slots allocated and the tokens held
together exceed the limit by at most one. -/
theorem clients_limit {max maxThreads : Nat} (hm : 1 ≤ max) {s : St}
    (h : Reach max maxThreads s) :
    s.clients ≤ s.jsActive + 1 ∧ s.num .run + s.allocated + s.clients ≤ max + 1 := by
  obtain ⟨⟨c, _, _, m⟩, hx⟩ := inv_reach hm h
  have ht : s.jsIssued = s.pipe + s.clients := c.tok
  have ha : s.active = tally (wSt .run) s.threads + s.allocated + s.jsActive := c.act
  have hle := c.le
  have : s.jsActive ≤ s.jsIssued ∧ s.jsIssued ≤ s.jsActive + 1 := by
    unfold InvMon at m
    split at m <;> omega
  rw [num_tally]
  omega

/-- The second assertion of the monitor, libbuild2/scheduler.cxx:1528: it advances
at most one token. -/
theorem advance_one {max maxThreads : Nat} (hm : 1 ≤ max) {s : St}
    (h : Reach max maxThreads s) :
    s.jsActive = s.jsIssued ∨ s.jsActive + 1 = s.jsIssued := by
  obtain ⟨⟨_, _, _, m⟩, _⟩ := inv_reach hm h
  unfold InvMon at m
  split at m <;> omega

/-- A token is in debt only if it was issued and couldn't be accounted for. -/
theorem debt_is_one {max maxThreads : Nat} (hm : 1 ≤ max) {s : St}
    (h : Reach max maxThreads s) (hd : s.jsDebt = true) : s.jsActive + 1 = s.jsIssued :=
  ((inv_reach hm h).1.core.debt hd).symm

/-- `n` steps of the monitor alone. -/
def monRun : Nat → St → St
  | 0, s => s
  | n + 1, s => monRun n (monStep s 0)

theorem monRun_reach {max maxThreads : Nat} : ∀ (n : Nat) {s : St}, Reach max maxThreads s →
    Reach max maxThreads (monRun n s)
  | 0, _, h => h
  | n + 1, _, h => monRun_reach n (h.step (o := .monitor 0) rfl)

theorem monRun_add : ∀ (n m : Nat) (s : St), monRun (n + m) s = monRun m (monRun n s)
  | 0, m, s => by simp [monRun]
  | n + 1, m, s => by
    rw [show n + 1 + m = (n + m) + 1 by omega]
    exact monRun_add n m _

theorem notifyOne_js (s : St) (f g : TS) (k : Nat) :
    (notifyOne s f g k).jsActive = s.jsActive ∧ (notifyOne s f g k).jsIssued = s.jsIssued ∧
    (notifyOne s f g k).pipe = s.pipe ∧ (notifyOne s f g k).mon = s.mon := by
  unfold notifyOne; split <;> exact ⟨rfl, rfl, rfl, rfl⟩

theorem activateHelper_js {s s' : St} {k : Nat}
    (h : activateHelper s k = .kept s' ∨ activateHelper s k = .created s') :
    s'.jsActive = s.jsActive ∧ s'.jsIssued = s.jsIssued ∧ s'.pipe = s.pipe ∧ s'.mon = s.mon := by
  unfold activateHelper at h
  split at h
  · rcases h with h | h
    · injection h with h; rw [← h]; exact notifyOne_js ..
    · cases h
  · split at h
    · rcases h with h | h
      · cases h
      · injection h with h; rw [← h]; exact ⟨rfl, rfl, rfl, rfl⟩
    · rcases h with h | h <;> cases h

theorem eval_js {s : St} {r : Nat} (hm : s.mon = .eval (r + 1)) :
    (monStep s 0).jsActive = (if s.jsActive = s.jsIssued then s.jsActive - 1 else s.jsActive) ∧
    (monStep s 0).jsIssued = s.jsIssued ∧ (monStep s 0).pipe = s.pipe ∧
    (monStep s 0).mon = (if r + 1 > 1 then .read else .sleep) := by
  unfold monStep
  simp only [hm]
  split
  · split
    · exact notifyOne_js ..
    · split
      · split
        · have := activateHelper_js (Or.inl ‹_›); exact this
        · have := activateHelper_js (Or.inr ‹_›); exact this
        · exact ⟨rfl, rfl, rfl, rfl⟩
      · exact ⟨rfl, rfl, rfl, rfl⟩
  · exact ⟨rfl, rfl, rfl, rfl⟩

theorem drain_query {max maxThreads : Nat} (hm : 1 ≤ max) : ∀ (p : Nat) {s : St},
    Reach max maxThreads s → s.mon = .query → s.clients = 0 → s.pipe = p →
    ∃ n, (monRun n s).jsActive = 0 ∧ (monRun n s).clients = 0
  | p, s, h, hq, hc, hp => by
    have ht := tokens_conserved hm h
    have hadv := advance_one hm h
    have hs1 : monStep s 0 = { s with mon := .eval s.pipe } := by
      unfold monStep; simp only [hq]
    by_cases h0 : s.jsActive = 0
    · exact ⟨0, h0, hc⟩
    · obtain ⟨p, rfl⟩ : ∃ q, p = q + 1 := ⟨p - 1, by omega⟩
      have hm1 : (monStep s 0).mon = .eval (p + 1) := by rw [hs1, ← hp]
      obtain ⟨j1, j2, j3, j4⟩ := eval_js hm1
      have hr2 : Reach max maxThreads (monStep (monStep s 0) 0) :=
        (h.step (o := .monitor 0) rfl).step (o := .monitor 0) rfl
      have ht2 := tokens_conserved hm hr2
      rw [hs1] at j1 j2 j3 hr2 ht2 j4
      dsimp only at j1 j2 j3
      by_cases hp1 : p + 1 > 1
      · rw [if_pos hp1] at j4
        -- withdraw one token
        have hs3 : monStep (monStep (monStep s 0) 0) 0 =
            { monStep (monStep s 0) 0 with
              pipe := (monStep (monStep s 0) 0).pipe - 1
              jsIssued := (monStep (monStep s 0) 0).jsIssued - 1
              mon := .query } := by
          rw [hs1]
          generalize monStep { s with mon := .eval s.pipe } 0 = u at *
          unfold monStep
          simp only [j4]
          rw [if_pos (by omega)]
        have hr3 := hr2.step (o := .monitor 0) rfl
        rw [← hs1] at hr3
        obtain ⟨n, hn⟩ := drain_query hm p hr3 (by rw [hs3])
          (by
            have := tokens_conserved hm hr3
            rw [hs3, hs1] at this ⊢
            dsimp only [St.clients] at *
            omega)
          (by rw [hs3, hs1]; dsimp only; omega)
        exact ⟨n + 3, hn⟩
      · -- a single token: the advance
        refine ⟨2, ?_, ?_⟩
        · show (monStep (monStep s 0) 0).jsActive = 0
          rw [hs1, j1]
          split <;> omega
        · show (monStep (monStep s 0) 0).clients = 0
          rw [hs1]
          omega
termination_by p => p

/-- Once the clients have returned their tokens, the monitor gives the slots
back: running alone it gets to a state where nothing is accounted to the
jobserver. -/
theorem tokens_recovered {max maxThreads : Nat} (hm : 1 ≤ max) {s : St}
    (h : Reach max maxThreads s) (hc : s.clients = 0) :
    ∃ n, (monRun n s).jsActive = 0 ∧ (monRun n s).clients = 0 := by
  -- one step of the monitor keeps the clients as they are
  have keep : ∀ {s : St}, Reach max maxThreads s → s.clients = 0 →
      (monStep s 0).clients = 0 := by
    intro s h hc
    have h1 := tokens_conserved hm h
    have h2 := tokens_conserved hm (h.step (o := .monitor 0) rfl)
    cases hmon : s.mon with
    | eval r =>
      cases r with
      | zero =>
        unfold monStep; simp only [hmon]
        split
        · split <;> exact hc
        · exact hc
      | succ r =>
        obtain ⟨_, j2, j3, _⟩ := eval_js hmon
        omega
    | read => unfold monStep; simp only [hmon]; split <;> exact hc
    | _ => unfold monStep; simp only [hmon]; exact hc
  -- get to a query
  have q0 : ∀ {s : St}, Reach max maxThreads s → s.clients = 0 →
      (s.mon = .sleep ∨ s.mon = .query ∨ s.mon = .write) →
      ∃ n, (monRun n s).jsActive = 0 ∧ (monRun n s).clients = 0 := by
    intro s h hc hs
    rcases hs with hs | hs | hs
    · obtain ⟨n, hn⟩ := drain_query hm _ (h.step (o := .monitor 0) rfl)
        (by unfold monStep; simp only [hs]) (keep h hc) rfl
      exact ⟨n + 1, hn⟩
    · exact drain_query hm _ h hs hc rfl
    · obtain ⟨n, hn⟩ := drain_query hm _ (h.step (o := .monitor 0) rfl)
        (by unfold monStep; simp only [hs]) (keep h hc) rfl
      exact ⟨n + 1, hn⟩
  have q1 : ∀ {s : St}, Reach max maxThreads s → s.clients = 0 → s.mon = .eval 0 →
      ∃ n, (monRun n s).jsActive = 0 ∧ (monRun n s).clients = 0 := by
    intro s h hc hs
    obtain ⟨n, hn⟩ := q0 (h.step (o := .monitor 0) rfl) (keep h hc)
      (by unfold monStep; simp only [hs]; split
          · split <;> simp
          · simp)
    exact ⟨n + 1, hn⟩
  have q2 : ∀ {s : St}, Reach max maxThreads s → s.clients = 0 → s.mon = .read →
      ∃ n, (monRun n s).jsActive = 0 ∧ (monRun n s).clients = 0 := by
    intro s h hc hs
    by_cases hp : s.pipe ≠ 0
    · obtain ⟨n, hn⟩ := q0 (h.step (o := .monitor 0) rfl) (keep h hc)
        (by unfold monStep; simp only [hs, if_pos hp]; simp)
      exact ⟨n + 1, hn⟩
    · obtain ⟨n, hn⟩ := q1 (h.step (o := .monitor 0) rfl) (keep h hc)
        (by unfold monStep; simp only [hs, if_neg hp])
      exact ⟨n + 1, hn⟩
  cases hmon : s.mon with
  | sleep => exact q0 h hc (Or.inl hmon)
  | query => exact q0 h hc (Or.inr (Or.inl hmon))
  | write => exact q0 h hc (Or.inr (Or.inr hmon))
  | read => exact q2 h hc hmon
  | eval r =>
    cases r with
    | zero => exact q1 h hc hmon
    | succ r =>
      obtain ⟨_, _, _, j4⟩ := eval_js hmon
      have hr := h.step (o := .monitor 0) rfl
      by_cases hr1 : r + 1 > 1
      · rw [if_pos hr1] at j4
        obtain ⟨n, hn⟩ := q2 hr (keep h hc) j4
        exact ⟨n + 1, hn⟩
      · rw [if_neg hr1] at j4
        obtain ⟨n, hn⟩ := q0 hr (keep h hc) (Or.inl j4)
        exact ⟨n + 1, hn⟩

/-! ## C43: what the scheduler concludes from its counters -/

/-- Run a list of steps. -/
def run : List Op → St → Option St
  | [], s => some s
  | o :: os, s => (step s o).bind (run os)

theorem run_reach {max maxThreads : Nat} : ∀ (os : List Op) {s t : St}, Reach max maxThreads s →
    run os s = some t → Reach max maxThreads t
  | [], _, _, h, e => by cases e; exact h
  | o :: os, s, t, h, e => by
    simp only [run, Option.bind_eq_some_iff] at e
    obtain ⟨u, h1, h2⟩ := e
    exact run_reach os (h.step h1) h2

/-- The first assertion of the monitor, libbuild2/scheduler.cxx:1527: "there
should always be an active thread that waits on the process which uses the
jobserver". It is evaluated when the monitor is in `eval`. -/
def monitorAssert (s : St) : Prop := s.jsActive = 0 ∨ s.jsActive < s.active

/-- libbuild2/scheduler.cxx:390-395: wait_idle() reports that a client has leaked
tokens and terminates. -/
def reportsLeak (s : St) : Prop :=
  let js := s.jsActive + (if s.jsDebt then 1 else 0)
  js ≠ 0 ∧ s.active = js + 1

/-- It holds while some process that uses the jobserver runs. -/
theorem monitor_assert_partial {max maxThreads : Nat} (hm : 1 ≤ max) {s : St}
    (h : Reach max maxThreads s) (hr : s.num .run ≠ 0) : monitorAssert s := by
  have := (active_limit hm h).1
  unfold monitorAssert
  omega

/-- A client that holds a token keeps a thread active. -/
theorem client_keeps_active {max maxThreads : Nat} (hm : 1 ≤ max) {s : St}
    (h : Reach max maxThreads s) (hc : s.clients ≠ 0) : s.num .run ≠ 0 := by
  obtain ⟨⟨c, _, _, _⟩, _⟩ := inv_reach hm h
  have : ∃ t ∈ s.threads, t.held ≠ 0 := by
    apply Decidable.byContradiction
    intro hn
    apply hc
    unfold St.clients
    rw [List.sum_eq_zero_iff_forall_eq_nat]
    intro n hn'
    obtain ⟨t, ht, rfl⟩ := List.mem_map.mp hn'
    exact Decidable.byContradiction fun h => hn ⟨t, ht, h⟩
  obtain ⟨t, ht, hh⟩ := this
  obtain ⟨i, hi⟩ := List.getElem?_of_mem ht
  have hrun : t.st = .run := by
    apply Decidable.byContradiction
    intro h; exact hh (bad_zero c hi h).1
  have := tally_le (w := wSt .run) hi
  simp only [wSt, hrun, if_true] at this
  rw [num_tally]
  omega

/-- But it can fail: the process returns its token and the thread that waited
for it deactivates before the monitor looks at the pipe. -/
theorem monitor_assert_fails :
    ∃ s, Reach 2 8 s ∧ (∃ r, s.mon = .eval r) ∧ ¬ monitorAssert s := by
  let ops : List Op := [.monitor 0, .clientTake 0, .monitor 0, .monitor 0, .clientReturn 0,
    .deactivate 0 false 0, .monitor 0, .monitor 0]
  have h : (run ops { max := 2, maxThreads := 8 }).isSome = true := by decide
  obtain ⟨s, hs⟩ := Option.isSome_iff_exists.1 h
  refine ⟨s, run_reach ops .init hs, ?_⟩
  have h1 : (run ops { max := 2, maxThreads := 8 }).map (fun s => s.mon) = some (.eval 2) := by
    decide
  have h2 : (run ops { max := 2, maxThreads := 8 }).map (fun s => (s.jsActive, s.active)) =
      some (1, 1) := by decide
  rw [hs] at h1 h2
  simp only [Option.map_some, Option.some.injEq, Prod.mk.injEq] at h1 h2
  refine ⟨⟨2, h1⟩, ?_⟩
  unfold monitorAssert
  omega

/-- If it reports a leak when only the initial thread runs and the monitor is
up to date with the pipe (all the tokens it has issued but the advance are
with the clients) then some client does hold that many tokens. -/
theorem leak_report_partial {max maxThreads : Nat} (hm : 1 ≤ max) {s : St}
    (h : Reach max maxThreads s) (hl : reportsLeak s)
    (hp : s.pipe + s.jsActive + (if s.jsDebt then 1 else 0) ≤ s.jsIssued) :
    s.clients ≠ 0 := by
  have ht := tokens_conserved hm h
  unfold reportsLeak at hl
  dsimp only at hl
  omega

/-- But the report can be false: no client holds a token. -/
theorem leak_report_false : ∃ s, Reach 2 8 s ∧ reportsLeak s ∧ s.clients = 0 := by
  let ops : List Op := [.monitor 0, .clientTake 0, .monitor 0, .monitor 0, .clientReturn 0]
  have h : (run ops { max := 2, maxThreads := 8 }).isSome = true := by decide
  obtain ⟨s, hs⟩ := Option.isSome_iff_exists.1 h
  refine ⟨s, run_reach ops .init hs, ?_⟩
  have h2 : (run ops { max := 2, maxThreads := 8 }).map
      (fun s => (s.jsActive, s.active, s.jsDebt, s.clients)) = some (1, 2, false, 0) := by decide
  rw [hs] at h2
  simp only [Option.map_some, Option.some.injEq, Prod.mk.injEq] at h2
  obtain ⟨a, b, c, d⟩ := h2
  refine ⟨?_, d⟩
  unfold reportsLeak
  rw [a, b, c]
  simp

/-! ## The hypotheses can be met -/

private def start : St := { max := 2, maxThreads := 8 }

/-- Two tasks queued, a helper and the initial thread active, then the initial
thread waits (another helper is created), is ready again and sleeps; then the
first helper waits: the initial thread is woken. -/
example : ((run [.push 0, .push 0, .push 0, .kick 0 0, .helperGo 1, .deactivate 0 false 0,
      .helperGo 2, .activateBegin 0, .activateTry 0] start).map
    (fun s => (s.active, s.ready, s.num .readySleep, s.helpers))) = some (2, 1, 1, 2) := by decide

example : ((run [.push 0, .push 0, .push 0, .kick 0 0, .helperGo 1, .deactivate 0 false 0,
      .helperGo 2, .activateBegin 0, .activateTry 0, .deactivate 1 false 0] start).map
    (fun s => (s.active, s.ready, s.num .readyRun, s.helpers))) = some (1, 1, 1, 2) := by decide

/-- `ready_not_stranded`: two ready threads asleep, one of two allocated slots
is released. -/
example : ((run [.push 0, .kick 0 0, .kick 0 0, .pop 0, .helperGo 1, .helperGo 2,
      .deactivate 1 false 0, .deactivate 2 true 0, .allocate 0 0, .activateBegin 1,
      .activateBegin 2, .activateTry 1, .activateTry 2, .deallocate 0 1 2]
      { start with max := 3 }).map
    (fun s => (s.active, s.num .readySleep, s.num .readyRun))) = some (2, 1, 1) := by decide

/-- `no_stall`: the only active thread waits with tasks queued. -/
example : ((run [.push 0, .deactivate 0 false 0] { start with max := 1 }).map
    (fun s => (s.active, s.queued, s.num .starting))) = some (0, 1, 1) := by decide

/-- Debt: a client took a token while all the slots were taken. -/
example : ((run [.push 0, .kick 0 0, .helperGo 1, .monitor 0, .clientTake 0, .monitor 0,
      .monitor 0] start).map
    (fun s => (s.active, s.jsDebt, s.jsIssued, s.jsActive, s.clients))) =
    some (2, true, 1, 0, 1) := by decide

/-- `tokens_recovered` starting with two tokens taken, accounted for and returned. -/
example : ((run [.monitor 0, .clientTake 0, .monitor 0, .monitor 0, .monitor 0, .clientTake 0,
      .monitor 0, .monitor 0, .clientReturn 0, .clientReturn 0] { start with max := 4 }).map
    (fun s => (s.jsActive, s.clients, (monRun 10 s).jsActive, (monRun 10 s).active))) =
    some (2, 0, 0, 1) := by decide

end Verif.Active
