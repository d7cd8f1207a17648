import Verif.WaitSlot.Lemmas

/-!
Properties of waiting for a group of tasks (C13).  `start tc` is the value to
which the count `tc` must drop, `c0` the values of the counts before anything
happened, `n` the number of threads.
-/
namespace Verif.WaitSlot

variable {start c0 : Nat → Nat} {n : Nat} {s : St}

/-- C13. A wait returns only with a value of the count that does not exceed the
start count. -/
theorem wait_returns_only_done (h : Reach start n c0 s) {tc v : Nat}
    (hr : PC.returned tc v ∈ s.threads) : v ≤ start tc :=
  (inv_reach h).seen tc v hr

/-- C13. At the moment a wait returns the count has dropped, and the value
returned is the current one. -/
theorem wait_returns_current {t : St} {i : Nat} {a : Act} (e : step start s i a = some t)
    {tc v : Nat} (hr : t.threads[i]? = some (.returned tc v)) :
    s.count tc = v ∧ v ≤ start tc := by
  have hset : ∀ {q : PC} {l : List PC}, (l.set i q)[i]? = some (.returned tc v) →
      q = .returned tc v := by
    intro q l h
    rw [List.getElem?_set] at h
    simp at h
    exact h.2
  unfold step at e
  split at e
  case h_11 tc' hp _ => 
    cases e
    have := hset hr
    cases this
  all_goals (try split at e)
  all_goals (cases e)
  all_goals (have := hset hr)
  all_goals (first
    | (cases this; done)
    | (split at this <;> cases this; done)
    | (cases this; exact ⟨rfl, by assumption⟩))

/-- C13. No lost wake-up: if the count has dropped to the start count while some
thread sleeps on it, then some other thread has yet to deliver the notification
for this count. -/
theorem no_lost_wakeup (h : Reach start n c0 s) {tc : Nat}
    (hs : PC.asleep tc ∈ s.threads) (hc : s.count tc ≤ start tc) :
    PC.mustNotify tc ∈ s.threads ∨ PC.notifying tc ∈ s.threads := by
  obtain ⟨p, hp, ho⟩ := (inv_reach h).awake tc ⟨_, hs, by simp [PC.sleeps]⟩ hc
  cases p <;> simp [PC.owes] at ho <;> subst ho
  · exact Or.inl hp
  · exact Or.inr hp

/-- C13. The task count is the number of unfinished tasks above its initial
value. -/
theorem count_is_unfinished (h : Reach start n c0 s) (tc : Nat) :
    s.count tc = c0 tc + s.threads.count (.running tc) := by
  rw [(inv_reach h).base tc]
  congr 1
  unfold List.count
  congr 1
  funext p
  rw [Bool.eq_iff_iff]
  cases p <;> simp [PC.runs]

/-- C13. Nobody gets stuck: unless all threads have left the scheduler (are
idle), some thread can make a step. -/
theorem no_deadlock (hc0 : ∀ tc, c0 tc ≤ start tc) (h : Reach start n c0 s)
    (hst : ∀ i, step start s i .go = none) : ∀ p ∈ s.threads, p = .idle := by
  have inv := inv_reach h
  have hmx : s.mutex = none := by
    cases hm : s.mutex with
    | none => rfl
    | some i =>
      have hi := inv.inside i hm
      have hg : s.threads[i]? = some s.threads[i] := List.getElem?_eq_getElem hi
      have hh := (inv.holder i _ hg).mpr hm
      have := hst i
      unfold step at this
      rw [hg] at this
      generalize s.threads[i] = p at *
      cases p <;> simp_all [PC.holds]
      split at this <;> cases this
  have hno : ∀ p ∈ s.threads, p = .idle ∨ ∃ tc, p = .asleep tc := by
    intro p hp
    obtain ⟨i, hi⟩ := List.mem_iff_getElem?.mp hp
    have := hst i
    unfold step at this
    rw [hi] at this
    cases p <;> simp_all
    split at this <;> cases this
  intro p hp
  rcases hno p hp with h1 | ⟨tc, h1⟩
  · exact h1
  · subst h1
    by_cases hc : s.count tc ≤ start tc
    · rcases no_lost_wakeup h hp hc with h2 | h2
      · rcases hno _ h2 with h3 | ⟨_, h3⟩ <;> cases h3
      · rcases hno _ h2 with h3 | ⟨_, h3⟩ <;> cases h3
    · have h2 := count_is_unfinished h tc
      have h3 := hc0 tc
      have : 0 < s.threads.count (.running tc) := by omega
      rw [List.count_pos_iff] at this
      rcases hno _ this with h3 | ⟨_, h3⟩ <;> cases h3

/-- A run of steps of the threads that are busy (no new tasks, no new waits). -/
inductive Run (start : Nat → Nat) : St → Nat → St → Prop
  | done {s : St} : Run start s 0 s
  | step {s t u : St} {i k : Nat} : step start s i .go = some t → Run start t k u →
      Run start s (k + 1) u

theorem run_reach {t : St} {k : Nat} (h : Reach start n c0 s) (r : Run start s k t) :
    Reach start n c0 t := by
  induction r with
  | done => exact h
  | step e _ ih => exact ih (.step h e)

/-- C13. All waits return whatever the schedule: without new tasks and waits
every run is finite (the bound depends on the state only), and the only states
where it cannot be continued are those in which every wait has returned. -/
theorem waits_terminate (hc0 : ∀ tc, c0 tc ≤ start tc) (h : Reach start n c0 s) :
    ∃ bound, ∀ k t, Run start s k t →
      k ≤ bound ∧ ((∀ i, step start t i .go = none) → ∀ p ∈ t.threads, p = .idle) := by
  refine ⟨total s.threads.length s.threads, fun k t r => ⟨?_, fun hst => no_deadlock hc0 (run_reach h r) hst⟩⟩
  clear h hc0
  induction r with
  | done => exact Nat.zero_le _
  | step e r ih =>
    have h1 := go_total e
    have h2 := step_length e
    rw [h2] at ih
    omega

/-- Execute a schedule. -/
def exec (start : Nat → Nat) : St → List (Nat × Act) → Option St
  | s, [] => some s
  | s, (i, a) :: r => (step start s i a).bind (fun t => exec start t r)

theorem exec_reach {sch : List (Nat × Act)} {t : St} (h : Reach start n c0 s)
    (e : exec start s sch = some t) : Reach start n c0 t := by
  induction sch generalizing s with
  | nil => cases e; exact h
  | cons x r ih =>
    obtain ⟨i, a⟩ := x
    simp only [exec, Option.bind_eq_some_iff] at e
    obtain ⟨u, hu, he⟩ := e
    exact ih (.step h hu) he

/-- The schedule of the examples: a task finishes between the test and the
sleep of a waiting thread. -/
def race : List (Nat × Act) :=
  [(1, .startTask 5), (0, .wait 5), (0, .go), (0, .go), (1, .go), (0, .go)]

/-- Non-vacuity of `no_lost_wakeup`: the critical race is reachable and the
thread sleeps although the count has dropped. -/
example : (exec (fun _ => 0) { count := fun _ => 0, threads := [.idle, .idle] } race).map
    (fun s => (s.threads, s.count 5)) = some ([.asleep 5, .mustNotify 5], 0) := by decide

/-- Non-vacuity of the others: the schedule continues to the end. -/
example : (exec (fun _ => 0) { count := fun _ => 0, threads := [.idle, .idle] }
    (race ++ [(1, .go), (1, .go), (0, .go), (0, .go)])).map
    (fun s => (s.threads, s.count 5)) = some ([.returned 5 0, .idle], 0) := by decide

end Verif.WaitSlot
