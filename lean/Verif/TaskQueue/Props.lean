import Verif.TaskQueue.Step

/-!
Properties of the scheduler's task queues (C11, C12).
-/
namespace Verif.TaskQueue

variable {α : Type}

/-- C12. For every queue depth and every history of starting tasks, taking
them by helpers and by the owner, and nested marks, in any interleaving, the
observable behaviour is that of the specification: helpers get the oldest
task, the owner gets only the most recent task and only if it was queued by the
activity the owner is currently in (never one queued before the mark), a task is
run synchronously exactly if the queue is full. -/
theorem queue_meets_spec [DecidableEq α] (D : Nat) (hD : 0 < D) (ops : List (Op α)) :
    Spec.init.run D (({} : M α).run D ops).2 ≠ .wrong := by
  intro h
  have g := run_good (ex := False) (D := D) ops (inv_init (α := α) hD) (fun h => h.elim)
  rw [h] at g
  exact g

/-- Non-vacuity: a legal history with a nested activity, a helper stealing a
task and the owner taking its own. -/
example : (({} : M Nat).run 4 [.async 1, .async 2, .ownTake, .async 3, .helperTake, .ownTake,
    .leave, .leave, .ownTake]).2.map (·.2) =
    [none, none, some 2, none, some 1, some 3, none, none, none] ∧
  (match Spec.init.run 4 (({} : M Nat).run 4 [.async 1, .async 2, .ownTake, .async 3, .helperTake,
    .ownTake, .leave, .leave, .ownTake]).2 with | .ok s => s.lvl == 0 | _ => false) = true := by
  decide

/-- The owner inside a nested activity is not given the task queued before it:
here task 1 stays in the queue. -/
example : (({} : M Nat).run 4 [.async 1, .setMark, .ownTake]).2.map (·.2) =
    [none, none, none] := by decide

/-- The behaviour of the specification is more than what a set of tasks would
do: giving the owner a task of an outer activity is rejected. -/
example : (match Spec.init.run 4 [(Op.async 1, none), (.setMark, none), (.ownTake, some 1)] with
    | .wrong => true | _ => false) = true := by decide

/-- The code does not give the owner all the tasks of its current activity: if
the saved mark has been overtaken by helpers and the queue then wraps around to
the same slot, the mark is disabled and the owner is told that it has no tasks
although two of them (3 and 5) still wait.  They are then left for helpers. -/
theorem own_take_not_exact :
    let r := ({} : M Nat).run 4 [.async 1, .async 2, .async 3, .async 4, .ownTake, .helperTake,
      .helperTake, .leave, .async 5, .async 6, .ownTake, .leave, .ownTake]
    r.2.getLast? = some (.ownTake, none) ∧ r.1.frames.length = 0 ∧ r.1.q.contents 4 = [3, 5] := by
  decide

/-- C12. As long as no helper interferes the owner is given its own tasks
until there are none left: after any legal history without helpers, the owner
is told that there is nothing to take only if the current activity has no
waiting tasks. -/
theorem own_take_exact_alone [DecidableEq α] (D : Nat) (hD : 0 < D) (ops : List (Op α))
    (hn : Op.helperTake ∉ ops) (s : Spec α)
    (hs : Spec.init.run D (({} : M α).run D ops).2 = .ok s)
    (h : ((({} : M α).run D ops).1.step D .ownTake).2 = none) : s.own = [] := by
  have g := run_good (ex := True) (D := D) ops (inv_init (α := α) hD) (fun _ => hn)
  rw [hs] at g
  exact own_none trivial g h

/-- Non-vacuity: the history of three tasks, one of which is taken and itself
starts and takes another; then there are still own tasks to take. -/
example : let ops : List (Op Nat) := [.async 1, .async 2, .async 3, .ownTake, .async 4, .ownTake,
      .leave, .leave]
    (match Spec.init.run 3 (({} : M Nat).run 3 ops).2 with
      | .ok s => s.items == [(0, 1), (0, 2)] | _ => false) = true ∧
    ((({} : M Nat).run 3 ops).1.step 3 .ownTake).2 = some 2 := by decide

/-! ### Every task is run exactly once -/

/-- Tasks given by an operation. -/
def given : Op α → List α
  | .async x => [x]
  | _ => []

theorem disable_ring {D : Nat} {q : TQ α} {xs : List α} (r : Ring D q xs) :
    Ring D (q.disable D).2 xs := by
  unfold TQ.disable; split
  · exact r.mark D
  · exact r

theorem restore_ring {D : Nat} {q : TQ α} {xs : List α} (r : Ring D q xs) (f : Frame) :
    Ring D (q.restore D f) xs := by
  cases f <;> simp only [TQ.restore]
  · (repeat' split) <;> exact r.mark _
  · exact r.mark _
  · exact r

/-- One operation of a queue: nothing is lost, nothing appears from nowhere,
and the change of the size is what is added to the count. -/
theorem step_ring {D : Nat} {m : M α} {xs : List α} (r : Ring D m.q xs) (op : Op α) :
    ∃ ys, Ring D (m.step D op).1.q ys ∧
      (xs ++ given op).Perm ((m.step D op).2.toList ++ ys) ∧
      (ys.length : Int) = xs.length + delta op (m.step D op).2 := by
  cases op with
  | async x =>
    by_cases hlt : xs.length < D
    · obtain ⟨q', hp, hr, _⟩ := ring_push r hlt x
      refine ⟨_, by simpa [M.step, hp] using hr, by simp [M.step, hp, given], by simp [M.step, delta, hp]⟩
    · obtain ⟨hp, hf⟩ := ring_full r hlt x
      refine ⟨xs, by simpa [M.step, hp] using disable_ring r, ?_, by simp [M.step, delta, hp]⟩
      simp only [M.step, hp, given, Option.toList]
      exact List.perm_append_comm
  | helperTake =>
    cases xs with
    | nil =>
      have : m.q.emptyFront = true := by simp [TQ.emptyFront, r.len]
      exact ⟨[], by simpa [M.step, this] using r, by simp [M.step, this, given],
        by simp [M.step, delta, this]⟩
    | cons x xs =>
      have : m.q.emptyFront = false := by simp [TQ.emptyFront, r.len]
      obtain ⟨q', hp, hr', _, _⟩ := ring_popFront r
      exact ⟨xs, by simpa [M.step, this, hp] using hr', by simp [M.step, this, hp, given],
        by simp [M.step, delta, this, hp]; omega⟩
  | ownTake =>
    by_cases he : m.q.emptyBack D = true
    · exact ⟨xs, by simpa [M.step, he] using r, by simp [M.step, he, given],
        by simp [M.step, delta, he]⟩
    · have hne : xs ≠ [] := by
        intro h; apply he; simp [TQ.emptyBack, r.len, h]
      obtain ⟨a, x, hax⟩ : ∃ a x, xs = a ++ [x] :=
        ⟨_, _, (List.dropLast_concat_getLast hne).symm⟩
      subst hax
      obtain ⟨q', hp, hr', _⟩ := ring_popBack r
      refine ⟨a, by simpa [M.step, he, hp] using hr', ?_, by simp [M.step, delta, he, hp]; omega⟩
      simp only [M.step, he, hp, given, List.append_nil, Bool.false_eq_true, if_false,
        Option.toList]
      exact List.perm_append_comm
  | setMark =>
    exact ⟨xs, by simpa [M.step] using disable_ring r, by simp [M.step, given], by simp [M.step, delta]⟩
  | leave =>
    cases hf : m.frames with
    | nil => exact ⟨xs, by simpa [M.step, hf] using r, by simp [M.step, hf, given],
        by simp [M.step, delta, hf]⟩
    | cons f t => exact ⟨xs, by simpa [M.step, hf] using restore_ring r f,
        by simp [M.step, hf, given], by simp [M.step, delta, hf]⟩

/-- All queues are well formed. -/
def SysOk (D : Nat) (s : Sys α) : Prop :=
  (∀ m ∈ s.queues, ∃ xs, Ring D m.q xs) ∧ s.queued = (s.waiting D).length

theorem sys_step {D : Nat} {s : Sys α} (h : SysOk D s) {k : Nat} {op : Op α}
    (hk : k < s.queues.length) :
    SysOk D (s.step D k op).1 ∧
      (s.waiting D ++ given op).Perm ((s.step D k op).2.toList ++ (s.step D k op).1.waiting D) ∧
      (s.step D k op).1.queues.length = s.queues.length := by
  have hget : s.queues[k]? = some s.queues[k] := List.getElem?_eq_getElem hk
  obtain ⟨xs, hr⟩ := h.1 _ (List.getElem_mem hk)
  obtain ⟨ys, hr', hp, hlen⟩ := step_ring hr op
  have hsplit : s.queues = s.queues.take k ++ s.queues[k] :: s.queues.drop (k + 1) := by
    rw [List.getElem_cons_drop, List.take_append_drop]
  have hset : s.queues.set k (s.queues[k].step D op).1 =
      s.queues.take k ++ (s.queues[k].step D op).1 :: s.queues.drop (k + 1) := by
    rw [List.set_eq_take_append_cons_drop, if_pos hk]
  have hw : s.waiting D = (s.queues.take k).flatMap (fun m => m.q.contents D) ++
      (xs ++ (s.queues.drop (k + 1)).flatMap (fun m => m.q.contents D)) := by
    unfold Sys.waiting
    have := congrArg (List.flatMap (fun m : M α => m.q.contents D)) hsplit
    rw [this, List.flatMap_append, List.flatMap_cons, hr.contents]
  have hw' : (s.step D k op).1.waiting D =
      (s.queues.take k).flatMap (fun m => m.q.contents D) ++
      (ys ++ (s.queues.drop (k + 1)).flatMap (fun m => m.q.contents D)) := by
    unfold Sys.waiting Sys.step
    simp only [hget, hset]
    simp [hr'.contents]
  have ho : (s.step D k op).2 = (s.queues[k].step D op).2 := by
    unfold Sys.step; simp only [hget]
  refine ⟨⟨?_, ?_⟩, ?_, ?_⟩
  · unfold Sys.step
    simp only [hget, hset]
    intro m hm
    rcases List.mem_append.mp hm with hm | hm
    · exact h.1 m (List.mem_of_mem_take hm)
    · rcases List.mem_cons.mp hm with hm | hm
      · subst hm; exact ⟨ys, hr'⟩
      · exact h.1 m (List.mem_of_mem_drop hm)
  · rw [hw']
    have hq := h.2
    rw [hw] at hq
    unfold Sys.step
    simp only [hget]
    simp only [List.length_append, Int.natCast_add] at hq ⊢
    omega
  · rw [ho, hw, hw']
    generalize (s.queues.take k).flatMap (fun m => m.q.contents D) = A
    generalize (s.queues.drop (k + 1)).flatMap (fun m => m.q.contents D) = B
    generalize (s.queues[k].step D op).2.toList = O at hp
    classical
    rw [List.perm_iff_count] at hp ⊢
    intro x
    have := hp x
    simp only [List.count_append] at this ⊢
    omega
  · unfold Sys.step; simp [hget]

theorem sys_run {D : Nat} : ∀ (ops : List (Nat × Op α)) {s : Sys α}, SysOk D s →
    (∀ o ∈ ops, o.1 < s.queues.length) →
    SysOk D (s.run D ops).1 ∧
    (s.waiting D ++ asyncs (ops.map (·.2))).Perm ((s.run D ops).2 ++ (s.run D ops).1.waiting D) ∧
    (s.run D ops).1.queues.length = s.queues.length
  | [], s, h, _ => by
    refine ⟨h, ?_, rfl⟩
    simp [Sys.run, asyncs]
  | (k, op) :: r, s, h, hk => by
    obtain ⟨h1, h2, h3⟩ := sys_step h (op := op) (hk (k, op) (by simp))
    obtain ⟨g1, g2, g3⟩ := sys_run r h1 (fun o ho => by rw [h3]; exact hk o (by simp [ho]))
    refine ⟨g1, ?_, by rw [← h3]; exact g3⟩
    have hg : asyncs (((k, op) :: r).map (·.2)) = given op ++ asyncs (r.map (·.2)) := by
      cases op <;> simp [asyncs, given]
    rw [hg]
    simp only [Sys.run]
    classical
    rw [List.perm_iff_count] at h2 g2 ⊢
    intro x
    have a := h2 x
    have b := g2 x
    simp only [List.count_append] at a b ⊢
    omega

theorem sysOk_init (D : Nat) (hD : 0 < D) (n : Nat) : SysOk D (Sys.init n : Sys α) := by
  refine ⟨?_, ?_⟩
  · intro m hm
    have := (List.mem_replicate.mp hm).2
    subst this
    exact ⟨[], ring_init hD⟩
  · have : (Sys.init n : Sys α).waiting D = [] := by
      unfold Sys.waiting Sys.init
      rw [List.flatMap_eq_nil_iff]
      intro m hm
      have := (List.mem_replicate.mp hm).2
      subst this
      rfl
    rw [this]; rfl

/-- C11. Any number of threads, any queue depth, any interleaving of operations
on their queues (whether or not the rules on leaving an activity are kept): the
tasks that were started asynchronously are exactly (each the same number of
times) the tasks that were started running plus the tasks that still wait. -/
theorem tasks_conserved (D : Nat) (hD : 0 < D) (n : Nat) (ops : List (Nat × Op α))
    (hk : ∀ o ∈ ops, o.1 < n) :
    let r := (Sys.init n : Sys α).run D ops
    (asyncs (ops.map (·.2))).Perm (r.2 ++ r.1.waiting D) := by
  have h0 := sysOk_init (α := α) D hD n
  have := (sys_run ops h0 (by simpa [Sys.init] using hk)).2.1
  have hw : (Sys.init n : Sys α).waiting D = [] := by
    unfold Sys.waiting Sys.init
    rw [List.flatMap_eq_nil_iff]
    intro m hm
    have := (List.mem_replicate.mp hm).2
    subst this
    rfl
  rw [hw] at this
  simpa using this

/-- C11. If every asynchronously started task is a different one then no task
is run twice and no task that runs still waits. -/
theorem tasks_at_most_once (D : Nat) (hD : 0 < D) (n : Nat) (ops : List (Nat × Op α))
    (hk : ∀ o ∈ ops, o.1 < n) (hd : (asyncs (ops.map (·.2))).Nodup) :
    let r := (Sys.init n : Sys α).run D ops
    r.2.Nodup ∧ ∀ x ∈ r.2, x ∉ r.1.waiting D := by
  intro r
  have hp := tasks_conserved D hD n ops hk
  have hn := (hp.nodup_iff).mp hd
  rw [List.nodup_append] at hn
  exact ⟨hn.1, fun x hx hx' => hn.2.2 x hx x hx' rfl⟩

/-- C11. The count that helpers check before they stop looking for work is
the number of waiting tasks; when it is zero every task has been run exactly
once. -/
theorem count_zero_all_run (D : Nat) (hD : 0 < D) (n : Nat) (ops : List (Nat × Op α))
    (hk : ∀ o ∈ ops, o.1 < n) :
    let r := (Sys.init n : Sys α).run D ops
    r.1.queued = (r.1.waiting D).length ∧
    (r.1.queued = 0 → (asyncs (ops.map (·.2))).Perm r.2) := by
  intro r
  have h0 := sysOk_init (α := α) D hD n
  have hq : r.1.queued = (r.1.waiting D).length :=
    (sys_run ops h0 (by simpa [Sys.init] using hk)).1.2
  refine ⟨hq, fun hz => ?_⟩
  have hw : r.1.waiting D = [] := List.eq_nil_of_length_eq_zero (by omega)
  have hp : (asyncs (ops.map (·.2))).Perm (r.2 ++ r.1.waiting D) := tasks_conserved D hD n ops hk
  rw [hw] at hp
  simpa using hp

/-- C11. Helpers make progress: if anything waits in queue `k`, a helper that
looks there gets a task. -/
theorem helper_gets_task (D : Nat) (hD : 0 < D) (n : Nat) (ops : List (Nat × Op α))
    (hk : ∀ o ∈ ops, o.1 < n) (k : Nat) (hkn : k < n)
    (hw : ∀ m, ((Sys.init n : Sys α).run D ops).1.queues[k]? = some m → m.q.contents D ≠ []) :
    ((((Sys.init n : Sys α).run D ops).1.step D k .helperTake).2).isSome := by
  have h0 := sysOk_init (α := α) D hD n
  obtain ⟨h1, _, h3⟩ := sys_run ops h0 (by simpa [Sys.init] using hk)
  generalize ((Sys.init n : Sys α).run D ops).1 = s at *
  have hlen : k < s.queues.length := by rw [h3]; simpa [Sys.init] using hkn
  have hget : s.queues[k]? = some s.queues[k] := List.getElem?_eq_getElem hlen
  obtain ⟨xs, hr⟩ := h1.1 _ (List.getElem_mem hlen)
  have hne := hw _ hget
  rw [hr.contents] at hne
  cases xs with
  | nil => exact absurd rfl hne
  | cons x xs =>
    have : s.queues[k].q.emptyFront = false := by simp [TQ.emptyFront, hr.len]
    obtain ⟨q', hp, _⟩ := ring_popFront hr
    simp [Sys.step, hget, M.step, this, hp]

/-- Non-vacuity: two threads, depth 2, one task run synchronously because the
queue is full, the others taken by a helper and by the owner. -/
example :
    let r := (Sys.init 2 : Sys Nat).run 2 [(0, .async 1), (0, .async 2), (0, .async 3), (1, .async 4),
      (0, .helperTake), (0, .leave), (0, .ownTake)]
    r.2 = [3, 1, 2] ∧ r.1.waiting 2 = [4] ∧ r.1.queued = 1 := by
  decide

end Verif.TaskQueue
