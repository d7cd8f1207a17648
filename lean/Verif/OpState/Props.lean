import Verif.OpState.Step

/-!
Properties C19 to C22: however many threads match and execute a target, and however
they are interleaved, over any number of operations.

In a state `s`: `s.on` is the number of the current operation, `s.applies` and
`s.execs` are the numbers of times that the rule was applied and the recipe executed
in this operation, `s.setOn` is the operation in which the state of the target was
last set, `s.now` is whether the target was matched (options set) in this operation,
`s.taken` is the number of times a dependent was counted, and `s.gd` and `s.gt` are
this target's shares of the global counters dependency_count and target_count.
A thread that has the result `r` of matching (executing) is at `matched r` (`done r`).
`s.refail` is set when matching an already applied target again, with more options,
fails.
-/
namespace Verif.OpState
open Verif.TargetState Verif.Util

/-- Run a list of steps. -/
def run (s : S) : List (Nat × Op) → Option S
  | [] => some s
  | (i, o) :: l => (step s i o).bind (run · l)

theorem run_reach {N : Nat} (l : List (Nat × Op)) : ∀ {s t : S}, Reach N s → run s l = some t →
    Reach N t := by
  induction l with
  | nil => intro s t h e; cases e; exact h
  | cons p l ih =>
    intro s t h e
    unfold run at e
    cases hs : step s p.1 p.2 with
    | none => rw [hs] at e; cases e
    | some u => rw [hs] at e; exact ih (.step h hs) e

/-- The start of the first operation. -/
def start (dir last : Bool) (N : Nat) : S :=
  { dir := dir, last := last, pcs := List.replicate N .idle }

theorem start_reach (dir last : Bool) (N : Nat) : Reach N (start dir last N) := .init dir last

/-- Thread `i` matches the target and finds its recipe. -/
def matchIt (i : Nat) (o : Opt) : List (Nat × Op) :=
  [(i, .lock o true), (i, .cas), (i, .got), (i, .matchOk), (i, .apply o false false),
   (i, .setRecipe), (i, .unlock)]

/-- Thread `i` finds the target already matched. -/
def matchAgain (i : Nat) (o : Opt) : List (Nat × Op) :=
  [(i, .lock o true), (i, .cas), (i, .check), (i, .query)]

/-- Thread `i`, having matched it, executes the target. -/
def execIt (i : Nat) : List (Nat × Op) :=
  [(i, .depend), (i, .toExecute), (i, .exec), (i, .execCas), (i, .finish .changed),
   (i, .publish)]

/-! ### C19: matched once and executed once per operation -/

/-- The rule is applied at most once per operation. -/
theorem applied_once {N : Nat} {s : S} (h : Reach N s) : s.applies ≤ 1 := (inv_reach h).num.ap1

/-- The recipe is executed at most once per operation. -/
theorem executed_once {N : Nat} {s : S} (h : Reach N s) : s.execs ≤ 1 := (inv_reach h).num.ex1

/-- Everybody who has the result of the execution has the same one, and it is the final
state of the target. -/
theorem same_result {N : Nat} {s : S} (h : Reach N s) (hf : s.refail = false) {i j : Nat}
    {r r' : TState} (hi : s.pcs[i]? = some (.done r)) (hj : s.pcs[j]? = some (.done r')) :
    r = r' ∧ r = trans s.state := by
  have h1 := (inv_reach h).oks i _ hi hf
  have h2 := (inv_reach h).oks j _ hj hf
  exact ⟨h1.2.trans h2.2.symm, h1.2⟩

/-- Once somebody has the result of the execution, nobody executes the target anymore,
in this operation. -/
theorem result_final {N : Nat} {s : S} (h : Reach N s) (hf : s.refail = false) {i j : Nat}
    {r : TState} {p : Pc} (hi : s.pcs[i]? = some (.done r)) (hj : s.pcs[j]? = some p) :
    p ≠ .executing ∧ p ≠ .noop := by
  have h1 := (inv_reach h).oks i _ hi hf
  constructor
  · intro hp
    subst hp
    have : s.lvl = 4 := lvl_own (inv_reach h) hj rfl
    omega
  · intro hp
    subst hp
    have : s.lvl = 4 := lvl_own (inv_reach h) hj rfl
    omega

/-- No assertion fails, unless matching with more options failed. -/
theorem no_assert {N : Nat} {s : S} (h : Reach N s) (hf : s.refail = false) : s.bad = false :=
  (inv_reach h).num.bd hf

/-- ... in which case it can: with update during match, a dependent executes a target
whose state is failed.  Matching with other options failed in the meantime. -/
theorem rematch_failure_asserts : ∃ s, Reach 2 s ∧ s.bad = true := by
  refine ⟨_, run_reach (matchIt 0 1#64 ++ [(0, .depend), (1, .lock 2#64 true), (1, .cas),
    (1, .check), (1, .cas), (1, .got), (1, .ruleFail), (1, .unlock), (0, .toExecute),
    (0, .exec), (0, .execCas)]) (start_reach false false 2) rfl, rfl⟩

/-- Two threads match and execute it; both get the result of the same execution. -/
example : ∃ s, Reach 2 s ∧ s.applies = 1 ∧ s.execs = 1 ∧ s.refail = false ∧
    s.pcs = [.done .changed, .done .changed] :=
  ⟨_, run_reach (matchIt 0 1#64 ++ [(0, .depend)] ++ matchAgain 1 1#64 ++
    [(1, .depend), (0, .toExecute), (0, .exec), (1, .exec), (1, .execCas), (0, .execCas),
     (1, .subStart), (1, .subEnd), (1, .finish .changed), (1, .publish), (0, .waited)])
    (start_reach false false 2) rfl, rfl, rfl, rfl, rfl⟩

/-- And in the next operation once more. -/
example : ∃ s, Reach 1 s ∧ s.on = 1 ∧ s.applies = 1 ∧ s.execs = 1 :=
  ⟨_, run_reach (matchIt 0 1#64 ++ execIt 0 ++ [(0, .newOp true)] ++ matchIt 0 1#64 ++
     [(0, .depend), (0, .toExecute), (0, .exec), (0, .execCas)])
    (start_reach false false 1) rfl, rfl, rfl, rfl⟩

/-! ### C20: stale state is never mistaken for current -/

/-- A thread that has a result of matching or executing the target has it because the
state was set in the current operation. -/
theorem state_current {N : Nat} {s : S} (h : Reach N s) (hf : s.refail = false) {i : Nat}
    {p : Pc} (hi : s.pcs[i]? = some p) (hp : (∃ r, p = .matched r) ∨ ∃ r, p = .done r) :
    s.setOn = some s.on := by
  have hk := (inv_reach h).oks i _ hi
  apply (inv_reach h).num.so
  rcases hp with ⟨r, rfl⟩ | ⟨r, rfl⟩
  · exact hk.1
  · have := (hk hf).1; omega

/-- Where thread `i` gets a result, that result is the state that was set in the current
operation. -/
theorem read_current {N : Nat} {s t : S} (h : Reach N s) {i : Nat} {op : Op}
    (e : step s i op = some t) {r : TState} (hi : t.pcs[i]? = some (.matched r))
    (hn : ∀ r', s.pcs[i]? ≠ some (.matched r')) : r = s.state ∧ s.setOn = some s.on := by
  have hI := inv_reach h
  have hset : ∀ p : Pc, p ≠ .matched r → (s.pcs.set i p)[i]? ≠ some (.matched r) := by
    intro p hp hh
    rcases get_set hh with ⟨_, h1⟩ | ⟨h1, _⟩
    · exact hp h1.symm
    · exact h1 rfl
  unfold step at e
  split at e
  · cases e
  unfold act at e
  cases op with
  | toExecute | toMatch =>
    dsimp only at e
    split at e <;> cases e
    exact absurd hi (hn r)
  | newOp l =>
    dsimp only at e
    split at e <;> cases e
    dsimp only at hi
    rw [List.getElem?_map] at hi
    obtain ⟨w, _, h1⟩ := Option.map_eq_some_iff.1 hi
    cases h1
  | unlock =>
    dsimp only at e
    split at e
    · cases e
    rename_i p hp
    cases p <;> first | (cases e; done) | skip
    rename_i off o
    dsimp only at e
    split at e <;> cases e
    rcases get_set hi with ⟨_, h1⟩ | ⟨h1, _⟩
    · split at h1
      · cases h1
        refine ⟨rfl, hI.num.so ?_⟩
        have : s.lvl = off := lvl_own hI hp rfl
        omega
      · cases h1
    · exact absurd rfl h1
  | query =>
    dsimp only at e
    split at e
    · cases e
    rename_i p hp
    cases p <;> first | (cases e; done) | skip
    have hk := hI.oks i _ hp
    dsimp only at e
    split at e
    · cases e
      exact absurd hi (hset _ (by intro h; cases h))
    · split at e <;> cases e
      · rcases get_set hi with ⟨_, h1⟩ | ⟨h1, _⟩
        · cases h1
          exact ⟨rfl, hI.num.so hk.2⟩
        · exact absurd rfl h1
      · exact absurd hi (hn r)
  | cas =>
    dsimp only at e
    split at e
    · cases e
    rename_i p hp
    cases p <;> first | (cases e; done) | skip
    dsimp only at e
    (repeat' split at e) <;> cases e <;>
      exact absurd hi (hset _ (by intro h; first | (cases h; done) | (split at h <;> cases h)))
  | _ =>
    dsimp only at e
    split at e
    · cases e
    rename_i p hp
    cases p <;> first
      | (cases e; done)
      | (dsimp only at e
         (repeat' split at e) <;> cases e <;> first
           | exact absurd hi (hset _ (by intro h; cases h))
           | exact absurd hi (hn r))

/-- The number of dependents counted in the target is that of the dependents of the
current operation, whatever the previous operation left there. -/
theorem dependents_current {N : Nat} {s : S} (h : Reach N s)
    (hm : ∃ p ∈ s.pcs, p = .dependent) : s.deps = tally isDep s.pcs := by
  obtain ⟨p, hp, rfl⟩ := hm
  obtain ⟨i, hi⟩ := List.getElem?_of_mem hp
  have := (inv_reach h).oks i _ hi
  exact (inv_reach h).num.dp (by have := this.1; omega)

/-- If a target looks matched in the match phase, then it was matched in this operation.
Missing for the full claim: the case of a thread that has locked the target but not yet
reset its options, for which see below. -/
theorem looks_matched_partial {N : Nat} {s : S} (h : Reach N s) (he : s.exe = false)
    (hw : ∀ p ∈ s.pcs, ∀ e o, p = .lockGot e o → s.base < e) (hm : looksMatched s = true) :
    s.now = true := by
  have hI := inv_reach h
  unfold looksMatched at hm
  rw [if_pos he] at hm
  by_cases ht : s.tc < s.base + 6
  · have hl : s.lvl = s.tc - s.base := by unfold S.lvl; rw [if_pos ht]
    have h1 : s.tc = s.base + 4 ∨ s.tc = s.base + 5 := by
      simp only [Bool.or_eq_true, decide_eq_true_eq, Bool.and_eq_true] at hm
      rcases hm with (h1 | h1) | h1
      · exact Or.inl h1
      · exact Or.inr h1
      · omega
    exact hI.num.nw (Or.inl (by omega))
  · have hc : s.curA ≠ 0 := by
      simp only [Bool.or_eq_true, decide_eq_true_eq, Bool.and_eq_true] at hm
      rcases hm with (h1 | h1) | h1
      · omega
      · omega
      · exact h1.2
    apply hI.num.nw
    apply Decidable.byContradiction
    intro hne
    have h1 : s.lvl < 4 := by omega
    have h2 : tally isApp s.pcs = 0 := by omega
    have h3 : 1 ≤ s.lvl := by
      have ho := hI.num.own
      obtain ⟨j, q, hj, hq⟩ := tally_pos (w := own) (l := s.pcs) (by omega)
      have hk := hI.oks j q hj
      have hq' : own q = 1 → s.lvl = lv s.base q := fun h => lvl_own hI hj h
      cases q <;> first
        | exact absurd rfl hq
        | skip
      · rename_i e o
        have h4 := hw _ (List.mem_of_getElem? hj) e o rfl
        have h5 : s.lvl = e - s.base := hq' rfl
        omega
      · rename_i off o
        have h5 : s.lvl = off := hq' rfl
        have := hk.1
        omega
      all_goals first
        | (have h5 : s.lvl = 3 := hq' rfl
           omega)
        | (have h5 : s.lvl = 4 := hq' rfl
           omega)
        | (have h5 : s.lvl = 5 := hq' rfl
           omega)
    exact hc (hI.num.cu0 h3 h1 h2)

/-- ... and here the target looks matched to others, because of what the previous
operation left, though no rule was matched to it yet: the new owner has set the task
count but not yet reset the options. -/
theorem looks_matched_stale : ∃ s, Reach 1 s ∧ s.exe = false ∧ looksMatched s = true ∧
    s.now = false :=
  ⟨_, run_reach (matchIt 0 1#64 ++ execIt 0 ++ [(0, .newOp false), (0, .lock 1#64 true),
    (0, .cas)]) (start_reach false false 1) rfl, rfl, rfl, rfl⟩

/-- The state of a target that looks matched may be the one of the previous operation,
while the rule is being applied. -/
theorem looks_matched_state_stale : ∃ s, Reach 1 s ∧ s.exe = false ∧ looksMatched s = true ∧
    s.now = true ∧ s.setOn = some 0 ∧ s.on = 1 :=
  ⟨_, run_reach (matchIt 0 1#64 ++ execIt 0 ++ [(0, .newOp false), (0, .lock 1#64 true),
    (0, .cas), (0, .got), (0, .matchOk), (0, .apply 1#64 false false)])
    (start_reach false false 1) rfl, rfl, rfl, rfl, rfl, rfl⟩

/-- Something to which state_current and looks_matched_partial apply: in the second
operation. -/
example : ∃ s, Reach 1 s ∧ s.on = 1 ∧ s.refail = false ∧ s.exe = false ∧
    looksMatched s = true ∧ s.pcs = [.matched .unknown] :=
  ⟨_, run_reach (matchIt 0 1#64 ++ execIt 0 ++ [(0, .newOp false)] ++ matchIt 0 2#64)
    (start_reach false false 1) rfl, rfl, rfl, rfl, rfl, rfl⟩

/-! ### C21: reverse execution waits for the last dependent -/

/-- In reverse execution, by the time a dependent executes the target there are no other
dependents which have not asked for it yet. -/
theorem last_waits {N : Nat} {s : S} (h : Reach N s) (hl : s.last = true) {i : Nat}
    (hi : s.pcs[i]? = some (.execTry true)) : ∀ p ∈ s.pcs, p ≠ .dependent := by
  have hI := inv_reach h
  have hk := hI.oks i _ hi
  have h1 := tally_le (w := isTry) hi
  have h2 : isTry (.execTry true) = 1 := rfl
  have h3 := hI.num.lm hl (by omega)
  have h4 := hI.num.dp (by have := hk.2.1; omega)
  intro p hp hd
  subst hd
  obtain ⟨j, hj⟩ := List.getElem?_of_mem hp
  have h5 := tally_le (w := isDep) hj
  have h6 : isDep .dependent = 1 := rfl
  omega

/-- In straight execution, nobody is turned away. -/
theorem first_runs {N : Nat} {s t : S} (h : Reach N s) (hl : s.last = false) {i : Nat}
    (hi : s.pcs[i]? = some .dependent) (e : step s i .exec = some t) :
    t.pcs[i]? = some (.execTry true) := by
  have hI := inv_reach h
  have hk := hI.oks i _ hi
  have h1 := tally_le (w := isDep) hi
  have h2 : isDep .dependent = 1 := rfl
  have h3 := hI.num.dp (by have := hk.1; omega)
  have h4 := hI.num.gd
  unfold step at e
  split at e
  · cases e
  unfold act at e
  dsimp only at e
  rw [hi] at e
  dsimp only at e
  split at e
  · cases e
  · rw [if_neg (by omega), if_neg (by rw [hl]; simp)] at e
    cases e
    exact get_set_self hi

/-- In reverse execution a dependent is turned away only if there are others. -/
theorem last_turns_away {N : Nat} {s t : S} (h : Reach N s) {i : Nat}
    (hi : s.pcs[i]? = some .dependent) (e : step s i .exec = some t)
    (hn : t.pcs[i]? ≠ some (.execTry true)) : s.last = true ∧ ∃ p ∈ t.pcs, p = .dependent := by
  have hI := inv_reach h
  have hk := hI.oks i _ hi
  have h1 := tally_le (w := isDep) hi
  have h2 : isDep .dependent = 1 := rfl
  have h3 := hI.num.dp (by have := hk.1; omega)
  have h4 := hI.num.gd
  unfold step at e
  split at e
  · cases e
  unfold act at e
  dsimp only at e
  rw [hi] at e
  dsimp only at e
  split at e
  · cases e
  · rw [if_neg (by omega)] at e
    split at e
    · rename_i hc
      cases e
      refine ⟨hc.1, ?_⟩
      have h5 := tally_set (w := isDep) (q := .idle) hi
      have h6 : isDep .idle = 0 := rfl
      obtain ⟨j, q, hj, hq⟩ := tally_pos (w := isDep) (l := s.pcs.set i .idle) (by omega)
      refine ⟨q, List.mem_of_getElem? hj, ?_⟩
      cases q <;> first | rfl | exact absurd rfl hq
    · cases e
      exact absurd (get_set_self hi) hn

/-- Once every dependent has asked and nobody is in the middle of something, the target is
executed, in either mode. -/
theorem all_asked_executed {N : Nat} {s : S} (h : Reach N s) (hf : s.refail = false)
    (ht : s.taken ≠ 0) (hr : ∀ p ∈ s.pcs, resting p = true) (hd : ∀ p ∈ s.pcs, p ≠ .dependent) :
    s.tc = s.base + 5 := by
  have hI := inv_reach h
  have hz : ∀ w : Pc → Nat, (∀ p, resting p = true → p ≠ .dependent → w p = 0) →
      tally w s.pcs = 0 := by
    intro w hw
    apply Decidable.byContradiction
    intro hne
    obtain ⟨j, q, hj, hq⟩ := tally_pos hne
    exact hq (hw q (hr q (List.mem_of_getElem? hj)) (hd q (List.mem_of_getElem? hj)))
  have h1 := hz own (by intro p h1 h2; cases p <;> first | rfl | (cases h1; done))
  have h2 := hz isDep (by
    intro p h1 h2; cases p <;> first | rfl | (cases h1; done) | exact absurd rfl h2)
  have h3 := hz isTry (by intro p h1 h2; cases p <;> first | rfl | (cases h1; done))
  have h4 := hz exOwn (by intro p h1 h2; cases p <;> first | rfl | (cases h1; done))
  have h5 := hI.num.tk hf
  have h6 := hI.num.own
  have h7 : s.lvl = 5 := by omega
  unfold S.lvl at h7
  rw [if_pos (by omega)] at h7
  omega

/-- Two dependents in reverse execution: the first is turned away, the second executes. -/
example : ∃ s, Reach 2 s ∧ s.last = true ∧ s.pcs = [.idle, .execTry true] ∧
    ∃ t, step s 1 .execCas = some t ∧ t.pcs = [.idle, .executing] :=
  ⟨_, run_reach (matchIt 0 1#64 ++ [(0, .depend)] ++ matchAgain 1 1#64 ++
    [(1, .depend), (0, .toExecute), (0, .exec), (1, .exec)])
    (start_reach false true 2) rfl, rfl, rfl, _, rfl, rfl⟩

/-- And at the end it is executed. -/
example : ∃ s, Reach 2 s ∧ s.taken = 2 ∧ s.refail = false ∧ s.pcs = [.idle, .done .changed] ∧
    s.tc = s.base + 5 :=
  ⟨_, run_reach (matchIt 0 1#64 ++ [(0, .depend)] ++ matchAgain 1 1#64 ++
    [(1, .depend), (0, .toExecute), (0, .exec), (1, .exec), (1, .execCas),
     (1, .finish .changed), (1, .publish)])
    (start_reach false true 2) rfl, rfl, rfl, rfl, rfl⟩

/-! ### C22: the operation knows when it is finished -/

/-- The target was matched to a rule with something to do in this operation, which is not
done yet. -/
def Pending (s : S) : Prop := s.tc = s.base + 4 ∧ s.state = .unknown

/-- The target's share of the number of outstanding requests is that of its dependents
which have not asked for its execution. -/
theorem dependency_share {N : Nat} {s : S} (h : Reach N s) : s.gd = tally isDep s.pcs :=
  (inv_reach h).num.gd

/-- When nobody is in the middle of something, the target's share of the number of targets
to execute is one if it is to be executed and zero otherwise. -/
theorem target_share {N : Nat} {s : S} (h : Reach N s) (hf : s.refail = false)
    (hp : s.phfail = false) (hr : ∀ p ∈ s.pcs, resting p = true) :
    (Pending s → s.gt = 1) ∧ (¬ Pending s → s.gt = 0) := by
  have hI := inv_reach h
  have hz : ∀ w : Pc → Nat, (∀ p, resting p = true → w p = 0) → tally w s.pcs = 0 := by
    intro w hw
    apply Decidable.byContradiction
    intro hne
    obtain ⟨j, q, hj, hq⟩ := tally_pos hne
    exact hq (hw q (hr q (List.mem_of_getElem? hj)))
  have h1 := hz own (by intro p h1; cases p <;> first | rfl | (cases h1; done))
  have h2 := hz isFin (by intro p h1; cases p <;> first | rfl | (cases h1; done))
  have h6 := hI.num.own
  have hl : s.lvl = s.tc - s.base := by unfold S.lvl; rw [if_pos (by omega)]
  have hg := hI.num.gt hf hp
  rw [h2] at hg
  constructor
  · rintro ⟨h3, h4⟩
    exact hg.1 (by omega) h4
  · intro hn
    apply hg.2
    apply Decidable.byContradiction
    intro hne
    rw [not_or, Decidable.not_not, Decidable.not_not] at hne
    exact hn ⟨by omega, hne.2⟩

/-- The counters of the whole operation are sums over all targets (each of them with its
own number of threads that use it).  They are zero at the end exactly when every target
that is to be executed has been, and every dependent has asked. -/
theorem counts_zero_iff (l : List S) (h : ∀ s ∈ l, ∃ N, Reach N s)
    (hf : ∀ s ∈ l, s.refail = false ∧ s.phfail = false)
    (hr : ∀ s ∈ l, ∀ p ∈ s.pcs, resting p = true) :
    tally S.gd l + tally S.gt l = 0 ↔
      ∀ s ∈ l, (∀ p ∈ s.pcs, p ≠ .dependent) ∧ ¬ Pending s := by
  induction l with
  | nil => simp [tally]
  | cons s l ih =>
    have ih := ih (fun x hx => h x (List.mem_cons_of_mem _ hx))
      (fun x hx => hf x (List.mem_cons_of_mem _ hx))
      (fun x hx => hr x (List.mem_cons_of_mem _ hx))
    obtain ⟨N, hN⟩ := h s List.mem_cons_self
    have h1 := dependency_share hN
    have h2 := target_share hN (hf s List.mem_cons_self).1 (hf s List.mem_cons_self).2
      (hr s List.mem_cons_self)
    rw [tally_cons, tally_cons]
    constructor
    · intro h0 x hx
      rcases List.mem_cons.1 hx with rfl | hx
      · constructor
        · intro p hp hd
          subst hd
          obtain ⟨j, hj⟩ := List.getElem?_of_mem hp
          have h5 := tally_le (w := isDep) hj
          have h6 : isDep .dependent = 1 := rfl
          omega
        · intro hp
          have := h2.1 hp
          omega
      · exact ih.1 (by omega) x hx
    · intro hx
      have h3 := ih.2 (fun x hx' => hx x (List.mem_cons_of_mem _ hx'))
      obtain ⟨h4, h5⟩ := hx s List.mem_cons_self
      have h6 := h2.2 h5
      have h7 : tally isDep s.pcs = 0 := by
        apply Decidable.byContradiction
        intro hne
        obtain ⟨j, q, hj, hq⟩ := tally_pos hne
        apply h4 q (List.mem_of_getElem? hj)
        cases q <;> first | rfl | exact absurd rfl hq
      omega

/-- Matched and with a dependent: both shares are one.  Executed: both are zero. -/
example : ∃ s, Reach 1 s ∧ s.pcs = [.dependent] ∧ s.gd = 1 ∧ s.gt = 1 :=
  ⟨_, run_reach (matchIt 0 1#64 ++ [(0, .depend)]) (start_reach false false 1) rfl, rfl, rfl, rfl⟩

example : ∃ s, Reach 1 s ∧ s.pcs = [.done .changed] ∧ s.gd = 0 ∧ s.gt = 0 :=
  ⟨_, run_reach (matchIt 0 1#64 ++ execIt 0) (start_reach false false 1) rfl, rfl, rfl, rfl⟩

end Verif.OpState
