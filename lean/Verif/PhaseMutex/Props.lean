import Verif.PhaseMutex.Lemmas

/-!
# The phase mutex (C16, C17, C18, C44)

`Reach N s`: `s` can be reached by `N` threads that lock, unlock and switch
phases in any order. A thread in state `hold n ok` has returned from lock() or
relock() for phase `n` with result `ok` and has not released the phase yet.
-/
namespace Verif.PhaseMutex
open Verif.Util

/-! ## C16 -/

/-- All the threads that have a phase have the same one, which is the current
phase, and the load phase is had by at most one thread. -/
theorem phases_exclusive {N : Nat} {s : St} (h : Reach N s) {i j : Nat} {p q : Ph} {a b : Bool}
    (hi : s.threads[i]? = some (.hold p a)) (hj : s.threads[j]? = some (.hold q b)) :
    p = s.phase ∧ q = s.phase ∧ (p = .load → i = j) := by
  obtain ⟨hv, _⟩ := inv_reach h
  have hp := hv.inn i _ p hi rfl
  have hq := hv.inn j _ q hj rfl
  refine ⟨hp, hq, ?_⟩
  intro hl
  apply Decidable.byContradiction
  intro hij
  subst hl
  have hq' : q = .load := hq.trans hp.symm
  subst hq'
  have := tally_le2 (w := wLoad) hij hi hj
  have h3 := hv.lm
  simp only [wLoad] at this
  split at h3 <;> omega

/-! ## C17 -/

/-- Thread `t` waits for phase `p`. -/
def Waits (t : T) (p : Ph) : Prop := t = .sleep p ∨ t = .awake p

/-- Thread `t` has the phase `p` or is inside the functions that acquire or
release it. -/
def In (t : T) (p : Ph) : Prop := inn t = some p

theorem ph_cases {t : T} {p : Ph} (h : ph t = some p) : Waits t p ∨ In t p := by
  cases t with
  | notify v k =>
    cases k with
    | none => cases h
    | some r => right; exact h
  | idle => cases h
  | sleep n => cases h; left; left; rfl
  | awake n => cases h; left; right; rfl
  | wantLoad => right; exact h
  | hold n ok => right; exact h
  | leaving o to => right; exact h

theorem waits_cnt {s : St} (h : Inv s) {i : Nat} {t : T} {p : Ph} (hi : s.threads[i]? = some t)
    (hw : Waits t p) : s.cnt p ≠ 0 := by
  have := tally_le (w := wPh p) hi
  have hc := h.cnt p
  have h1 : wPh p t = 1 := by rcases hw with rfl | rfl <;> simp [wPh, ph]
  omega

theorem cnt_waits {s : St} (h : Inv s) {p : Ph} (hp : p ≠ s.phase) (hc : s.cnt p ≠ 0) :
    ∃ (i : Nat) (t : T), s.threads[i]? = some t ∧ Waits t p := by
  rw [h.cnt p] at hc
  obtain ⟨i, t, hi, ht⟩ := tally_pos hc
  refine ⟨i, t, hi, ?_⟩
  have : ph t = some p := by
    unfold wPh at ht; split at ht
    · assumption
    · exact absurd rfl ht
  rcases ph_cases this with hw | hw
  · exact hw
  · exact absurd (h.inn i t p hi hw) hp

/-- When the last thread leaves the current phase with unlock(), the mutex
switches to the load phase if some thread waits for it, otherwise to the match
phase if some thread waits for it, otherwise to the execute phase if some thread
waits for it, and otherwise (nobody uses the mutex) to the load phase. -/
theorem unlock_priority {N : Nat} {s s' : St} (h : Reach N s) {i : Nat} {o : Ph}
    (hi : s.threads[i]? = some (.leaving o none))
    (hlast : ∀ (j : Nat) (u : T), j ≠ i → s.threads[j]? = some u → ¬ In u o ∧ ¬ Waits u o)
    (e : step s i .leave = some s') :
    let W p := ∃ (j : Nat) (u : T), s.threads[j]? = some u ∧ Waits u p
    (W .load → s'.phase = .load) ∧
    (¬ W .load → W .match_ → s'.phase = .match_) ∧
    (¬ W .load → ¬ W .match_ → W .execute → s'.phase = .execute) ∧
    (¬ W .load → ¬ W .match_ → ¬ W .execute → s'.phase = .load) := by
  intro W
  obtain ⟨hv, _⟩ := inv_reach h
  have ho : o = s.phase := hv.inn i _ o hi rfl
  simp only [step, hi, Option.some.injEq] at e
  subst e
  have hcd := cnt_dec s o
  have ho0 : (s.dec o).cnt o = 0 := by
    rw [hcd, if_pos rfl]
    have hc := hv.cnt o
    have hs := tally_set (w := wPh o) (q := .idle) hi
    have h1 : wPh o (.leaving o none) = 1 := by simp [wPh, ph]
    have h2 : wPh o .idle = 0 := rfl
    have h3 : tally (wPh o) (s.threads.set i .idle) = 0 := by
      apply Decidable.byContradiction
      intro hne
      obtain ⟨j, u, hj, hu⟩ := tally_pos hne
      rcases get_set hj with ⟨_, rfl⟩ | ⟨hji, hj⟩
      · exact hu rfl
      · have : ph u = some o := by
          unfold wPh at hu; split at hu
          · assumption
          · exact absurd rfl hu
        obtain ⟨n1, n2⟩ := hlast j u hji hj
        rcases ph_cases this with hw | hw
        · exact n2 hw
        · exact n1 hw
    omega
  -- being counted and waiting are the same thing for the other phases
  have hW : ∀ p, p ≠ o → ((s.dec o).cnt p ≠ 0 ↔ W p) := by
    intro p hp
    rw [hcd, if_neg (fun e => hp e.symm)]
    constructor
    · intro hc
      exact cnt_waits hv (by rw [← ho]; exact hp) (by simpa using hc)
    · rintro ⟨j, u, hj, hu⟩
      have := waits_cnt hv hj hu
      simpa using this
  have hWo : ¬ W o := by
    rintro ⟨j, u, hj, hu⟩
    by_cases hji : j = i
    · subst hji; rw [hi] at hj; cases hj; rcases hu with hu | hu <;> cases hu
    · exact (hlast j u hji hj).2 hu
  have hWall : ∀ p, (s.dec o).cnt p ≠ 0 ↔ W p := by
    intro p
    by_cases hp : p = o
    · subst hp; exact ⟨fun h => absurd ho0 h, fun h => absurd h hWo⟩
    · exact hW p hp
  have hl := hWall .load
  have hm := hWall .match_
  have he := hWall .execute
  simp only [St.cnt] at hl hm he
  unfold unlockStep
  simp only [ho0, if_true]
  have hph : ∀ (x : St) (n : Ph), (subPhase { x with phase := n } o n).phase = n := fun x n =>
    (subPhase_fields _ _ _).1
  refine ⟨?_, ?_, ?_, ?_⟩
  · intro hwl
    rw [if_pos (hl.2 hwl)]; exact hph _ _
  · intro hwl hwm
    rw [if_neg (fun x => hwl (hl.1 x)), if_pos (hm.2 hwm)]; exact hph _ _
  · intro hwl hwm hwe
    rw [if_neg (fun x => hwl (hl.1 x)), if_neg (fun x => hwm (hm.1 x)), if_pos (he.2 hwe)]
    exact hph _ _
  · intro hwl hwm hwe
    rw [if_neg (fun x => hwl (hl.1 x)), if_neg (fun x => hwm (hm.1 x)),
      if_neg (fun x => hwe (he.1 x))]
    exact hph _ _

/-- The steps that finish what was started: those inside the functions of the
mutex, and releasing the phase. -/
def closing : Op → Bool
  | .awakeTry | .loadAcquire | .leave | .notify | .unlock => true
  | _ => false

/-- No deadlock: if none of these steps is possible then no thread has or waits
for any phase. -/
theorem no_deadlock {N : Nat} {s : St} (h : Reach N s)
    (hn : ∀ i o, closing o = true → step s i o = none) :
    ∀ t ∈ s.threads, t = .idle := by
  obtain ⟨hv, _⟩ := inv_reach h
  -- what can't be there
  have hst : ∀ (j : Nat) (u : T), s.threads[j]? = some u →
      u = .idle ∨ (∃ p, u = .sleep p) ∨ (u = .wantLoad ∧ s.lm = true) := by
    intro j u hj
    cases u with
    | idle => exact Or.inl rfl
    | sleep p => exact Or.inr (Or.inl ⟨p, rfl⟩)
    | awake p =>
      have := hn j .awakeTry rfl
      simp only [step, hj] at this
      split at this <;> cases this
    | wantLoad =>
      have := hn j .loadAcquire rfl
      simp only [step, hj] at this
      split at this
      · exact Or.inr (Or.inr ⟨rfl, ‹_›⟩)
      · cases this
    | hold p ok =>
      have := hn j .unlock rfl
      simp only [step, hj] at this
      cases this
    | leaving o to =>
      have := hn j .leave rfl
      cases to <;> simp only [step, hj] at this <;> cases this
    | notify v k =>
      have := hn j .notify rfl
      simp only [step, hj] at this
      cases this
  have hlm : s.lm = false := by
    cases hlm : s.lm with
    | false => rfl
    | true =>
      have h3 := hv.lm
      rw [hlm] at h3
      obtain ⟨j, u, hj, hu⟩ := tally_pos (w := wLoad) (l := s.threads) (by rw [h3]; simp)
      rcases hst j u hj with rfl | ⟨p, rfl⟩ | ⟨rfl, _⟩ <;> exact absurd rfl hu
  intro t ht
  obtain ⟨i, hi⟩ := List.getElem?_of_mem ht
  rcases hst i t hi with h1 | ⟨p, rfl⟩ | ⟨_, h2⟩
  · exact h1
  · exfalso
    have hc : s.cnt p ≠ 0 := waits_cnt hv hi (Or.inl rfl)
    have hc' : s.cnt s.phase ≠ 0 := fun h0 => hc (hv.ne h0 p)
    rw [hv.cnt] at hc'
    obtain ⟨j, u, hj, hu⟩ := tally_pos hc'
    rcases hst j u hj with rfl | ⟨q, rfl⟩ | ⟨rfl, h2⟩
    · exact hu rfl
    · have : q = s.phase := by
        simp [wPh, ph] at hu; exact hu
      subst this
      obtain ⟨m, k, hm⟩ := hv.slp j hj
      rcases hst m _ hm with h1 | ⟨p, h1⟩ | ⟨h1, _⟩ <;> cases h1
    · rw [hlm] at h2; cases h2
  · rw [hlm] at h2; cases h2

/-- What is left to do for a thread, with `N` threads. -/
def left (N : Nat) : T → Nat
  | .idle => 0
  | .notify _ none => N + 1
  | .leaving _ none => N + 2
  | .hold _ _ => N + 3
  | .wantLoad => N + 4
  | .sleep _ => N + 5
  | .awake _ => N + 6
  | .notify _ (some _) => 2 * N + 7
  | .leaving _ (some _) => 2 * N + 8

theorem left_enter (N : Nat) (n : Ph) (r : Bool) : left N (enter n r) ≤ N + 4 := by
  unfold enter; split <;> simp only [left] <;> omega

theorem left_wake (N : Nat) (v : Ph) (l : List T) :
    tally (left N) (l.map (wake v)) ≤ tally (left N) l + l.length := by
  induction l with
  | nil => exact Nat.le_refl _
  | cons a l ih =>
    rw [List.map_cons, tally_cons, tally_cons, List.length_cons]
    have : left N (wake v a) ≤ left N a + 1 := by
      unfold wake; split
      · rename_i h; subst h; simp only [left]; omega
      · omega
    omega

theorem closing_less {s s' : St} {i : Nat} {o : Op} (ho : closing o = true)
    (e : step s i o = some s') :
    s'.threads.length = s.threads.length ∧
    tally (left s.threads.length) s'.threads < tally (left s.threads.length) s.threads := by
  unfold step at e
  split at e
  · cases e
  · rename_i t hi
    have key : ∀ t' : T, left s.threads.length t' < left s.threads.length t →
        (s.threads.set i t').length = s.threads.length ∧
        tally (left s.threads.length) (s.threads.set i t') <
          tally (left s.threads.length) s.threads := by
      intro t' h
      have := tally_set (w := left s.threads.length) (q := t') hi
      exact ⟨by simp, by omega⟩
    split at e
    · cases ho
    · cases e; apply key; simp only [left]; omega
    · cases ho
    · cases ho
    · split at e
      · cases e; apply key
        have := left_enter s.threads.length
        simp only [left]
        exact Nat.lt_of_le_of_lt (this _ _) (by omega)
      · cases e; apply key; simp only [left]; omega
    · split at e
      · cases e
      · cases e; apply key; simp only [left]; omega
    · cases e
      rename_i o
      have hd := (dec_fields s o).2.2.2.1
      unfold unlockStep
      dsimp only
      split
      · split
        · simp only [St.put, (subPhase_fields _ _ _).2.2.2.1, hd]
          apply key; simp only [left]; omega
        · simp only [St.put, (subPhase_fields _ _ _).2.2.2.1, hd]
          apply key; simp only [left]; omega
      · simp only [St.put, hd]
        apply key; simp only [left]; omega
    · cases e
      rename_i o n
      have hd := (dec_fields s o).2.2.2.1
      have hd' := (inc_fields (s.dec o) n).2.2.2.1
      have he := left_enter s.threads.length n
      unfold relockStep
      dsimp only
      split
      · split
        · simp only [St.put, (subPhase_fields _ _ _).2.2.2.1, hd', hd]
          apply key; simp only [left]; omega
        · simp only [St.put, (subPhase_fields _ _ _).2.2.2.1, hd', hd]
          apply key; simp only [left]
          exact Nat.lt_of_le_of_lt (he _) (by omega)
      · split
        · simp only [St.put, hd', hd]
          apply key; simp only [left]; omega
        · simp only [St.put, hd', hd]
          apply key; simp only [left]
          exact Nat.lt_of_le_of_lt (he _) (by omega)
    · cases e
      rename_i v k
      have hi' : (s.threads.map (wake v))[i]? = some (.notify v k) := by
        rw [List.getElem?_map, hi]
        simp only [Option.map_some, Option.some.injEq]
        exact wake_notify.2 rfl
      have h1 := tally_set (w := left s.threads.length) (q := afterNotify v k) hi'
      have h2 := left_wake s.threads.length v s.threads
      refine ⟨by simp, ?_⟩
      dsimp only
      cases k with
      | none => simp only [left, afterNotify] at h1 ⊢; omega
      | some r =>
        have he := left_enter s.threads.length v r
        have h3 : left s.threads.length (.notify v (some r)) = 2 * s.threads.length + 7 := rfl
        simp only [afterNotify] at h1 ⊢
        omega
    · cases ho
    · cases e

/-- A run of closing steps. -/
inductive Closing : Nat → St → St → Prop
  | nil (s : St) : Closing 0 s s
  | cons {n : Nat} {s t u : St} {i : Nat} {o : Op} : closing o = true → step s i o = some t →
      Closing n t u → Closing (n + 1) s u

theorem closing_reach {N n : Nat} {s t : St} (h : Closing n s t) (hr : Reach N s) : Reach N t := by
  induction h with
  | nil => exact hr
  | cons _ e _ ih => exact ih (hr.step e)

/-- If from some point on threads only finish what they have started and release
what they have, in whatever order, then this takes a bounded number of steps, and
when it can't be continued every thread has been through its phase: nobody
waits. -/
theorem waiters_finish {N : Nat} {s : St} (h : Reach N s) :
    ∃ bound, ∀ n t, Closing n s t → n ≤ bound ∧
      ((∀ i o, closing o = true → step t i o = none) → ∀ u ∈ t.threads, u = .idle) := by
  refine ⟨tally (left s.threads.length) s.threads, ?_⟩
  intro n t hc
  refine ⟨?_, fun hn => no_deadlock (closing_reach hc h) hn⟩
  clear h
  induction hc with
  | nil => exact Nat.zero_le _
  | cons ho e _ ih =>
    obtain ⟨h1, h2⟩ := closing_less ho e
    rw [h1] at ih
    omega

/-! ## C18 -/

/-- Once a load has failed, every thread that gets a phase is told so, whichever
phase it is and however it was waiting for it. -/
theorem fail_reported {N : Nat} {s : St} (h : Reach N s) (hf : s.fail = true) {i : Nat} {n : Ph}
    {ok : Bool} (hi : s.threads[i]? = some (.hold n ok)) : ok = false := by
  have := (inv_reach h).1.res i _ hi
  simp only [good, hf] at this
  exact this

/-- The failure is never forgotten. -/
theorem fail_sticky {s s' : St} {i : Nat} {o : Op} (e : step s i o = some s')
    (hf : s.fail = true) : s'.fail = true := by
  unfold step at e
  split at e
  · cases e
  · rename_i t hi
    split at e
    · cases e
      rename_i n
      unfold lockStep
      dsimp only
      split
      · simp only [St.put, (inc_fields s n).2.1]; exact hf
      · split <;> (simp only [St.put, (inc_fields s n).2.1]; exact hf)
    · cases e; exact hf
    · split at e <;> cases e; exact hf
    · cases e; rfl
    · split at e <;> (cases e; exact hf)
    · split at e <;> cases e; exact hf
    · cases e
      rename_i o
      unfold unlockStep
      dsimp only
      split
      · split <;>
          (simp only [St.put, (subPhase_fields _ _ _).2.1, (dec_fields s o).2.1]; exact hf)
      · simp only [St.put, (dec_fields s o).2.1]; exact hf
    · cases e
      rename_i o n
      unfold relockStep
      dsimp only
      split
      · split <;>
          (simp only [St.put, (subPhase_fields _ _ _).2.1, (inc_fields _ n).2.1,
            (dec_fields s o).2.1]; exact hf)
      · split <;>
          (simp only [St.put, (inc_fields _ n).2.1, (dec_fields s o).2.1]; exact hf)
    · cases e; exact hf
    · cases e; exact hf
    · cases e

/-- And nobody is told about a failure that has not happened. -/
theorem no_false_failure {N : Nat} {s : St} (h : Reach N s) (hf : s.fail = false) {i : Nat}
    {n : Ph} {ok : Bool} (hi : s.threads[i]? = some (.hold n ok)) : ok = true := by
  have := (inv_reach h).1.res i _ hi
  simp only [good, hf] at this
  exact this

/-! ## C44 -/

theorem reachD_reach {N : Nat} {s : St} (h : ReachD N s) : Reach N s := by
  induction h with
  | init => exact .init
  | step _ _ _ e ih => exact ih.step e

def lawful : T → Prop
  | .leaving o none => o = .match_
  | .leaving o (some n) => o = .match_ ∨ n = .match_
  | _ => True

theorem lawful_enter (n : Ph) (r : Bool) : lawful (enter n r) := by
  unfold enter; split <;> trivial

theorem lawful_after (v : Ph) (k : Option Bool) : lawful (afterNotify v k) := by
  cases k with
  | none => trivial
  | some r => exact lawful_enter v r

theorem depth_inv {N : Nat} {s : St} (h : ReachD N s) :
    (s.underflow = false ∧ s.depth = if s.phase = .execute then 1 else 0) ∧
    ∀ (j : Nat) (u : T), s.threads[j]? = some u → lawful u := by
  induction h with
  | init =>
    refine ⟨⟨rfl, rfl⟩, ?_⟩
    intro j u hj; have := get_replicate hj; subst this; trivial
  | @step s s' i t op hr hi hd e ih =>
    obtain ⟨⟨ih1, ih2⟩, ih3⟩ := ih
    obtain ⟨hv, hlv⟩ := inv_reach (reachD_reach hr)
    have key : ∀ t' : T, lawful t' → ∀ (j : Nat) (u : T), (s.threads.set i t')[j]? = some u →
        lawful u := by
      intro t' ht' j u hj
      rcases get_set hj with ⟨_, rfl⟩ | ⟨_, hj⟩
      · exact ht'
      · exact ih3 j u hj
    unfold step at e
    simp only [hi] at e
    split at e
    · cases e
      rename_i n
      simp only [disciplined, decide_eq_true_eq] at hd
      subst hd
      unfold lockStep
      obtain ⟨f1, f2, f3, f4, f5, f6⟩ := inc_fields s .match_
      dsimp only
      split
      · rename_i hu
        have hl := hv.unl ((all_zero s).2 hu)
        rw [hl] at ih2
        simp only [St.put, f4, f5, f6]
        exact ⟨⟨ih1, ih2⟩, key _ (lawful_enter _ _)⟩
      · split
        · simp only [St.put, f1, f4, f5, f6]
          exact ⟨⟨ih1, ih2⟩, key _ trivial⟩
        · simp only [St.put, f1, f4, f5, f6]
          exact ⟨⟨ih1, ih2⟩, key _ (lawful_enter _ _)⟩
    · cases e
      rename_i o ok
      simp only [disciplined, decide_eq_true_eq] at hd
      exact ⟨⟨ih1, ih2⟩, key _ hd⟩
    · split at e
      · cases e
        simp only [disciplined, Bool.or_eq_true, decide_eq_true_eq] at hd
        exact ⟨⟨ih1, ih2⟩, key _ hd⟩
      · cases e
    · cases e; exact ⟨⟨ih1, ih2⟩, key _ trivial⟩
    · split at e
      · cases e; exact ⟨⟨ih1, ih2⟩, key _ (lawful_enter _ _)⟩
      · cases e; exact ⟨⟨ih1, ih2⟩, key _ trivial⟩
    · split at e
      · cases e
      · cases e; exact ⟨⟨ih1, ih2⟩, key _ trivial⟩
    · -- unlock
      cases e
      rename_i o
      have hom : o = .match_ := ih3 i _ hi
      have hp := hv.inn i _ o hi rfl
      rw [← hp] at ih2
      subst hom
      simp at ih2
      unfold unlockStep
      obtain ⟨f1, f2, f3, f4, f5, f6⟩ := dec_fields s .match_
      dsimp only
      split
      · rename_i h0
        have h0 : (s.dec .match_).mc = 0 := h0
        by_cases hl : (s.dec .match_).lc ≠ 0
        · simp only [if_pos hl, St.put, subPhase, reduceCtorEq, and_false, if_false, f4, f5, f6]
          exact ⟨⟨ih1, ih2⟩, key _ trivial⟩
        · by_cases he : (s.dec .match_).ec ≠ 0
          · simp only [if_neg hl, h0, ne_eq, not_true_eq_false, if_false, if_pos he, St.put,
              subPhase, and_self, if_true, f4, f5, f6]
            exact ⟨⟨ih1, by omega⟩, key _ trivial⟩
          · simp only [if_neg hl, h0, ne_eq, not_true_eq_false, if_false, if_neg he, St.put,
              subPhase, reduceCtorEq, and_false, f4, f5, f6]
            exact ⟨⟨ih1, ih2⟩, key _ trivial⟩
      · simp only [St.put, f1, f4, f5, f6, ← hp, reduceCtorEq, if_false]
        exact ⟨⟨ih1, ih2⟩, key _ trivial⟩
    · -- relock
      cases e
      rename_i o n
      have hon := hlv i o n hi
      have hom : o = .match_ ∨ n = .match_ := ih3 i _ hi
      have hp := hv.inn i _ o hi rfl
      rw [← hp] at ih2
      unfold relockStep
      obtain ⟨f1, f2, f3, f4, f5, f6⟩ := dec_fields s o
      obtain ⟨k1, k2, k3, k4, k5, k6⟩ := inc_fields (s.dec o) n
      dsimp only
      split
      · have hsub : (subPhase { (s.dec o).inc n with phase := n } o n).underflow = false ∧
            (subPhase { (s.dec o).inc n with phase := n } o n).depth =
              if n = .execute then 1 else 0 := by
          unfold subPhase
          have q5 : ((s.dec o).inc n).depth = if o = .execute then 1 else 0 := by
            rw [k5, f5]; exact ih2
          have q6 : ((s.dec o).inc n).underflow = false := by rw [k6, f6]; exact ih1
          clear k1 k2 k3 k4 k5 k6 f1 f2 f3 f4 f5 f6 ih1 ih2 hp hi
          generalize (s.dec o).inc n = w at q5 q6
          cases o <;> cases n <;> simp_all
        have hph := (subPhase_fields { (s.dec o).inc n with phase := n } o n).1
        have hth := (subPhase_fields { (s.dec o).inc n with phase := n } o n).2.2.2.1
        dsimp only at hph hth
        have hth := hth.trans (k4.trans f4)
        split
        · refine ⟨⟨hsub.1, ?_⟩, ?_⟩
          · simp only [St.put, hph]; exact hsub.2
          · intro j u hj
            simp only [St.put] at hj
            rw [hth] at hj
            exact key _ (by trivial) j u hj
        · refine ⟨⟨hsub.1, ?_⟩, ?_⟩
          · simp only [St.put, hph]; exact hsub.2
          · intro j u hj
            simp only [St.put] at hj
            rw [hth] at hj
            exact key _ (lawful_enter _ _) j u hj
      · split
        · simp only [St.put, k1, k4, k5, k6, f1, f4, f5, f6]
          exact ⟨⟨ih1, by rw [← hp]; exact ih2⟩, key _ trivial⟩
        · simp only [St.put, k1, k4, k5, k6, f1, f4, f5, f6]
          exact ⟨⟨ih1, by rw [← hp]; exact ih2⟩, key _ (lawful_enter _ _)⟩
    · cases e
      rename_i v k
      refine ⟨⟨ih1, ih2⟩, ?_⟩
      intro j u hj
      dsimp only at hj
      rcases get_set hj with ⟨_, rfl⟩ | ⟨_, hj⟩
      · exact lawful_after v k
      · rw [List.getElem?_map] at hj
        obtain ⟨w, hw, rfl⟩ := Option.map_eq_some_iff.1 hj
        unfold wake; split
        · trivial
        · exact ih3 j w hw
    · cases e; exact ⟨⟨ih1, ih2⟩, key _ trivial⟩
    · cases e

/-- Used the way the build system uses it, the mutex enters a scheduler sub-phase
exactly when it switches to the execute phase and leaves it when it switches
back: the stack is never popped when empty and never has more than one level. -/
theorem sub_phases_balanced {N : Nat} {s : St} (h : ReachD N s) :
    s.underflow = false ∧ s.depth = if s.phase = .execute then 1 else 0 :=
  (depth_inv h).1

/-- Run a list of steps. -/
def run : List (Nat × Op) → St → Option St
  | [], s => some s
  | (i, o) :: os, s => (step s i o).bind (run os)

theorem run_reach {N : Nat} : ∀ (os : List (Nat × Op)) {s t : St}, Reach N s →
    run os s = some t → Reach N t
  | [], _, _, h, e => by cases e; exact h
  | (i, o) :: os, s, t, h, e => by
    simp only [run, Option.bind_eq_some_iff] at e
    obtain ⟨u, h1, h2⟩ := e
    exact run_reach os (h.step h1) h2

/-- It does depend on how the mutex is used: if a thread unlocks the load phase
directly, rather than switching to match first ("this voodoo is necessary to
keep scheduler phases straight", libbuild2/target.cxx:1613-1616), while another
waits to execute then the sub-phase is not entered but is left. -/
theorem unlock_load_unbalanced : ∃ s, Reach 2 s ∧ s.underflow = true := by
  let ops : List (Nat × Op) := [(0, .lock .match_), (1, .lock .match_), (0, .relock .execute),
    (0, .leave), (1, .relock .load), (1, .leave), (1, .loadAcquire), (1, .unlock), (1, .leave),
    (1, .notify), (0, .awakeTry), (0, .relock .match_), (0, .leave)]
  have h : (run ops { threads := List.replicate 2 .idle }).map (·.underflow) = some true := by
    decide
  obtain ⟨s, hs, hu⟩ := Option.map_eq_some_iff.1 h
  exact ⟨s, run_reach ops .init hs, hu⟩

/-! ## The hypotheses can be met -/

/-- Thread 0 matches and switches to load while thread 1 matches and thread 2
waits to execute; 1 leaves and so 0 loads; it fails; then 2 gets to execute after
0 has left and is told about the failure. -/
private def scenario : List (Nat × Op) := [(0, .lock .match_), (1, .lock .match_),
  (2, .lock .execute), (0, .relock .load), (0, .leave), (1, .unlock), (1, .leave), (1, .notify),
  (0, .awakeTry), (0, .loadAcquire), (0, .setFail), (0, .unlock), (0, .leave), (0, .notify),
  (2, .awakeTry)]

example : (run scenario { threads := List.replicate 3 .idle }).map (fun s => (s.phase, s.threads))
    = some (.execute, [.idle, .idle, .hold .execute false]) := by decide

/-- Two threads in the match phase, two for load. -/
example : (run [(0, .lock .match_), (1, .lock .match_), (2, .lock .load), (3, .lock .load)]
    { threads := List.replicate 4 .idle }).map (fun s => (s.phase, s.threads)) =
    some (.match_, [.hold .match_ true, .hold .match_ true, .sleep .load, .sleep .load]) := by
  decide

/-- `unlock_priority`: the last one in match leaves, both load and execute are
waited for. -/
example : (run [(0, .lock .match_), (1, .lock .execute), (2, .lock .load), (0, .unlock),
    (0, .leave)] { threads := List.replicate 3 .idle }).map (fun s => (s.phase, s.threads)) =
    some (.load, [.notify .load none, .sleep .execute, .sleep .load]) := by decide

/-- A disciplined run with a sub-phase. -/
example : (run [(0, .lock .match_), (1, .lock .match_), (0, .relock .execute), (0, .leave),
    (1, .unlock), (1, .leave), (1, .notify), (0, .awakeTry)]
    { threads := List.replicate 2 .idle }).map (fun s => (s.phase, s.depth, s.threads)) =
    some (.execute, 1, [.hold .execute true, .idle]) := by decide

end Verif.PhaseMutex
