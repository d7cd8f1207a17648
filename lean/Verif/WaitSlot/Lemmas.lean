import Verif.WaitSlot.Model

/-! Helper lemmas: the inductive invariant. -/
namespace Verif.WaitSlot

/-- Threads that hold the slot mutex. -/
def PC.holds : PC → Bool
  | .checking _ => true
  | .willSleep _ => true
  | .notifying _ => true
  | _ => false

/-- Threads counted in `waiters`. -/
def PC.waits : PC → Bool
  | .checking _ => true
  | .willSleep _ => true
  | .asleep _ => true
  | .woken _ => true
  | _ => false

/-- Threads that sleep, or are bound to, on this count. -/
def PC.sleeps (tc : Nat) : PC → Bool
  | .willSleep t => t == tc
  | .asleep t => t == tc
  | _ => false

/-- Threads that owe a notification for this count. -/
def PC.owes (tc : Nat) : PC → Bool
  | .mustNotify t => t == tc
  | .notifying t => t == tc
  | _ => false

def PC.runs (tc : Nat) : PC → Bool
  | .running t => t == tc
  | _ => false

structure Inv (start c0 : Nat → Nat) (s : St) : Prop where
  holder : ∀ i p, s.threads[i]? = some p → (p.holds = true ↔ s.mutex = some i)
  inside : ∀ i, s.mutex = some i → i < s.threads.length
  waiters : s.waiters = s.threads.countP PC.waits
  awake : ∀ tc, (∃ p ∈ s.threads, p.sleeps tc = true) → s.count tc ≤ start tc →
    ∃ p ∈ s.threads, p.owes tc = true
  base : ∀ tc, s.count tc = c0 tc + s.threads.countP (PC.runs tc)
  seen : ∀ tc v, PC.returned tc v ∈ s.threads → v ≤ start tc

theorem countP_set {f : PC → Bool} {l : List PC} {i : Nat} {p q : PC}
    (h : l[i]? = some p) :
    (l.set i q).countP f + (if f p then 1 else 0) = l.countP f + (if f q then 1 else 0) := by
  induction l generalizing i with
  | nil => simp at h
  | cons a l ih =>
    cases i with
    | zero =>
      simp at h; subst h
      simp only [List.set_cons_zero, List.countP_cons]; omega
    | succ i =>
      simp at h
      have := ih h
      simp only [List.set_cons_succ, List.countP_cons]; omega

theorem mem_set {l : List PC} {i : Nat} {q x : PC} (h : x ∈ l.set i q) : x = q ∨ x ∈ l := by
  rcases List.mem_or_eq_of_mem_set h with h | h
  · exact Or.inr h
  · exact Or.inl h

theorem mem_set_of_ne {l : List PC} {i : Nat} {p q x : PC} (hp : l[i]? = some p)
    (h : x ∈ l) (hne : x ≠ p) : x ∈ l.set i q := by
  obtain ⟨j, hj⟩ := List.mem_iff_getElem?.mp h
  rw [List.mem_iff_getElem?]
  refine ⟨j, ?_⟩
  have : i ≠ j := by
    intro e; subst e; rw [hp] at hj; exact hne (Option.some.inj hj).symm
  rw [List.getElem?_set_ne this]; exact hj

theorem mem_set_self {l : List PC} {i : Nat} {p q : PC} (hp : l[i]? = some p) : q ∈ l.set i q := by
  have : i < l.length := by
    rw [List.getElem?_eq_some_iff] at hp; exact hp.1
  rw [List.mem_iff_getElem?]
  exact ⟨i, by simp [this]⟩

theorem wake_waits (p : PC) : (wake p).waits = p.waits := by cases p <;> rfl
theorem wake_holds (p : PC) : (wake p).holds = p.holds := by cases p <;> rfl
theorem wake_runs (tc : Nat) (p : PC) : (wake p).runs tc = p.runs tc := by cases p <;> rfl
theorem wake_owes (tc : Nat) (p : PC) : (wake p).owes tc = p.owes tc := by cases p <;> rfl

/-- The generic part: thread `i` goes from `p` to `q`. -/
theorem inv_set {start c0 : Nat → Nat} {s : St} (h : Inv start c0 s) {i : Nat} {p q : PC}
    (hp : s.threads[i]? = some p) {mx : Option Nat} {w : Nat} {c : Nat → Nat}
    -- the mutex is taken or released properly
    (hm : (q.holds = p.holds ∧ mx = s.mutex) ∨
          (p.holds = false ∧ q.holds = true ∧ s.mutex = none ∧ mx = some i) ∨
          (p.holds = true ∧ q.holds = false ∧ mx = none))
    (hw : w + (if p.waits then 1 else 0) = s.waiters + (if q.waits then 1 else 0))
    (hs : ∀ tc, q.sleeps tc = true → p.sleeps tc = true ∨ start tc < c tc)
    (ho : ∀ tc, p.owes tc = true → q.owes tc = true)
    (hc : ∀ tc, c tc ≤ start tc → s.count tc ≤ start tc ∨ q.owes tc = true)
    (hb : ∀ tc, c tc + (if p.runs tc then 1 else 0) = s.count tc + (if q.runs tc then 1 else 0))
    (hq : ∀ tc v, q = .returned tc v → v ≤ start tc) :
    Inv start c0 ⟨c, mx, w, s.threads.set i q⟩ := by
  have hi : i < s.threads.length := by
    rw [List.getElem?_eq_some_iff] at hp; exact hp.1
  refine ⟨?_, ?_, ?_, ?_, ?_, ?_⟩
  · intro j r hr
    by_cases hij : i = j
    · subst hij
      simp only [List.getElem?_set_self hi, Option.some.injEq] at hr
      subst hr
      have hh := h.holder i p hp
      rcases hm with ⟨h1, h2⟩ | ⟨h1, h2, h3, h4⟩ | ⟨h1, h2, h3⟩
      · rw [h1, h2]; exact hh
      · simp [h2, h4]
      · simp [h2, h3]
    · rw [List.getElem?_set_ne hij] at hr
      have hh := h.holder j r hr
      rcases hm with ⟨h1, h2⟩ | ⟨h1, h2, h3, h4⟩ | ⟨h1, h2, h3⟩
      · rw [h2]; exact hh
      · rw [h3] at hh
        dsimp only
        rw [h4]
        constructor
        · intro hx; have := hh.mp hx; cases this
        · intro hx; exact absurd (Option.some.inj hx) hij
      · have hpi := (h.holder i p hp).mp h1
        rw [hpi] at hh
        dsimp only
        rw [h3]
        constructor
        · intro hx; exact absurd (Option.some.inj (hh.mp hx)) hij
        · intro hx; cases hx
  · intro j hj
    dsimp only at hj ⊢
    rw [List.length_set]
    rcases hm with ⟨h1, h2⟩ | ⟨h1, h2, h3, h4⟩ | ⟨h1, h2, h3⟩
    · rw [h2] at hj; exact h.inside j hj
    · rw [h4] at hj; have := Option.some.inj hj; omega
    · rw [h3] at hj; cases hj
  · have := countP_set (f := PC.waits) (q := q) hp
    have := h.waiters
    dsimp only; omega
  · intro tc ⟨r, hr, hrs⟩ hle
    dsimp only at hr hle ⊢
    rcases hc tc hle with hle' | hqo
    · have hex : ∃ p ∈ s.threads, p.sleeps tc = true := by
        rcases mem_set hr with e | e
        · subst e
          rcases hs tc hrs with h1 | h1
          · exact ⟨p, List.mem_of_getElem? hp, h1⟩
          · omega
        · exact ⟨r, e, hrs⟩
      obtain ⟨o, ho1, ho2⟩ := h.awake tc hex hle'
      by_cases hop : o = p
      · subst hop; exact ⟨q, mem_set_self hp, ho tc ho2⟩
      · exact ⟨o, mem_set_of_ne hp ho1 hop, ho2⟩
    · exact ⟨q, mem_set_self hp, hqo⟩
  · intro tc
    have h1 := countP_set (f := PC.runs tc) (q := q) hp
    have h2 := hb tc
    have h3 := h.base tc
    dsimp only; omega
  · intro tc v hv
    dsimp only at hv
    rcases mem_set hv with e | e
    · exact hq tc v e.symm
    · exact h.seen tc v e

/-- Waking everyone up does not break anything. -/
theorem inv_wake {start c0 : Nat → Nat} {s : St} (h : Inv start c0 s) :
    Inv start c0 { s with threads := s.threads.map wake } := by
  refine ⟨?_, by simpa using h.inside, ?_, ?_, ?_, ?_⟩
  · intro i p hp
    simp only [List.getElem?_map, Option.map_eq_some_iff] at hp
    obtain ⟨r, hr, rfl⟩ := hp
    rw [wake_holds]; exact h.holder i r hr
  · simp only [List.countP_map]
    rw [h.waiters]
    congr 1
    funext p; simp [wake_waits]
  · intro tc ⟨p, hp, hps⟩ hle
    simp only [List.mem_map] at hp
    obtain ⟨r, hr, rfl⟩ := hp
    have hrs : r.sleeps tc = true := by cases r <;> simp_all [wake, PC.sleeps]
    obtain ⟨o, ho1, ho2⟩ := h.awake tc ⟨r, hr, hrs⟩ hle
    exact ⟨wake o, List.mem_map_of_mem ho1, by rw [wake_owes]; exact ho2⟩
  · intro tc
    simp only [List.countP_map]
    rw [h.base tc]
    congr 2
    funext p; simp [wake_runs]
  · intro tc v hv
    simp only [List.mem_map] at hv
    obtain ⟨r, hr, e⟩ := hv
    have : r = .returned tc v := by cases r <;> simp_all [wake]
    subst this
    exact h.seen tc v hr

/-- Like `inv_set` when nobody sleeps. -/
theorem inv_quiet {start c0 : Nat → Nat} {s : St} (h : Inv start c0 s) {i : Nat} {tc : Nat}
    (hp : s.threads[i]? = some (.notifying tc))
    (hn : ∀ tc', ∀ p ∈ s.threads, p.sleeps tc' = false) :
    Inv start c0 { s with mutex := none, threads := s.threads.set i .idle } := by
  have hi : i < s.threads.length := by
    rw [List.getElem?_eq_some_iff] at hp; exact hp.1
  have hmx := (h.holder i _ hp).mp rfl
  refine ⟨?_, by simp, ?_, ?_, ?_, ?_⟩
  · intro j r hr
    by_cases hij : i = j
    · subst hij
      simp only [List.getElem?_set_self hi, Option.some.injEq] at hr
      subst hr; simp [PC.holds]
    · dsimp only at hr ⊢
      rw [List.getElem?_set_ne hij] at hr
      have hh := h.holder j r hr
      rw [hmx] at hh
      constructor
      · intro hx; exact absurd (Option.some.inj (hh.mp hx)) hij
      · intro hx; cases hx
  · have h1 := countP_set (f := PC.waits) (q := .idle) hp
    simp [PC.waits] at h1
    rw [h1]; exact h.waiters
  · intro tc' ⟨p, hp', hs⟩ _
    dsimp only at hp'
    rcases mem_set hp' with e | e
    · subst e; simp [PC.sleeps] at hs
    · rw [hn tc' p e] at hs; cases hs
  · intro tc'
    have h1 := countP_set (f := PC.runs tc') (q := .idle) hp
    simp [PC.runs] at h1
    rw [h1]; exact h.base tc'
  · intro tc' v hv
    dsimp only at hv
    rcases mem_set hv with e | e
    · cases e
    · exact h.seen tc' v e

theorem inv_step {start c0 : Nat → Nat} {s t : St} (h : Inv start c0 s) {i : Nat} {a : Act}
    (e : step start s i a = some t) : Inv start c0 t := by
  unfold step at e
  split at e
  case h_1 tc hp =>
    split at e <;> (cases e; apply inv_set h hp) <;>
      simp_all [PC.holds, PC.waits, PC.sleeps, PC.owes, PC.runs] <;> omega
  case h_2 tc hp =>
    split at e <;> cases e
    apply inv_set h hp <;>
      simp_all [PC.holds, PC.waits, PC.sleeps, PC.owes, PC.runs]
  case h_3 tc hp =>
    have hw : 0 < s.waiters := by
      rw [h.waiters, List.countP_pos_iff]
      exact ⟨_, List.mem_of_getElem? hp, rfl⟩
    split at e <;> (cases e; apply inv_set h hp) <;>
      simp_all [PC.holds, PC.waits, PC.sleeps, PC.owes, PC.runs] <;> omega
  case h_4 tc hp =>
    cases e; apply inv_set h hp <;>
      simp_all [PC.holds, PC.waits, PC.sleeps, PC.owes, PC.runs]
  case h_5 tc hp =>
    cases e; apply inv_set h hp <;>
      simp_all [PC.holds, PC.waits, PC.sleeps, PC.owes, PC.runs]
  case h_6 tc hp =>
    split at e <;> cases e
    apply inv_set h hp <;>
      simp_all [PC.holds, PC.waits, PC.sleeps, PC.owes, PC.runs]
  case h_7 tc hp =>
    cases e; apply inv_set h hp <;>
      simp_all [PC.holds, PC.waits, PC.sleeps, PC.owes, PC.runs]
  case h_8 tc hp =>
    cases e; apply inv_set h hp <;>
      simp_all [PC.holds, PC.waits, PC.sleeps, PC.owes, PC.runs, setCount] <;>
      (intro tc'; split <;> simp_all <;> omega)
  case h_9 tc hp =>
    have hb : 0 < s.count tc := by
      have h1 := h.base tc
      have : 0 < s.threads.countP (PC.runs tc) := by
        rw [List.countP_pos_iff]
        exact ⟨_, List.mem_of_getElem? hp, by simp [PC.runs]⟩
      omega
    split at e <;> (cases e; apply inv_set h hp) <;>
      simp_all [PC.holds, PC.waits, PC.sleeps, PC.owes, PC.runs, setCount] <;>
      (try (intro tc'; split <;> simp_all <;> omega))
  case h_10 tc hp =>
    split at e <;> cases e
    apply inv_set h hp <;>
      simp_all [PC.holds, PC.waits, PC.sleeps, PC.owes, PC.runs]
  case h_11 tc hp =>
    cases e
    have hmx := (h.holder i _ hp).mp rfl
    have hnw : ∀ tc', PC.willSleep tc' ∉ s.threads := by
      intro tc' hm
      obtain ⟨j, hj⟩ := List.mem_iff_getElem?.mp hm
      have := (h.holder j _ hj).mp rfl
      rw [hmx] at this
      cases this
      rw [hp] at hj; cases hj
    by_cases hw : s.waiters = 0
    · simp only [hw, ne_eq, not_true_eq_false, if_false]
      have := inv_quiet h hp (fun tc' p hpm => by
        have h0 := h.waiters
        rw [hw] at h0
        have := (List.countP_eq_zero.mp h0.symm) p hpm
        cases p <;> simp_all [PC.waits, PC.sleeps])
      rw [hw] at this
      exact this
    · simp only [hw, ne_eq, not_false_eq_true, if_true]
      refine inv_quiet (tc := tc) (inv_wake h) (by simp [hp, wake]) ?_
      intro tc' p hpm
      simp only [List.mem_map] at hpm
      obtain ⟨r, hr, rfl⟩ := hpm
      cases r <;> simp [wake, PC.sleeps]
      rename_i t
      exact absurd hr (hnw t)
  case h_12 => cases e

theorem inv_reach {start c0 : Nat → Nat} {n : Nat} {s : St} (h : Reach start n c0 s) :
    Inv start c0 s := by
  induction h with
  | init =>
    refine ⟨?_, by simp, ?_, ?_, ?_, ?_⟩
    · intro i p hp
      have := List.mem_of_getElem? hp
      simp at this
      simp [this.2, PC.holds]
    · symm; rw [List.countP_eq_zero]; intro p hp; simp at hp; simp [hp.2, PC.waits]
    · intro tc ⟨p, hp, hs⟩
      simp at hp; simp [hp.2, PC.sleeps] at hs
    · intro tc; simp [PC.runs]
    · intro tc v hv; simp at hv
  | step _ e ih => exact inv_step ih e

/-- Upper bound on the number of steps a thread (and what it causes) can still
make without new tasks and waits. -/
def rank (n : Nat) : PC → Nat
  | .idle => 0
  | .returned _ _ => 1
  | .asleep _ => 1
  | .willSleep _ => 3
  | .checking _ => 4
  | .wantLock _ => 5
  | .woken _ => 5
  | .notifying _ => 4 * n + 1
  | .mustNotify _ => 4 * n + 2
  | .running _ => 4 * n + 3

def total (n : Nat) (l : List PC) : Nat := (l.map (rank n)).sum

theorem total_set {n : Nat} {l : List PC} {i : Nat} {p q : PC} (h : l[i]? = some p) :
    total n (l.set i q) + rank n p = total n l + rank n q := by
  induction l generalizing i with
  | nil => simp at h
  | cons a l ih =>
    cases i with
    | zero =>
      simp at h; subst h
      simp [total]; omega
    | succ i =>
      simp at h
      have := ih h
      simp [total] at this ⊢; omega

theorem total_wake (n : Nat) (l : List PC) : total n (l.map wake) ≤ total n l + 4 * l.length := by
  induction l with
  | nil => simp [total]
  | cons a l ih =>
    have : rank n (wake a) ≤ rank n a + 4 := by cases a <;> simp [wake, rank]
    simp [total] at ih ⊢
    omega

theorem step_length {start : Nat → Nat} {s t : St} {i : Nat} {a : Act}
    (e : step start s i a = some t) : t.threads.length = s.threads.length := by
  unfold step at e
  split at e <;> (try split at e) <;> cases e <;> simp <;> split <;> simp

theorem go_total {start : Nat → Nat} {s t : St} {i : Nat}
    (e : step start s i .go = some t) :
    total s.threads.length t.threads < total s.threads.length s.threads := by
  have key : ∀ (p q : PC), s.threads[i]? = some p →
      rank s.threads.length q < rank s.threads.length p →
      total s.threads.length (s.threads.set i q) < total s.threads.length s.threads := by
    intro p q hp hr
    have := total_set (n := s.threads.length) (q := q) hp
    omega
  unfold step at e
  split at e
  case h_1 => simp_all
  case h_2 tc hp _ => split at e <;> cases e; exact key _ _ hp (by simp [rank])
  case h_3 tc hp _ => split at e <;> cases e <;> exact key _ _ hp (by simp [rank])
  case h_4 tc hp _ => cases e; exact key _ _ hp (by simp [rank])
  case h_5 => simp_all
  case h_6 tc hp _ => split at e <;> cases e; exact key _ _ hp (by simp [rank])
  case h_7 tc hp _ => cases e; exact key _ _ hp (by simp [rank])
  case h_8 => simp_all
  case h_9 tc hp _ => cases e; exact key _ _ hp (by split <;> simp [rank])
  case h_10 tc hp _ => split at e <;> cases e; exact key _ _ hp (by simp [rank])
  case h_11 tc hp _ =>
    cases e
    dsimp only
    split
    · have hp' : (s.threads.map wake)[i]? = some (.notifying tc) := by simp [hp, wake]
      have h1 := total_set (n := s.threads.length) (q := .idle) hp'
      have h2 := total_wake s.threads.length s.threads
      simp only [rank] at h1
      omega
    · exact key _ _ hp (by simp [rank])
  case h_12 => cases e

end Verif.WaitSlot
