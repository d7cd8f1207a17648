import Verif.TaskQueue.Model

/-! Helper lemmas: the circular buffer as a list, and the mark invariant. -/
namespace Verif.TaskQueue

variable {α : Type}

theorem wrap {D h n : Nat} (hh : h < D) (hn : n ≤ D) :
    (h + n) % D = if h + n < D then h + n else h + n - D := by
  split
  · exact Nat.mod_eq_of_lt ‹_›
  · rw [Nat.mod_eq_sub_mod (by omega), Nat.mod_eq_of_lt (by omega)]

theorem wrap_inj {D h i j : Nat} (hh : h < D) (hi : i < D) (hj : j < D)
    (e : (h + i) % D = (h + j) % D) : i = j := by
  rw [wrap hh (by omega), wrap hh (by omega)] at e
  split at e <;> split at e <;> omega

theorem wrap_succ {D h i : Nat} (hh : h < D) (hi : i < D) :
    ((h + 1) % D + i) % D = (h + (i + 1)) % D := by
  rw [Nat.mod_add_mod]; congr 1; omega

theorem wrap_lt {D h : Nat} (hh : h < D) : h % D = h := Nat.mod_eq_of_lt hh

/-- The buffer holds exactly `xs`. -/
structure Ring (D : Nat) (q : TQ α) (xs : List α) : Prop where
  hl : q.head < D
  len : q.size = xs.length
  le : xs.length ≤ D
  t0 : xs = [] → q.tail = q.head
  t1 : xs ≠ [] → q.tail = (q.head + (xs.length - 1)) % D
  dat : ∀ i (h : i < xs.length), q.data ((q.head + i) % D) = some xs[i]

theorem Ring.tl {D : Nat} {q : TQ α} {xs : List α} (r : Ring D q xs) : q.tail < D := by
  by_cases h : xs = []
  · rw [r.t0 h]; exact r.hl
  · rw [r.t1 h]; exact Nat.mod_lt _ (Nat.lt_of_le_of_lt (Nat.zero_le _) r.hl)

theorem ring_init {D : Nat} (hD : 0 < D) : Ring D ({} : TQ α) [] :=
  ⟨hD, rfl, Nat.zero_le _, fun _ => rfl, fun h => absurd rfl h, fun i h => absurd h (by simp)⟩

/-- Changing only the mark does not matter. -/
theorem Ring.mark {D : Nat} {q : TQ α} {xs : List α} (r : Ring D q xs) (m : Nat) :
    Ring D { q with mark := m } xs :=
  ⟨r.hl, r.len, r.le, r.t0, r.t1, r.dat⟩

theorem ring_push {D : Nat} {q : TQ α} {xs : List α} (r : Ring D q xs) (h : xs.length < D)
    (x : α) : ∃ q', q.push D x = some q' ∧ Ring D q' (xs ++ [x]) ∧ q'.head = q.head ∧
      q'.tail = (q.head + xs.length) % D ∧
      q'.mark = if q.mark = D then q'.tail else q.mark := by
  have hs : q.size ≠ D := by rw [r.len]; omega
  have ht : (if q.size ≠ 0 then (if q.tail ≠ D - 1 then q.tail + 1 else 0) else q.tail) =
      (q.head + xs.length) % D := by
    have := r.hl
    by_cases hx : xs = []
    · have e := r.t0 hx
      have l := r.len
      subst hx
      simp only [List.length_nil] at l
      simp [l, e, wrap_lt r.hl]
    · have e := r.t1 hx
      have hl : 0 < xs.length := by cases xs <;> simp at hx ⊢
      have l := r.len
      rw [wrap r.hl (by omega)] at e
      rw [wrap r.hl (by omega)]
      split at e <;> (repeat' split) <;> omega
  refine ⟨_, if_pos hs, ?_, rfl, ht, rfl⟩
  refine ⟨r.hl, by simp [r.len], by simp; omega, by simp, ?_, ?_⟩
  · intro _
    show (if q.size ≠ 0 then (if q.tail ≠ D - 1 then q.tail + 1 else 0) else q.tail) = _
    rw [ht]; simp
  · intro i hi
    simp only [ht]
    by_cases hii : i = xs.length
    · subst hii; simp
    · have hi' : i < xs.length := by simp at hi; omega
      rw [if_neg]
      · rw [r.dat i hi', List.getElem_append_left hi']
      · intro e; exact hii (wrap_inj r.hl (by omega) (by omega) e)

theorem ring_full {D : Nat} {q : TQ α} {xs : List α} (r : Ring D q xs) (h : ¬ xs.length < D)
    (x : α) : q.push D x = none ∧ xs.length = D := by
  have := r.le
  have e : xs.length = D := by omega
  refine ⟨?_, e⟩
  unfold TQ.push
  rw [if_neg]
  rw [r.len]; omega

theorem ring_popFront {D : Nat} {q : TQ α} {x : α} {xs : List α} (r : Ring D q (x :: xs)) :
    ∃ q', q.popFront D = (some x, q') ∧ Ring D q' xs ∧
      q'.mark = (if xs = [] ∨ q.head = q.mark then q'.head else q.mark) ∧
      (xs ≠ [] → q'.head = (q.head + 1) % D) := by
  have hsz : q.size = xs.length + 1 := by rw [r.len]; simp
  have hle := r.le
  have hhl := r.hl
  simp at hle
  have hd : q.data q.head = some x := by
    have := r.dat 0 (by simp)
    simpa [wrap_lt r.hl] using this
  have hh : xs ≠ [] → (if q.size ≠ 1 then (if q.head ≠ D - 1 then q.head + 1 else 0) else q.head)
      = (q.head + 1) % D := by
    intro hx
    have hl : 0 < xs.length := by cases xs <;> simp at hx ⊢
    rw [wrap r.hl (by omega)]
    (repeat' split) <;> omega
  have hh0 : xs = [] → (if q.size ≠ 1 then (if q.head ≠ D - 1 then q.head + 1 else 0) else q.head)
      = q.head := by
    intro hx; subst hx; simp at hsz; simp [hsz]
  refine ⟨(q.popFront D).2, by simp only [TQ.popFront, hd], ?_, ?_, ?_⟩ <;>
    dsimp only [TQ.popFront]
  · refine ⟨?_, by simp [hsz], by omega, ?_, ?_, ?_⟩
    · dsimp only
      (repeat' split) <;> omega
    · intro hx
      dsimp only
      rw [hh0 hx]
      have := r.t1 (by simp)
      rw [this]; subst hx; simp [wrap_lt r.hl]
    · intro hx
      dsimp only
      have hl : 0 < xs.length := by cases xs <;> simp at hx ⊢
      rw [hh hx, wrap_succ r.hl (by omega), r.t1 (by simp)]
      congr 1; simp; omega
    · intro i hi
      dsimp only
      have hx : xs ≠ [] := by rintro rfl; simp at hi
      rw [hh hx, wrap_succ r.hl (by omega), r.dat (i + 1) (by simp; omega)]
      simp
  · simp only [hsz, Nat.add_sub_cancel]
    have : (xs.length == 0 || q.head == q.mark) = true ↔ xs = [] ∨ q.head = q.mark := by
      simp
    by_cases hc : xs = [] ∨ q.head = q.mark
    · rw [if_pos (this.mpr hc), if_pos hc]
    · rw [if_neg (fun h => hc (this.mp h)), if_neg hc]
  · intro hx
    exact hh hx

theorem ring_popBack {D : Nat} {q : TQ α} {x : α} {xs : List α} (r : Ring D q (xs ++ [x])) :
    ∃ q', q.popBack D = (some x, .pop q.mark (q.tail == q.mark), q') ∧ Ring D q' xs ∧
      q'.mark = D ∧ q'.head = q.head ∧ q.tail = (q.head + xs.length) % D := by
  have hsz : q.size = xs.length + 1 := by rw [r.len]; simp
  have hle := r.le
  have hhl := r.hl
  simp at hle
  have ht : q.tail = (q.head + xs.length) % D := by rw [r.t1 (by simp)]; simp
  have hd : q.data q.tail = some x := by
    rw [ht, r.dat xs.length (by simp)]; simp
  refine ⟨(q.popBack D).2.2, by simp only [TQ.popBack, hd], ?_, rfl, rfl, ht⟩
  dsimp only [TQ.popBack]
  refine ⟨r.hl, by simp [hsz], by omega, ?_, ?_, ?_⟩
  · intro hx; subst hx
    simp at hsz
    simp [hsz, ht, wrap_lt r.hl]
  · intro hx
    have hl : 0 < xs.length := by cases xs <;> simp at hx ⊢
    dsimp only
    rw [wrap r.hl (by omega)] at ht
    rw [wrap r.hl (by omega)]
    split at ht <;> (repeat' split) <;> omega
  · intro i hi
    dsimp only
    rw [r.dat i (by simp; omega), List.getElem_append_left hi]

theorem Ring.contents {D : Nat} {q : TQ α} {xs : List α} (r : Ring D q xs) :
    q.contents D = xs := by
  have : ∀ (n : Nat), n ≤ xs.length →
      (List.range n).filterMap (fun i => q.data ((q.head + i) % D)) = xs.take n := by
    intro n
    induction n with
    | zero => simp
    | succ n ih =>
      intro h
      rw [List.range_succ, List.filterMap_append, ih (by omega)]
      simp [r.dat n (by omega)]
  unfold TQ.contents
  rw [r.len, this _ (Nat.le_refl _), List.take_length]

/-- Number of items queued at a level below `l`. -/
def low (l : Nat) (items : List (Nat × α)) : Nat := items.countP (fun i => i.1 < l)

/-- The saved mark of the activity at level `l` is right for the items. `ex`
tells that it is exact, otherwise it may be anything if there are no tasks from
before the activity. -/
def FrameOk (ex : Prop) (D head : Nat) (items : List (Nat × α)) (l : Nat) : Frame → Prop
  | .pop om a =>
    (low l items = 0 ∧ (ex → low (l + 1) items = 0)) ∨
    (low l items < low (l + 1) items ∧ om = (head + low l items) % D ∧ a = false) ∨
    (low l items = low (l + 1) items ∧ (a = true ∨ om = D))
  | .keep om =>
    (low l items = 0 ∧ (ex → low (l + 1) items = 0)) ∨
    (low l items < low (l + 1) items ∧ om = (head + low l items) % D)
  | .skip => (low l items = 0 ∧ (ex → low (l + 1) items = 0)) ∨ low l items = low (l + 1) items

def FramesOk (ex : Prop) (D head : Nat) (items : List (Nat × α)) : List Frame → Prop
  | [] => True
  | f :: r => FrameOk ex D head items r.length f ∧ FramesOk ex D head items r

structure Inv (ex : Prop) (D : Nat) (m : M α) (s : Spec α) : Prop where
  ring : Ring D m.q (s.items.map (·.2))
  lvl : s.lvl = m.frames.length
  sorted : s.items.Pairwise (fun a b => a.1 ≤ b.1)
  bound : ∀ i ∈ s.items, i.1 ≤ s.lvl
  mark0 : s.items = [] → m.q.mark = D ∨ m.q.mark = m.q.head
  mark1 : s.items ≠ [] → (low s.lvl s.items = 0 ∧ ¬ ex) ∨
    (low s.lvl s.items < s.items.length ∧ m.q.mark = (m.q.head + low s.lvl s.items) % D) ∨
    (low s.lvl s.items = s.items.length ∧ m.q.mark = D)
  frames : FramesOk ex D m.q.head s.items m.frames

theorem inv_init {ex : Prop} {D : Nat} (hD : 0 < D) : Inv ex D ({} : M α) Spec.init :=
  ⟨ring_init hD, rfl, List.Pairwise.nil, by simp [Spec.init], fun _ => Or.inr rfl,
   fun h => absurd rfl h, trivial⟩

theorem low_append (l : Nat) (a b : List (Nat × α)) : low l (a ++ b) = low l a + low l b := by
  simp [low, List.countP_append]

theorem low_le (l : Nat) (a : List (Nat × α)) : low l a ≤ a.length := List.countP_le_length

theorem low_all {l : Nat} {a : List (Nat × α)} (h : ∀ i ∈ a, i.1 < l) : low l a = a.length := by
  unfold low
  rw [List.countP_eq_length]
  intro i hi; simpa using h i hi

theorem low_cons (l : Nat) (i : Nat × α) (a : List (Nat × α)) :
    low l (i :: a) = low l a + if i.1 < l then 1 else 0 := by
  simp [low, List.countP_cons]

theorem low_zero {l : Nat} {a : List (Nat × α)} (h : ∀ i ∈ a, l ≤ i.1) : low l a = 0 := by
  unfold low
  rw [List.countP_eq_zero]
  intro i hi; simpa using h i hi

/-- The items may change as long as the counts of the lower levels do not. -/
theorem framesOk_same {ex : Prop} {D head : Nat} {a b : List (Nat × α)} : ∀ (fs : List Frame),
    (∀ l ≤ fs.length, low l a = low l b) → FramesOk ex D head a fs → FramesOk ex D head b fs
  | [], _, _ => trivial
  | f :: r, h, ⟨h1, h2⟩ => by
    have e1 := h r.length (by simp)
    have e2 := h (r.length + 1) (by simp)
    refine ⟨?_, framesOk_same r (fun l hl => h l (by simp; omega)) h2⟩
    cases f <;> simp only [FrameOk, ← e1, ← e2] <;> exact h1

/-- Head of the queue taken. -/
theorem framesOk_front {ex : Prop} (hex : ¬ ex) {D head : Nat} (hh : head < D) {i : Nat × α} {a : List (Nat × α)}
    (hlen : a.length < D)
    (hs : ∀ j ∈ a, i.1 ≤ j.1) : ∀ (fs : List Frame),
    FramesOk ex D head (i :: a) fs → FramesOk ex D ((head + 1) % D) a fs
  | [], _ => trivial
  | f :: r, ⟨h1, h2⟩ => by
    refine ⟨?_, framesOk_front hex hh hlen hs r h2⟩
    generalize r.length = l at h1
    by_cases hi : i.1 < l
    · have e1 : low l (i :: a) = low l a + 1 := by rw [low_cons, if_pos hi]
      have e2 : low (l + 1) (i :: a) = low (l + 1) a + 1 := by
        rw [low_cons, if_pos (by omega)]
      have hle := low_le l a
      have w := wrap_succ (i := low l a) hh (by omega)
      cases f <;> simp only [FrameOk, e1, e2, w] at h1 ⊢ <;>
        (try omega)
      · rcases h1 with h1 | ⟨h1, h3, h4⟩ | ⟨h1, h3⟩
        · omega
        · exact Or.inr (Or.inl ⟨by omega, h3, h4⟩)
        · exact Or.inr (Or.inr ⟨by omega, h3⟩)
      
    · have : low l a = 0 := low_zero (fun j hj => by have := hs j hj; omega)
      cases f <;> simp [FrameOk, this, hex]

theorem framesOk_nil {ex : Prop} {D head head' : Nat} : ∀ (fs : List Frame),
    FramesOk ex D head ([] : List (Nat × α)) fs → FramesOk ex D head' ([] : List (Nat × α)) fs
  | [], _ => trivial
  | f :: r, ⟨_, h2⟩ => by
    refine ⟨?_, framesOk_nil r h2⟩
    cases f <;> simp [FrameOk, low]

theorem framesOk_front' {ex : Prop} (hex : ¬ ex) {D head head' : Nat} (hh : head < D) {i : Nat × α}
    {a : List (Nat × α)} (hlen : a.length < D) (hs : ∀ j ∈ a, i.1 ≤ j.1) (fs : List Frame)
    (he : a ≠ [] → head' = (head + 1) % D)
    (h : FramesOk ex D head (i :: a) fs) : FramesOk ex D head' a fs := by
  have h' := framesOk_front hex hh hlen hs fs h
  by_cases ha : a = []
  · subst ha; exact framesOk_nil fs h'
  · rw [he ha]; exact h'

theorem own_nil {s : Spec α} : s.own = [] ↔ ∀ i ∈ s.items, i.1 ≠ s.lvl := by
  simp [Spec.own, List.filter_eq_nil_iff]

end Verif.TaskQueue
