import Verif.Timeout.Pipe
/-!
# Timeouts of scripts: the properties
-/

namespace Verif.Timeout

/-! ## Which deadline applies -/

/-- `timeout g/t`, `timeout g/`, `timeout /t` and `timeout g` say what they
should, and `timeout /` is an error. -/
theorem setting_forms (num : List Char → Option Nat) (a b : List Char) (m n : Nat)
    (ha : num a = some m) (hb : num b = some n) (sa : '/' ∉ a)
    (na : a ≠ []) (nb : b ≠ []) :
    setting num (a ++ '/' :: b) = some ⟨some m, some n⟩ ∧
    setting num (a ++ ['/']) = some ⟨some m, none⟩ ∧
    setting num ('/' :: b) = some ⟨none, some n⟩ ∧
    setting num a = some ⟨some m, none⟩ ∧
    setting num ['/'] = none := by
  have ht : ∀ t : List Char, (a ++ '/' :: t).takeWhile (· ≠ '/') = a ∧
      (a ++ '/' :: t).dropWhile (· ≠ '/') = '/' :: t := by
    intro t
    have h : ∀ x ∈ a, decide (x ≠ '/') = true := by
      intro x hx
      rw [decide_eq_true_eq]
      intro e
      exact sa (e ▸ hx)
    rw [List.takeWhile_append_of_pos h, List.dropWhile_append_of_pos h]
    simp
  refine ⟨?_, ?_, ?_, ?_, ?_⟩
  · unfold setting
    rw [if_pos (by simp)]
    simp only [(ht b).1, (ht b).2, List.drop_succ_cons, List.drop_zero]
    rw [if_neg (fun h => na h.1), if_neg na, if_neg nb, ha, hb]
    rfl
  · unfold setting
    rw [if_pos (by simp)]
    simp only [(ht []).1, (ht []).2, List.drop_succ_cons, List.drop_zero]
    rw [if_neg (fun h => na h.1), if_neg na, if_pos trivial, ha]
    rfl
  · unfold setting
    rw [if_pos (by simp)]
    have e1 : ('/' :: b).takeWhile (· ≠ '/') = [] := by simp
    have e2 : ('/' :: b).dropWhile (· ≠ '/') = '/' :: b := by simp
    simp only [e1, e2, List.drop_succ_cons, List.drop_zero]
    rw [if_neg (fun h => nb h.2), if_pos trivial, if_neg nb, hb]
    rfl
  · unfold setting
    rw [if_neg sa, ha]
    rfl
  · unfold setting
    rw [if_pos (by simp)]
    have e1 : ['/'].takeWhile (· ≠ '/') = [] := by simp
    have e2 : ['/'].dropWhile (· ≠ '/') = ['/'] := by simp
    simp only [e1, e2]
    rw [if_pos ⟨trivial, by simp⟩]

/-- What is not a timeout is an error. -/
theorem timeout_rejected (num : List Char → Option Nat) (s : St) (l : Nat) (t : List Char)
    (b : Bool) (now : Nat) :
    (setting num t = none → ∃ e, step num s (.group l t b now) = .error e) ∧
    (num t = none → step num s (.test t b now) = .error .invalid) := by
  constructor
  · intro h
    rw [step]
    cases hg : setGroup num (s.groups l) t b now with
    | error e => exact ⟨e, rfl⟩
    | ok g =>
      obtain ⟨st, h1, -, -⟩ := setGroup_ok num hg
      rw [h] at h1
      cases h1
  · intro h
    rw [step]
    simp only [parseDeadline, parseTimeout, h]

theorem parseTimeout_fits {num : List Char → Option Nat} {s : List Char} {n : Nat}
    (hn : num s = some n) (h : n * second ≤ maxRep) :
    parseTimeout num s = .ok (if n = 0 then none else some (n * second)) := by
  unfold parseTimeout
  rw [hn]
  simp only
  by_cases h0 : n = 0
  · rw [if_pos h0, if_pos h0]
  · rw [if_neg h0, if_neg h0, if_pos h]

theorem parseDeadline_fits {num : List Char → Option Nat} {s : List Char} {n now : Nat}
    (hn : num s = some n) (h : now + n * second ≤ maxRep) :
    parseDeadline num s now = .ok (if n = 0 then none else some (now + n * second)) := by
  unfold parseDeadline
  rw [parseTimeout_fits hn (by omega)]
  by_cases h0 : n = 0
  · rw [if_pos h0, if_pos h0]
  · rw [if_neg h0, if_neg h0]
    simp only
    rw [if_pos h]

/-- What is a timeout is accepted, as long as its end can be represented: that
is, until the year 2262. -/
theorem timeout_accepted (num : List Char → Option Nat) (s : St) (l : Nat) (t : List Char)
    (b : Bool) (now : Nat) :
    (∀ st, setting num t = some st → now + st.group.getD 0 * second ≤ maxRep →
      st.test.getD 0 * second ≤ maxRep → ∃ s', step num s (.group l t b now) = .ok s') ∧
    (∀ n, num t = some n → now + n * second ≤ maxRep →
      ∃ s', step num s (.test t b now) = .ok s') := by
  constructor
  · intro st hs hg ht
    rw [step]
    have : ∃ g, setGroup num (s.groups l) t b now = .ok g := by
      unfold setting at hs
      unfold setGroup
      by_cases hc : '/' ∈ t
      · rw [if_pos hc] at hs ⊢
        simp only at hs
        generalize ha : t.takeWhile (· ≠ '/') = x at *
        generalize hb : (t.dropWhile (· ≠ '/')).drop 1 = y at *
        have hl : t.length ≠ 1 := by
          intro hl
          match t, hl with
          | [c], _ =>
            simp only [List.mem_singleton] at hc
            subst hc
            simp at ha hb
            rw [if_pos ⟨ha, hb⟩] at hs
            cases hs
        rw [if_neg hl]
        by_cases hxy : x = [] ∧ y = []
        · rw [if_pos hxy] at hs; cases hs
        · rw [if_neg hxy] at hs
          simp only
          have h1 : ∃ d, (if x ≠ [] then (parseDeadline num x now).map (toDeadline · b)
              else .ok (s.groups l).deadline) = .ok d := by
            by_cases hx : x = []
            · rw [if_neg (fun h => h hx)]; exact ⟨_, rfl⟩
            · rw [if_pos hx]
              rw [if_neg hx] at hs
              cases hn : num x with
              | none => rw [hn] at hs; cases hs
              | some n =>
                rw [hn] at hs
                simp only [Option.map_some, Option.bind_some] at hs
                have : st.group = some n := by
                  split at hs
                  · simp only [Option.map_some] at hs; cases hs; rfl
                  · cases hm : num y with
                    | none => rw [hm] at hs; cases hs
                    | some m => rw [hm] at hs; cases hs; rfl
                rw [this] at hg
                rw [parseDeadline_fits hn hg]
                exact ⟨_, rfl⟩
          have h2 : ∃ d, (if y ≠ [] then (parseTimeout num y).map (toDeadline · b)
              else .ok (s.groups l).timeout) = .ok d := by
            by_cases hy : y = []
            · rw [if_neg (fun h => h hy)]; exact ⟨_, rfl⟩
            · rw [if_pos hy]
              rw [if_neg hy] at hs
              cases hn : num y with
              | none =>
                rw [hn] at hs
                simp only [Option.map_none] at hs
                split at hs
                · cases hs
                · cases hm : num x with
                  | none => rw [hm] at hs; cases hs
                  | some m => rw [hm] at hs; cases hs
              | some n =>
                rw [hn] at hs
                simp only [Option.map_some] at hs
                have : st.test = some n := by
                  split at hs
                  · cases hs; rfl
                  · cases hm : num x with
                    | none => rw [hm] at hs; cases hs
                    | some m => rw [hm] at hs; cases hs; rfl
                rw [this] at ht
                rw [parseTimeout_fits hn ht]
                exact ⟨_, rfl⟩
          obtain ⟨d, hd⟩ := h1
          obtain ⟨e, he⟩ := h2
          rw [hd]
          simp only
          rw [he]
          exact ⟨_, rfl⟩
      · rw [if_neg hc] at hs ⊢
        cases hn : num t with
        | none => rw [hn] at hs; cases hs
        | some n =>
          rw [hn] at hs
          cases hs
          rw [parseDeadline_fits hn hg]
          exact ⟨_, rfl⟩
    obtain ⟨g, hg⟩ := this
    rw [hg]
    exact ⟨_, rfl⟩
  · intro n hn h
    rw [step, parseDeadline_fits hn h]
    exact ⟨_, rfl⟩

/-- The deadline of any command of a test, after any history: the nearest of
all that apply. `before` is what has happened before the first command of the
test, at `start`. -/
theorem effective_nearest (num : List Char → Option Nat) (op cfg : Option Deadline) (depth : Nat)
    (before later : List Event) (start now : Nat) (s : St) (hb : ∀ t, .command t ∉ before)
    (hs : steps num (init op cfg depth) (before ++ .command start :: later) = .ok s) :
    Nearest (applicable num op cfg depth before start (before ++ .command start :: later))
      (effective s now).2 := by
  have hi := inv_steps num (inv_init num op cfg depth) hs
  rw [List.nil_append] at hi
  rw [steps_append] at hs
  cases h1 : steps num (init op cfg depth) before with
  | error e => rw [h1] at hs; cases hs
  | ok s1 =>
    rw [h1] at hs
    simp only at hs
    rw [steps] at hs
    have i1 := inv_steps num (inv_init num op cfg depth) h1
    rw [List.nil_append] at i1
    have c1 := uncached_steps num (s := init op cfg depth) rfl hb h1
    obtain ⟨d, hd, hn⟩ := first_nearest num i1 c1 start
    simp only [step] at hs
    have c2 := cached_steps num hd hs
    rw [effective_cached c2, hi.frag]
    exact earlier_nearest hn (nearest_toList _)

/-- And that of the first one. -/
theorem first_effective_nearest (num : List Char → Option Nat) (op cfg : Option Deadline)
    (depth : Nat) (before : List Event) (start : Nat) (s : St) (hb : ∀ t, .command t ∉ before)
    (hs : steps num (init op cfg depth) before = .ok s) :
    Nearest (applicable num op cfg depth before start before) (effective s start).2 := by
  have hi := inv_steps num (inv_init num op cfg depth) hs
  rw [List.nil_append] at hi
  have hc := uncached_steps num (s := init op cfg depth) rfl hb hs
  obtain ⟨d, hd, hn⟩ := first_nearest num hi hc start
  rw [effective_first start hd, hi.frag]
  exact earlier_nearest hn (nearest_toList _)

/-! ## What happens at the deadline -/

/-- The deadline of each command of a pipeline: the nearest of its own and of
those on its left. -/
theorem pipeline_deadlines (cs : List Cmd) (i : Nat) (c : Cmd) (hc : cs[i]? = some c) :
    ∃ d, (withDeadlines none cs)[i]? = some (c, d) ∧ Nearest (Cmd.all (cs.take (i + 1))) d :=
  withDeadlines_get nearest_none cs i c hc

theorem withDeadlines_untimed (cs : List Cmd) :
    withDeadlines none (cs.map Cmd.untimed) = cs.map fun c => (c.untimed, none) := by
  have h : ∀ c : Cmd, cmdDeadline none c.untimed = none := fun c => rfl
  induction cs with
  | nil => rfl
  | cons c cs ih => simp only [List.map_cons, withDeadlines, h, ih]

/-- A pipeline that is on time is not affected by its timeouts. -/
theorem on_time (cs : List Cmd) (buffered : Bool) (now : Nat)
    (h : ∀ d ∈ Cmd.all cs, ∀ c ∈ cs, c.By (max now d.value)) :
    outcome buffered now cs = outcome buffered now (cs.map Cmd.untimed) := by
  have hu : Cmd.all (cs.map Cmd.untimed) = [] := by
    unfold Cmd.all
    rw [List.flatMap_map, List.flatMap_eq_nil_iff]
    intro c _
    rfl
  have hr : complete ((withDeadlines none cs).reverse.map nt).reverse =
      complete ((withDeadlines none (cs.map Cmd.untimed)).reverse.map nt).reverse := by
    apply complete_congr
    rw [← List.map_reverse, ← List.map_reverse, List.reverse_reverse, List.reverse_reverse,
      List.map_map, List.map_map, withDeadlines_untimed, List.map_map]
    have : cs = (withDeadlines none cs).map (·.1) := (withDeadlines_fst none cs).symm
    conv => rhs; rw [this, List.map_map]
    apply List.map_congr_left
    intro p _
    simp only [Function.comp, final_nt]
    rfl
  have hm : ∀ p ∈ (withDeadlines none cs).reverse, p.1 ∈ cs := by
    intro p hp
    rw [List.mem_reverse] at hp
    rw [← withDeadlines_fst none cs]
    exact List.mem_map_of_mem hp
  have hw := runPipe_none hu buffered now
  unfold outcome
  rw [hw]
  by_cases ha : Cmd.all cs = []
  · rw [runPipe_none ha buffered now]
    rcases waitPipe_none now (withDeadlines none cs).reverse with
      ⟨h1, p, hp, h2⟩ | ⟨⟨t, h1⟩, h2⟩ <;>
    rcases waitPipe_none now (withDeadlines none (cs.map Cmd.untimed)).reverse with
      ⟨h3, q, hq, h4⟩ | ⟨⟨u, h3⟩, h4⟩
    · rw [h1, h3]
    · exfalso
      refine h4 (p.1.untimed, none) ?_ h2
      rw [List.mem_reverse, withDeadlines_untimed]
      exact List.mem_map.mpr ⟨p.1, hm p hp, rfl⟩
    · exfalso
      rw [List.mem_reverse, withDeadlines_untimed] at hq
      obtain ⟨c, hc, rfl⟩ := List.mem_map.mp hq
      rw [← withDeadlines_fst none cs] at hc
      obtain ⟨p, hp, rfl⟩ := List.mem_map.mp hc
      exact h2 p (List.mem_reverse.mpr hp) h4
    · rw [h1, h3]
      simp only
      rw [hr]
  · have hd : ∃ d, Nearest (Cmd.all cs) (some d) := by
      have := last_deadline cs
      cases hl : ((withDeadlines none cs).reverse.head?.map (·.2)).join with
      | none => rw [hl] at this; exact absurd this ha
      | some d => rw [hl] at this; exact ⟨d, this⟩
    obtain ⟨d, hd⟩ := hd
    have hby : ∀ p ∈ (withDeadlines none cs).reverse, p.1.By (max now d.value) :=
      fun p hp => h d hd.1 _ (hm p hp)
    rcases runPipe_cases hd buffered now with ⟨-, t, -, h1⟩ | ⟨fin, rest, h1, -, ⟨c, hc, hn⟩, -⟩
    · rw [h1]
      rcases waitPipe_none now (withDeadlines none (cs.map Cmd.untimed)).reverse with
        ⟨h3, q, hq, h4⟩ | ⟨⟨u, h3⟩, h4⟩
      · exfalso
        rw [List.mem_reverse, withDeadlines_untimed] at hq
        obtain ⟨c, hc, rfl⟩ := List.mem_map.mp hq
        obtain ⟨f, hf, -⟩ := h d hd.1 c hc
        have : c.finish = none := h4
        rw [hf] at this
        cases this
      · rw [h3]
        simp only
        rw [hr]
    · exact absurd (hby c (by rw [h1]; exact List.mem_append_right _ hc)) hn

/-- A pipeline with a deadline does not hang: whatever its commands do, it is
done within four seconds of the deadline, unless a builtin does not finish
when everything else has been terminated and the build system aborts. -/
theorem timeout_bound (cs : List Cmd) (buffered : Bool) (now : Nat) (d : Deadline)
    (hd : d ∈ Cmd.all cs) :
    runPipe buffered now cs = .aborts ∨
    ∃ t ds, runPipe buffered now cs = .done t ds ∧ t ≤ max now d.value + 4 * second := by
  have hg : 2 * grace = 4 * second := by decide
  have hl := last_deadline cs
  cases hx : ((withDeadlines none cs).reverse.head?.map (·.2)).join with
  | none =>
    rw [hx] at hl
    have : Cmd.all cs = [] := hl
    rw [this] at hd
    cases hd
  | some x =>
    rw [hx] at hl
    have hv : x.value ≤ d.value := by
      have := hl.2 d hd
      unfold Deadline.Before at this
      have : ¬ d.value < x.value := fun h => this (Or.inl h)
      omega
    rcases runPipe_cases hl buffered now with ⟨-, t, ht, h1⟩ | ⟨fin, rest, -, -, -, h4⟩
    · exact Or.inr ⟨t, _, h1, by omega⟩
    · rcases h4 with ⟨h4, -⟩ | ⟨t, ht, h4⟩
      · exact Or.inl h4
      · exact Or.inr ⟨t, _, h4, by omega⟩

/-- It never aborts if there are no builtins in it. -/
theorem timeout_no_abort (cs : List Cmd) (buffered : Bool) (now : Nat)
    (hb : ∀ c ∈ cs, c.builtin = false) : runPipe buffered now cs ≠ .aborts := by
  have hl := last_deadline cs
  cases hx : ((withDeadlines none cs).reverse.head?.map (·.2)).join with
  | none =>
    rw [hx] at hl
    have : Cmd.all cs = [] := hl
    rw [runPipe_none this]
    rcases waitPipe_none now (withDeadlines none cs).reverse with ⟨h1, -⟩ | ⟨⟨t, h1⟩, -⟩ <;>
      rw [h1] <;> simp
  | some x =>
    rw [hx] at hl
    rcases runPipe_cases hl buffered now with ⟨-, t, ht, h1⟩ | ⟨fin, rest, h0, -, -, h4⟩
    · rw [h1]; simp
    · rcases h4 with ⟨-, h5⟩ | ⟨t, ht, h4⟩
      · exfalso
        obtain ⟨t, ht⟩ := termPipe_some (now := max now x.value) (cs := rest) (by
          intro p hp hbp
          have : p.1 ∈ cs := by
            rw [← withDeadlines_fst none cs]
            apply List.mem_map_of_mem
            rw [← List.mem_reverse, h0]
            exact List.mem_append_right _ hp
          rw [hb _ this] at hbp
          cases hbp)
        rw [h5] at ht
        cases ht
      · rw [h4]; simp

/-- Is terminated, or has to be killed, if it is told to terminate then. -/
def Terminable (c : Cmd) (t : Nat) : Prop :=
  c.builtin = true ∨
  (∃ k, c.response = .dies k) ∨
  (∃ k n, c.response = .exits k n ∧ grace < k) ∨
  (c.response = .ignores ∧ ¬ c.By (t + grace))

/-- Has to be killed. -/
def Unkind (c : Cmd) (t : Nat) : Prop :=
  c.builtin = false ∧
  ((∃ k, c.response = .dies k ∧ grace < k) ∨
   (∃ k n, c.response = .exits k n ∧ grace < k) ∨
   (c.response = .ignores ∧ ¬ c.By (t + grace)))

theorem endOf_unkind {c : Cmd} {t : Nat} (hl : ¬ c.By t) (h : Unkind c t) :
    (endOf c t).2 = .sigkill := by
  have he : ¬ exited c t = true := fun h => hl ((exited_iff _ _).mp h)
  unfold endOf
  rw [if_neg he]
  rcases h.2 with ⟨k, h1, h2⟩ | ⟨k, n, h1, h2⟩ | ⟨h1, h2⟩
  · rw [h1]
    simp only
    rw [if_neg (by omega)]
  · rw [h1]
    simp only
    rw [if_neg (by omega)]
  · rw [h1]
    simp only
    rw [if_neg (fun h => h2 ((exited_iff _ _).mp h))]

theorem endOf_terminable {c : Cmd} {t : Nat} (hb : c.builtin = false) (hl : ¬ c.By t)
    (h : Terminable c t) : (endOf c t).2 = .sigterm ∨ (endOf c t).2 = .sigkill := by
  have he : ¬ exited c t = true := fun h => hl ((exited_iff _ _).mp h)
  rcases h with h | ⟨k, h⟩ | ⟨k, n, h1, h2⟩ | h
  · rw [hb] at h; cases h
  · unfold endOf
    rw [if_neg he, h]
    simp only
    split
    · exact Or.inl rfl
    · exact Or.inr rfl
  · exact Or.inr (endOf_unkind hl ⟨hb, Or.inr (Or.inl ⟨k, n, h1, h2⟩)⟩)
  · exact Or.inr (endOf_unkind hl ⟨hb, Or.inr (Or.inr h)⟩)

/-- What is done to a late command. -/
theorem late_done {cs : List Cmd} {d : Deadline} (hd : Nearest (Cmd.all cs) (some d))
    (buffered : Bool) (now : Nat) {i : Nat} {c : Cmd} (hc : cs[i]? = some c)
    (hl : ¬ c.By (max now d.value)) :
    runPipe buffered now cs = .aborts ∨
    ∃ t ds x, runPipe buffered now cs = .done t ds ∧ Nearest (Cmd.all (cs.take (i + 1))) x ∧
      tm (max now d.value) (c, x) ∈ ds := by
  obtain ⟨x, e1, e2⟩ := withDeadlines_get nearest_none cs i c hc
  have hm : (c, x) ∈ (withDeadlines none cs).reverse :=
    List.mem_reverse.mpr (List.mem_of_getElem? e1)
  rcases runPipe_cases hd buffered now with ⟨h0, t, ht, h1⟩ | ⟨fin, rest, h0, h1, -, h4⟩
  · exact absurd (h0 _ hm) hl
  · rcases h4 with ⟨h4, -⟩ | ⟨t, ht, h4⟩
    · exact Or.inl h4
    · refine Or.inr ⟨t, _, x, h4, e2, ?_⟩
      rw [h0] at hm
      rcases List.mem_append.mp hm with hm | hm
      · exact absurd (h1 _ hm) hl
      · exact List.mem_append_right _ (List.mem_map_of_mem hm)

theorem nearest_late {cs : List Cmd} {d0 : Deadline} (h0 : d0 ∈ Cmd.all cs) :
    ∃ d, Nearest (Cmd.all cs) (some d) ∧ d.value ≤ d0.value := by
  have hl := last_deadline cs
  cases hx : ((withDeadlines none cs).reverse.head?.map (·.2)).join with
  | none =>
    rw [hx] at hl
    have : Cmd.all cs = [] := hl
    rw [this] at h0
    cases h0
  | some x =>
    rw [hx] at hl
    refine ⟨x, hl, ?_⟩
    have := hl.2 d0 h0
    unfold Deadline.Before at this
    have : ¬ d0.value < x.value := fun h => this (Or.inl h)
    omega

/-- A command that is late and that does not exit by itself when it is told
to terminate fails the script, unless the nearest of its deadlines is with
`--success`. -/
theorem timeout_fails (cs : List Cmd) (buffered : Bool) (now : Nat) (d : Deadline) (i : Nat)
    (c : Cmd) (hd : Nearest (Cmd.all cs) (some d)) (hc : cs[i]? = some c)
    (hl : ¬ c.By (max now d.value)) (ht : Terminable c (max now d.value))
    (hn : ∀ x, Nearest (Cmd.all (cs.take (i + 1))) (some x) → x.success = false) :
    outcome buffered now cs = .fails ∨ outcome buffered now cs = .aborts := by
  unfold outcome
  rcases late_done hd buffered now hc hl with h | ⟨t, ds, x, h, hx, hm⟩
  · rw [h]; exact Or.inr rfl
  · rw [h]
    simp only
    have : (complete ds.reverse).2 = true := by
      apply complete_fails (List.mem_reverse.mpr hm)
      intro n
      unfold final tm
      simp only [if_true, true_and]
      have hx' : x = none ∨ ∃ l, x = some l ∧ l.success = false := by
        cases x with
        | none => exact Or.inl rfl
        | some l => exact Or.inr ⟨l, rfl, hn l hx⟩
      cases hb : c.builtin with
      | true =>
        simp only [if_true]
        rcases hx' with rfl | ⟨l, rfl, h⟩
        · simp
        · simp [h]
      | false =>
        simp only [Bool.false_eq_true, if_false]
        rcases endOf_terminable hb hl ht with he | he
        · rw [if_pos he]
          rcases hx' with rfl | ⟨l, rfl, h⟩
          · simp
          · simp [h]
        · rw [if_neg (by rw [he]; simp), he]
          simp
    rw [if_pos this]
    exact Or.inl rfl

/-- One that has to be killed always fails it, even with `--success`. -/
theorem killed_fails (cs : List Cmd) (buffered : Bool) (now : Nat) (d : Deadline) (i : Nat)
    (c : Cmd) (hd : Nearest (Cmd.all cs) (some d)) (hc : cs[i]? = some c)
    (hl : ¬ c.By (max now d.value)) (hu : Unkind c (max now d.value)) :
    outcome buffered now cs = .fails ∨ outcome buffered now cs = .aborts := by
  unfold outcome
  rcases late_done hd buffered now hc hl with h | ⟨t, ds, x, h, hx, hm⟩
  · rw [h]; exact Or.inr rfl
  · rw [h]
    simp only
    have : (complete ds.reverse).2 = true := by
      apply complete_fails (List.mem_reverse.mpr hm)
      intro n
      have he := endOf_unkind hl hu
      unfold final tm
      simp [hu.1, he]
    rw [if_pos this]
    exact Or.inl rfl

/-- Full statement: if the timeout that expires was specified with
`--success`, then terminating is not a failure. Proved if all the timeouts are
with `--success` and the first command has one, the commands that are late are
terminated when told to and those that are not exit as expected. For a
builtin, the success that is assumed also has to be what is expected. -/
theorem timeout_success_partial (cs : List Cmd) (buffered : Bool) (now : Nat) (d : Deadline)
    (hd : Nearest (Cmd.all cs) (some d)) (hs : ∀ e ∈ Cmd.all cs, e.success = true)
    (hf : ∀ c, cs.head? = some c → Cmd.all [c] ≠ [])
    (hb : ∀ c ∈ cs, c.builtin = true →
      (∃ k, c.response = .dies k ∧ k ≤ grace) ∧ c.AsExpected 0)
    (ho : ∀ c ∈ cs, c.By (max now d.value) → ∃ n, c.exit = .code n ∧ c.AsExpected n)
    (hl : ∀ c ∈ cs, ¬ c.By (max now d.value) →
      (∃ k, c.response = .dies k ∧ k ≤ grace) ∧ c.AsExpected 0) :
    outcome buffered now cs = .result true := by
  have hm : ∀ p ∈ (withDeadlines none cs).reverse, p.1 ∈ cs ∧ ∃ l, p.2 = some l ∧ l.success = true := by
    intro p hp
    rw [List.mem_reverse] at hp
    obtain ⟨i, h1, h2⟩ := withDeadlines_mem hp
    refine ⟨List.mem_of_getElem? h1, ?_⟩
    have hsub : ∀ e ∈ Cmd.all (cs.take (i + 1)), e ∈ Cmd.all cs := by
      intro e he
      unfold Cmd.all at he ⊢
      rw [List.mem_flatMap] at he ⊢
      obtain ⟨c, hc, he⟩ := he
      exact ⟨c, List.mem_of_mem_take hc, he⟩
    cases hp2 : p.2 with
    | none =>
      rw [hp2] at h2
      exfalso
      cases cs with
      | nil => simp at h1
      | cons c cs =>
        apply hf c rfl
        have h2 : Cmd.all ((c :: cs).take (i + 1)) = [] := h2
        rw [List.take_succ_cons] at h2
        unfold Cmd.all at h2 ⊢
        rw [List.flatMap_cons, List.append_eq_nil_iff] at h2
        rw [List.flatMap_cons, h2.1]
        rfl
    | some l =>
      rw [hp2] at h2
      exact ⟨l, rfl, hs l (hsub l h2.1)⟩
  have hnt : ∀ p ∈ (withDeadlines none cs).reverse, p.1.By (max now d.value) →
      ∃ n, final (nt p) = some (.code n) ∧ (nt p).cmd.AsExpected n := by
    intro p hp hby
    obtain ⟨n, h1, h2⟩ := ho p.1 (hm p hp).1 hby
    exact ⟨n, by rw [final_nt, h1], h2⟩
  have htm : ∀ p ∈ (withDeadlines none cs).reverse,
      ∃ n, final (tm (max now d.value) p) = some (.code n) ∧
        (tm (max now d.value) p).cmd.AsExpected n := by
    intro p hp
    obtain ⟨hc, l, hl1, hl2⟩ := hm p hp
    cases hbp : p.1.builtin with
    | true =>
      refine ⟨0, ?_, (hb _ hc hbp).2⟩
      unfold final tm
      simp only [hbp, if_true, hl1, hl2]
    | false =>
      by_cases hby : p.1.By (max now d.value)
      · obtain ⟨n, h1, h2⟩ := ho p.1 hc hby
        refine ⟨n, ?_, h2⟩
        unfold final tm endOf
        simp only [hbp, Bool.false_eq_true, if_false, true_and]
        rw [if_pos ((exited_iff _ _).mpr hby), h1]
        simp
      · obtain ⟨⟨k, h1, h2⟩, h3⟩ := hl p.1 hc hby
        refine ⟨0, ?_, h3⟩
        unfold final tm endOf
        simp only [hbp, Bool.false_eq_true, if_false, true_and]
        rw [if_neg (fun h => hby ((exited_iff _ _).mp h)), h1]
        simp only [if_pos h2, hl1, hl2, if_true]
  unfold outcome
  rcases runPipe_cases hd buffered now with ⟨h0, t, ht, h1⟩ | ⟨fin, rest, h0, h1, -, h4⟩
  · rw [h1]
    simp only
    rw [complete_true]
    · rfl
    · intro x hx
      rw [List.mem_reverse] at hx
      obtain ⟨p, hp, rfl⟩ := List.mem_map.mp hx
      exact hnt p hp (h0 p hp)
  · rcases h4 with ⟨h4, h5⟩ | ⟨t, ht, h4⟩
    · exfalso
      obtain ⟨t, ht⟩ := termPipe_some (now := max now d.value) (cs := rest) (by
        intro p hp hbp u
        have hc : p.1 ∈ cs := (hm p (by rw [h0]; exact List.mem_append_right _ hp)).1
        obtain ⟨⟨k, h1, h2⟩, -⟩ := hb _ hc hbp
        unfold builtinEnd
        rw [h1]
        split
        · omega
        · simp only; omega)
      rw [h5] at ht
      cases ht
    · rw [h4]
      simp only
      rw [complete_true]
      · rfl
      · intro x hx
        rw [List.mem_reverse] at hx
        rcases List.mem_append.mp hx with hx | hx
        · obtain ⟨p, hp, rfl⟩ := List.mem_map.mp hx
          exact hnt p (by rw [h0]; exact List.mem_append_left _ hp) (h1 p hp)
        · obtain ⟨p, hp, rfl⟩ := List.mem_map.mp hx
          exact htm p (by rw [h0]; exact List.mem_append_right _ hp)

/-! ## Cases that meet the hypotheses -/

/-- Numbers of one or more digits. -/
def digits (s : List Char) : Option Nat :=
  if s ≠ [] ∧ s.all Char.isDigit then
    some (s.foldl (fun n c => 10 * n + (c.toNat - '0'.toNat)) 0)
  else none

/-- A process that runs for this long, with its own timeout. -/
def proc (fin : Option Nat) (r : Response) (t : Option Deadline) : Cmd :=
  ⟨false, fin, .code 0, r, 0, none, t, 0, true⟩

/-- `timeout 20/5` in the script, `timeout --success /3` in the group, the
test starts at 7, then `timeout 10` in the test at 8. -/
def history : List Event :=
  [.group 0 "20/5".toList false 0, .group 1 "/3".toList true 1]

example : (steps digits (init none none 1) (history ++ .command (7 * second) ::
      [.test "10".toList false (8 * second)])).toOption.map
      (fun s => (effective s (9 * second)).2) = some (some ⟨10 * second, true⟩) ∧
    applicable digits none none 1 history (7 * second)
      (history ++ .command (7 * second) :: [.test "10".toList false (8 * second)]) =
      [⟨20 * second, false⟩, ⟨12 * second, false⟩, ⟨10 * second, true⟩, ⟨18 * second, false⟩] := by
  decide +kernel

example : setting digits "20/5".toList = some ⟨some 20, some 5⟩ ∧
    setting digits "20/".toList = some ⟨some 20, none⟩ ∧
    setting digits "/5".toList = some ⟨none, some 5⟩ ∧
    setting digits "20".toList = some ⟨some 20, none⟩ ∧ setting digits "/".toList = none ∧
    setting digits "a/5".toList = none := by decide +kernel

/-- On time. -/
example : outcome true 0 [proc (some 5) (.dies 1) (some ⟨10, false⟩)] = .result true ∧
    (proc (some 5) (.dies 1) (some ⟨10, false⟩)).By (max 0 10) :=
  ⟨by decide +kernel, 5, rfl, by omega⟩

/-- Late, and fails. -/
example : outcome false 0 [proc none (.dies 1) (some ⟨10, false⟩)] = .fails ∧
    Terminable (proc none (.dies 1) (some ⟨10, false⟩)) 10 ∧
    ¬ (proc none (.dies 1) (some ⟨10, false⟩)).By 10 :=
  ⟨by decide +kernel, Or.inr (Or.inl ⟨1, rfl⟩), fun ⟨_, h, _⟩ => by cases h⟩

/-- Late, and is assumed to succeed. -/
example : outcome true 0 [proc none (.dies 1) (some ⟨10, true⟩), proc (some 3) .ignores none] =
    .result true := by decide +kernel

/-- Has to be killed. -/
example : outcome false 0 [proc none .ignores (some ⟨10, true⟩)] = .fails ∧
    Unkind (proc none .ignores (some ⟨10, true⟩)) 10 :=
  ⟨by decide +kernel, rfl, Or.inr (Or.inr ⟨rfl, fun ⟨_, h, _⟩ => by cases h⟩)⟩

/-! ## Where the full statement does not hold -/

/-- `timeout 9300000000`: overflows, which is undefined behavior. -/
theorem timeout_overflows :
    ∃ t, setting digits t = some ⟨some 9300000000, none⟩ ∧
      step digits (init none none 0) (.group 0 t false 0) = .error .overflow :=
  ⟨"9300000000".toList, by decide +kernel, rfl⟩

/-- A process that exits by itself, with zero, when it is told to terminate
succeeds although its timeout has expired and is not with `--success`. -/
theorem expired_succeeds :
    outcome true 0 [proc none (.exits 1 0) (some ⟨10, false⟩)] = .result true := by
  decide +kernel

/-- In `a | env -t 1 -s -- b` the only timeout is with `--success`, but if `a`
is late then the script fails: nothing on the left of `b` has a deadline. -/
theorem success_left_fails :
    outcome false 0 [proc none (.dies 1) none, proc (some 0) (.dies 1) (some ⟨10, true⟩)] =
      .fails := by
  decide +kernel

/-- A builtin that has failed before the deadline is assumed to have
succeeded if something on its right is terminated with `--success`. -/
theorem builtin_failure_masked :
    ∃ b : Cmd, b.builtin = true ∧ b.finish = some 1 ∧ b.exit = .code 1 ∧ b.expected = 0 ∧
      b.eq = true ∧
      outcome false 0 [b, proc none (.dies 1) none] = .result true ∧
      outcome false 0 [b, proc (some 5) (.dies 1) none] = .result false :=
  ⟨⟨true, some 1, .code 1, .dies 0, 0, none, some ⟨10, true⟩, 0, true⟩,
   rfl, rfl, rfl, rfl, rfl, by decide +kernel, by decide +kernel⟩

end Verif.Timeout
