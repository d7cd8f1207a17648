import Verif.Timeout.Model
/-!
# Timeouts of scripts: lemmas
-/

namespace Verif.Timeout

theorem less_iff (x y : Deadline) : less x y = true ↔ x.Before y := by
  unfold less Deadline.Before
  by_cases h : x.value = y.value
  · simp [h]
  · simp [h]

theorem before_irrefl (x : Deadline) : ¬ x.Before x := by
  rintro (h | ⟨-, h1, h2⟩)
  · omega
  · rw [h1] at h2; cases h2

theorem before_trans {x y z : Deadline} (h1 : x.Before y) (h2 : y.Before z) : x.Before z := by
  rcases h1 with h1 | ⟨h1, a1, b1⟩ <;> rcases h2 with h2 | ⟨h2, a2, b2⟩
  · exact Or.inl (by omega)
  · exact Or.inl (by omega)
  · exact Or.inl (by omega)
  · rw [b1] at a2; cases a2

theorem not_before_of {x y z : Deadline} (h1 : ¬ y.Before x) (h2 : ¬ z.Before y) : ¬ z.Before x := by
  unfold Deadline.Before at *
  intro h
  by_cases e1 : x.value < y.value
  · rcases h with h | ⟨h, a, b⟩
    · apply h2; exact Or.inl (by omega)
    · apply h2; exact Or.inl (by omega)
  · have e2 : x.value = y.value := by
      have : ¬ y.value < x.value := fun h => h1 (Or.inl h)
      omega
    rcases h with h | ⟨h, a, b⟩
    · exact h2 (Or.inl (by omega))
    · cases hy : y.success with
      | true => exact h2 (Or.inr ⟨by omega, a, hy⟩)
      | false => exact h1 (Or.inr ⟨e2.symm, hy, b⟩)

theorem nearest_congr {ds es : List Deadline} (h : ∀ d, d ∈ ds ↔ d ∈ es) {x : Option Deadline}
    (hx : Nearest ds x) : Nearest es x := by
  cases x with
  | none =>
    have : ds = [] := hx
    subst this
    show es = []
    cases es with
    | nil => rfl
    | cons a as => exact absurd ((h a).mpr (by simp)) (by simp)
  | some d => exact ⟨(h d).mp hx.1, fun e he => hx.2 e ((h e).mpr he)⟩

theorem nearest_none : Nearest [] none := rfl

theorem nearest_toList (x : Option Deadline) : Nearest x.toList x := by
  cases x with
  | none => rfl
  | some d =>
    refine ⟨by simp, fun e he => ?_⟩
    simp at he
    rw [he]
    exact before_irrefl d

theorem earlier_nearest {as bs : List Deadline} {x y : Option Deadline} (hx : Nearest as x)
    (hy : Nearest bs y) : Nearest (as ++ bs) (earlier x y) := by
  cases x with
  | none =>
    have : as = [] := hx
    subst this
    cases y <;> exact hy
  | some x =>
    cases y with
    | none =>
      have : bs = [] := hy
      subst this
      rw [List.append_nil]
      exact hx
    | some y =>
      show Nearest _ (some (if less x y then x else y))
      by_cases h : less x y = true
      · rw [if_pos h]
        rw [less_iff] at h
        refine ⟨List.mem_append_left _ hx.1, fun e he => ?_⟩
        rcases List.mem_append.mp he with he | he
        · exact hx.2 e he
        · exact fun hb => hy.2 e he (before_trans hb h)
      · rw [if_neg h]
        have h' : ¬ x.Before y := fun hb => h ((less_iff x y).mpr hb)
        refine ⟨List.mem_append_right _ hy.1, fun e he => ?_⟩
        rcases List.mem_append.mp he with he | he
        · exact not_before_of h' (hx.2 e he)
        · exact hy.2 e he

theorem nearest_shift {ds : List Deadline} {x : Option Deadline} (h : Nearest ds x) (t : Nat) :
    Nearest (ds.map fun d => ⟨t + d.value, d.success⟩)
      (x.map fun d => ⟨t + d.value, d.success⟩) := by
  cases x with
  | none =>
    have : ds = [] := h
    subst this
    rfl
  | some d =>
    refine ⟨List.mem_map.mpr ⟨d, h.1, rfl⟩, fun e he => ?_⟩
    obtain ⟨e', he', rfl⟩ := List.mem_map.mp he
    have := h.2 e' he'
    unfold Deadline.Before at *
    simp only
    intro hb
    apply this
    rcases hb with hb | ⟨hb, a, b⟩
    · exact Or.inl (by omega)
    · exact Or.inr ⟨by omega, a, b⟩

theorem nearest_unique {ds : List Deadline} {x y : Option Deadline} (hx : Nearest ds x)
    (hy : Nearest ds y) : x = y := by
  cases x with
  | none =>
    have : ds = [] := hx
    subst this
    cases y with
    | none => rfl
    | some y => exact absurd hy.1 (by simp)
  | some x =>
    cases y with
    | none =>
      have : ds = [] := hy
      subst this
      exact absurd hx.1 (by simp)
    | some y =>
      have h1 := hx.2 y hy.1
      have h2 := hy.2 x hx.1
      unfold Deadline.Before at h1 h2
      obtain ⟨v, s⟩ := x
      obtain ⟨w, t⟩ := y
      simp only at h1 h2
      have : v = w := by
        have a : ¬ w < v := fun h => h1 (Or.inl h)
        have b : ¬ v < w := fun h => h2 (Or.inl h)
        omega
      subst this
      cases s <;> cases t <;> simp_all

/-! ## Where deadlines come from -/

variable (num : List Char → Option Nat)

theorem parseTimeout_ok {s : List Char} {t : Option Nat} (h : parseTimeout num s = .ok t) :
    ∃ n, num s = some n ∧ ∀ b, toDeadline t b = after 0 n b := by
  unfold parseTimeout at h
  split at h
  · cases h
  · next n hn =>
    refine ⟨n, hn, fun b => ?_⟩
    unfold after
    by_cases h0 : n = 0
    · rw [if_pos h0] at h
      cases h
      rw [if_pos h0]
      rfl
    · rw [if_neg h0] at h
      split at h
      · cases h
        rw [if_neg h0]
        simp [toDeadline]
      · cases h

theorem parseDeadline_ok {s : List Char} {now : Nat} {t : Option Nat}
    (h : parseDeadline num s now = .ok t) :
    ∃ n, num s = some n ∧ ∀ b, toDeadline t b = after now n b := by
  unfold parseDeadline parseTimeout at h
  cases hn : num s with
  | none => rw [hn] at h; cases h
  | some n =>
    rw [hn] at h
    refine ⟨n, rfl, fun b => ?_⟩
    unfold after
    by_cases h0 : n = 0
    · simp only [if_pos h0] at h
      cases h
      rw [if_pos h0]
      rfl
    · simp only [if_neg h0] at h
      rw [if_neg h0]
      by_cases h1 : n * second ≤ maxRep
      · rw [if_pos h1] at h
        simp only at h
        split at h
        · cases h; rfl
        · cases h
      · rw [if_neg h1] at h
        cases h

theorem setGroup_ok {g g' : Group} {t : List Char} {b : Bool} {now : Nat}
    (h : setGroup num g t b now = .ok g') :
    ∃ s, setting num t = some s ∧
      g'.deadline = (match s.group with
        | some n => after now n b
        | none => g.deadline) ∧
      g'.timeout = (match s.test with
        | some n => after 0 n b
        | none => g.timeout) := by
  unfold setGroup at h
  unfold setting
  by_cases hs : '/' ∈ t
  · rw [if_pos hs] at h ⊢
    by_cases hl : t.length = 1
    · rw [if_pos hl] at h; cases h
    · rw [if_neg hl] at h
      simp only at h ⊢
      generalize ha : t.takeWhile (· ≠ '/') = a at *
      generalize hb : (t.dropWhile (· ≠ '/')).drop 1 = c at *
      have hne : ¬ (a = [] ∧ c = []) := by
        rintro ⟨rfl, rfl⟩
        apply hl
        have h1 := List.takeWhile_append_dropWhile (p := (· ≠ '/')) (l := t)
        rw [ha, List.nil_append] at h1
        rw [h1] at hb
        cases t with
        | nil => cases hs
        | cons x t =>
          simp at hb
          rw [hb]
          rfl
      rw [if_neg hne]
      by_cases e1 : a = []
      · rw [if_neg (fun h => h e1)] at h
        rw [if_pos e1]
        simp only [Option.bind_some] at h ⊢
        by_cases e2 : c = []
        · exact absurd ⟨e1, e2⟩ hne
        · rw [if_pos e2] at h
          rw [if_neg e2]
          cases hp : parseTimeout num c with
          | error e => rw [hp] at h; cases h
          | ok d =>
            obtain ⟨n, hn, hd⟩ := parseTimeout_ok num hp
            rw [hp] at h
            cases h
            exact ⟨⟨none, some n⟩, by rw [hn]; rfl, rfl, hd b⟩
      · rw [if_pos e1] at h
        rw [if_neg e1]
        cases hp : parseDeadline num a now with
        | error e => rw [hp] at h; cases h
        | ok d =>
          obtain ⟨n, hn, hd⟩ := parseDeadline_ok num hp
          rw [hp] at h
          simp only [Except.map] at h
          by_cases e2 : c = []
          · rw [if_neg (fun h => h e2)] at h
            rw [if_pos e2]
            cases h
            exact ⟨⟨some n, none⟩, by rw [hn]; rfl, hd b, rfl⟩
          · rw [if_pos e2] at h
            rw [if_neg e2]
            cases hq : parseTimeout num c with
            | error e => rw [hq] at h; cases h
            | ok d2 =>
              obtain ⟨n2, hn2, hd2⟩ := parseTimeout_ok num hq
              rw [hq] at h
              cases h
              exact ⟨⟨some n, some n2⟩, by rw [hn, hn2]; rfl, hd b, hd2 b⟩
  · rw [if_neg hs] at h ⊢
    cases hp : parseDeadline num t now with
    | error e => rw [hp] at h; cases h
    | ok d =>
      obtain ⟨n, hn, hd⟩ := parseDeadline_ok num hp
      rw [hp] at h
      cases h
      exact ⟨⟨some n, none⟩, by rw [hn]; rfl, hd b, rfl⟩

theorem lastSet_snoc {α : Type} (f : Event → Option (Option α)) (h : List Event) (e : Event) :
    lastSet f (h ++ [e]) = match f e with
      | some x => x
      | none => lastSet f h := by
  unfold lastSet
  rw [List.reverse_append]
  simp only [List.reverse_cons, List.reverse_nil, List.nil_append, List.singleton_append,
    List.findSome?_cons]
  cases f e with
  | none => rfl
  | some x => cases x <;> rfl

/-- The state is what the history says. -/
structure Inv (op cfg : Option Deadline) (depth : Nat) (h : List Event) (s : St) : Prop where
  op : s.op = op
  cfg : s.cfg = cfg
  depth : s.depth = depth
  deadline : ∀ l, (s.groups l).deadline = lastSet (groupSet num l) h
  timeout : ∀ l, (s.groups l).timeout = lastSet (timeoutSet num l) h
  frag : s.frag = lastSet (testSet num) h

theorem inv_init (op cfg : Option Deadline) (depth : Nat) :
    Inv num op cfg depth [] (init op cfg depth) := ⟨rfl, rfl, rfl, fun _ => rfl, fun _ => rfl, rfl⟩

theorem effective_st (s : St) (now : Nat) :
    (effective s now).1.op = s.op ∧ (effective s now).1.cfg = s.cfg ∧
    (effective s now).1.depth = s.depth ∧ (effective s now).1.groups = s.groups ∧
    (effective s now).1.frag = s.frag := by
  unfold effective
  split
  · exact ⟨rfl, rfl, rfl, rfl, rfl⟩
  · exact ⟨rfl, rfl, rfl, rfl, rfl⟩

theorem inv_step {op cfg : Option Deadline} {depth : Nat} {h : List Event} {s s' : St} {e : Event}
    (hi : Inv num op cfg depth h s) (hs : step num s e = .ok s') :
    Inv num op cfg depth (h ++ [e]) s' := by
  cases e with
  | group l t b now =>
    rw [step] at hs
    cases hg : setGroup num (s.groups l) t b now with
    | error e => rw [hg] at hs; cases hs
    | ok g =>
      rw [hg] at hs
      cases hs
      obtain ⟨st, h1, h2, h3⟩ := setGroup_ok num hg
      refine ⟨hi.op, hi.cfg, hi.depth, fun i => ?_, fun i => ?_, ?_⟩
      · rw [lastSet_snoc]
        simp only [groupSet, h1]
        by_cases hl : i = l
        · subst hl
          simp only [if_true, Option.bind_some]
          rw [h2]
          cases st.group with
          | none => exact hi.deadline i
          | some n => rfl
        · rw [if_neg hl, if_neg (fun e => hl e.symm)]
          exact hi.deadline i
      · rw [lastSet_snoc]
        simp only [timeoutSet, h1]
        by_cases hl : i = l
        · subst hl
          simp only [if_true, Option.bind_some]
          rw [h3]
          cases st.test with
          | none => exact hi.timeout i
          | some n => rfl
        · rw [if_neg hl, if_neg (fun e => hl e.symm)]
          exact hi.timeout i
      · rw [lastSet_snoc]
        exact hi.frag
  | test t b now =>
    rw [step] at hs
    cases hp : parseDeadline num t now with
    | error e => rw [hp] at hs; cases hs
    | ok d =>
      rw [hp] at hs
      cases hs
      obtain ⟨n, hn, hd⟩ := parseDeadline_ok num hp
      refine ⟨hi.op, hi.cfg, hi.depth, fun i => ?_, fun i => ?_, ?_⟩
      · rw [lastSet_snoc]; exact hi.deadline i
      · rw [lastSet_snoc]; exact hi.timeout i
      · rw [lastSet_snoc]
        simp only [testSet, hn, Option.map_some]
        exact hd b
  | command now =>
    rw [step] at hs
    cases hs
    obtain ⟨h1, h2, h3, h4, h5⟩ := effective_st s now
    refine ⟨h1.trans hi.op, h2.trans hi.cfg, h3.trans hi.depth, fun i => ?_, fun i => ?_, ?_⟩
    · rw [lastSet_snoc, h4]; exact hi.deadline i
    · rw [lastSet_snoc, h4]; exact hi.timeout i
    · rw [lastSet_snoc, h5]; exact hi.frag

theorem steps_append (s : St) (es fs : List Event) :
    steps num s (es ++ fs) = match steps num s es with
      | .error e => .error e
      | .ok s => steps num s fs := by
  induction es generalizing s with
  | nil => rfl
  | cons e es ih =>
    rw [List.cons_append, steps, steps]
    cases step num s e with
    | error e => rfl
    | ok s => exact ih s

theorem inv_steps {op cfg : Option Deadline} {depth : Nat} {h es : List Event} {s s' : St}
    (hi : Inv num op cfg depth h s) (hs : steps num s es = .ok s') :
    Inv num op cfg depth (h ++ es) s' := by
  induction es generalizing h s with
  | nil => rw [steps] at hs; cases hs; rw [List.append_nil]; exact hi
  | cons e es ih =>
    rw [steps] at hs
    cases he : step num s e with
    | error e => rw [he] at hs; cases hs
    | ok s1 =>
      rw [he] at hs
      have := ih (inv_step num hi he) hs
      rw [List.append_assoc] at this
      exact this

/-- Once computed, the deadline of a test does not change. -/
theorem cached_step {s s' : St} {e : Event} {d : Option Deadline} (hc : s.cached = some d)
    (hs : step num s e = .ok s') : s'.cached = some d := by
  cases e with
  | group l t b now =>
    rw [step] at hs
    split at hs
    · cases hs
    · cases hs; exact hc
  | test t b now =>
    rw [step] at hs
    split at hs
    · cases hs
    · cases hs; exact hc
  | command now =>
    rw [step] at hs
    cases hs
    unfold effective
    rw [hc]
    exact hc

theorem cached_steps {s s' : St} {es : List Event} {d : Option Deadline} (hc : s.cached = some d)
    (hs : steps num s es = .ok s') : s'.cached = some d := by
  induction es generalizing s with
  | nil => rw [steps] at hs; cases hs; exact hc
  | cons e es ih =>
    rw [steps] at hs
    cases he : step num s e with
    | error e => rw [he] at hs; cases hs
    | ok s1 => rw [he] at hs; exact ih (cached_step num hc he) hs

theorem uncached_steps {s s' : St} {es : List Event} (hc : s.cached = none)
    (hn : ∀ t, .command t ∉ es) (hs : steps num s es = .ok s') : s'.cached = none := by
  induction es generalizing s with
  | nil => rw [steps] at hs; cases hs; exact hc
  | cons e es ih =>
    rw [steps] at hs
    cases he : step num s e with
    | error e => rw [he] at hs; cases hs
    | ok s1 =>
      rw [he] at hs
      refine ih ?_ (fun t h => hn t (by simp [h])) hs
      cases e with
      | group l t b now =>
        rw [step] at he
        split at he
        · cases he
        · cases he; exact hc
      | test t b now =>
        rw [step] at he
        split at he
        · cases he
        · cases he; exact hc
      | command now => exact absurd (by simp) (hn now)

theorem groupDeadline_nearest (op : Option Deadline) (g : Nat → Group) (n : Nat) :
    Nearest (op.toList ++ (levels n).filterMap fun l => (g l).deadline) (groupDeadline op g n) := by
  induction n with
  | zero =>
    rw [groupDeadline]
    refine nearest_congr ?_ (earlier_nearest (nearest_toList op) (nearest_toList (g 0).deadline))
    intro d
    cases h : (g 0).deadline <;> simp [levels, h]
  | succ n ih =>
    rw [groupDeadline]
    refine nearest_congr ?_ (earlier_nearest ih (nearest_toList (g (n + 1)).deadline))
    intro d
    have hl : levels (n + 1) = levels n ++ [n + 1] := by
      unfold levels
      rw [List.range_succ]
    rw [hl, List.filterMap_append]
    cases h : (g (n + 1)).deadline <;> simp [h]

theorem minTimeout_nearest {ds : List Deadline} {t : Option Deadline} (ht : Nearest ds t)
    (g : Nat → Group) (n : Nat) :
    Nearest (ds ++ (levels n).filterMap fun l => (g l).timeout) (minTimeout t g n) := by
  induction n generalizing ds t with
  | zero =>
    rw [minTimeout]
    refine nearest_congr ?_ (earlier_nearest ht (nearest_toList (g 0).timeout))
    intro d
    cases h : (g 0).timeout <;> simp [levels, h]
  | succ n ih =>
    rw [minTimeout]
    refine nearest_congr ?_ (ih (earlier_nearest ht (nearest_toList (g (n + 1)).timeout)))
    intro d
    have hl : levels (n + 1) = levels n ++ [n + 1] := by
      unfold levels
      rw [List.range_succ]
    rw [hl, List.filterMap_append]
    cases h : (g (n + 1)).timeout with
    | none => simp [h]
    | some x =>
      have hf : [n + 1].filterMap (fun l => (g l).timeout) = [x] := by
        rw [List.filterMap_cons, h]; rfl
      rw [hf]
      simp only [List.mem_append, Option.toList_some, List.mem_singleton]
      constructor
      · rintro ((h | h) | h)
        · exact Or.inl h
        · exact Or.inr (Or.inr h)
        · exact Or.inr (Or.inl h)
      · rintro (h | h | h)
        · exact Or.inl (Or.inl h)
        · exact Or.inr h
        · exact Or.inl (Or.inr h)

/-- The part that is computed once. -/
theorem first_nearest {op cfg : Option Deadline} {depth : Nat} {h : List Event} {s : St}
    (hi : Inv num op cfg depth h s) (hc : s.cached = none) (now : Nat) :
    ∃ d, (effective s now).1.cached = some d ∧
      Nearest (op.toList ++ (levels depth).filterMap (fun l => lastSet (groupSet num l) h) ++
        (cfg.toList ++ (levels depth).filterMap (fun l => lastSet (timeoutSet num l) h)).map
          (fun d => ⟨now + d.value, d.success⟩)) d := by
  unfold effective
  rw [hc]
  refine ⟨_, rfl, ?_⟩
  have h1 := groupDeadline_nearest s.op s.groups s.depth
  have h2 := minTimeout_nearest (nearest_toList s.cfg) s.groups s.depth
  have h3 := nearest_shift h2 now
  rw [hi.op, hi.depth] at h1
  rw [hi.cfg, hi.depth] at h2 h3
  simp only [hi.deadline] at h1
  simp only [hi.timeout] at h3
  have h4 := earlier_nearest h1 h3
  rw [hi.op, hi.cfg, hi.depth]
  cases hm : minTimeout cfg s.groups depth with
  | none =>
    rw [hm] at h4
    simp only
    have he : earlier (groupDeadline op s.groups depth) none = groupDeadline op s.groups depth := by
      cases groupDeadline op s.groups depth <;> rfl
    rw [Option.map_none, he] at h4
    exact h4
  | some t =>
    rw [hm] at h4
    exact h4

theorem effective_cached {s : St} {d : Option Deadline} (hc : s.cached = some d) (now : Nat) :
    (effective s now).2 = earlier d s.frag := by
  unfold effective
  rw [hc]

theorem effective_first {s : St} {d : Option Deadline} (now : Nat)
    (hc : (effective s now).1.cached = some d) : (effective s now).2 = earlier d s.frag := by
  unfold effective at *
  cases h : s.cached with
  | none =>
    rw [h] at hc
    simp only at hc ⊢
    injection hc with hc
    rw [hc]
  | some x =>
    rw [h] at hc
    simp only at hc ⊢
    rw [h] at hc
    injection hc with hc
    rw [hc]

end Verif.Timeout
