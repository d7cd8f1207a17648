import Verif.ScriptFlow.Refine

/-!
# Script flow control: the indexes of the commands
-/

namespace Verif.ScriptFlow

variable {A V σ β : Type}

/-! ## Callbacks that do not look at the line index -/

theorem calls_facts (c : Calls A V σ) : Facts c.exec False where
  sgl := fun _ _ _ _ _ => rfl
  idx := Or.inr ⟨fun _ _ _ _ _ _ => rfl, fun _ _ _ _ _ => rfl, fun _ _ _ _ _ => rfl⟩

theorem static_decide (c : Calls A V σ) (k : Kind) (a : A) (l : Nat) (ii : List Nat) (s : σ) :
    c.exec.static.decide k (a, l) ii s = c.decide k a ii s := by
  cases k <;> rfl

mutual

theorem run_erase (c : Calls A V σ) (tof : Bool) (n : Nat) :
    ∀ (p : Prog A) (l : Nat) (ii : List Nat) (s : σ),
      run c.exec.static tof n (p.number l) ii s = run c tof n p ii s
  | .nil, l, ii, s => rfl
  | .var a r, l, ii, s => by
    simp only [Prog.number, run, run_erase c tof n r]
    rfl
  | .cmd a r, l, ii, s => by
    simp only [Prog.number, run, run_erase c tof n r]
    rfl
  | .ifc k neg a t e r, l, ii, s => by
    simp only [Prog.number, run, run_erase c tof n r, run_erase c tof n t, runElse_erase c tof n e,
      static_decide]
  | .whl a b r, l, ii, s => by
    have hb : ∀ l, (fun k => run c.exec.static tof n (b.number l) (k :: ii)) =
        fun k => run c tof n b (k :: ii) :=
      fun l => funext fun k => funext fun s => run_erase c tof n b l (k :: ii) s
    simp only [Prog.number, run, run_erase c tof n r, hb]
    rfl
  | .forS a b r, l, ii, s => by
    have hb : ∀ l, (fun k => run c.exec.static tof n (b.number l) (k :: ii)) =
        fun k => run c tof n b (k :: ii) :=
      fun l => funext fun k => funext fun s => run_erase c tof n b l (k :: ii) s
    simp only [Prog.number, run, run_erase c tof n r, hb]
    rfl
  | .forA a b r, l, ii, s => by
    have hb : ∀ l, (fun k => run c.exec.static tof n (b.number l) (k :: ii)) =
        fun k => run c tof n b (k :: ii) :=
      fun l => funext fun k => funext fun s => run_erase c tof n b l (k :: ii) s
    simp only [Prog.number, run, run_erase c tof n r, hb]
    rfl
  | .cont r, l, ii, s => rfl
  | .brk r, l, ii, s => rfl

theorem runElse_erase (c : Calls A V σ) (tof : Bool) (n : Nat) :
    ∀ (e : Else A) (l : Nat) (ii : List Nat) (s : σ),
      runElse c.exec.static tof n (e.number l) ii s = runElse c tof n e ii s
  | .none, l, ii, s => rfl
  | .els b, l, ii, s => by
    simp only [Else.number, runElse, run_erase c tof n b]
  | .elifc k neg a t e, l, ii, s => by
    simp only [Else.number, runElse, run_erase c tof n t, runElse_erase c tof n e, static_decide]

end

/-! ## The outcomes -/

theorem thn_ne {tof : Bool} {r : Res σ β} {k : β → σ → Option (Out σ)} {P : Out σ → Prop}
    (hf : ∀ s, P (.failed s)) (he : ∀ c s, P (.exited c s))
    (hk : ∀ b s o, k b s = some o → P o) (o : Out σ) (h : r.thn tof k = some o) : P o := by
  cases r with
  | ok b s => exact hk b s o h
  | exit c s =>
    simp only [Res.thn, Option.some.injEq] at h
    subst h
    split
    · exact hf s
    · exact he c s
  | fail s => cases h; exact hf s

theorem seq_ne {o1 : Option (Out σ)} {k : σ → Option (Out σ)} {P : Out σ → Prop}
    (h1 : ∀ o, o1 = some o → P o) (hk : ∀ s o, k s = some o → P o) (o : Out σ)
    (h : seq o1 k = some o) : P o := by
  rcases seq_some h with ⟨s, _, h⟩ | ⟨h, _⟩
  · exact hk s o h
  · exact h1 o h

theorem while_ne {tof : Bool} {cond : Nat → σ → Res σ Bool} {body : Nat → σ → Option (Out σ)}
    {P Q : Out σ → Prop} (hn : ∀ s, P (.normal s))
    (hf : ∀ s, P (.failed s)) (he : ∀ c s, P (.exited c s)) (hb : Q .bad → P .bad)
    (hbody : ∀ k s o, body k s = some o → Q o) :
    ∀ (m k : Nat) (s : σ) (o : Out σ), whileRun tof cond body m k s = some o → P o
  | 0, _, _, _, h => by cases h
  | m + 1, k, s, o, h => by
    simp only [whileRun] at h
    refine thn_ne hf he (fun b s1 o h => ?_) o h
    split at h
    · rcases iter_some h with ⟨s2, _, h2⟩ | ⟨s2, _, rfl⟩ | ⟨h1, h2⟩
      · exact while_ne hn hf he hb hbody m (k + 1) s2 o h2
      · exact hn _
      · rcases h2 with ⟨c, s2, rfl⟩ | ⟨s2, rfl⟩ | rfl
        · exact he _ _
        · exact hf _
        · exact hb (hbody _ _ _ h1)
    · cases h; exact hn _

theorem for_ne {tof : Bool} {assign : V → σ → Res σ Unit} {body : Nat → σ → Option (Out σ)}
    {P Q : Out σ → Prop} (hn : ∀ s, P (.normal s))
    (hf : ∀ s, P (.failed s)) (he : ∀ c s, P (.exited c s)) (hb : Q .bad → P .bad)
    (hbody : ∀ k s o, body k s = some o → Q o) :
    ∀ (vs : List V) (k : Nat) (s : σ) (o : Out σ), forRun tof assign body vs k s = some o → P o
  | [], _, _, _, h => by cases h; exact hn _
  | v :: vs, k, s, o, h => by
    simp only [forRun] at h
    refine thn_ne hf he (fun b s1 o h => ?_) o h
    rcases iter_some h with ⟨s2, _, h2⟩ | ⟨s2, _, rfl⟩ | ⟨h1, h2⟩
    · exact for_ne hn hf he hb hbody vs (k + 1) s2 o h2
    · exact hn _
    · rcases h2 with ⟨c, s2, rfl⟩ | ⟨s2, rfl⟩ | rfl
      · exact he _ _
      · exact hf _
      · exact hb (hbody _ _ _ h1)

/-- Not a failed assertion and, outside of loops, not a `break` or a `continue`. -/
def Out.fine (inl : Bool) : Out σ → Prop
  | .bad => False
  | .cont _ => inl = true
  | .brk _ => inl = true
  | _ => True

mutual

theorem run_fine (c : Calls A V σ) (tof : Bool) (n : Nat) :
    ∀ (p : Prog A) (inl : Bool), p.scoped inl → ∀ (ii : List Nat) (s : σ) (o : Out σ),
      run c tof n p ii s = some o → o.fine inl
  | .nil, inl, hs, ii, s, o, h => by cases h; trivial
  | .var a r, inl, hs, ii, s, o, h =>
    thn_ne (fun _ => trivial) (fun _ _ => trivial)
      (fun _ s1 o h => run_fine c tof n r inl hs ii s1 o h) o h
  | .cmd a r, inl, hs, ii, s, o, h =>
    thn_ne (fun _ => trivial) (fun _ _ => trivial)
      (fun _ s1 o h => run_fine c tof n r inl hs ii s1 o h) o h
  | .ifc k neg a t e r, inl, hs, ii, s, o, h =>
    thn_ne (fun _ => trivial) (fun _ _ => trivial)
      (fun b s1 o h => seq_ne
        (fun o h => by
          split at h
          · exact run_fine c tof n t inl hs.1 ii s1 o h
          · exact runElse_fine c tof n e inl hs.2.1 ii s1 o h)
        (fun s2 o h => run_fine c tof n r inl hs.2.2 ii s2 o h) o h) o h
  | .whl a b r, inl, hs, ii, s, o, h =>
    seq_ne (fun o h => while_ne (P := Out.fine inl) (Q := Out.fine true) (fun _ => trivial)
        (fun _ => trivial) (fun _ _ => trivial) id
        (fun k s o h => run_fine c tof n b true hs.1 (k :: ii) s o h) n 1 s o h)
      (fun s2 o h => run_fine c tof n r inl hs.2 ii s2 o h) o h
  | .forS a b r, inl, hs, ii, s, o, h =>
    thn_ne (fun _ => trivial) (fun _ _ => trivial)
      (fun vs s1 o h =>
        seq_ne (fun o h => for_ne (P := Out.fine inl) (Q := Out.fine true) (fun _ => trivial)
            (fun _ => trivial) (fun _ _ => trivial) id
            (fun k s o h => run_fine c tof n b true hs.1 (k :: ii) s o h) vs 1 s1 o h)
          (fun s2 o h => run_fine c tof n r inl hs.2 ii s2 o h) o h) o h
  | .forA a b r, inl, hs, ii, s, o, h =>
    thn_ne (fun _ => trivial) (fun _ _ => trivial)
      (fun vs s1 o h =>
        seq_ne (fun o h => for_ne (P := Out.fine inl) (Q := Out.fine true) (fun _ => trivial)
            (fun _ => trivial) (fun _ _ => trivial) id
            (fun k s o h => run_fine c tof n b true hs.1 (k :: ii) s o h) vs 1 s1 o h)
          (fun s2 o h => run_fine c tof n r inl hs.2 ii s2 o h) o h) o h
  | .cont r, inl, hs, ii, s, o, h => by cases h; exact hs.1
  | .brk r, inl, hs, ii, s, o, h => by cases h; exact hs.1

theorem runElse_fine (c : Calls A V σ) (tof : Bool) (n : Nat) :
    ∀ (e : Else A) (inl : Bool), e.scoped inl → ∀ (ii : List Nat) (s : σ) (o : Out σ),
      runElse c tof n e ii s = some o → o.fine inl
  | .none, inl, hs, ii, s, o, h => by cases h; trivial
  | .els b, inl, hs, ii, s, o, h => run_fine c tof n b inl hs ii s o h
  | .elifc k neg a t e, inl, hs, ii, s, o, h =>
    thn_ne (fun _ => trivial) (fun _ _ => trivial)
      (fun b s1 o h => by
        split at h
        · exact run_fine c tof n t inl hs.1 ii s1 o h
        · exact runElse_fine c tof n e inl hs.2 ii s1 o h) o h

end

mutual

theorem scoped_true : ∀ (p : Prog A) , p.scoped true
  | .nil => trivial
  | .var _ r => scoped_true r
  | .cmd _ r => scoped_true r
  | .ifc _ _ _ t e r => ⟨scoped_true t, scoped_trueElse e, scoped_true r⟩
  | .whl _ b r => ⟨scoped_true b, scoped_true r⟩
  | .forS _ b r => ⟨scoped_true b, scoped_true r⟩
  | .forA _ b r => ⟨scoped_true b, scoped_true r⟩
  | .cont r => ⟨rfl, scoped_true r⟩
  | .brk r => ⟨rfl, scoped_true r⟩

theorem scoped_trueElse : ∀ (e : Else A) , e.scoped true
  | .none => trivial
  | .els b => scoped_true b
  | .elifc _ _ _ t e => ⟨scoped_true t, scoped_trueElse e⟩

end

/-! ## The log of the calls -/

/-- A call: the iteration indexes and the line index. -/
abbrev Call := List Nat × Nat

/-- Add to the state of a result. -/
def Res.withLog (g : List Call) : Res σ β → Res (σ × List Call) β
  | .ok b s => .ok b (s, g)
  | .exit c s => .exit c (s, g)
  | .fail s => .fail (s, g)

/-- The callbacks, with the indexes passed with every command (also of a condition and of a
for-loop) remembered in the state, the last one first. -/
def Exec.log (x : Exec A V σ) : Exec A V (σ × List Call) where
  set a s := (x.set a s.1).withLog s.2
  cmd a ii li b s := (x.cmd a ii li b s.1).withLog ((ii, li) :: s.2)
  cond a ii li s := (x.cond a ii li s.1).withLog ((ii, li) :: s.2)
  value k a s := (x.value k a s.1).withLog s.2
  stream a ii li s := (x.stream a ii li s.1).withLog ((ii, li) :: s.2)
  args a s := (x.args a s.1).withLog s.2
  assign a v s := (x.assign a v s.1).withLog s.2

/-- The state at the end. -/
def Out.state : Out σ → Option σ
  | .normal s => some s
  | .exited _ s => some s
  | .failed s => some s
  | .cont s => some s
  | .brk s => some s
  | .bad => none

/-- New calls: no two are the same, all are inside the iterations `ii` and their line indexes are
in the range. -/
structure Good (ii : List Nat) (lo hi : Nat) (new : List Call) : Prop where
  nodup : new.Nodup
  stack : ∀ c ∈ new, ii <:+ c.1
  lo : ∀ c ∈ new, lo ≤ c.2
  hi : ∀ c ∈ new, c.2 < hi

theorem good_nil (ii : List Nat) (lo hi : Nat) : Good ii lo hi [] :=
  ⟨List.nodup_nil, by simp, by simp, by simp⟩

theorem good_one (ii : List Nat) (l : Nat) : Good ii l (l + 1) [(ii, l)] :=
  ⟨by simp, by simp, by simp, by simp⟩

theorem Good.widen {ii : List Nat} {lo hi lo' hi' : Nat} {new : List Call} (h : Good ii lo hi new)
    (h1 : lo' ≤ lo) (h2 : hi ≤ hi') : Good ii lo' hi' new :=
  ⟨h.nodup, h.stack, fun c hc => Nat.le_trans h1 (h.lo c hc),
   fun c hc => Nat.lt_of_lt_of_le (h.hi c hc) h2⟩

theorem Good.append {ii : List Nat} {lo mid hi : Nat} {n1 n2 : List Call}
    (h1 : Good ii lo mid n1) (h2 : Good ii mid hi n2) (hl : lo ≤ mid) (hh : mid ≤ hi) :
    Good ii lo hi (n2 ++ n1) := by
  refine ⟨?_, ?_, ?_, ?_⟩
  · rw [List.nodup_append]
    refine ⟨h2.nodup, h1.nodup, fun a ha b hb hab => ?_⟩
    subst hab
    have := h2.lo a ha
    have := h1.hi a hb
    omega
  · intro c hc
    rcases List.mem_append.mp hc with hc | hc
    · exact h2.stack c hc
    · exact h1.stack c hc
  · intro c hc
    rcases List.mem_append.mp hc with hc | hc
    · exact Nat.le_trans hl (h2.lo c hc)
    · exact h1.lo c hc
  · intro c hc
    rcases List.mem_append.mp hc with hc | hc
    · exact h2.hi c hc
    · exact Nat.lt_of_lt_of_le (h1.hi c hc) hh

/-- The outcome has these new calls. -/
def Logs (P : List Call → Prop) (g : List Call) (o : Out (σ × List Call)) : Prop :=
  ∀ st, o.state = some st → ∃ new, st.2 = new ++ g ∧ P new

/-- The calls of the iterations from number k on. -/
structure GoodIter (ii : List Nat) (k lo hi : Nat) (new : List Call) : Prop where
  nodup : new.Nodup
  stack : ∀ c ∈ new, ∃ k', k ≤ k' ∧ k' :: ii <:+ c.1
  lo : ∀ c ∈ new, lo ≤ c.2
  hi : ∀ c ∈ new, c.2 < hi

theorem GoodIter.good {ii : List Nat} {k lo hi : Nat} {new : List Call}
    (h : GoodIter ii k lo hi new) : Good ii lo hi new :=
  ⟨h.nodup, fun c hc => by
    obtain ⟨k', _, h'⟩ := h.stack c hc
    exact (List.suffix_cons k' ii).trans h', h.lo, h.hi⟩

theorem GoodIter.cons {ii : List Nat} {k lo hi : Nat} {n1 n2 : List Call}
    (h1 : Good (k :: ii) lo hi n1) (h2 : GoodIter ii (k + 1) lo hi n2) :
    GoodIter ii k lo hi (n2 ++ n1) := by
  refine ⟨?_, ?_, ?_, ?_⟩
  · rw [List.nodup_append]
    refine ⟨h2.nodup, h1.nodup, fun a ha b hb hab => ?_⟩
    subst hab
    obtain ⟨k', hk, h'⟩ := h2.stack a ha
    have h'' := h1.stack a hb
    have : k' :: ii = k :: ii := by
      rcases List.suffix_or_suffix_of_suffix h' h'' with h | h
      · exact List.IsSuffix.eq_of_length h rfl
      · exact (List.IsSuffix.eq_of_length h rfl).symm
    simp only [List.cons.injEq, and_true] at this
    omega
  · intro c hc
    rcases List.mem_append.mp hc with hc | hc
    · obtain ⟨k', hk, h'⟩ := h2.stack c hc
      exact ⟨k', by omega, h'⟩
    · exact ⟨k, Nat.le_refl k, h1.stack c hc⟩
  · intro c hc
    rcases List.mem_append.mp hc with hc | hc
    · exact h2.lo c hc
    · exact h1.lo c hc
  · intro c hc
    rcases List.mem_append.mp hc with hc | hc
    · exact h2.hi c hc
    · exact h1.hi c hc

theorem GoodIter.one {ii : List Nat} {k lo hi : Nat} {n1 : List Call}
    (h1 : Good (k :: ii) lo hi n1) : GoodIter ii k lo hi n1 :=
  ⟨h1.nodup, fun c hc => ⟨k, Nat.le_refl k, h1.stack c hc⟩, h1.lo, h1.hi⟩

/-- A line and then the rest. -/
theorem logs_thn {tof : Bool} {r : Res σ β} {g0 : List Call} {k : β → σ × List Call → Option (Out _)}
    {P : List Call → Prop} {g : List Call} (pre : List Call) (hg : g0 = pre ++ g)
    (h0 : P pre)
    (hk : ∀ b s o, k b (s, g0) = some o → Logs P g o) (o : Out (σ × List Call))
    (h : (r.withLog g0).thn tof k = some o) : Logs P g o := by
  cases r with
  | ok b s => exact hk b s o h
  | exit c s =>
    simp only [Res.withLog, Res.thn, Option.some.injEq] at h
    subst h
    intro st hst
    split at hst <;> (cases hst; exact ⟨pre, hg, h0⟩)
  | fail s =>
    cases h
    intro st hst
    cases hst
    exact ⟨pre, hg, h0⟩

/-- A block and then the rest. -/
theorem logs_seq {o1 : Option (Out (σ × List Call))} {k : σ × List Call → Option (Out _)}
    {P Q R : List Call → Prop} {g : List Call}
    (h1 : ∀ o, o1 = some o → Logs P g o) (hk : ∀ s o, k s = some o → Logs Q s.2 o)
    (hPR : ∀ n1, P n1 → R n1) (hR : ∀ n1 n2, P n1 → Q n2 → R (n2 ++ n1))
    (o : Out (σ × List Call)) (h : seq o1 k = some o) : Logs R g o := by
  rcases seq_some h with ⟨s, hs, h⟩ | ⟨h, _⟩
  · intro st hst
    obtain ⟨n1, hn1, hP⟩ := h1 _ hs s rfl
    obtain ⟨n2, hn2, hQ⟩ := hk s o h st hst
    exact ⟨n2 ++ n1, by rw [hn2, hn1, List.append_assoc], hR n1 n2 hP hQ⟩
  · intro st hst
    obtain ⟨n1, hn1, hP⟩ := h1 _ h st hst
    exact ⟨n1, hn1, hPR n1 hP⟩

/-- More new calls before. -/
theorem logs_pre {P R : List Call → Prop} {g pre : List Call} {o : Out (σ × List Call)}
    (h : Logs P (pre ++ g) o) (hR : ∀ n, P n → R (n ++ pre)) : Logs R g o := by
  intro st hst
  obtain ⟨n, hn, hP⟩ := h st hst
  exact ⟨n ++ pre, by rw [hn, List.append_assoc], hR n hP⟩

theorem logs_mono {P R : List Call → Prop} {g : List Call} {o : Out (σ × List Call)}
    (h : Logs P g o) (hR : ∀ n, P n → R n) : Logs R g o := by
  intro st hst
  obtain ⟨n, hn, hP⟩ := h st hst
  exact ⟨n, hn, hR n hP⟩

theorem logs_iter {o1 : Option (Out (σ × List Call))} {k : σ × List Call → Option (Out _)}
    {P Q R : List Call → Prop} {g : List Call}
    (h1 : ∀ o, o1 = some o → Logs P g o) (hk : ∀ s o, k s = some o → Logs Q s.2 o)
    (hPR : ∀ n1, P n1 → R n1) (hR : ∀ n1 n2, P n1 → Q n2 → R (n2 ++ n1))
    (o : Out (σ × List Call)) (h : iter o1 k = some o) : Logs R g o := by
  rcases iter_some h with ⟨s, hs, h⟩ | ⟨s, hs, rfl⟩ | ⟨h, _⟩
  · intro st hst
    obtain ⟨n1, hn1, hP⟩ : ∃ new, s.2 = new ++ g ∧ P new := by
      rcases hs with hs | hs
      · exact h1 _ hs s rfl
      · exact h1 _ hs s rfl
    obtain ⟨n2, hn2, hQ⟩ := hk s o h st hst
    exact ⟨n2 ++ n1, by rw [hn2, hn1, List.append_assoc], hR n1 n2 hP hQ⟩
  · intro st hst
    cases hst
    obtain ⟨n1, hn1, hP⟩ := h1 _ hs s rfl
    exact ⟨n1, hn1, hPR n1 hP⟩
  · intro st hst
    obtain ⟨n1, hn1, hP⟩ := h1 _ h st hst
    exact ⟨n1, hn1, hPR n1 hP⟩

section uniq

variable (x : Exec A V σ) (tof : Bool)

theorem logs_while (a : A) (ii : List Nat) (l hi : Nat) (hlt : l + 1 ≤ hi)
    (body : Nat → σ × List Call → Option (Out (σ × List Call)))
    (hbody : ∀ k s o, body k s = some o → Logs (Good (k :: ii) (l + 1) hi) s.2 o) :
    ∀ (m k : Nat) (s : σ × List Call) (o : Out (σ × List Call)),
      whileRun tof (fun k => x.log.static.cond (a, l) (k :: ii)) body m k s = some o →
      Logs (GoodIter ii k l hi) s.2 o
  | 0, _, _, _, h => by cases h
  | m + 1, k, s, o, h => by
    have one : Good (k :: ii) l hi [(k :: ii, l)] :=
      (good_one (k :: ii) l).widen (Nat.le_refl l) hlt
    simp only [whileRun] at h
    change ((x.cond a (k :: ii) l s.1).withLog ((k :: ii, l) :: s.2)).thn tof _ = _ at h
    refine logs_thn [(k :: ii, l)] rfl (GoodIter.one one) (fun b s1 o h => ?_) o h
    split at h
    · refine logs_pre (P := fun n => ∃ n1 n2, n = n2 ++ n1 ∧ Good (k :: ii) (l + 1) hi n1 ∧
          GoodIter ii (k + 1) l hi n2) (pre := [(k :: ii, l)]) ?_ ?_
      · refine logs_iter (P := Good (k :: ii) (l + 1) hi) (Q := GoodIter ii (k + 1) l hi)
          (fun o h => hbody k _ o h) (fun s2 o h => logs_while a ii l hi hlt body hbody m (k + 1) s2 o h)
          (fun n1 h1 => ⟨n1, [], rfl, h1, ⟨List.nodup_nil, by simp, by simp, by simp⟩⟩)
          (fun n1 n2 h1 h2 => ⟨n1, n2, rfl, h1, h2⟩) o h
      · rintro n ⟨n1, n2, rfl, h1, h2⟩
        rw [List.append_assoc]
        refine GoodIter.cons ?_ h2
        exact Good.append (good_one (k :: ii) l) h1 (by omega) hlt
    · cases h
      intro st hst
      cases hst
      exact ⟨[(k :: ii, l)], rfl, GoodIter.one one⟩

theorem logs_for (a : A) (la : Nat) (ii : List Nat) (l hi : Nat)
    (body : Nat → σ × List Call → Option (Out (σ × List Call)))
    (hbody : ∀ k s o, body k s = some o → Logs (Good (k :: ii) l hi) s.2 o) :
    ∀ (vs : List V) (k : Nat) (s : σ × List Call) (o : Out (σ × List Call)),
      forRun tof (x.log.static.assign (a, la)) body vs k s = some o →
      Logs (GoodIter ii k l hi) s.2 o
  | [], k, s, o, h => by
    cases h
    intro st hst
    cases hst
    exact ⟨[], rfl, ⟨List.nodup_nil, by simp, by simp, by simp⟩⟩
  | v :: vs, k, s, o, h => by
    simp only [forRun] at h
    change ((x.assign a v s.1).withLog s.2).thn tof _ = _ at h
    refine logs_thn [] rfl ⟨List.nodup_nil, by simp, by simp, by simp⟩ (fun b s1 o h => ?_) o h
    exact logs_iter (P := Good (k :: ii) l hi) (Q := GoodIter ii (k + 1) l hi)
      (fun o h => hbody k (s1, s.2) o h) (fun s2 o h => logs_for a la ii l hi body hbody vs (k + 1) s2 o h)
      (fun n1 h1 => GoodIter.one h1)
      (fun n1 n2 h1 h2 => GoodIter.cons h1 h2) o h

/-- A condition logs a call or (a value) does not. -/
theorem logs_decide (k : Kind) (a : A) (ii : List Nat) (l : Nat) (s : σ × List Call) :
    ∃ (r : Res σ Bool) (pre : List Call), x.log.static.decide k (a, l) ii s = r.withLog (pre ++ s.2)
      ∧ Good ii l (l + 1) pre := by
  cases k
  · exact ⟨x.cond a ii l s.1, [(ii, l)], rfl, good_one ii l⟩
  · exact ⟨x.value .null a s.1, [], rfl, good_nil ..⟩
  · exact ⟨x.value .empty a s.1, [], rfl, good_nil ..⟩

mutual

theorem logs_run (n : Nat) : ∀ (p : Prog A) (l : Nat) (ii : List Nat) (s : σ × List Call)
    (o : Out (σ × List Call)), run x.log.static tof n (p.number l) ii s = some o →
    Logs (Good ii l (l + p.count)) s.2 o
  | .nil, l, ii, s, o, h => by
    cases h
    intro st hst
    cases hst
    exact ⟨[], rfl, good_nil ..⟩
  | .var a r, l, ii, s, o, h => by
    simp only [Prog.number, run] at h
    change ((x.set a s.1).withLog s.2).thn tof _ = _ at h
    exact logs_thn [] rfl (good_nil ..) (fun b s1 o h => logs_run n r l ii (s1, s.2) o h) o h
  | .cmd a r, l, ii, s, o, h => by
    simp only [Prog.number, run] at h
    change ((x.cmd a ii l false s.1).withLog ((ii, l) :: s.2)).thn tof _ = _ at h
    refine logs_thn [(ii, l)] rfl
      ((good_one ii l).widen (Nat.le_refl l) (by rw [Prog.count]; omega))
      (fun b s1 o h => ?_) o h
    refine logs_pre (pre := [(ii, l)]) (logs_run n r (l + 1) ii _ o h) (fun n hn => ?_)
    exact Good.append (good_one ii l) (hn.widen (Nat.le_refl _) (by rw [Prog.count]; omega))
      (by omega) (by rw [Prog.count]; omega)
  | .ifc k neg a t e r, l, ii, s, o, h => by
    simp only [Prog.number, run] at h
    obtain ⟨rr, pre, hd, hpre⟩ := logs_decide x k a ii l s
    rw [hd] at h
    refine logs_thn pre rfl (hpre.widen (Nat.le_refl l) (by rw [Prog.count]; omega))
      (fun b s1 o h => ?_) o h
    refine logs_pre (P := Good ii (l + 1) (l + (Prog.ifc k neg a t e r).count)) ?_
      (fun n hn => Good.append hpre hn (by omega) (by rw [Prog.count]; omega))
    refine logs_seq (P := Good ii (l + 1) (l + 1 + t.count + e.count))
      (Q := Good ii (l + 1 + t.count + e.count) (l + 1 + t.count + e.count + r.count))
      (fun o h => ?_) (fun s2 o h => logs_run n r _ ii s2 o h)
      (fun n1 h1 => h1.widen (Nat.le_refl _) (by rw [Prog.count]; omega))
      (fun n1 n2 h1 h2 => (Good.append h1 h2 (by omega) (by omega)).widen (Nat.le_refl _)
        (by rw [Prog.count]; omega)) o h
    split at h
    · exact logs_mono (logs_run n t (l + 1) ii _ o h)
        (fun n hn => hn.widen (Nat.le_refl _) (by omega))
    · exact logs_mono (logs_runElse n e (l + 1 + t.count) ii _ o h)
        (fun n hn => hn.widen (by omega) (Nat.le_refl _))
  | .whl a b r, l, ii, s, o, h => by
    simp only [Prog.number, run] at h
    refine logs_seq (P := Good ii l (l + 1 + b.count))
      (Q := Good ii (l + 1 + b.count) (l + 1 + b.count + r.count))
      (fun o h => ?_) (fun s2 o h => logs_run n r _ ii s2 o h)
      (fun n1 h1 => h1.widen (Nat.le_refl _) (by rw [Prog.count]; omega))
      (fun n1 n2 h1 h2 => (Good.append h1 h2 (by omega) (by omega)).widen (Nat.le_refl _)
        (by rw [Prog.count]; omega)) o h
    exact logs_mono (logs_while x tof a ii l (l + 1 + b.count) (by omega) _
      (fun k s o h => logs_run n b (l + 1) (k :: ii) s o h) n 1 s o h) (fun n hn => hn.good)
  | .forS a b r, l, ii, s, o, h => by
    simp only [Prog.number, run] at h
    change ((x.stream a ii l s.1).withLog ((ii, l) :: s.2)).thn tof _ = _ at h
    refine logs_thn [(ii, l)] rfl
      ((good_one ii l).widen (Nat.le_refl l) (by rw [Prog.count]; omega))
      (fun vs s1 o h => ?_) o h
    refine logs_pre (P := Good ii (l + 1) (l + (Prog.forS a b r).count)) (pre := [(ii, l)]) ?_
      (fun n hn => Good.append (good_one ii l) hn (by omega) (by rw [Prog.count]; omega))
    refine logs_seq (P := Good ii (l + 1) (l + 1 + b.count))
      (Q := Good ii (l + 1 + b.count) (l + 1 + b.count + r.count))
      (fun o h => ?_) (fun s2 o h => logs_run n r _ ii s2 o h)
      (fun n1 h1 => h1.widen (Nat.le_refl _) (by rw [Prog.count]; omega))
      (fun n1 n2 h1 h2 => (Good.append h1 h2 (by omega) (by omega)).widen (Nat.le_refl _)
        (by rw [Prog.count]; omega)) o h
    exact logs_mono (logs_for x tof a l ii (l + 1) (l + 1 + b.count) _
      (fun k s o h => logs_run n b (l + 1) (k :: ii) s o h) vs 1 _ o h) (fun n hn => hn.good)
  | .forA a b r, l, ii, s, o, h => by
    simp only [Prog.number, run] at h
    change ((x.args a s.1).withLog s.2).thn tof _ = _ at h
    refine logs_thn [] rfl (good_nil ..) (fun vs s1 o h => ?_) o h
    refine logs_seq (P := Good ii l (l + b.count))
      (Q := Good ii (l + b.count) (l + b.count + r.count))
      (fun o h => ?_) (fun s2 o h => logs_run n r _ ii s2 o h)
      (fun n1 h1 => h1.widen (Nat.le_refl _) (by rw [Prog.count]; omega))
      (fun n1 n2 h1 h2 => (Good.append h1 h2 (by omega) (by omega)).widen (Nat.le_refl _)
        (by rw [Prog.count]; omega)) o h
    exact logs_mono (logs_for x tof a l ii l (l + b.count) _
      (fun k s o h => logs_run n b l (k :: ii) s o h) vs 1 (s1, s.2) o h) (fun n hn => hn.good)
  | .cont r, l, ii, s, o, h => by
    cases h
    intro st hst
    cases hst
    exact ⟨[], rfl, good_nil ..⟩
  | .brk r, l, ii, s, o, h => by
    cases h
    intro st hst
    cases hst
    exact ⟨[], rfl, good_nil ..⟩

theorem logs_runElse (n : Nat) : ∀ (e : Else A) (l : Nat) (ii : List Nat) (s : σ × List Call)
    (o : Out (σ × List Call)), runElse x.log.static tof n (e.number l) ii s = some o →
    Logs (Good ii l (l + e.count)) s.2 o
  | .none, l, ii, s, o, h => by
    cases h
    intro st hst
    cases hst
    exact ⟨[], rfl, good_nil ..⟩
  | .els b, l, ii, s, o, h => logs_run n b l ii s o h
  | .elifc k neg a t e, l, ii, s, o, h => by
    simp only [Else.number, runElse] at h
    obtain ⟨rr, pre, hd, hpre⟩ := logs_decide x k a ii l s
    rw [hd] at h
    refine logs_thn pre rfl (hpre.widen (Nat.le_refl l) (by rw [Else.count]; omega))
      (fun b s1 o h => ?_) o h
    refine logs_pre (P := Good ii (l + 1) (l + (Else.elifc k neg a t e).count)) ?_
      (fun n hn => Good.append hpre hn (by omega) (by rw [Else.count]; omega))
    split at h
    · exact logs_mono (logs_run n t (l + 1) ii _ o h)
        (fun n hn => hn.widen (Nat.le_refl _) (by rw [Else.count]; omega))
    · exact logs_mono (logs_runElse n e (l + 1 + t.count) ii _ o h)
        (fun n hn => hn.widen (by omega) (by rw [Else.count]; omega))

end

end uniq

end Verif.ScriptFlow
