import Verif.ScriptFlow.Lemmas

/-!
# Script flow control: the lines do what the script says
-/

namespace Verif.ScriptFlow

variable {A V σ β : Type}

/-- The callbacks of the model as the ones of the specification, for texts that carry the line
index. -/
def Exec.static (x : Exec A V σ) : Calls (A × Nat) V σ where
  set a s := x.set a.1 s
  cmd a ii s := x.cmd a.1 ii a.2 false s
  cond a ii s := x.cond a.1 ii a.2 s
  value k a s := x.value k a.1 s
  stream a ii s := x.stream a.1 ii a.2 s
  args a s := x.args a.1 s
  assign a v s := x.assign a.1 v s

/-- The callbacks do not look at `single`. -/
def Exec.NoSingle (x : Exec A V σ) : Prop :=
  ∀ a ii li b s, x.cmd a ii li b s = x.cmd a ii li false s

/-- The callbacks do not look at the line index. -/
structure Exec.NoIndex (x : Exec A V σ) : Prop where
  cmd : ∀ a ii l l' b s, x.cmd a ii l b s = x.cmd a ii l' b s
  cond : ∀ a ii l l' s, x.cond a ii l s = x.cond a ii l' s
  stream : ∀ a ii l l' s, x.stream a ii l s = x.stream a ii l' s

/-- Ended normally. -/
def Out.norm : Out σ → Bool
  | .normal _ => true
  | _ => false

/-- The facts about the callbacks: they do not look at `single`, and they do not look at the line
index or else (M) the line index is known. -/
structure Facts (x : Exec A V σ) (M : Prop) : Prop where
  sgl : x.NoSingle
  idx : M ∨ x.NoIndex

theorem Facts.cmd {x : Exec A V σ} {M : Prop} (h : Facts x M) {l li : Nat} (hl : M → l = li)
    (a : A) (ii : List Nat) (b : Bool) (s : σ) :
    x.cmd a ii li b s = x.cmd a ii l false s := by
  rw [h.sgl a ii li b s]
  rcases h.idx with m | i
  · rw [hl m]
  · exact i.cmd ..

theorem Facts.cond {x : Exec A V σ} {M : Prop} (h : Facts x M) {l li : Nat} (hl : M → l = li)
    (a : A) (ii : List Nat) (s : σ) :
    x.cond a ii li s = x.cond a ii l s := by
  rcases h.idx with m | i
  · rw [hl m]
  · exact i.cond ..

theorem Facts.stream {x : Exec A V σ} {M : Prop} (h : Facts x M) {l li : Nat} (hl : M → l = li)
    (a : A) (ii : List Nat) (s : σ) :
    x.stream a ii li s = x.stream a ii l s := by
  rcases h.idx with m | i
  · rw [hl m]
  · exact i.stream ..

theorem Facts.decide {x : Exec A V σ} {M : Prop} (h : Facts x M) {l li : Nat} (hl : M → l = li)
    (k : Kind) (a : A) (ii : List Nat) (s : σ) :
    x.decide k a ii li s = x.static.decide k (a, l) ii s := by
  cases k
  · exact h.cond hl a ii s
  · rfl
  · rfl

/-- What is known of the end of the execution of a script: if the line index is known, then it is
the expected one. -/
def Ends (M : Prop) (o : Out σ) (li' l : Nat) : Prop := M → o.norm = true → li' = l

theorem go_some {tof : Bool} {li : Nat} {r : Res σ β} {k : β → σ → Option (Out σ × Nat)}
    {o : Out σ} {li' : Nat} (h : r.go tof li k = some (o, li')) :
    (∃ b s, r = .ok b s ∧ k b s = some (o, li')) ∨
    (o.norm = false ∧ ∀ k', r.thn tof k' = some o) := by
  cases r with
  | ok b s => exact Or.inl ⟨b, s, rfl, h⟩
  | exit c s =>
    refine Or.inr ?_
    simp only [Res.go, Option.some.injEq, Prod.mk.injEq] at h
    obtain ⟨h, _⟩ := h
    subst h
    refine ⟨?_, fun k' => rfl⟩
    split <;> rfl
  | fail s =>
    refine Or.inr ?_
    simp only [Res.go, Option.some.injEq, Prod.mk.injEq] at h
    obtain ⟨h, _⟩ := h
    subst h
    exact ⟨rfl, fun k' => rfl⟩

theorem ends_stop {M : Prop} {o : Out σ} {li' l : Nat} (h : o.norm = false) : Ends M o li' l := by
  intro _ h'; rw [h] at h'; cases h'

/-- Going on with each of the two sides. -/
theorem seq_stop {o : Out σ} {k : σ → Option (Out σ)} (h : o.norm = false) :
    seq (some o) k = some o := by
  cases o <;> first | rfl | cases h

section complete

variable (x : Exec A V σ) (tof : Bool) (M : Prop)

/-- The statement for the lines of a script. -/
def CE (f : Nat) : Prop :=
  ∀ (p : Prog A) (ii : List Nat) (li l : Nat) (s : σ) (o : Out σ) (li' : Nat),
    (M → p.plain) → (M → l = li) → exec x tof f p.lines ii li s = some (o, li') →
    Ends M o li' (li + p.count) ∧
    ∃ N, ∀ n, N ≤ n → run x.static tof n (p.number l) ii s = some o

/-- The statement for the lines from `elif` or `else` on. -/
def CX (f : Nat) : Prop :=
  ∀ (e : Else A) (r : Prog A) (ii : List Nat) (li l lr : Nat) (s : σ) (o : Out σ) (li' : Nat),
    (M → e.plain) → (M → r.plain) → (M → l = li) → (M → lr = li + e.count) →
    (e.split r.lines).1 ≠ .fin →
    exec x tof f ((e.split r.lines).1 :: (e.split r.lines).2) ii li s = some (o, li') →
    Ends M o li' (li + e.count + r.count) ∧
    ∃ N, ∀ n, N ≤ n →
      seq (runElse x.static tof n (e.number l) ii s)
        (fun s' => run x.static tof n (r.number lr) ii s') = some o

/-- The statement for a branch. -/
def CB (f : Nat) : Prop :=
  ∀ (take : Bool) (t : Prog A) (e : Else A) (r : Prog A) (ii : List Nat) (li l le lr : Nat)
    (s : σ) (o : Out σ) (li' : Nat),
    (M → t.plain) → (M → e.plain) → (M → r.plain) →
    (M → l = li) → (M → le = li + t.count) → (M → lr = li + t.count + e.count) →
    branch x tof f take (t.lines ++ (e.lines ++ .fin :: r.lines)) ii li s = some (o, li') →
    Ends M o li' (li + t.count + e.count + r.count) ∧
    ∃ N, ∀ n, N ≤ n →
      seq (if take then run x.static tof n (t.number l) ii s
           else runElse x.static tof n (e.number le) ii s)
        (fun s' => run x.static tof n (r.number lr) ii s') = some o

/-- The statement for the iterations of a while-loop. -/
def CW (f : Nat) : Prop :=
  ∀ (a : A) (b r : Prog A) (ii : List Nat) (li l lb lr k : Nat) (s : σ) (o : Out σ) (li' : Nat),
    (M → b.plain) → (M → r.plain) →
    (M → l = li) → (M → lb = li + 1) → (M → lr = li + 1 + b.count) →
    whileLoop x tof f a (b.lines ++ .fin :: r.lines) ii li k s = some (o, li') →
    Ends M o li' (li + 1 + b.count + r.count) ∧
    ∃ N, ∀ n, N ≤ n → ∀ m, N ≤ m →
      seq (whileRun tof (fun k => x.static.cond (a, l) (k :: ii))
            (fun k => run x.static tof n (b.number lb) (k :: ii)) m k s)
        (fun s' => run x.static tof n (r.number lr) ii s') = some o

/-- The statement for the iterations of a for-loop. -/
def CF (f : Nat) : Prop :=
  ∀ (a : A) (b r : Prog A) (ii : List Nat) (fli la lb lr : Nat) (vs : List V) (k : Nat) (fe : Bool)
    (li : Nat) (s : σ) (o : Out σ) (li' : Nat),
    (M → b.plain) → (M → r.plain) →
    (M → lb = fli) → (M → lr = fli + b.count) →
    (M → li = 0 ∨ li = if fe then fli + b.count else fli) →
    forLoop x tof f a (b.lines ++ .fin :: r.lines) ii fli vs k fe li s = some (o, li') →
    Ends M o li' (fli + b.count + r.count) ∧
    ∃ N, ∀ n, N ≤ n →
      seq (forRun tof (x.static.assign (a, la))
            (fun k => run x.static tof n (b.number lb) (k :: ii)) vs k s)
        (fun s' => run x.static tof n (r.number lr) ii s') = some o

variable {x} {M}

theorem ce_step (F : Facts x M) {f : Nat} (hE : CE x tof M f) (hB : CB x tof M f)
    (hW : CW x tof M f) (hF : CF x tof M f) : CE x tof M (f + 1) := by
  intro p ii li l s o li' hp hl h
  cases p with
  | nil =>
    simp only [Prog.lines, exec, Option.some.injEq, Prod.mk.injEq] at h
    obtain ⟨rfl, rfl⟩ := h
    exact ⟨fun _ _ => rfl, 0, fun n _ => rfl⟩
  | var a r =>
    simp only [Prog.lines, exec] at h
    rcases go_some h with ⟨b, s1, h1, h2⟩ | ⟨h1, h2⟩
    · obtain ⟨he, N, hN⟩ := hE r ii li l s1 o li' (fun m => hp m) hl h2
      refine ⟨he, N, fun n hn => ?_⟩
      simp only [Prog.number, run]
      show (x.set a s).thn tof _ = _
      rw [h1]
      exact hN n hn
    · exact ⟨ends_stop h1, 0, fun n _ => h2 _⟩
  | cmd a r =>
    simp only [Prog.lines, exec] at h
    rw [F.cmd hl] at h
    rcases go_some h with ⟨b, s1, h1, h2⟩ | ⟨h1, h2⟩
    · obtain ⟨he, N, hN⟩ := hE r ii (li + 1) (l + 1) s1 o li' (fun m => hp m)
        (fun m => by rw [hl m]) h2
      refine ⟨fun m hn => by rw [he m hn, Prog.count]; omega, N, fun n hn => ?_⟩
      simp only [Prog.number, run]
      show (x.cmd a ii l false s).thn tof _ = _
      rw [h1]
      exact hN n hn
    · exact ⟨ends_stop h1, 0, fun n _ => h2 _⟩
  | ifc k neg a t e r =>
    simp only [Prog.lines, exec] at h
    rw [F.decide hl] at h
    rcases go_some h with ⟨b, s1, h1, h2⟩ | ⟨h1, h2⟩
    · have hk : M → k.next li = li + 1 := fun m => by rw [(hp m).1]; rfl
      obtain ⟨he, N, hN⟩ := hB (b != neg) t e r ii (k.next li) (l + 1) (l + 1 + t.count)
        (l + 1 + t.count + e.count) s1 o li' (fun m => (hp m).2.1) (fun m => (hp m).2.2.1)
        (fun m => (hp m).2.2.2)
        (fun m => by rw [hk m, hl m]) (fun m => by rw [hk m, hl m]) (fun m => by rw [hk m, hl m]) h2
      refine ⟨fun m hn => by rw [he m hn, hk m, Prog.count]; omega, N, fun n hn => ?_⟩
      simp only [Prog.number, run]
      rw [h1]
      exact hN n hn
    · exact ⟨ends_stop h1, 0, fun n _ => h2 _⟩
  | whl a b r =>
    simp only [Prog.lines, exec] at h
    obtain ⟨he, N, hN⟩ := hW a b r ii li l (l + 1) (l + 1 + b.count) 1 s o li'
      (fun m => (hp m).1) (fun m => (hp m).2) hl (fun m => by rw [hl m]) (fun m => by rw [hl m]) h
    refine ⟨fun m hn => by rw [he m hn, Prog.count]; omega, N, fun n hn => ?_⟩
    exact hN n hn n hn
  | forS a b r =>
    simp only [Prog.lines, exec] at h
    rw [F.stream hl] at h
    rcases go_some h with ⟨vs, s1, h1, h2⟩ | ⟨h1, h2⟩
    · obtain ⟨he, N, hN⟩ := hF a b r ii (li + 1) l (l + 1) (l + 1 + b.count) vs 1 false (li + 1) s1
        o li' (fun m => (hp m).1) (fun m => (hp m).2) (fun m => by rw [hl m])
        (fun m => by rw [hl m]) (fun _ => Or.inr rfl) h2
      refine ⟨fun m hn => by rw [he m hn, Prog.count]; omega, N, fun n hn => ?_⟩
      simp only [Prog.number, run]
      show (x.stream a ii l s).thn tof _ = _
      rw [h1]
      exact hN n hn
    · exact ⟨ends_stop h1, 0, fun n _ => h2 _⟩
  | forA a b r =>
    simp only [Prog.lines, exec] at h
    rcases go_some h with ⟨vs, s1, h1, h2⟩ | ⟨h1, h2⟩
    · obtain ⟨he, N, hN⟩ := hF a b r ii li l l (l + b.count) vs 1 false li s1
        o li' (fun m => (hp m).1) (fun m => (hp m).2) hl
        (fun m => by rw [hl m]) (fun _ => Or.inr rfl) h2
      refine ⟨fun m hn => by rw [he m hn, Prog.count]; omega, N, fun n hn => ?_⟩
      simp only [Prog.number, run]
      show (x.args a s).thn tof _ = _
      rw [h1]
      exact hN n hn
    · exact ⟨ends_stop h1, 0, fun n _ => h2 _⟩
  | cont r =>
    simp only [Prog.lines, exec, Option.some.injEq, Prod.mk.injEq] at h
    obtain ⟨rfl, rfl⟩ := h
    exact ⟨ends_stop rfl, 0, fun n _ => rfl⟩
  | brk r =>
    simp only [Prog.lines, exec, Option.some.injEq, Prod.mk.injEq] at h
    obtain ⟨rfl, rfl⟩ := h
    exact ⟨ends_stop rfl, 0, fun n _ => rfl⟩

theorem cx_step (F : Facts x M) {f : Nat} (hB : CB x tof M f) : CX x tof M (f + 1) := by
  intro e r ii li l lr s o li' he hr hl hlr hx h
  cases e with
  | none => exact absurd rfl hx
  | els b =>
    simp only [Else.split, exec] at h
    have h' : branch x tof f true (b.lines ++ ((Else.none : Else A).lines ++ .fin :: r.lines)) ii li s
        = some (o, li') := h
    obtain ⟨h1, N, hN⟩ := hB true b .none r ii li l (l + b.count) lr s o li' (fun m => he m)
      (fun _ => trivial) hr hl (fun m => by rw [hl m])
      (fun m => by rw [hlr m]; simp [Else.count]) h'
    refine ⟨fun m hn => by rw [h1 m hn]; simp [Else.count], N, fun n hn => ?_⟩
    exact hN n hn
  | elifc k neg a t e =>
    have hM : ¬ M := fun m => he m
    simp only [Else.split, exec] at h
    rw [F.decide (l := l) (fun m => absurd m hM)] at h
    refine ⟨fun m => absurd m hM, ?_⟩
    rcases go_some h with ⟨b, s1, h1, h2⟩ | ⟨h1, h2⟩
    · obtain ⟨_, N, hN⟩ := hB (b != neg) t e r ii (k.next li) (l + 1) (l + 1 + t.count) lr s1 o li'
        (fun m => absurd m hM) (fun m => absurd m hM) hr (fun m => absurd m hM)
        (fun m => absurd m hM) (fun m => absurd m hM) h2
      refine ⟨N, fun n hn => ?_⟩
      simp only [Else.number, runElse]
      rw [h1]
      exact hN n hn
    · refine ⟨0, fun n _ => ?_⟩
      simp only [Else.number, runElse]
      rw [h2, seq_stop h1]

theorem cb_step {f : Nat} (hE : CE x tof M f) (hX : CX x tof M f) :
    CB x tof M (f + 1) := by
  intro take t e r ii li l le lr s o li' ht he hr hl hle hlr h
  cases take with
  | true =>
    simp only [branch] at h
    rw [fcend_block] at h
    simp only at h
    cases hx : exec x tof f t.lines ii li s with
    | none => rw [hx] at h; cases h
    | some ol =>
      obtain ⟨o1, l1⟩ := ol
      rw [hx] at h
      obtain ⟨h1, N1, hN1⟩ := hE t ii li l s o1 l1 ht hl hx
      by_cases hn : o1.norm = true
      · cases o1 with
        | normal s1 =>
          simp only at h
          -- The lines after the construct.
          have hh : ∃ l2, (M → l2 = li + t.count + e.count) ∧
              exec x tof f r.lines ii l2 s1 = some (o, li') := by
            cases e with
            | none =>
              simp only [Else.split, Line.isFin, if_true] at h
              exact ⟨l1, fun m => by rw [h1 m hn, Else.count]; omega, h⟩
            | els b =>
              simp only [Else.split, Line.isFin, Bool.false_eq_true, if_false] at h
              rw [fcend_loop] at h
              exact ⟨_, fun m => by rw [h1 m hn, Else.count]; rfl, h⟩
            | elifc k neg a t' e' =>
              simp only [Else.split, Line.isFin, Bool.false_eq_true, if_false] at h
              rw [fcend_end] at h
              exact ⟨_, fun m => absurd (he m) id, h⟩
          obtain ⟨l2, hl2, h⟩ := hh
          obtain ⟨h3, N2, hN2⟩ := hE r ii l2 lr s1 o li' hr
            (fun m => by rw [hlr m, hl2 m]) h
          refine ⟨fun m hn' => by rw [h3 m hn', hl2 m], max N1 N2, fun n hn' => ?_⟩
          rw [if_pos rfl, hN1 n (by omega)]
          exact hN2 n (by omega)
        | _ => cases hn
      · have hn : o1.norm = false := by simpa using hn
        have ho : some (o1, l1) = some (o, li') := by
          cases o1 <;> first | exact h | cases hn
        simp only [Option.some.injEq, Prod.mk.injEq] at ho
        obtain ⟨rfl, rfl⟩ := ho
        refine ⟨ends_stop hn, N1, fun n hn' => ?_⟩
        rw [if_pos rfl, hN1 n hn', seq_stop hn]
  | false =>
    simp only [branch] at h
    rw [fcend_block] at h
    simp only at h
    by_cases hx : (e.split r.lines).1.isFin = true
    · rw [if_pos hx] at h
      cases e with
      | none =>
        simp only [Else.split] at h
        obtain ⟨h3, N2, hN2⟩ := hE r ii _ lr s o li' hr
            (fun m => by rw [hlr m]; simp [sk, Else.count]) h
        refine ⟨fun m hn' => by rw [h3 m hn']; simp [sk, Else.count], N2, fun n hn' => ?_⟩
        exact hN2 n hn'
      | els b => cases hx
      | elifc k neg a t' e' => cases hx
    · rw [if_neg hx] at h
      obtain ⟨h3, N2, hN2⟩ := hX e r ii _ le lr s o li' he hr
        (fun m => by rw [hle m]; rfl) (fun m => by rw [hlr m]; rfl)
        (fun h' => hx (by rw [h']; rfl)) h
      refine ⟨fun m hn' => by rw [h3 m hn']; simp [sk], N2, fun n hn' => ?_⟩
      exact hN2 n hn'

theorem cw_step (F : Facts x M) {f : Nat} (hE : CE x tof M f) (hW : CW x tof M f) :
    CW x tof M (f + 1) := by
  intro a b r ii li l lb lr k s o li' hb hr hl hlb hlr h
  simp only [whileLoop] at h
  rw [F.cond hl] at h
  simp only [fcend_loop] at h
  rcases go_some h with ⟨c, s1, h1, h2⟩ | ⟨h1, h2⟩
  · -- The lines after the loop.
    have key : ∀ (s2 : σ), exec x tof f r.lines ii (li + 1 + sk true b.count) s2 = some (o, li') →
        Ends M o li' (li + 1 + b.count + r.count) ∧
        ∃ N, ∀ n, N ≤ n → run x.static tof n (r.number lr) ii s2 = some o := by
      intro s2 h
      obtain ⟨h3, N, hN⟩ := hE r ii _ lr s2 o li' hr (fun m => by rw [hlr m]; rfl) h
      exact ⟨fun m hn => by rw [h3 m hn]; rfl, N, hN⟩
    have hcall : x.static.cond (a, l) (k :: ii) s = .ok c s1 := h1
    cases c with
    | false =>
      obtain ⟨h3, N, hN⟩ := key s1 h2
      refine ⟨h3, N + 1, fun n hn m hm => ?_⟩
      obtain ⟨m, rfl⟩ : ∃ m', m = m' + 1 := ⟨m - 1, by omega⟩
      simp only [whileRun]
      rw [hcall]
      exact hN n (by omega)
    | true =>
      simp only [if_true] at h2
      cases hx : exec x tof f b.lines (k :: ii) (li + 1) s1 with
      | none => rw [hx] at h2; cases h2
      | some ol =>
        obtain ⟨o1, l1⟩ := ol
        rw [hx] at h2
        obtain ⟨_, N1, hN1⟩ := hE b (k :: ii) (li + 1) lb s1 o1 l1 hb hlb hx
        have next : ∀ s2, (o1 = .normal s2 ∨ o1 = .cont s2) →
            whileLoop x tof f a (b.lines ++ .fin :: r.lines) ii li (k + 1) s2 = some (o, li') →
            Ends M o li' (li + 1 + b.count + r.count) ∧
            ∃ N, ∀ n, N ≤ n → ∀ m, N ≤ m →
              seq (whileRun tof (fun k => x.static.cond (a, l) (k :: ii))
                    (fun k => run x.static tof n (b.number lb) (k :: ii)) m k s)
                (fun s' => run x.static tof n (r.number lr) ii s') = some o := by
          intro s2 ho h
          obtain ⟨h3, N2, hN2⟩ := hW a b r ii li l lb lr (k + 1) s2 o li' hb hr hl hlb hlr h
          refine ⟨h3, max N1 N2 + 1, fun n hn m hm => ?_⟩
          obtain ⟨m, rfl⟩ : ∃ m', m = m' + 1 := ⟨m - 1, by omega⟩
          simp only [whileRun]
          rw [hcall]
          simp only [Res.thn, if_true]
          rw [hN1 n (by omega)]
          rcases ho with rfl | rfl
          · exact hN2 n (by omega) m (by omega)
          · exact hN2 n (by omega) m (by omega)
        have stop : ∀ (ho : some (o1, l1) = some (o, li')) (hn : o1.norm = false)
            (hi : ∀ k : σ → Option (Out σ), iter (some o1) k = some o1),
            Ends M o li' (li + 1 + b.count + r.count) ∧
            ∃ N, ∀ n, N ≤ n → ∀ m, N ≤ m →
              seq (whileRun tof (fun k => x.static.cond (a, l) (k :: ii))
                    (fun k => run x.static tof n (b.number lb) (k :: ii)) m k s)
                (fun s' => run x.static tof n (r.number lr) ii s') = some o := by
          intro ho hn hi
          simp only [Option.some.injEq, Prod.mk.injEq] at ho
          obtain ⟨rfl, rfl⟩ := ho
          refine ⟨ends_stop hn, N1 + 1, fun n hn' m hm => ?_⟩
          obtain ⟨m, rfl⟩ : ∃ m', m = m' + 1 := ⟨m - 1, by omega⟩
          simp only [whileRun]
          rw [hcall]
          simp only [Res.thn, if_true]
          rw [hN1 n (by omega), hi, seq_stop hn]
        cases o1 with
        | normal s2 => exact next s2 (Or.inl rfl) h2
        | cont s2 => exact next s2 (Or.inr rfl) h2
        | brk s2 =>
          obtain ⟨h3, N2, hN2⟩ := key s2 h2
          refine ⟨h3, max N1 N2 + 1, fun n hn m hm => ?_⟩
          obtain ⟨m, rfl⟩ : ∃ m', m = m' + 1 := ⟨m - 1, by omega⟩
          simp only [whileRun]
          rw [hcall]
          simp only [Res.thn, if_true]
          rw [hN1 n (by omega)]
          exact hN2 n (by omega)
        | exited c s2 => exact stop h2 rfl fun _ => rfl
        | failed s2 => exact stop h2 rfl fun _ => rfl
        | bad => exact stop h2 rfl fun _ => rfl
  · refine ⟨ends_stop h1, 1, fun n _ m hm => ?_⟩
    obtain ⟨m, rfl⟩ : ∃ m', m = m' + 1 := ⟨m - 1, by omega⟩
    simp only [whileRun]
    show seq ((x.cond a (k :: ii) l s).thn tof _) _ = _
    rw [h2, seq_stop h1]

theorem cf_step {f : Nat} (hE : CE x tof M f) (hF : CF x tof M f) :
    CF x tof M (f + 1) := by
  intro a b r ii fli la lb lr vs k fe li s o li' hb hr hlb hlr hli h
  cases vs with
  | nil =>
    simp only [forLoop, fcend_loop] at h
    have hh : ∃ l2, (M → l2 = fli + b.count) ∧ exec x tof f r.lines ii l2 s = some (o, li') := by
      by_cases h0 : li = 0
      · rw [if_pos (Or.inl h0)] at h
        exact ⟨_, fun _ => by rw [if_pos h0]; rfl, h⟩
      · cases fe with
        | false =>
          rw [if_pos (Or.inr rfl)] at h
          refine ⟨_, fun m => ?_, h⟩
          rw [if_neg h0]
          rcases hli m with h1 | h1
          · exact absurd h1 h0
          · rw [h1]; rfl
        | true =>
          rw [if_neg (by simp [h0])] at h
          refine ⟨_, fun m => ?_, h⟩
          rcases hli m with h1 | h1
          · exact absurd h1 h0
          · rw [h1]; rfl
    obtain ⟨l2, hl2, h⟩ := hh
    obtain ⟨h3, N, hN⟩ := hE r ii l2 lr s o li' hr (fun m => by rw [hlr m, hl2 m]) h
    exact ⟨fun m hn => by rw [h3 m hn, hl2 m], N, fun n hn => hN n hn⟩
  | cons v vs =>
    simp only [forLoop, fcend_loop] at h
    rcases go_some h with ⟨c, s1, h1, h2⟩ | ⟨h1, h2⟩
    · have hcall : x.static.assign (a, la) v s = .ok c s1 := h1
      cases hx : exec x tof f b.lines (k :: ii) fli s1 with
      | none => rw [hx] at h2; cases h2
      | some ol =>
        obtain ⟨o1, l1⟩ := ol
        rw [hx] at h2
        obtain ⟨hl1, N1, hN1⟩ := hE b (k :: ii) fli lb s1 o1 l1 hb hlb hx
        have next : ∀ s2 l2, (o1 = .normal s2 ∨ o1 = .cont s2) → (M → l2 = 0 ∨ l2 = fli + b.count) →
            forLoop x tof f a (b.lines ++ .fin :: r.lines) ii fli vs (k + 1) true l2 s2 =
              some (o, li') →
            Ends M o li' (fli + b.count + r.count) ∧
            ∃ N, ∀ n, N ≤ n →
              seq (forRun tof (x.static.assign (a, la))
                    (fun k => run x.static tof n (b.number lb) (k :: ii)) (v :: vs) k s)
                (fun s' => run x.static tof n (r.number lr) ii s') = some o := by
          intro s2 l2 ho hl2 h
          obtain ⟨h3, N2, hN2⟩ := hF a b r ii fli la lb lr vs (k + 1) true l2 s2 o li' hb hr hlb hlr
            (fun m => by simpa using hl2 m) h
          refine ⟨h3, max N1 N2, fun n hn => ?_⟩
          simp only [forRun]
          rw [hcall]
          simp only [Res.thn]
          rw [hN1 n (by omega)]
          rcases ho with rfl | rfl
          · exact hN2 n (by omega)
          · exact hN2 n (by omega)
        have stop : ∀ (ho : some (o1, l1) = some (o, li')) (hn : o1.norm = false)
            (hi : ∀ k : σ → Option (Out σ), iter (some o1) k = some o1),
            Ends M o li' (fli + b.count + r.count) ∧
            ∃ N, ∀ n, N ≤ n →
              seq (forRun tof (x.static.assign (a, la))
                    (fun k => run x.static tof n (b.number lb) (k :: ii)) (v :: vs) k s)
                (fun s' => run x.static tof n (r.number lr) ii s') = some o := by
          intro ho hn hi
          simp only [Option.some.injEq, Prod.mk.injEq] at ho
          obtain ⟨rfl, rfl⟩ := ho
          refine ⟨ends_stop hn, N1, fun n hn' => ?_⟩
          simp only [forRun]
          rw [hcall]
          simp only [Res.thn]
          rw [hN1 n (by omega), hi, seq_stop hn]
        cases o1 with
        | normal s2 => exact next s2 l1 (Or.inl rfl) (fun m => Or.inr (hl1 m rfl)) h2
        | cont s2 => exact next s2 0 (Or.inr rfl) (fun m => Or.inl rfl) h2
        | brk s2 =>
          obtain ⟨h3, N2, hN2⟩ := hF a b r ii fli la lb lr [] (k + 1) true 0 s2 o li' hb hr hlb hlr
            (fun m => Or.inl rfl) h2
          refine ⟨h3, max N1 N2, fun n hn => ?_⟩
          simp only [forRun]
          rw [hcall]
          simp only [Res.thn]
          rw [hN1 n (by omega)]
          exact hN2 n (by omega)
        | exited c s2 => exact stop h2 rfl fun _ => rfl
        | failed s2 => exact stop h2 rfl fun _ => rfl
        | bad => exact stop h2 rfl fun _ => rfl
    · refine ⟨ends_stop h1, 0, fun n _ => ?_⟩
      simp only [forRun]
      show seq ((x.assign a v s).thn tof _) _ = _
      rw [h2, seq_stop h1]

theorem complete (F : Facts x M) (f : Nat) :
    CE x tof M f ∧ CX x tof M f ∧ CB x tof M f ∧ CW x tof M f ∧ CF x tof M f := by
  induction f with
  | zero =>
    refine ⟨?_, ?_, ?_, ?_, ?_⟩
    · intro p ii li l s o li' _ _ h
      simp [exec] at h
    · intro e r ii li l lr s o li' _ _ _ _ _ h
      simp [exec] at h
    · intro take t e r ii li l le lr s o li' _ _ _ _ _ _ h
      simp [branch] at h
    · intro a b r ii li l lb lr k s o li' _ _ _ _ _ h
      simp [whileLoop] at h
    · intro a b r ii fli la lb lr vs k fe li s o li' _ _ _ _ _ h
      simp [forLoop] at h
  | succ f ih =>
    obtain ⟨hE, hX, hB, hW, hF⟩ := ih
    exact ⟨ce_step tof F hE hB hW hF, cx_step tof F hB, cb_step tof hE hX, cw_step tof F hE hW,
      cf_step tof hE hF⟩

end complete

theorem seq_some {o1 : Option (Out σ)} {k : σ → Option (Out σ)} {o : Out σ}
    (h : seq o1 k = some o) :
    (∃ s, o1 = some (.normal s) ∧ k s = some o) ∨ (o1 = some o ∧ o.norm = false) := by
  cases o1 with
  | none => cases h
  | some o1 =>
    cases o1 with
    | normal s => exact Or.inl ⟨s, rfl, h⟩
    | _ => exact Or.inr ⟨h, by cases h; rfl⟩

theorem thn_some {tof : Bool} {r : Res σ β} {k : β → σ → Option (Out σ)} {o : Out σ}
    (h : r.thn tof k = some o) :
    (∃ b s, r = .ok b s ∧ k b s = some o) ∨
    (o.norm = false ∧ ∀ li k', r.go tof li k' = some (o, li)) := by
  cases r with
  | ok b s => exact Or.inl ⟨b, s, rfl, h⟩
  | exit c s =>
    refine Or.inr ?_
    simp only [Res.thn, Option.some.injEq] at h
    subst h
    refine ⟨?_, fun li k' => rfl⟩
    split <;> rfl
  | fail s =>
    refine Or.inr ?_
    simp only [Res.thn, Option.some.injEq] at h
    subst h
    exact ⟨rfl, fun li k' => rfl⟩

section sound

variable (x : Exec A V σ) (tof : Bool) (M : Prop) (n : Nat)

/-- Eventually: with enough fuel, the result is this and the line index is the expected one. -/
def Ev (g : Nat → Option (Out σ × Nat)) (o : Out σ) (l : Nat) : Prop :=
  ∃ li', Ends M o li' l ∧ ∃ N, ∀ f, N ≤ f → g f = some (o, li')

/-- The statement for a script. -/
def SE (p : Prog A) : Prop :=
  ∀ (ii : List Nat) (li l : Nat) (s : σ) (o : Out σ),
    (M → p.plain) → (M → l = li) → run x.static tof n (p.number l) ii s = some o →
    Ev M (fun f => exec x tof f p.lines ii li s) o (li + p.count)

/-- The statement for an `elif`/`else` part. -/
def SX (e : Else A) : Prop :=
  ∀ (r : Prog A), SE x tof M n r → ∀ (ii : List Nat) (li l lr : Nat) (s : σ) (o : Out σ),
    (M → e.plain) → (M → r.plain) → (M → l = li) → (M → lr = li + e.count) →
    (e.split r.lines).1 ≠ .fin →
    seq (runElse x.static tof n (e.number l) ii s)
        (fun s' => run x.static tof n (r.number lr) ii s') = some o →
    Ev M (fun f => exec x tof f ((e.split r.lines).1 :: (e.split r.lines).2) ii li s) o
      (li + e.count + r.count)

variable {x} {M} {n}

/-- One more step with the fuel. -/
theorem Ev.succ {g g' : Nat → Option (Out σ × Nat)} {o : Out σ} {l l' : Nat}
    (h : Ev M g o l) (hl : M → l = l') (hg : ∀ f, g' (f + 1) = g f) : Ev M g' o l' := by
  obtain ⟨li', he, N, hN⟩ := h
  refine ⟨li', fun m hn => by rw [he m hn, hl m], N + 1, fun f hf => ?_⟩
  obtain ⟨f, rfl⟩ : ∃ f', f = f' + 1 := ⟨f - 1, by omega⟩
  rw [hg]
  exact hN f (by omega)

theorem Ev.stop {g : Nat → Option (Out σ × Nat)} {o : Out σ} {l : Nat} (li' : Nat)
    (ho : o.norm = false) (hg : ∀ f, g (f + 1) = some (o, li')) : Ev M g o l := by
  refine ⟨li', ends_stop ho, 1, fun f hf => ?_⟩
  obtain ⟨f, rfl⟩ : ∃ f', f = f' + 1 := ⟨f - 1, by omega⟩
  exact hg f

/-- A block and then the rest. -/
theorem Ev.then {g1 g2 g' : Nat → Option (Out σ × Nat)} {o1 o : Out σ} {li1 l2 l' : Nat}
    (h1 : ∃ N, ∀ f, N ≤ f → g1 f = some (o1, li1)) (h2 : Ev M g2 o l2) (hl : M → l2 = l')
    (hg : ∀ f, g1 f = some (o1, li1) → g' (f + 1) = g2 f) : Ev M g' o l' := by
  obtain ⟨N1, hN1⟩ := h1
  obtain ⟨li2, he, N2, hN2⟩ := h2
  refine ⟨li2, fun m hn => by rw [he m hn, hl m], max N1 N2 + 1, fun f hf => ?_⟩
  obtain ⟨f, rfl⟩ : ∃ f', f = f' + 1 := ⟨f - 1, by omega⟩
  rw [hg f (hN1 f (by omega))]
  exact hN2 f (by omega)

/-- A block that ends everything. -/
theorem Ev.end {g1 g' : Nat → Option (Out σ × Nat)} {o : Out σ} {l l' : Nat}
    (h1 : Ev M g1 o l) (ho : o.norm = false)
    (hg : ∀ f li1, g1 f = some (o, li1) → g' (f + 1) = some (o, li1)) : Ev M g' o l' := by
  obtain ⟨li1, _, N1, hN1⟩ := h1
  refine ⟨li1, ends_stop ho, N1 + 1, fun f hf => ?_⟩
  obtain ⟨f, rfl⟩ : ∃ f', f = f' + 1 := ⟨f - 1, by omega⟩
  exact hg f li1 (hN1 f (by omega))

theorem sb (t : Prog A) (e : Else A) (r : Prog A) (hT : SE x tof M n t) (hX : SX x tof M n e)
    (hR : SE x tof M n r) (take : Bool) (ii : List Nat) (li l le lr : Nat) (s : σ) (o : Out σ)
    (ht : M → t.plain) (he : M → e.plain) (hr : M → r.plain)
    (hl : M → l = li) (hle : M → le = li + t.count) (hlr : M → lr = li + t.count + e.count)
    (h : seq (if take then run x.static tof n (t.number l) ii s
              else runElse x.static tof n (e.number le) ii s)
          (fun s' => run x.static tof n (r.number lr) ii s') = some o) :
    Ev M (fun f => branch x tof f take (t.lines ++ (e.lines ++ .fin :: r.lines)) ii li s) o
      (li + t.count + e.count + r.count) := by
  cases take with
  | true =>
    rw [if_pos rfl] at h
    rcases seq_some h with ⟨s1, h1, h2⟩ | ⟨h1, h2⟩
    · obtain ⟨l1, hl1, N1, hN1⟩ := hT ii li l s _ ht hl h1
      have hl1' : M → l1 = li + t.count := fun m => hl1 m rfl
      -- The line index after the construct.
      obtain ⟨l2, hl2, hg⟩ : ∃ l2, (M → l2 = li + t.count + e.count) ∧ ∀ f,
          exec x tof f t.lines ii li s = some (.normal s1, l1) →
          branch x tof (f + 1) true (t.lines ++ (e.lines ++ .fin :: r.lines)) ii li s =
            exec x tof f r.lines ii l2 s1 := by
        cases e with
        | none =>
          refine ⟨l1, fun m => by rw [hl1' m]; rfl, fun f hf => ?_⟩
          simp only [branch]
          rw [fcend_block]
          simp only
          rw [hf]
          rfl
        | els b =>
          refine ⟨l1 + b.count, fun m => by rw [hl1' m]; rfl, fun f hf => ?_⟩
          simp only [branch]
          rw [fcend_block]
          simp only
          rw [hf]
          simp only [Else.split, Line.isFin, Bool.false_eq_true, if_false]
          rw [fcend_loop]
          rfl
        | elifc k neg a t' e' =>
          refine ⟨l1 + (t'.count + e'.count), fun m => absurd (he m) id, fun f hf => ?_⟩
          simp only [branch]
          rw [fcend_block]
          simp only
          rw [hf]
          simp only [Else.split, Line.isFin, Bool.false_eq_true, if_false]
          rw [fcend_end]
          rfl
      exact Ev.then (g1 := fun f => exec x tof f t.lines ii li s) ⟨N1, hN1⟩
        (hR ii l2 lr s1 o hr (fun m => by rw [hlr m, hl2 m]) h2) (fun m => by rw [hl2 m]) hg
    · refine Ev.end (hT ii li l s o ht hl h1) h2 (fun f li1 hf => ?_)
      simp only [branch]
      rw [fcend_block]
      simp only
      rw [hf]
      cases o <;> first | rfl | cases h2
  | false =>
    rw [if_neg (by simp)] at h
    by_cases hx : (e.split r.lines).1.isFin = true
    · cases e with
      | none =>
        refine Ev.succ (hR ii (li + t.count) lr s o hr (fun m => by rw [hlr m]; rfl) h)
          (fun m => by simp [Else.count]) (fun f => ?_)
        simp only [branch]
        rw [fcend_block]
        rfl
      | els b => cases hx
      | elifc k neg a t' e' => cases hx
    · refine Ev.succ (hX r hR ii (li + t.count) le lr s o he hr hle hlr
          (fun h' => hx (by rw [h']; rfl)) h) (fun m => rfl) (fun f => ?_)
      simp only [branch]
      rw [fcend_block]
      simp only
      rw [if_neg hx]
      rfl

theorem iter_some {o1 : Option (Out σ)} {k : σ → Option (Out σ)} {o : Out σ}
    (h : iter o1 k = some o) :
    (∃ s, (o1 = some (.normal s) ∨ o1 = some (.cont s)) ∧ k s = some o) ∨
    (∃ s, o1 = some (.brk s) ∧ o = .normal s) ∨
    (o1 = some o ∧ ((∃ c s, o = .exited c s) ∨ (∃ s, o = .failed s) ∨ o = .bad)) := by
  cases o1 with
  | none => cases h
  | some o1 =>
    cases o1 with
    | normal s => exact Or.inl ⟨s, Or.inl rfl, h⟩
    | cont s => exact Or.inl ⟨s, Or.inr rfl, h⟩
    | brk s => exact Or.inr (Or.inl ⟨s, rfl, by cases h; rfl⟩)
    | exited c s => cases h; exact Or.inr (Or.inr ⟨rfl, Or.inl ⟨c, s, rfl⟩⟩)
    | failed s => cases h; exact Or.inr (Or.inr ⟨rfl, Or.inr (Or.inl ⟨s, rfl⟩)⟩)
    | bad => cases h; exact Or.inr (Or.inr ⟨rfl, Or.inr (Or.inr rfl)⟩)

/-- How a loop ends and the rest. -/
theorem seq_iter {o1 : Option (Out σ)} {k k' : σ → Option (Out σ)} {o : Out σ}
    (h : seq (iter o1 k) k' = some o) :
    (∃ s, (o1 = some (.normal s) ∨ o1 = some (.cont s)) ∧ seq (k s) k' = some o) ∨
    (∃ s, o1 = some (.brk s) ∧ k' s = some o) ∨
    (o1 = some o ∧ ((∃ c s, o = .exited c s) ∨ (∃ s, o = .failed s) ∨ o = .bad)) := by
  cases o1 with
  | none => cases h
  | some o1 =>
    cases o1 with
    | normal s => exact Or.inl ⟨s, Or.inl rfl, h⟩
    | cont s => exact Or.inl ⟨s, Or.inr rfl, h⟩
    | brk s => exact Or.inr (Or.inl ⟨s, rfl, h⟩)
    | exited c s => cases h; exact Or.inr (Or.inr ⟨rfl, Or.inl ⟨c, s, rfl⟩⟩)
    | failed s => cases h; exact Or.inr (Or.inr ⟨rfl, Or.inr (Or.inl ⟨s, rfl⟩)⟩)
    | bad => cases h; exact Or.inr (Or.inr ⟨rfl, Or.inr (Or.inr rfl)⟩)

theorem sw (F : Facts x M) (a : A) (b r : Prog A) (hB : SE x tof M n b) (hR : SE x tof M n r)
    (ii : List Nat) (li l lb lr : Nat)
    (hb : M → b.plain) (hr : M → r.plain)
    (hl : M → l = li) (hlb : M → lb = li + 1) (hlr : M → lr = li + 1 + b.count) :
    ∀ (m k : Nat) (s : σ) (o : Out σ),
    seq (whileRun tof (fun k => x.static.cond (a, l) (k :: ii))
            (fun k => run x.static tof n (b.number lb) (k :: ii)) m k s)
        (fun s' => run x.static tof n (r.number lr) ii s') = some o →
    Ev M (fun f => whileLoop x tof f a (b.lines ++ .fin :: r.lines) ii li k s) o
      (li + 1 + b.count + r.count) := by
  intro m
  induction m with
  | zero => intro k s o h; cases h
  | succ m ih =>
    intro k s o h
    simp only [whileRun] at h
    have hcall : x.static.cond (a, l) (k :: ii) s = x.cond a (k :: ii) li s := (F.cond hl ..).symm
    rw [hcall] at h
    cases hc : x.cond a (k :: ii) li s with
    | exit c s1 =>
      rw [hc] at h
      refine Ev.stop li ?_ (fun f => ?_)
      · simp only [Res.thn] at h
        split at h <;> (cases h; rfl)
      · simp only [whileLoop]
        rw [hc]
        simp only [Res.thn, Res.go] at h ⊢
        by_cases hh : c ≠ 0 ∧ tof = true
        · rw [if_pos hh] at h ⊢; cases h; rfl
        · rw [if_neg hh] at h ⊢; cases h; rfl
    | fail s1 =>
      rw [hc] at h
      cases h
      refine Ev.stop li rfl (fun f => ?_)
      simp only [whileLoop]
      rw [hc]
      rfl
    | ok c s1 =>
      rw [hc] at h
      -- The lines after the loop.
      have key : ∀ s2, run x.static tof n (r.number lr) ii s2 = some o →
          Ev M (fun f => exec x tof f r.lines ii (li + 1 + b.count) s2) o
            (li + 1 + b.count + r.count) :=
        fun s2 h => hR ii _ lr s2 o hr hlr h
      cases c with
      | false =>
        refine Ev.succ (key s1 h) (fun _ => rfl) (fun f => ?_)
        simp only [whileLoop, fcend_loop]
        rw [hc]
        rfl
      | true =>
        simp only [Res.thn, if_true] at h
        rcases seq_iter h with ⟨s2, h1, h2⟩ | ⟨s2, h1, h2⟩ | ⟨h1, h2⟩
        · rcases h1 with h1 | h1
          · obtain ⟨l1, _, hN⟩ := hB (k :: ii) (li + 1) lb s1 _ hb hlb h1
            refine Ev.then hN (ih (k + 1) s2 o h2) (fun _ => rfl) (fun f hf => ?_)
            simp only [whileLoop, fcend_loop]
            rw [hc]
            simp only [Res.go, if_true]
            rw [hf]
          · obtain ⟨l1, _, hN⟩ := hB (k :: ii) (li + 1) lb s1 _ hb hlb h1
            refine Ev.then hN (ih (k + 1) s2 o h2) (fun _ => rfl) (fun f hf => ?_)
            simp only [whileLoop, fcend_loop]
            rw [hc]
            simp only [Res.go, if_true]
            rw [hf]
        · obtain ⟨l1, _, hN⟩ := hB (k :: ii) (li + 1) lb s1 _ hb hlb h1
          refine Ev.then hN (key s2 h2) (fun _ => rfl) (fun f hf => ?_)
          simp only [whileLoop, fcend_loop]
          rw [hc]
          simp only [Res.go, if_true]
          rw [hf]
          rfl
        · refine Ev.end (hB (k :: ii) (li + 1) lb s1 _ hb hlb h1) ?_ (fun f l1 hf => ?_)
          · rcases h2 with ⟨c, s2, rfl⟩ | ⟨s2, rfl⟩ | rfl <;> rfl
          · simp only [whileLoop, fcend_loop]
            rw [hc]
            simp only [Res.go, if_true]
            rw [hf]
            rcases h2 with ⟨c, s2, rfl⟩ | ⟨s2, rfl⟩ | rfl <;> rfl

theorem sf (a : A) (b r : Prog A) (hB : SE x tof M n b) (hR : SE x tof M n r)
    (ii : List Nat) (fli la lb lr : Nat)
    (hb : M → b.plain) (hr : M → r.plain)
    (hlb : M → lb = fli) (hlr : M → lr = fli + b.count) :
    ∀ (vs : List V) (k : Nat) (fe : Bool) (li : Nat) (s : σ) (o : Out σ),
    (M → li = 0 ∨ li = if fe then fli + b.count else fli) →
    seq (forRun tof (x.static.assign (a, la))
            (fun k => run x.static tof n (b.number lb) (k :: ii)) vs k s)
        (fun s' => run x.static tof n (r.number lr) ii s') = some o →
    Ev M (fun f => forLoop x tof f a (b.lines ++ .fin :: r.lines) ii fli vs k fe li s) o
      (fli + b.count + r.count) := by
  have base : ∀ (k : Nat) (fe : Bool) (li : Nat) (s : σ) (o : Out σ),
      (M → li = 0 ∨ li = if fe then fli + b.count else fli) →
      run x.static tof n (r.number lr) ii s = some o →
      Ev M (fun f => forLoop x tof f a (b.lines ++ .fin :: r.lines) ii fli ([] : List V) k fe li s) o
        (fli + b.count + r.count) := by
    intro k fe li s o hli h
    by_cases h0 : li = 0
    · refine Ev.succ (hR ii (fli + b.count) lr s o hr hlr h) (fun _ => rfl) (fun f => ?_)
      simp only [forLoop, fcend_loop]
      rw [if_pos (Or.inl h0), if_pos h0]
      rfl
    · cases fe with
      | false =>
        have hl : M → li = fli := fun m => by
          rcases hli m with h1 | h1
          · exact absurd h1 h0
          · exact h1
        refine Ev.succ (hR ii (li + b.count) lr s o hr (fun m => by rw [hlr m, hl m]) h)
          (fun m => by rw [hl m]) (fun f => ?_)
        simp only [forLoop, fcend_loop]
        rw [if_pos (Or.inr trivial), if_neg h0]
        rfl
      | true =>
        have hl : M → li = fli + b.count := fun m => by
          rcases hli m with h1 | h1
          · exact absurd h1 h0
          · exact h1
        refine Ev.succ (hR ii li lr s o hr (fun m => by rw [hlr m, hl m]) h)
          (fun m => by rw [hl m]) (fun f => ?_)
        simp only [forLoop, fcend_loop]
        rw [if_neg (by simp [h0])]
  intro vs
  induction vs with
  | nil => intro k fe li s o hli h; exact base k fe li s o hli h
  | cons v vs ih =>
    intro k fe li s o hli h
    simp only [forRun] at h
    have hcall : x.static.assign (a, la) v s = x.assign a v s := rfl
    rw [hcall] at h
    cases hc : x.assign a v s with
    | exit c s1 =>
      rw [hc] at h
      refine Ev.stop li ?_ (fun f => ?_)
      · simp only [Res.thn] at h
        split at h <;> (cases h; rfl)
      · simp only [forLoop]
        rw [hc]
        simp only [Res.thn, Res.go] at h ⊢
        by_cases hh : c ≠ 0 ∧ tof = true
        · rw [if_pos hh] at h ⊢; cases h; rfl
        · rw [if_neg hh] at h ⊢; cases h; rfl
    | fail s1 =>
      rw [hc] at h
      cases h
      refine Ev.stop li rfl (fun f => ?_)
      simp only [forLoop]
      rw [hc]
      rfl
    | ok c s1 =>
      rw [hc] at h
      simp only [Res.thn] at h
      rcases seq_iter h with ⟨s2, h1, h2⟩ | ⟨s2, h1, h2⟩ | ⟨h1, h2⟩
      · rcases h1 with h1 | h1
        · obtain ⟨l1, hl1, hN⟩ := hB (k :: ii) fli lb s1 _ hb hlb h1
          refine Ev.then hN (ih (k + 1) true l1 s2 o (fun m => Or.inr (hl1 m rfl)) h2) (fun _ => rfl)
            (fun f hf => ?_)
          simp only [forLoop, fcend_loop]
          rw [hc]
          simp only [Res.go]
          rw [hf]
        · obtain ⟨l1, hl1, hN⟩ := hB (k :: ii) fli lb s1 _ hb hlb h1
          refine Ev.then hN (ih (k + 1) true 0 s2 o (fun m => Or.inl rfl) h2) (fun _ => rfl)
            (fun f hf => ?_)
          simp only [forLoop, fcend_loop]
          rw [hc]
          simp only [Res.go]
          rw [hf]
      · obtain ⟨l1, hl1, hN⟩ := hB (k :: ii) fli lb s1 _ hb hlb h1
        refine Ev.then hN (base (k + 1) true 0 s2 o (fun m => Or.inl rfl) h2) (fun _ => rfl)
          (fun f hf => ?_)
        simp only [forLoop, fcend_loop]
        rw [hc]
        simp only [Res.go]
        rw [hf]
      · refine Ev.end (hB (k :: ii) fli lb s1 _ hb hlb h1) ?_ (fun f l1 hf => ?_)
        · rcases h2 with ⟨c, s2, rfl⟩ | ⟨s2, rfl⟩ | rfl <;> rfl
        · simp only [forLoop, fcend_loop]
          rw [hc]
          simp only [Res.go]
          rw [hf]
          rcases h2 with ⟨c, s2, rfl⟩ | ⟨s2, rfl⟩ | rfl <;> rfl

theorem sx_none : SX x tof M n (Else.none : Else A) :=
  fun _ _ _ _ _ _ _ _ _ _ _ _ hx => absurd rfl hx

mutual

theorem sound (F : Facts x M) : ∀ (p : Prog A), SE x tof M n p
  | .nil => by
    intro ii li l s o hp hl h
    cases h
    refine ⟨li, fun _ _ => rfl, 1, fun f hf => ?_⟩
    obtain ⟨f, rfl⟩ : ∃ f', f = f' + 1 := ⟨f - 1, by omega⟩
    simp only [Prog.lines, exec]
  | .var a r => by
    intro ii li l s o hp hl h
    simp only [Prog.number, run] at h
    change (x.set a s).thn tof _ = _ at h
    rcases thn_some h with ⟨b, s1, h1, h2⟩ | ⟨h1, h2⟩
    · refine Ev.succ (sound F r ii li l s1 o hp hl h2) (fun _ => rfl) (fun f => ?_)
      simp only [Prog.lines, exec]
      rw [h1]
      rfl
    · refine Ev.stop li h1 (fun f => ?_)
      simp only [Prog.lines, exec]
      exact h2 _ _
  | .cmd a r => by
    intro ii li l s o hp hl h
    simp only [Prog.number, run] at h
    change (x.cmd a ii l false s).thn tof _ = _ at h
    rcases thn_some h with ⟨b, s1, h1, h2⟩ | ⟨h1, h2⟩
    · refine Ev.succ (sound F r ii (li + 1) (l + 1) s1 o hp (fun m => by rw [hl m]) h2)
        (fun _ => by rw [Prog.count]; omega) (fun f => ?_)
      simp only [Prog.lines, exec]
      rw [F.cmd hl, h1]
      rfl
    · refine Ev.stop li h1 (fun f => ?_)
      simp only [Prog.lines, exec]
      rw [F.cmd hl]
      exact h2 _ _
  | .ifc k neg a t e r => by
    intro ii li l s o hp hl h
    simp only [Prog.number, run] at h
    rw [← F.decide hl] at h
    rcases thn_some h with ⟨b, s1, h1, h2⟩ | ⟨h1, h2⟩
    · have hk : M → k.next li = li + 1 := fun m => by rw [(hp m).1]; rfl
      refine Ev.succ (sb tof t e r (sound F t) (soundElse F e) (sound F r) (b != neg) ii (k.next li)
        (l + 1) (l + 1 + t.count) (l + 1 + t.count + e.count) s1 o (fun m => (hp m).2.1)
        (fun m => (hp m).2.2.1) (fun m => (hp m).2.2.2) (fun m => by rw [hk m, hl m])
        (fun m => by rw [hk m, hl m]) (fun m => by rw [hk m, hl m]) h2)
        (fun m => by rw [hk m, Prog.count]; omega) (fun f => ?_)
      simp only [Prog.lines, exec]
      rw [h1]
      rfl
    · refine Ev.stop li h1 (fun f => ?_)
      simp only [Prog.lines, exec]
      exact h2 _ _
  | .whl a b r => by
    intro ii li l s o hp hl h
    simp only [Prog.number, run] at h
    refine Ev.succ (sw tof F a b r (sound F b) (sound F r) ii li l (l + 1) (l + 1 + b.count)
      (fun m => (hp m).1) (fun m => (hp m).2) hl (fun m => by rw [hl m]) (fun m => by rw [hl m])
      n 1 s o h) (fun m => by rw [Prog.count]; omega) (fun f => ?_)
    simp only [Prog.lines, exec]
  | .forS a b r => by
    intro ii li l s o hp hl h
    simp only [Prog.number, run] at h
    change (x.stream a ii l s).thn tof _ = _ at h
    rw [← F.stream hl] at h
    rcases thn_some h with ⟨vs, s1, h1, h2⟩ | ⟨h1, h2⟩
    · refine Ev.succ (sf tof a b r (sound F b) (sound F r) ii (li + 1) l (l + 1) (l + 1 + b.count)
        (fun m => (hp m).1) (fun m => (hp m).2) (fun m => by rw [hl m]) (fun m => by rw [hl m])
        vs 1 false (li + 1) s1 o (fun _ => Or.inr rfl) h2)
        (fun m => by rw [Prog.count]; omega) (fun f => ?_)
      simp only [Prog.lines, exec]
      rw [h1]
      rfl
    · refine Ev.stop li h1 (fun f => ?_)
      simp only [Prog.lines, exec]
      exact h2 _ _
  | .forA a b r => by
    intro ii li l s o hp hl h
    simp only [Prog.number, run] at h
    change (x.args a s).thn tof _ = _ at h
    rcases thn_some h with ⟨vs, s1, h1, h2⟩ | ⟨h1, h2⟩
    · refine Ev.succ (sf tof a b r (sound F b) (sound F r) ii li l l (l + b.count)
        (fun m => (hp m).1) (fun m => (hp m).2) hl (fun m => by rw [hl m])
        vs 1 false li s1 o (fun _ => Or.inr rfl) h2)
        (fun m => by rw [Prog.count]; omega) (fun f => ?_)
      simp only [Prog.lines, exec]
      rw [h1]
      rfl
    · refine Ev.stop li h1 (fun f => ?_)
      simp only [Prog.lines, exec]
      exact h2 _ _
  | .cont r => by
    intro ii li l s o hp hl h
    cases h
    exact Ev.stop li rfl (fun f => by simp only [Prog.lines, exec])
  | .brk r => by
    intro ii li l s o hp hl h
    cases h
    exact Ev.stop li rfl (fun f => by simp only [Prog.lines, exec])

theorem soundElse (F : Facts x M) : ∀ (e : Else A), SX x tof M n e
  | .none => sx_none tof
  | .els b => by
    intro r hR ii li l lr s o he hr hl hlr hx h
    refine Ev.succ (sb tof b .none r (sound F b) (sx_none tof) hR true ii li l (l + b.count) lr
      s o (fun m => he m) (fun _ => trivial) hr hl (fun m => by rw [hl m])
      (fun m => by rw [hlr m]; simp [Else.count]) h) (fun m => by simp [Else.count]) (fun f => ?_)
    simp only [Else.split, exec, Else.lines, List.nil_append]
  | .elifc k neg a t e => by
    intro r hR ii li l lr s o he hr hl hlr hx h
    have hM : ¬ M := fun m => he m
    simp only [Else.number, runElse] at h
    rw [← F.decide (li := li) (fun m => absurd m hM)] at h
    cases hc : x.decide k a ii li s with
    | ok b s1 =>
      rw [hc] at h
      refine Ev.succ (sb tof t e r (sound F t) (soundElse F e) hR (b != neg) ii (k.next li) (l + 1)
        (l + 1 + t.count) lr s1 o (fun m => absurd m hM) (fun m => absurd m hM) hr
        (fun m => absurd m hM) (fun m => absurd m hM) (fun m => absurd m hM) h)
        (fun m => absurd m hM) (fun f => ?_)
      simp only [Else.split, exec]
      rw [hc]
      rfl
    | exit c s1 =>
      rw [hc] at h
      refine Ev.stop li ?_ (fun f => ?_)
      · simp only [Res.thn] at h
        split at h <;> (cases h; rfl)
      · simp only [Else.split, exec]
        rw [hc]
        simp only [Res.thn, Res.go] at h ⊢
        by_cases hh : c ≠ 0 ∧ tof = true
        · rw [if_pos hh] at h ⊢; cases h; rfl
        · rw [if_neg hh] at h ⊢; cases h; rfl
    | fail s1 =>
      rw [hc] at h
      cases h
      refine Ev.stop li rfl (fun f => ?_)
      simp only [Else.split, exec]
      rw [hc]
      rfl

end

end sound

end Verif.ScriptFlow
