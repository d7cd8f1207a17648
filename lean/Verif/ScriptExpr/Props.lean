import Verif.ScriptExpr.Model

/-!
# Command expressions: properties
-/

namespace Verif.ScriptExpr

variable {P ε σ : Type}

/-! ## The loop without positions -/

/-- No `||` in the terms. -/
def ands (ts : List (Term P)) : Bool := ts.all fun t => t.op == .and

/-- The loop with the diagnostics enabled if there is no `||` after the term. -/
def loop2 (f : P → Nat → Bool → σ → Except ε (Bool × σ)) (size : P → Nat) (diag : Bool) :
    List (Term P) → Bool → Nat → σ → Except ε (Bool × σ)
  | [], r, _, s => .ok (r, s)
  | t :: ts, r, ci, s =>
    if (t.op == .or) = r then loop2 f size diag ts r (ci + size t.pipe) s
    else
      match f t.pipe ci (diag && ands ts) s with
      | .ok (r', s') => loop2 f size diag ts r' (ci + size t.pipe) s'
      | .error e => .error e

theorem takeWhile_length_le {α : Type} (p : α → Bool) (l : List α) :
    (l.takeWhile p).length ≤ l.length := by
  induction l with
  | nil => simp
  | cons a l ih =>
    rw [List.takeWhile_cons]
    split
    · simpa using ih
    · simp

theorem takeWhile_append_length {α : Type} (p : α → Bool) (a b : List α) :
    a.length ≤ ((a ++ b).takeWhile p).length ↔ a.all p = true := by
  induction a with
  | nil => simp
  | cons x a ih =>
    rw [List.cons_append, List.takeWhile_cons]
    by_cases h : p x = true
    · simp [h, ← ih]
    · simp [h]

/-- The position is at or after the last `||` if and only if there is none after it. -/
theorem trailing_iff (pre : List (Term P)) (t : Term P) (ts : List (Term P)) :
    trailingAnds (pre ++ t :: ts) ≤ pre.length + 1 ↔ ands ts = true := by
  have h1 := takeWhile_append_length (fun t : Term P => t.op == .and) ts.reverse (t :: pre.reverse)
  have h2 := takeWhile_length_le (fun t : Term P => t.op == .and) (pre ++ t :: ts).reverse
  have h3 : (pre ++ t :: ts).reverse = ts.reverse ++ (t :: pre.reverse) := by simp
  unfold trailingAnds ands
  rw [h3] at h2 ⊢
  simp only [List.length_append, List.length_cons, List.length_reverse, List.all_reverse] at h1 h2 ⊢
  rw [← h1]
  omega

theorem loop_eq (f : P → Nat → Bool → σ → Except ε (Bool × σ)) (size : P → Nat) (diag : Bool)
    (expr : List (Term P)) :
    ∀ (ts pre : List (Term P)) (r print : Bool) (ci : Nat) (s : σ), expr = pre ++ ts →
      print = (diag && decide (trailingAnds expr ≤ pre.length)) →
      loop f size diag (trailingAnds expr) ts pre.length r print ci s =
        loop2 f size diag ts r ci s := by
  intro ts
  induction ts with
  | nil => intros; rfl
  | cons t ts ih =>
    intro pre r print ci s he hp
    have htr := trailing_iff pre t ts
    rw [← he] at htr
    have hpr : (if (diag && pre.length + 1 == trailingAnds expr) = true then true else print) =
        (diag && ands ts) := by
      rw [Bool.eq_iff_iff, hp]
      cases diag with
      | false => simp
      | true =>
        simp only [Bool.true_and]
        rw [← htr]
        by_cases h : pre.length + 1 = trailingAnds expr
        · simp [h]
        · have : ¬ (pre.length + 1 == trailingAnds expr) = true := by simpa using h
          rw [if_neg this, decide_eq_true_iff]
          omega
    have hp2 : (diag && ands ts) = (diag && decide (trailingAnds expr ≤ (pre ++ [t]).length)) := by
      rw [Bool.eq_iff_iff, Bool.and_eq_true, Bool.and_eq_true, decide_eq_true_iff, ← htr]
      simp
    have hl : pre.length + 1 = (pre ++ [t]).length := by simp
    simp only [loop, loop2]
    rw [hpr]
    have hc : (!((t.op == Op.or) && r || !(t.op == Op.or) && !r)) = true ↔ ¬ (t.op == Op.or) = r := by
      cases (t.op == Op.or) <;> cases r <;> simp
    by_cases h : (t.op == Op.or) = r
    · rw [if_neg (by rw [hc]; exact fun h' => h' h), if_pos h, hl]
      exact ih (pre ++ [t]) r _ _ s (by simp [he]) hp2
    · rw [if_pos (by rw [hc]; exact h), if_neg h]
      cases f t.pipe ci (diag && ands ts) s with
      | error e => rfl
      | ok rs =>
        dsimp only
        rw [hl]
        exact ih (pre ++ [t]) _ _ _ _ (by simp [he]) hp2

/-- The first term of an expression is OR-ed. -/
theorem terms_cons (e : Expr P) : ∃ p ts, e.terms = ⟨.or, p⟩ :: ts := by
  induction e with
  | pipe p => exact ⟨p, [], rfl⟩
  | and e p ih => obtain ⟨p', ts, h⟩ := ih; exact ⟨p', ts ++ [⟨.and, p⟩], by simp [Expr.terms, h]⟩
  | or e p ih => obtain ⟨p', ts, h⟩ := ih; exact ⟨p', ts ++ [⟨.or, p⟩], by simp [Expr.terms, h]⟩

theorem trailing_pos (e : Expr P) : 0 < trailingAnds e.terms := by
  obtain ⟨p, ts, h⟩ := terms_cons e
  have h1 := takeWhile_append_length (fun t : Term P => t.op == .and) e.terms.reverse []
  have h2 := takeWhile_length_le (fun t : Term P => t.op == .and) e.terms.reverse
  have h3 : ¬ (e.terms.reverse.all fun t => t.op == .and) = true := by
    rw [h]
    simp
  rw [← h1, List.append_nil] at h3
  unfold trailingAnds
  simp only [List.length_reverse] at h2 h3
  omega

theorem runExpr_eq (f : P → Nat → Bool → σ → Except ε (Bool × σ)) (size : P → Nat) (diag : Bool)
    (e : Expr P) (s : σ) :
    runExpr f size diag e.terms s = loop2 f size diag e.terms false (first size e.terms) s := by
  have := trailing_pos e
  exact loop_eq f size diag e.terms e.terms [] false false _ s rfl (by
    have h : ¬ trailingAnds e.terms ≤ 0 := by omega
    simp [h])

/-! ## What an expression does -/

theorem loop2_append (f : P → σ → Except ε (Bool × σ)) (size : P → Nat) (diag : Bool) (t : Term P) :
    ∀ (ts : List (Term P)) (r : Bool) (ci : Nat) (s : σ),
    loop2 (fun p _ _ => f p) size diag (ts ++ [t]) r ci s =
      match loop2 (fun p _ _ => f p) size diag ts r ci s with
      | .ok (r', s') => if (t.op == .or) = r' then .ok (r', s') else f t.pipe s'
      | .error e => .error e := by
  intro ts
  induction ts with
  | nil =>
    intro r ci s
    simp only [List.nil_append, loop2]
    split
    · rfl
    · cases f t.pipe s <;> rfl
  | cons t0 ts ih =>
    intro r ci s
    simp only [List.cons_append, loop2]
    split
    · exact ih ..
    · cases f t0.pipe s with
      | error e => rfl
      | ok rs => exact ih ..

/-- The right-hand side of `&&` is only run if the left-hand side is successful, that of `||` only
if it is not, and both are left-associative with the same precedence. -/
theorem expr_eval (f : P → σ → Except ε (Bool × σ)) (size : P → Nat) (diag : Bool) (e : Expr P)
    (s : σ) : runExpr (fun p _ _ => f p) size diag e.terms s = e.eval f s := by
  rw [runExpr_eq]
  generalize first size e.terms = ci
  induction e generalizing s with
  | pipe p =>
    simp only [Expr.terms, loop2, Expr.eval]
    rw [if_neg (by simp)]
    cases f p s <;> rfl
  | and e p ih =>
    simp only [Expr.terms, loop2_append, Expr.eval]
    rw [ih]
    cases e.eval f s with
    | error e => rfl
    | ok rs =>
      obtain ⟨r, s'⟩ := rs
      cases r
      · rfl
      · rfl
  | or e p ih =>
    simp only [Expr.terms, loop2_append, Expr.eval]
    rw [ih]
    cases e.eval f s with
    | error e => rfl
    | ok rs =>
      obtain ⟨r, s'⟩ := rs
      cases r
      · rfl
      · rfl

/-- A command line succeeds exactly if its expression does. -/
theorem cmd_eval (f : P → σ → Except ε (Bool × σ)) (size : P → Nat) (failed : σ → ε) (e : Expr P)
    (s s' : σ) :
    runCmd (fun p _ _ => f p) size failed e.terms s = .ok s' ↔ e.eval f s = .ok (true, s') := by
  unfold runCmd
  rw [expr_eval]
  cases e.eval f s with
  | error e => simp
  | ok rs =>
    obtain ⟨r, s1⟩ := rs
    cases r <;> simp

/-! ## Diagnostics and numbers -/

/-- A pipeline that has been run: the pipeline, the number of its first command, whether the
diagnostics was enabled and whether it was successful. -/
structure Ran (P : Type) where
  pipe : P
  ci : Nat
  print : Bool
  ok : Bool

/-- Remember the pipelines that are run, the last one first. -/
def logged (f : P → σ → Except ε (Bool × σ)) (p : P) (ci : Nat) (print : Bool)
    (s : σ × List (Ran P)) : Except ε (Bool × (σ × List (Ran P))) :=
  match f p s.1 with
  | .ok (r, s') => .ok (r, (s', ⟨p, ci, print, r⟩ :: s.2))
  | .error e => .error e

/-- The failures that are diagnosed. -/
def diagnosed (l : List (Ran P)) : List (Ran P) := l.filter fun x => x.print && !x.ok

theorem loop2_diag (f : P → σ → Except ε (Bool × σ)) (size : P → Nat) :
    ∀ (ts : List (Term P)) (r : Bool) (ci : Nat) (s : σ) (l : List (Ran P)) (r' : Bool) (s' : σ)
      (l' : List (Ran P)), loop2 (logged f) size true ts r ci (s, l) = .ok (r', (s', l')) →
      (diagnosed l').length + (if r = false ∧ ands ts = true then 1 else 0) =
        (diagnosed l).length + (if r' then 0 else 1) := by
  intro ts
  induction ts with
  | nil =>
    intro r ci s l r' s' l' h
    simp only [loop2, Except.ok.injEq, Prod.mk.injEq] at h
    obtain ⟨rfl, rfl, rfl⟩ := h
    cases r <;> simp [ands]
  | cons t ts ih =>
    intro r ci s l r' s' l' h
    simp only [loop2] at h
    by_cases hr : (t.op == Op.or) = r
    · rw [if_pos hr] at h
      have := ih r _ s l r' s' l' h
      rw [← this]
      congr 2
      cases r with
      | true => simp
      | false =>
        have : t.op = .and := by
          cases ho : t.op
          · rw [ho] at hr; simp at hr
          · rfl
        simp [ands, this]
    · rw [if_neg hr] at h
      have hand : ¬ (r = false ∧ ands (t :: ts) = true) := by
        rintro ⟨rfl, ha⟩
        have : t.op = .and := by
          simp only [ands, List.all_cons, Bool.and_eq_true, beq_iff_eq] at ha
          exact ha.1
        rw [this] at hr
        simp at hr
      rw [if_neg hand]
      cases hf : f t.pipe s with
      | error e => simp [logged, hf] at h
      | ok rs =>
        obtain ⟨r1, s1⟩ := rs
        simp only [logged, hf] at h
        have := ih _ _ _ _ _ _ _ h
        rw [Nat.add_zero]
        rw [← Nat.add_right_cancel_iff (n := if r1 = false ∧ ands ts = true then 1 else 0), this]
        simp only [diagnosed, List.filter_cons, Bool.true_and]
        cases r1 <;> cases ands ts <;> simp [Nat.add_right_comm]

/-- If the expression of a command fails, then exactly one failure of its pipelines is diagnosed,
and if it does not, then none is. -/
theorem failure_diagnosed (f : P → σ → Except ε (Bool × σ)) (size : P → Nat) (e : Expr P) (s : σ)
    (r : Bool) (s' : σ) (l : List (Ran P))
    (h : runExpr (logged f) size true e.terms (s, []) = .ok (r, (s', l))) :
    (diagnosed l).length = if r then 0 else 1 := by
  rw [runExpr_eq] at h
  have := loop2_diag f size e.terms false _ s [] r s' l h
  obtain ⟨p, ts, he⟩ := terms_cons e
  have hn : ¬ ((false : Bool) = false ∧ ands e.terms = true) := by
    rw [he]
    simp [ands]
  rw [if_neg hn] at this
  simpa [diagnosed] using this

theorem loop2_last (f : P → σ → Except ε (Bool × σ)) (size : P → Nat) (diag : Bool) :
    ∀ (ts : List (Term P)) (r : Bool) (ci : Nat) (s : σ) (l : List (Ran P)) (r' : Bool) (s' : σ)
      (l' : List (Ran P)), loop2 (logged f) size diag ts r ci (s, l) = .ok (r', (s', l')) →
      (l.head?.map Ran.ok = some r) → l'.head?.map Ran.ok = some r' := by
  intro ts
  induction ts with
  | nil =>
    intro r ci s l r' s' l' h hl
    simp only [loop2, Except.ok.injEq, Prod.mk.injEq] at h
    obtain ⟨rfl, rfl, rfl⟩ := h
    exact hl
  | cons t ts ih =>
    intro r ci s l r' s' l' h hl
    simp only [loop2] at h
    split at h
    · exact ih _ _ _ _ _ _ _ h hl
    · cases hf : f t.pipe s with
      | error e => simp [logged, hf] at h
      | ok rs =>
        simp only [logged, hf] at h
        exact ih _ _ _ _ _ _ _ h rfl

/-- The result is the one of the pipeline that was run last. -/
theorem result_of_last (f : P → σ → Except ε (Bool × σ)) (size : P → Nat) (diag : Bool) (e : Expr P)
    (s : σ) (r : Bool) (s' : σ) (l : List (Ran P))
    (h : runExpr (logged f) size diag e.terms (s, []) = .ok (r, (s', l))) :
    ∃ x l', l = x :: l' ∧ x.ok = r := by
  rw [runExpr_eq] at h
  obtain ⟨p, ts, he⟩ := terms_cons e
  rw [he] at h
  simp only [loop2] at h
  rw [if_neg (by simp)] at h
  cases hf : f p s with
  | error e => simp [logged, hf] at h
  | ok rs =>
    simp only [logged, hf] at h
    have := loop2_last f size diag _ _ _ _ _ _ _ _ h rfl
    cases l with
    | nil => cases this
    | cons x l' =>
      refine ⟨x, l', rfl, ?_⟩
      simpa using this

theorem loop2_cond (f : P → σ → Except ε (Bool × σ)) (size : P → Nat) :
    ∀ (ts : List (Term P)) (r : Bool) (ci : Nat) (s : σ) (l : List (Ran P)) (r' : Bool) (s' : σ)
      (l' : List (Ran P)), loop2 (logged f) size false ts r ci (s, l) = .ok (r', (s', l')) →
      (∀ x ∈ l, x.print = false) → ∀ x ∈ l', x.print = false := by
  intro ts
  induction ts with
  | nil =>
    intro r ci s l r' s' l' h hl
    simp only [loop2, Except.ok.injEq, Prod.mk.injEq] at h
    obtain ⟨rfl, rfl, rfl⟩ := h
    exact hl
  | cons t ts ih =>
    intro r ci s l r' s' l' h hl
    simp only [loop2] at h
    split at h
    · exact ih _ _ _ _ _ _ _ h hl
    · cases hf : f t.pipe s with
      | error e => simp [logged, hf] at h
      | ok rs =>
        simp only [logged, hf] at h
        refine ih _ _ _ _ _ _ _ h ?_
        intro x hx
        rcases List.mem_cons.mp hx with rfl | hx
        · rfl
        · exact hl x hx

/-- A failing condition is not an error: nothing is diagnosed. -/
theorem condition_silent (f : P → σ → Except ε (Bool × σ)) (size : P → Nat) (e : Expr P) (s : σ)
    (r : Bool) (s' : σ) (l : List (Ran P))
    (h : runCond (logged f) size e.terms (s, []) = .ok (r, (s', l))) : diagnosed l = [] := by
  unfold runCond at h
  rw [runExpr_eq] at h
  have := loop2_cond f size _ _ _ _ _ _ _ _ h (by simp)
  unfold diagnosed
  rw [List.filter_eq_nil_iff]
  intro x hx
  simp [this x hx]

/-- The commands of a pipeline are numbered from its number on. -/
def Ran.numbers (size : P → Nat) (x : Ran P) : List Nat := List.range' x.ci (size x.pipe)

theorem loop2_numbers (f : P → σ → Except ε (Bool × σ)) (size : P → Nat) (diag : Bool) :
    ∀ (ts : List (Term P)) (r : Bool) (ci : Nat) (s : σ) (l : List (Ran P)) (r' : Bool) (s' : σ)
      (l' : List (Ran P)), loop2 (logged f) size diag ts r ci (s, l) = .ok (r', (s', l')) →
      (∀ x ∈ l, x.ci + size x.pipe ≤ ci) →
      (l.flatMap (Ran.numbers size)).Nodup → (l'.flatMap (Ran.numbers size)).Nodup := by
  intro ts
  induction ts with
  | nil =>
    intro r ci s l r' s' l' h hl hn
    simp only [loop2, Except.ok.injEq, Prod.mk.injEq] at h
    obtain ⟨rfl, rfl, rfl⟩ := h
    exact hn
  | cons t ts ih =>
    intro r ci s l r' s' l' h hl hn
    simp only [loop2] at h
    split at h
    · exact ih _ _ _ _ _ _ _ h (fun x hx => Nat.le_trans (hl x hx) (Nat.le_add_right ..)) hn
    · cases hf : f t.pipe s with
      | error e => simp [logged, hf] at h
      | ok rs =>
        simp only [logged, hf] at h
        refine ih _ _ _ _ _ _ _ h ?_ ?_
        · intro x hx
          rcases List.mem_cons.mp hx with rfl | hx
          · exact Nat.le_refl _
          · exact Nat.le_trans (hl x hx) (Nat.le_add_right ..)
        · rw [List.flatMap_cons, List.nodup_append]
          refine ⟨List.nodup_range' .., hn, ?_⟩
          intro a ha b hb hab
          subst hab
          simp only [Ran.numbers, List.mem_range'_1] at ha
          obtain ⟨x, hx, hax⟩ := List.mem_flatMap.mp hb
          simp only [Ran.numbers, List.mem_range'_1] at hax
          have := hl x hx
          omega

/-- No two commands of an expression that are run have the same number. -/
theorem numbers_unique (f : P → σ → Except ε (Bool × σ)) (size : P → Nat) (diag : Bool) (e : Expr P)
    (s : σ) (r : Bool) (s' : σ) (l : List (Ran P))
    (h : runExpr (logged f) size diag e.terms (s, []) = .ok (r, (s', l))) :
    (l.flatMap (Ran.numbers size)).Nodup := by
  rw [runExpr_eq] at h
  exact loop2_numbers f size diag _ _ _ _ _ _ _ _ h (by simp) (by simp)

/-! ## A concrete case -/

/-- Pipelines that are successful or not as told. -/
def demo (p : Bool) (s : Nat) : Except Unit (Bool × Nat) := .ok (p, s + 1)

/-- `false && true || true && false`: the second one is not run, the last one is diagnosed. -/
def demoExpr : Expr Bool := .and (.or (.and (.pipe false) true) true) false

example : demoExpr.eval demo 0 = .ok (false, 3) := by rfl

example : runExpr (logged demo) (fun _ => 2) true demoExpr.terms (0, []) =
    .ok (false, (3, [⟨false, 7, true, false⟩, ⟨true, 5, true, true⟩, ⟨false, 1, false, false⟩])) := by
  rfl

example : runCond (logged demo) (fun _ => 1) (Expr.terms (.pipe false)) (0, []) =
    .ok (false, (1, [⟨false, 0, false, false⟩])) := by rfl

end Verif.ScriptExpr
