import Verif.ScriptFlow.Model

/-!
# Script flow control: finding the end of a construct
-/

namespace Verif.ScriptFlow

variable {A V σ β : Type}

/-- Put lines before the ones found. -/
def Found.pre (ls : List (Line A)) (f : Found A) : Found A := { f with before := ls ++ f.before }

theorem pre_nil (f : Found A) : f.pre [] = f := rfl

theorem pre_pre (a b : List (Line A)) (f : Found A) : (f.pre b).pre a = f.pre (a ++ b) := by
  simp [Found.pre, List.append_assoc]

theorem map_pre_pre (a b : List (Line A)) (o : Option (Found A)) :
    (o.map (Found.pre b)).map (Found.pre a) = o.map (Found.pre (a ++ b)) := by
  cases o with
  | none => rfl
  | some f => simp [pre_pre]

theorem map_pre_nil (o : Option (Found A)) : o.map (Found.pre []) = o := by
  cases o <;> rfl

theorem fcend_pass (e skip : Bool) (n li : Nat) (j : Line A) (r : List (Line A))
    (h : ¬ ((if j.opens then n + 1 else n) = 0 ∧ j.stops e = true)) :
    fcend e skip n li (j :: r) =
      (fcend e skip ((if j.opens then n + 1 else n) - (if j.isFin then 1 else 0))
        (li + if skip && j.counts then 1 else 0) r).map (Found.pre [j]) := by
  rw [fcend, if_neg h]; rfl

theorem fcend_stop (e skip : Bool) (li : Nat) (j : Line A) (r : List (Line A))
    (ho : j.opens = false) (hs : j.stops e = true) :
    fcend e skip 0 li (j :: r) = some ⟨[], j, r, li⟩ := by
  rw [fcend, if_pos]
  simp [ho, hs]

theorem fcend_fin (e skip : Bool) (n li : Nat) (r : List (Line A)) :
    fcend e skip (n + 1) li (.fin :: r) = (fcend e skip n li r).map (Found.pre [.fin]) := by
  rw [fcend_pass]
  · simp [Line.opens, Line.isFin, Line.counts]
  · simp [Line.opens]

/-- The lines counted when skipped. -/
def sk (skip : Bool) (n : Nat) : Nat := if skip then n else 0

theorem sk_add (s : Bool) (a b : Nat) : sk s a + sk s b = sk s (a + b) := by
  cases s <;> simp [sk]

theorem sk_one (s c : Bool) : (if s && c then 1 else 0) = sk s (if c then 1 else 0) := by
  cases s <;> cases c <;> rfl

mutual

theorem fcend_lines (e skip : Bool) : ∀ (p : Prog A) (n li : Nat) (r : List (Line A)),
    fcend e skip n li (p.lines ++ r) =
      (fcend e skip n (li + sk skip p.count) r).map (Found.pre p.lines)
  | .nil, n, li, r => by
    simp only [Prog.lines, Prog.count, List.nil_append, map_pre_nil]
    cases skip <;> rfl
  | .var a q, n, li, r => by
    simp only [Prog.lines, List.cons_append]
    rw [fcend_pass _ _ _ _ _ _ (by simp [Line.opens, Line.stops]), sk_one]
    simp only [Line.opens, Line.isFin, Line.counts, Bool.false_eq_true, if_false, Nat.sub_zero]
    rw [fcend_lines e skip q, map_pre_pre, Nat.add_assoc, sk_add]
    simp [Prog.count]
  | .cmd a q, n, li, r => by
    simp only [Prog.lines, List.cons_append]
    rw [fcend_pass _ _ _ _ _ _ (by simp [Line.opens, Line.stops]), sk_one]
    simp only [Line.opens, Line.isFin, Line.counts, Bool.false_eq_true, if_false, Nat.sub_zero,
      if_true]
    rw [fcend_lines e skip q, map_pre_pre, Nat.add_assoc, sk_add]
    simp [Prog.count]
  | .cont q, n, li, r => by
    simp only [Prog.lines, List.cons_append]
    rw [fcend_pass _ _ _ _ _ _ (by simp [Line.opens, Line.stops]), sk_one]
    simp only [Line.opens, Line.isFin, Line.counts, Bool.false_eq_true, if_false, Nat.sub_zero]
    rw [fcend_lines e skip q, map_pre_pre, Nat.add_assoc, sk_add]
    simp [Prog.count]
  | .brk q, n, li, r => by
    simp only [Prog.lines, List.cons_append]
    rw [fcend_pass _ _ _ _ _ _ (by simp [Line.opens, Line.stops]), sk_one]
    simp only [Line.opens, Line.isFin, Line.counts, Bool.false_eq_true, if_false, Nat.sub_zero]
    rw [fcend_lines e skip q, map_pre_pre, Nat.add_assoc, sk_add]
    simp [Prog.count]
  | .whl a b q, n, li, r => by
    simp only [Prog.lines, List.cons_append, List.append_assoc]
    rw [fcend_pass _ _ _ _ _ _ (by simp [Line.opens]), sk_one]
    simp only [Line.opens, Line.isFin, Line.counts, Bool.false_eq_true, if_false, Nat.sub_zero,
      if_true]
    rw [fcend_lines e skip b, fcend_fin, fcend_lines e skip q]
    simp only [map_pre_pre, Nat.add_assoc, sk_add, Prog.count, List.cons_append, List.nil_append]
  | .forS a b q, n, li, r => by
    simp only [Prog.lines, List.cons_append, List.append_assoc]
    rw [fcend_pass _ _ _ _ _ _ (by simp [Line.opens]), sk_one]
    simp only [Line.opens, Line.isFin, Line.counts, Bool.false_eq_true, if_false, Nat.sub_zero,
      if_true]
    rw [fcend_lines e skip b, fcend_fin, fcend_lines e skip q]
    simp only [map_pre_pre, Nat.add_assoc, sk_add, Prog.count, List.cons_append, List.nil_append]
  | .forA a b q, n, li, r => by
    simp only [Prog.lines, List.cons_append, List.append_assoc]
    rw [fcend_pass _ _ _ _ _ _ (by simp [Line.opens]), sk_one]
    simp only [Line.opens, Line.isFin, Line.counts, Bool.false_eq_true, if_false, Nat.sub_zero,
      if_true]
    rw [fcend_lines e skip b, fcend_fin, fcend_lines e skip q]
    simp only [map_pre_pre, Nat.add_assoc, sk_add, Prog.count, List.cons_append, List.nil_append,
      Nat.zero_add]
  | .ifc k neg a t x q, n, li, r => by
    simp only [Prog.lines, List.cons_append, List.append_assoc]
    rw [fcend_pass _ _ _ _ _ _ (by simp [Line.opens]), sk_one]
    simp only [Line.opens, Line.isFin, Line.counts, Bool.false_eq_true, if_false, Nat.sub_zero,
      if_true]
    rw [fcend_lines e skip t, fcend_else e skip x _ _ _ (Or.inl (Nat.succ_ne_zero n)),
      fcend_fin, fcend_lines e skip q]
    simp only [map_pre_pre, Nat.add_assoc, sk_add, Prog.count, List.cons_append, List.nil_append]

theorem fcend_else (e skip : Bool) : ∀ (x : Else A) (n li : Nat) (r : List (Line A)),
    (n ≠ 0 ∨ e = true) →
    fcend e skip n li (x.lines ++ r) =
      (fcend e skip n (li + sk skip x.count) r).map (Found.pre x.lines)
  | .none, n, li, r, _ => by
    simp only [Else.lines, Else.count, List.nil_append, map_pre_nil]
    cases skip <;> rfl
  | .els b, n, li, r, h => by
    simp only [Else.lines, List.cons_append]
    rw [fcend_pass _ _ _ _ _ _ (by
      rcases h with h | h
      · simp [Line.opens, h]
      · simp [Line.stops, h]), sk_one]
    simp only [Line.opens, Line.isFin, Line.counts, Bool.false_eq_true, if_false, Nat.sub_zero]
    rw [fcend_lines e skip b, map_pre_pre, Nat.add_assoc, sk_add]
    simp [Else.count]
  | .elifc k neg a t x, n, li, r, h => by
    simp only [Else.lines, List.cons_append, List.append_assoc]
    rw [fcend_pass _ _ _ _ _ _ (by
      rcases h with h | h
      · simp [Line.opens, h]
      · simp [Line.stops, h]), sk_one]
    simp only [Line.opens, Line.isFin, Line.counts, Bool.false_eq_true, if_false, Nat.sub_zero,
      if_true]
    rw [fcend_lines e skip t, fcend_else e skip x _ _ _ h]
    simp only [map_pre_pre, Nat.add_assoc, sk_add, Else.count, List.cons_append, List.nil_append]

end

/-- The end of a loop. -/
theorem fcend_loop (skip : Bool) (b : Prog A) (li : Nat) (r : List (Line A)) :
    fcend true skip 0 li (b.lines ++ .fin :: r) =
      some ⟨b.lines, .fin, r, li + sk skip b.count⟩ := by
  rw [fcend_lines, fcend_stop _ _ _ _ _ rfl rfl]
  simp [Found.pre]

/-- The end of an if-else construct. -/
theorem fcend_end (skip : Bool) (t : Prog A) (x : Else A) (li : Nat) (r : List (Line A)) :
    fcend true skip 0 li (t.lines ++ (x.lines ++ .fin :: r)) =
      some ⟨t.lines ++ x.lines, .fin, r, li + sk skip (t.count + x.count)⟩ := by
  rw [fcend_lines, fcend_else _ _ _ _ _ _ (Or.inr rfl), fcend_stop _ _ _ _ _ rfl rfl]
  simp [Found.pre, Nat.add_assoc, sk_add]

/-- The line that ends the first block and what is after it. -/
def Else.split (x : Else A) (r : List (Line A)) : Line A × List (Line A) :=
  match x with
  | .none => (.fin, r)
  | .els b => (.els, b.lines ++ .fin :: r)
  | .elifc k neg a t e => (.elifc k neg a, t.lines ++ (e.lines ++ .fin :: r))

/-- The end of a block. -/
theorem fcend_block (skip : Bool) (t : Prog A) (x : Else A) (li : Nat) (r : List (Line A)) :
    fcend false skip 0 li (t.lines ++ (x.lines ++ .fin :: r)) =
      some ⟨t.lines, (x.split r).1, (x.split r).2, li + sk skip t.count⟩ := by
  rw [fcend_lines]
  cases x <;>
    simp only [Else.lines, Else.split, List.nil_append, List.cons_append, List.append_assoc] <;>
    rw [fcend_stop _ _ _ _ _ rfl rfl] <;> simp [Found.pre]

end Verif.ScriptFlow
