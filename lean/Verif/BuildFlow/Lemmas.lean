import Verif.BuildFlow.Model

/-!
# Conditions, switches and loops in buildfiles: lemmas
-/

namespace Verif.BuildFlow

variable {L : Lang}

/-! ## Values and patterns -/

theorem pVals_eq (c : Sem L) (xs : List L.X) (acc : List L.V) (s : L.S) :
    pVals c xs acc s = (vals c xs s).map fun x => (acc ++ x.1, x.2) := by
  induction xs generalizing acc s with
  | nil => simp [pVals, vals]
  | cons x xs ih =>
    simp only [pVals, vals]
    cases c.val x s with
    | none => rfl
    | some y =>
      simp only [ih]
      cases vals c xs y.2 with
      | none => rfl
      | some z => simp

theorem pAlts_eq (c : Sem L) (v : L.V) (q : L.Q) (qs : List L.Q) (s : L.S) :
    pAlts c v q qs s = matchAlts c v (q :: qs) s := by
  induction qs generalizing v q s with
  | nil =>
    rw [pAlts, matchAlts]
    cases c.alt v q s with
    | none => rfl
    | some x =>
      obtain ⟨b, v', s'⟩ := x
      cases b <;> rfl
  | cons q' qs ih =>
    rw [pAlts, matchAlts]
    cases c.alt v q s with
    | none => rfl
    | some x =>
      obtain ⟨b, v', s'⟩ := x
      cases b with
      | true => rfl
      | false => simpa using ih v' q' s'

theorem pPats_eq (c : Sem L) (pre vs : List L.V) (p : L.Q × List L.Q) (ps : List (L.Q × List L.Q))
    (s : L.S) : pPats c (pre ++ vs) pre.length p ps s =
      (matchPats c vs (p :: ps) s).map fun x => (x.1, pre ++ x.2.1, x.2.2) := by
  induction ps generalizing pre vs p s with
  | nil =>
    rw [pPats]
    cases vs with
    | nil => simp [matchPats]
    | cons v vs =>
      simp only [List.getElem?_append_right (Nat.le_refl _), Nat.sub_self, List.getElem?_cons_zero,
        matchPats, pAlts_eq]
      cases matchAlts c v (p.1 :: p.2) s with
      | none => rfl
      | some x =>
        obtain ⟨b, v', s'⟩ := x
        cases b <;> simp
  | cons p' ps ih =>
    rw [pPats]
    cases vs with
    | nil => simp [matchPats]
    | cons v vs =>
      simp only [List.getElem?_append_right (Nat.le_refl _), Nat.sub_self, List.getElem?_cons_zero,
        pAlts_eq]
      rw [matchPats]
      cases matchAlts c v (p.1 :: p.2) s with
      | none => rfl
      | some x =>
        obtain ⟨b, v', s'⟩ := x
        cases b with
        | false => simp
        | true =>
          have := ih (pre ++ [v']) vs p' s'
          simp only [List.append_assoc, List.length_append, List.length_singleton] at this
          simp only [Bool.not_true, Bool.false_eq_true, if_false, List.set_append,
            Nat.lt_irrefl, Nat.sub_self, List.set_cons_zero]
          rw [show pre ++ v' :: vs = pre ++ ([v'] ++ vs) from by simp, this]
          cases matchPats c vs (p' :: ps) s' with
          | none => rfl
          | some y => simp

theorem pPats_case (c : Sem L) (vs : List L.V) (k : Case L.Q) (s : L.S) :
    pPats c vs 0 k.pat k.pats s = matchPats c vs (k.pat :: k.pats) s := by
  have := pPats_eq c [] vs k.pat k.pats s
  simp only [List.nil_append, List.length_nil] at this
  rw [this]
  cases matchPats c vs (k.pat :: k.pats) s <;> rfl

/-! ## Skipping -/

/-- Lines with balanced braces. -/
def Bal (l : List (Ln L)) : Prop :=
  ∀ b r, skipBlock b (l ++ r) = (l ++ (skipBlock b r).1, (skipBlock b r).2)

theorem bal_nil : Bal ([] : List (Ln L)) := fun _ _ => rfl

theorem Bal.app {l l' : List (Ln L)} (h : Bal l) (h' : Bal l') : Bal (l ++ l') := by
  intro b r
  rw [List.append_assoc, h b (l' ++ r), h' b r]
  simp

theorem bal_one {x : Ln L} (h1 : x ≠ .lb) (h2 : x ≠ .rb) : Bal [x] := by
  intro b r
  cases x <;> first | exact absurd rfl h1 | exact absurd rfl h2 | (cases b <;> rfl)

theorem Bal.cons {x : Ln L} {l : List (Ln L)} (h1 : x ≠ .lb) (h2 : x ≠ .rb) (h : Bal l) :
    Bal (x :: l) := (bal_one h1 h2).app h

theorem Bal.block {l : List (Ln L)} (h : Bal l) : Bal (.lb :: (l ++ [.rb])) := by
  intro b r
  simp only [List.cons_append, List.append_assoc, skipBlock, List.nil_append, h (b + 1) (.rb :: r)]

theorem bal_simple (x : Simple L) : Bal [x.line] := by
  cases x <;> exact bal_one (by simp [Simple.line]) (by simp [Simple.line])

theorem bal_cases (cs : List (Case L.Q)) : Bal (cs.map Ln.case : List (Ln L)) := by
  induction cs with
  | nil => exact bal_nil
  | cons k cs ih => exact ih.cons (by simp) (by simp)

mutual

theorem Stmt.bal : (a : Stmt L) → Bal a.lines
  | .simple x => by simpa only [Stmt.lines] using bal_simple x
  | .cond c b r => by
    simp only [Stmt.lines]
    exact (b.bal.app r.bal).cons (by simp) (by simp)
  | .switch x xs a => by
    simp only [Stmt.lines]
    exact a.bal.block.cons (by simp) (by simp)
  | .for_ i b => by
    simp only [Stmt.lines]
    exact b.bal.cons (by simp) (by simp)
  | .while_ c b => by
    simp only [Stmt.lines]
    exact b.bal.cons (by simp) (by simp)

theorem Body.bal : (b : Body L) → Bal b.lines
  | .one x => by simpa only [Body.lines] using bal_simple x
  | .block ss => by
    simp only [Body.lines]
    exact ss.bal.block

theorem Elifs.bal : (e : Elifs L) → Bal e.lines
  | .nil => by simpa only [Elifs.lines] using bal_nil
  | .els b => by
    simp only [Elifs.lines]
    exact b.bal.cons (by simp) (by simp)
  | .elif c b r => by
    simp only [Elifs.lines]
    exact (b.bal.app r.bal).cons (by simp) (by simp)

theorem Arms.bal : (a : Arms L) → Bal a.lines
  | .nil => by simpa only [Arms.lines] using bal_nil
  | .dflt cs b => by
    simp only [Arms.lines]
    exact (bal_cases cs).app (b.bal.cons (by simp) (by simp))
  | .arm k cs b r => by
    simp only [Arms.lines]
    exact ((bal_cases cs).app (b.bal.app r.bal)).cons (by simp) (by simp)

theorem Stmts.bal : (ss : Stmts L) → Bal ss.lines
  | .nil => by simpa only [Stmts.lines] using bal_nil
  | .cons a as => by
    simp only [Stmts.lines]
    exact a.bal.app as.bal

end

/-- A block is skipped to its closing brace. -/
theorem skipBlock_lines (ss : Stmts L) (r : List (Ln L)) :
    skipBlock 0 (ss.lines ++ .rb :: r) = (ss.lines, .rb :: r) := by
  rw [ss.bal 0 (.rb :: r)]
  simp [skipBlock]

/-! ## Bodies -/

/-- The lines of the body of a loop that are parsed. -/
def Body.inner : Body L → List (Ln L)
  | .one x => [x.line]
  | .block ss => ss.lines ++ [.rb]

/-- Whether it is a block. -/
def Body.isBlock : Body L → Bool
  | .one _ => false
  | .block _ => true

/-- What must be left of it. -/
def Body.left : Body L → List (Ln L)
  | .one _ => []
  | .block _ => [.rb]

theorem takeBody_lines (b : Body L) (r : List (Ln L)) :
    takeBody (b.lines ++ r) = some (b.isBlock, b.inner, r) := by
  cases b with
  | one x => cases x <;> rfl
  | block ss =>
    simp only [Body.lines, List.cons_append, List.append_assoc, List.nil_append, takeBody,
      skipBlock_lines, Body.isBlock, Body.inner]

theorem ends_left (b : Body L) : ends b.isBlock b.left = true := by cases b <;> rfl

/-- What follows an if-else chain. -/
def Fol (rest : List (Ln L)) : Prop := (∀ q r, rest ≠ .elif q :: r) ∧ (∀ r, rest ≠ .els :: r)

/-- What follows statements. -/
def End (rest : List (Ln L)) : Prop := rest = [] ∨ ∃ r, rest = .rb :: r

theorem End.fol {rest : List (Ln L)} (h : End rest) : Fol rest := by
  rcases h with rfl | ⟨r, rfl⟩ <;> exact ⟨by simp, by simp⟩

theorem fol_stmts (ss : Stmts L) {rest : List (Ln L)} (h : End rest) : Fol (ss.lines ++ rest) := by
  cases ss with
  | nil => simpa [Stmts.lines] using h.fol
  | cons a as =>
    cases a with
    | simple x => cases x <;> exact ⟨by simp [Stmts.lines, Stmt.lines, Simple.line],
        by simp [Stmts.lines, Stmt.lines, Simple.line]⟩
    | _ => exact ⟨by simp [Stmts.lines, Stmt.lines], by simp [Stmts.lines, Stmt.lines]⟩

/-- Outcomes as results. -/
def Out.res (o : Out L.S) (rest : List (Ln L)) : Res L :=
  match o with
  | .ok s => .ok rest s
  | .brk s => .brk s
  | .cont s => .cont s
  | .fail => .fail

/-! ## Steps of the model -/

theorem pStmt_simple (c : Sem L) (f : Nat) (lp : Bool) (p : L.P) (r : List (Ln L)) (s : L.S) :
    pStmt c (f + 1) lp (.plain p :: r) s =
      some (match c.run p s with
        | some s' => .ok r s'
        | none => .fail) := by
  simp only [pStmt]
  cases c.run p s <;> rfl

theorem pBranch_skip (c : Sem L) (f : Nat) (lp : Bool) (b : Body L) (r : List (Ln L)) (s : L.S) :
    pBranch c (f + 1) lp false (b.lines ++ r) s = some (.ok r s) := by
  cases b with
  | one x => cases x <;> rfl
  | block ss =>
    simp only [Body.lines, List.cons_append, List.append_assoc, List.nil_append, pBranch,
      Bool.false_eq_true, if_false, skipBlock_lines]

theorem pBranch_one (c : Sem L) (f : Nat) (lp : Bool) (x : Simple L) (r : List (Ln L)) (s : L.S) :
    pBranch c (f + 1) lp true ((Body.one x).lines ++ r) s = pStmt c f lp (x.line :: r) s := by
  cases x <;> simp [Body.lines, pBranch, Simple.line]

theorem pBranch_block (c : Sem L) (f : Nat) (lp : Bool) (ss : Stmts L) (r : List (Ln L)) (s : L.S) :
    pBranch c (f + 1) lp true ((Body.block ss).lines ++ r) s =
      match pClause c f lp (ss.lines ++ .rb :: r) s with
      | some (.ok (.rb :: r') s') => some (.ok r' s')
      | some (.ok _ _) => some .fail
      | o => o := by
  simp only [Body.lines, List.cons_append, List.append_assoc, List.nil_append, pBranch, if_true]
  rfl

/-- Statements start with a line that starts a statement. -/
theorem pClause_cons (c : Sem L) (f : Nat) (lp : Bool) (a : Stmt L) (r : List (Ln L)) (s : L.S) :
    pClause c (f + 1) lp (a.lines ++ r) s =
      match pStmt c f lp (a.lines ++ r) s with
      | some (.ok r s') => pClause c f lp r s'
      | o => o := by
  cases a with
  | simple x => cases x <;> simp only [Stmt.lines, Simple.line, List.cons_append, pClause] <;> rfl
  | _ => simp only [Stmt.lines, List.cons_append, pClause]; rfl

theorem pClause_end (c : Sem L) (f : Nat) (lp : Bool) {r : List (Ln L)} (h : End r) (s : L.S) :
    pClause c (f + 1) lp r s = some (.ok r s) := by
  rcases h with rfl | ⟨r, rfl⟩ <;> simp only [pClause]

theorem pNext_fol (c : Sem L) (f : Nat) (lp t : Bool) {r : List (Ln L)} (h : Fol r) (s : L.S) :
    pNext c (f + 1) lp t r s = some (.ok r s) := by
  cases r with
  | nil => simp only [pNext]
  | cons x r =>
    cases x <;> first
      | exact absurd rfl (h.1 _ _)
      | exact absurd rfl (h.2 _)
      | simp only [pNext]

/-- The body of an arm does not start with a case or a default. -/
theorem special_body (b : Body L) (r : List (Ln L)) (seen : Bool) :
    special seen (b.lines ++ r) = some (false, seen) := by
  cases b with
  | one x => cases x <;> rfl
  | block ss => rfl

theorem skipSpecial_cases (k : Case L.Q) (cs : List (Case L.Q)) (b : Body L) (r : List (Ln L)) :
    skipSpecial false (.case k :: (cs.map .case ++ (b.lines ++ r))) = some (b.lines ++ r, false) := by
  induction cs generalizing k with
  | nil => simp only [List.map_nil, List.nil_append, skipSpecial, special_body]
  | cons k' cs ih =>
    rw [List.map_cons, List.cons_append, skipSpecial]
    exact ih k'

theorem skipSpecial_dflt (b : Body L) (r : List (Ln L)) :
    skipSpecial true (.dflt :: (b.lines ++ r)) = some (b.lines ++ r, true) := by
  simp only [skipSpecial, special_body]

theorem skipSpecial_cases_dflt (k : Case L.Q) (cs : List (Case L.Q)) (b : Body L) (r : List (Ln L)) :
    skipSpecial false (.case k :: (cs.map .case ++ .dflt :: (b.lines ++ r))) =
      some (b.lines ++ r, true) := by
  induction cs generalizing k with
  | nil =>
    simp only [List.map_nil, List.nil_append]
    rw [skipSpecial]
    exact skipSpecial_dflt b r
  | cons k' cs ih =>
    rw [List.map_cons, List.cons_append, skipSpecial]
    exact ih k'

/-- After a case that is taken (or if one was) everything up to the body is skipped. -/
theorem pArm_skip (c : Sem L) (f : Nat) (lp : Bool) (vs : List L.V) (taken take : Bool)
    (h : (!take && !taken) = false) (cs : List (Case L.Q)) (b : Body L) (r : List (Ln L)) (s : L.S) :
    pArm c (f + 1) lp vs taken take false (cs.map .case ++ (b.lines ++ r)) s =
      pArmBody c f lp vs taken take false (b.lines ++ r) s := by
  cases cs with
  | nil => simp only [List.map_nil, List.nil_append, pArm, special_body]
  | cons k cs =>
    simp only [List.map_cons, List.cons_append, pArm, special, Bool.false_eq_true, if_false, h,
      skipSpecial_cases]

/-- The same if there is a default. -/
theorem pArm_skip_dflt (c : Sem L) (f : Nat) (lp : Bool) (vs : List L.V) (taken take : Bool)
    (h : (!take && !taken) = false) (cs : List (Case L.Q)) (b : Body L) (r : List (Ln L)) (s : L.S) :
    pArm c (f + 1) lp vs taken take false (cs.map .case ++ .dflt :: (b.lines ++ r)) s =
      pArmBody c f lp vs taken take true (b.lines ++ r) s := by
  cases cs with
  | nil =>
    simp only [List.map_nil, List.nil_append, pArm, special, Bool.false_eq_true, if_false, h,
      skipSpecial_dflt]
  | cons k cs =>
    simp only [List.map_cons, List.cons_append, pArm, special, Bool.false_eq_true, if_false, h,
      skipSpecial_cases_dflt]

theorem matchCases_cons (c : Sem L) (vs : List L.V) (k : Case L.Q) (ks : List (Case L.Q)) (s : L.S) :
    matchCases c vs (k :: ks) s =
      match matchPats c vs (k.pat :: k.pats) s with
      | some (true, vs', s') => some (true, vs', s')
      | some (false, vs', s') => matchCases c vs' ks s'
      | none => none := by
  rw [matchCases]
  rfl

end Verif.BuildFlow
