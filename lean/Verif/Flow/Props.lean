import Verif.Flow.Complete

/-!
# Control flow in buildfiles: properties

C69: exactly the selected lines of a buildfile are executed, in order.
-/

namespace Verif.Flow

/-- What loading a buildfile comes to, given how its statements end. -/
inductive Loads {σ : Type} : Res σ → Out σ → Prop
  | ok {s} : Loads (.ok s) (.ok s [])
  | err {s} : Loads (.err s) (.err s)

/-- Statements one after another. -/
def Stmts.append : Stmts → Stmts → Stmts
  | .nil, ys => ys
  | .cons x xs, ys => .cons x (xs.append ys)

/-! ## Lemmas -/

theorem out_inj {σ : Type} {rest : List Line} {a b : Res σ} (h : a.out rest = b.out rest) :
    a = b := by
  cases a <;> cases b <;> simp [Res.out] at h <;> simp [h]

theorem no_jump {σ V : Type} {S : Sem σ V} {l : Bool} {c : Code V} {s : σ} {r : Res σ}
    (h : Run S l c s r) : (l = false ∨ (∃ x vs b, c = .each x vs b) ∨ ∃ neg d b, c = .rep neg d b) →
      (∃ s', r = .ok s') ∨ ∃ s', r = .err s' := by
  induction h with
  | nil | none | noCase | eachNil | repEnd | eachBrk | repBrk =>
    exact fun _ => .inl ⟨_, rfl⟩
  | iteBad | elifBad | switchBad | caseBad | dfltBad | forBad | eachBad | eachErr | repBad
    | repErr | brkBad | contBad | dirBad => exact fun _ => .inr ⟨_, rfl⟩
  | brk => intro h; simp at h
  | cont => intro h; simp at h
  | @text l k s => intro _; cases S.text k s; exact .inr ⟨_, rfl⟩; exact .inl ⟨_, rfl⟩
  | @rule l k c s => intro _; cases S.recipe k c s; exact .inr ⟨_, rfl⟩; exact .inl ⟨_, rfl⟩
  | cons _ _ _ h => intro hl; exact h (by simpa using hl)
  | stop _ _ h => intro hl; exact h (by simpa using hl)
  | line _ h => intro hl; exact h (by simpa using hl)
  | block _ h => intro hl; exact h (by simpa using hl)
  | iteTrue _ _ h => intro hl; exact h (by simpa using hl)
  | iteFalse _ _ h => intro hl; exact h (by simpa using hl)
  | elifTrue _ _ h => intro hl; exact h (by simpa using hl)
  | elifFalse _ _ h => intro hl; exact h (by simpa using hl)
  | els _ h => intro hl; exact h (by simpa using hl)
  | switch _ _ h => intro hl; exact h (by simpa using hl)
  | caseHit _ _ h => intro hl; exact h (by simpa using hl)
  | caseMiss _ _ h => intro hl; exact h (by simpa using hl)
  | dflt _ _ h => intro hl; exact h (by simpa using hl)
  | for_ _ _ h => intro _; exact h (by simp)
  | eachOk _ _ _ _ h => intro _; exact h (by simp)
  | eachCont _ _ _ _ h => intro _; exact h (by simp)
  | while_ _ h => intro _; exact h (by simp)
  | repOk _ _ _ _ h => intro _; exact h (by simp)
  | repCont _ _ _ _ h => intro _; exact h (by simp)
  | dir _ _ h =>
    intro hl
    rcases h (by simpa using hl) with ⟨s', rfl⟩ | ⟨s', rfl⟩
    · exact .inl ⟨_, rfl⟩
    · exact .inr ⟨_, rfl⟩

theorem loads_iff {σ V : Type} {S : Sem σ V} {ss : Stmts} {s : σ} {r : Res σ} {o : Out σ}
    (h : Run S false (.stmts ss) s r) : Loads r o ↔ o = r.out [] := by
  rcases no_jump h (.inl rfl) with ⟨s', rfl⟩ | ⟨s', rfl⟩
  · exact ⟨fun h => by cases h; rfl, fun h => h ▸ .ok⟩
  · exact ⟨fun h => by cases h; rfl, fun h => h ▸ .err⟩

theorem file_out {σ V : Type} {S : Sem σ V} {n : Nat} {ss : Stmts} {s : σ} {r : Res σ}
    (h : clause S n false (ss.print ++ []) s = some (r.out [])) :
    file S n ss.print s = some (r.out []) := by
  rw [List.append_nil] at h
  rw [file, h]
  cases r <;> rfl

/-! ## Properties -/

/-- C69: a buildfile, written as lines, loads with some result exactly if this is the result of
executing its conditions, switches, loops and scopes as they are nested. -/
theorem file_iff {σ V : Type} (S : Sem σ V) (ss : Stmts) (hs : ss.Ok) (s : σ) (o : Out σ) :
    (∃ n, file S n ss.print s = some o) ↔ ∃ r, Run S false (.stmts ss) s r ∧ Loads r o := by
  constructor
  · rintro ⟨n, h⟩
    cases hc : clause S n false ss.print s with
    | none => rw [file, hc] at h; cases h
    | some o' =>
      rw [← List.append_nil ss.print] at hc
      obtain ⟨r, h1, rfl⟩ := (sound S n).clauseS ss hs false [] s o' rfl hc
      rw [file_out hc] at h
      injection h with h
      exact ⟨r, h1, (loads_iff h1).2 h.symm⟩
  · rintro ⟨r, h1, h2⟩
    obtain ⟨N, h⟩ := complete h1 hs [] rfl
    rw [(loads_iff h1).1 h2]
    exact ⟨N, file_out (h N (Nat.le_refl _))⟩

/-- C69: more depth than is needed makes no difference, and there is one result. -/
theorem file_unique {σ V : Type} (S : Sem σ V) (ss : Stmts) (hs : ss.Ok) (s : σ) (o o' : Out σ)
    (n n' : Nat) (h : file S n ss.print s = some o) (h' : file S n' ss.print s = some o') :
    o = o' := by
  obtain ⟨r, h1, h2⟩ := (file_iff S ss hs s o).1 ⟨n, h⟩
  obtain ⟨r', h1', h2'⟩ := (file_iff S ss hs s o').1 ⟨n', h'⟩
  rw [(loads_iff h1).1 h2, (loads_iff h1').1 h2']
  obtain ⟨N, e⟩ := complete h1 hs [] rfl
  obtain ⟨N', e'⟩ := complete h1' hs [] rfl
  have a := e (max N N') (by omega)
  rw [e' (max N N') (by omega)] at a
  injection a with a
  exact a.symm

/-- C69: `break` and `continue` do not go past the loops that they are in. -/
theorem no_escape {σ V : Type} (S : Sem σ V) (ss : Stmts) (hs : ss.Ok) (s : σ) (n : Nat)
    (o : Out σ) (h : file S n ss.print s = some o) : (∃ s', o = .ok s' []) ∨ ∃ s', o = .err s' := by
  obtain ⟨r, _, h2⟩ := (file_iff S ss hs s o).1 ⟨n, h⟩
  cases h2
  · exact .inl ⟨_, rfl⟩
  · exact .inr ⟨_, rfl⟩

theorem append_ok {xs ys : Stmts} (hx : xs.Ok) (hy : ys.Ok) : (xs.append ys).Ok := by
  match xs, hx with
  | .nil, _ => exact hy
  | .cons x xs, hx =>
    rw [Stmts.Ok] at hx
    rw [Stmts.append, Stmts.Ok]
    exact ⟨hx.1, append_ok hx.2 hy⟩

/-- How statements followed by others are executed. -/
theorem run_append {σ V : Type} {S : Sem σ V} {l : Bool} (xs ys : Stmts) {s : σ} {r : Res σ} :
    Run S l (.stmts (xs.append ys)) s r ↔
      (∃ s', Run S l (.stmts xs) s (.ok s') ∧ Run S l (.stmts ys) s' r) ∨
      (Run S l (.stmts xs) s r ∧ ∀ s', r ≠ .ok s') := by
  match xs with
  | .nil =>
    rw [Stmts.append]
    constructor
    · exact fun h => .inl ⟨s, .nil, h⟩
    · rintro (⟨s', h1, h2⟩ | ⟨h1, h2⟩)
      · cases h1; exact h2
      · cases h1; exact absurd rfl (h2 _)
  | .cons x xs =>
    rw [Stmts.append]
    constructor
    · intro h
      cases h with
      | cons h1 h2 =>
        rcases (run_append xs ys).1 h2 with ⟨s', h3, h4⟩ | ⟨h3, h4⟩
        · exact .inl ⟨s', .cons h1 h3, h4⟩
        · exact .inr ⟨.cons h1 h3, h4⟩
      | stop h1 h2 => exact .inr ⟨.stop h1 h2, h2⟩
    · rintro (⟨s', h1, h2⟩ | ⟨h1, h2⟩)
      · cases h1 with
        | cons h3 h4 => exact .cons h3 ((run_append xs ys).2 (.inl ⟨s', h4, h2⟩))
        | stop h3 h4 => exact absurd rfl (h4 _)
      · cases h1 with
        | cons h3 h4 => exact .cons h3 ((run_append xs ys).2 (.inr ⟨h4, h2⟩))
        | stop h3 h4 => exact .stop h3 h4

theorem run_head {σ V : Type} {S : Sem σ V} {x : Stmt} {xs ys : Stmts} {s : σ}
    (h : ∀ r, Run S false (.stmt x) s r ↔ Run S false (.stmts xs) s r) (r : Res σ) :
    Run S false (.stmts (.cons x ys)) s r ↔ Run S false (.stmts (xs.append ys)) s r := by
  rw [run_append]
  constructor
  · intro h'
    cases h' with
    | cons h1 h2 => exact .inl ⟨_, (h _).1 h1, h2⟩
    | stop h1 h2 => exact .inr ⟨(h _).1 h1, h2⟩
  · rintro (⟨s', h1, h2⟩ | ⟨h1, h2⟩)
    · exact .cons ((h _).2 h1) h2
    · exact .stop ((h _).2 h1) h2

theorem file_same {σ V : Type} {S : Sem σ V} {xs ys : Stmts} (hx : xs.Ok) (hy : ys.Ok) {s : σ}
    (h : ∀ r, Run S false (.stmts xs) s r ↔ Run S false (.stmts ys) s r) (o : Out σ) :
    (∃ n, file S n xs.print s = some o) ↔ ∃ n, file S n ys.print s = some o := by
  rw [file_iff S xs hx, file_iff S ys hy]
  exact ⟨fun ⟨r, h1, h2⟩ => ⟨r, (h r).1 h1, h2⟩, fun ⟨r, h1, h2⟩ => ⟨r, (h r).2 h1, h2⟩⟩

/-- C69: if the condition holds then it is as if only the lines of the first branch were there,
whatever is in the others. -/
theorem if_taken {σ V : Type} (S : Sem σ V) (neg : Bool) (c : Nat) (xs ss : Stmts) (e : Else)
    (hx : xs.Ok) (he : e.Ok) (hs : ss.Ok) (s : σ) (hc : S.cond c s = some (!neg)) (o : Out σ) :
    (∃ n, file S n (Stmts.cons (.ite neg c (.block xs) e) ss).print s = some o) ↔
      ∃ n, file S n (xs.append ss).print s = some o := by
  refine file_same (by rw [Stmts.Ok, Stmt.Ok, Body.Ok]; exact ⟨⟨hx, he⟩, hs⟩) (append_ok hx hs)
    (run_head fun r => ?_) o
  constructor
  · intro h
    cases h with
    | iteBad h1 => rw [hc] at h1; cases h1
    | iteTrue _ h2 => cases h2 with | block h3 => exact h3
    | iteFalse h1 _ => rw [hc] at h1; cases neg <;> simp at h1
  · exact fun h => .iteTrue hc (.block h)

/-- C69: if it does not then it is as if only the lines of `else` were there, whatever is in the
first branch, -/
theorem if_else {σ V : Type} (S : Sem σ V) (neg : Bool) (c : Nat) (b : Body) (xs ss : Stmts)
    (hb : b.Ok) (hx : xs.Ok) (hs : ss.Ok) (s : σ) (hc : S.cond c s = some neg) (o : Out σ) :
    (∃ n, file S n (Stmts.cons (.ite neg c b (.els (.block xs))) ss).print s = some o) ↔
      ∃ n, file S n (xs.append ss).print s = some o := by
  refine file_same (by rw [Stmts.Ok, Stmt.Ok, Else.Ok, Body.Ok]; exact ⟨⟨hb, hx⟩, hs⟩)
    (append_ok hx hs) (run_head fun r => ?_) o
  constructor
  · intro h
    cases h with
    | iteBad h1 => rw [hc] at h1; cases h1
    | iteTrue h1 _ => rw [hc] at h1; cases neg <;> simp at h1
    | iteFalse _ h2 => cases h2 with | els h3 => cases h3 with | block h4 => exact h4
  · exact fun h => .iteFalse hc (.els (.block h))

/-- C69: or nothing, -/
theorem if_untaken {σ V : Type} (S : Sem σ V) (neg : Bool) (c : Nat) (b : Body) (ss : Stmts)
    (hb : b.Ok) (hs : ss.Ok) (s : σ) (hc : S.cond c s = some neg) (o : Out σ) :
    (∃ n, file S n (Stmts.cons (.ite neg c b .none) ss).print s = some o) ↔
      ∃ n, file S n ss.print s = some o := by
  refine file_same (by rw [Stmts.Ok, Stmt.Ok, Else.Ok]; exact ⟨⟨hb, trivial⟩, hs⟩)
    hs (run_head (xs := .nil) fun r => ?_) o
  constructor
  · intro h
    cases h with
    | iteBad h1 => rw [hc] at h1; cases h1
    | iteTrue h1 _ => rw [hc] at h1; cases neg <;> simp at h1
    | iteFalse _ h2 => cases h2; exact .nil
  · intro h
    cases h
    exact .iteFalse hc .none

/-- C69: or the first of the others for which the condition holds. -/
theorem if_elif {σ V : Type} (S : Sem σ V) (neg neg' : Bool) (c c' : Nat) (b b' : Body) (e : Else)
    (ss : Stmts) (hb : b.Ok) (hb' : b'.Ok) (he : e.Ok) (hs : ss.Ok) (s : σ)
    (hc : S.cond c s = some neg) (o : Out σ) :
    (∃ n, file S n (Stmts.cons (.ite neg c b (.elif neg' c' b' e)) ss).print s = some o) ↔
      ∃ n, file S n (Stmts.cons (.ite neg' c' b' e) ss).print s = some o := by
  refine file_same (by rw [Stmts.Ok, Stmt.Ok, Else.Ok]; exact ⟨⟨hb, hb', he⟩, hs⟩)
    (by rw [Stmts.Ok, Stmt.Ok]; exact ⟨⟨hb', he⟩, hs⟩) (fun r => ?_) o
  have h : ∀ r, Run S false (.stmt (.ite neg c b (.elif neg' c' b' e))) s r ↔
      Run S false (.stmt (.ite neg' c' b' e)) s r := by
    intro r
    constructor
    · intro h
      cases h with
      | iteBad h1 => rw [hc] at h1; cases h1
      | iteTrue h1 _ => rw [hc] at h1; cases neg <;> simp at h1
      | iteFalse _ h2 => exact run_ite.1 h2
    · exact fun h => .iteFalse hc (run_ite.2 h)
  constructor
  · intro h'
    cases h' with
    | cons h1 h2 => exact .cons ((h _).1 h1) h2
    | stop h1 h2 => exact .stop ((h _).1 h1) h2
  · intro h'
    cases h' with
    | cons h1 h2 => exact .cons ((h _).2 h1) h2
    | stop h1 h2 => exact .stop ((h _).2 h1) h2

/-- C69: a loop whose condition does not hold (any more) does nothing. -/
theorem while_ends {σ V : Type} (S : Sem σ V) (neg : Bool) (c : Nat) (b : Body) (ss : Stmts)
    (hb : b.Ok) (hs : ss.Ok) (s : σ) (hc : S.cond c s = some neg) (o : Out σ) :
    (∃ n, file S n (Stmts.cons (.while_ neg c b) ss).print s = some o) ↔
      ∃ n, file S n ss.print s = some o := by
  refine file_same (by rw [Stmts.Ok, Stmt.Ok]; exact ⟨hb, hs⟩) hs
    (run_head (xs := .nil) fun r => ?_) o
  have hne : ∀ h1 : S.cond c s = some (!neg), False := by
    intro h1; rw [hc] at h1; cases neg <;> simp at h1
  constructor
  · intro h
    cases h with
    | while_ h =>
      cases h with
      | repBad h1 => rw [hc] at h1; cases h1
      | repEnd _ => exact .nil
      | repOk h1 _ _ => exact (hne h1).elim
      | repCont h1 _ _ => exact (hne h1).elim
      | repBrk h1 _ => exact (hne h1).elim
      | repErr h1 _ => exact (hne h1).elim
  · intro h
    cases h
    exact .while_ (.repEnd hc)

/-- C69: a loop over no elements only has its variable. -/
theorem for_empty {σ V : Type} (S : Sem σ V) (x v : Nat) (b : Body) (ss : Stmts) (hb : b.Ok)
    (hs : ss.Ok) (s : σ) (hv : S.items v s = some []) (o : Out σ) :
    (∃ n, file S n (Stmts.cons (.for_ x v b) ss).print s = some o) ↔
      ∃ n, file S n ss.print (S.declare x s) = some o := by
  rw [file_iff S _ (by rw [Stmts.Ok, Stmt.Ok]; exact ⟨hb, hs⟩), file_iff S ss hs]
  constructor
  · rintro ⟨r, h1, h2⟩
    have key : ∀ r', Run S false (.stmt (.for_ x v b)) s r' → r' = .ok (S.declare x s) := by
      intro r' h
      cases h with
      | forBad h => rw [hv] at h; cases h
      | for_ h h' =>
        rw [hv] at h
        injection h with h
        subst h
        cases h'
        rfl
    cases h1 with
    | cons h3 h4 =>
      cases key _ h3
      exact ⟨r, h4, h2⟩
    | stop h3 h4 => exact absurd (key _ h3) (h4 _)
  · rintro ⟨r, h1, h2⟩
    exact ⟨r, .cons (.for_ hv .eachNil) h1, h2⟩

/-! ## A case -/

/-- The lines that have been executed and how many more times condition 2 holds. Condition 0 is
false, 1 is true. Values are numbers and match patterns that are the same. -/
def demo : Sem (List Nat × Nat) Nat where
  text k s := if k = 99 then .error s else .ok (s.1 ++ [k], s.2)
  recipe k c s := .ok (s.1 ++ [k, c.length], s.2)
  cond c s := if c = 2 then some (s.1.length < 4) else if c < 2 then some (c == 1) else none
  vals e _ := some [e, e + 1]
  hit v p _ := some (v == p)
  items v _ := some (List.replicate v v)
  declare _ s := s
  set _ v s := some (s.1 ++ [v], s.2)
  enter d s := some (s.1, d)
  leave s s' := (s'.1, s.2)

/-- An `if` with a loop in it, a switch with several lines of patterns, and a loop with `break`
in a scope. -/
def ex : Stmts :=
  .cons (.ite false 1 (.block (.cons (.while_ false 2 (.line (.text 5))) .nil))
    (.els (.line (.text 6))))
  (.cons (.switch 3 (.case_ [[7]] [[[1, 3], [4]]] (.line (.text 8)) (.dflt [] (.line (.text 9)))))
  (.cons (.dir 4 (.cons (.for_ 0 2 (.block (.cons (.text 10)
    (.cons (.ite true 0 (.line .brk) .none) (.cons (.text 11) .nil))))) .nil))
  (.cons (.rule 12 [.lcb, .text 1, .rcb]) .nil)))

theorem ex_ok : ex.Ok := by
  simp only [ex, Stmts.Ok, Stmt.Ok, Body.Ok, Else.Ok, Cases.Ok, Stmt.Short]
  have h : Balanced [Line.lcb, .text 1, .rcb] :=
    .block (as := [.text 1]) (.line (by simp) (by simp) .nil) .nil
  simp [h]

example : file demo 40 ex.print ([], 0) = some (.ok ([5, 5, 5, 5, 8, 2, 10, 12, 3], 0) []) := by
  rfl

example : ∃ r, Run demo false (.stmts ex) ([], 0) r ∧
    Loads r (.ok ([5, 5, 5, 5, 8, 2, 10, 12, 3], 0) []) :=
  (file_iff demo ex ex_ok _ _).1 ⟨40, rfl⟩

example : demo.cond 1 ([], 0) = some (!false) ∧ demo.cond 0 ([], 0) = some false ∧
    demo.items 0 ([], 0) = some [] := ⟨rfl, rfl, rfl⟩

/-! ## What is false of the code

Without `Ok`. -/

/-- Where a branch that is not taken is a line with a condition, this condition's branch is
executed: skipped is one line. -/
def nested : Stmts :=
  .cons (.ite false 0 (.line (.ite false 1 (.line (.text 7)) .none)) .none) .nil

theorem nested_executed :
    file demo 40 nested.print ([], 0) = some (.ok ([7], 0) []) ∧
      ∀ r, Run demo false (.stmts nested) ([], 0) r → r = .ok ([], 0) := by
  refine ⟨rfl, fun r h => ?_⟩
  have key : ∀ r', Run demo false (.stmt (.ite false 0 (.line (.ite false 1 (.line (.text 7)) .none))
      .none)) ([], 0) r' → r' = .ok ([], 0) := by
    intro r' h
    cases h with
    | iteBad h => cases h
    | iteTrue h _ => cases h
    | iteFalse _ h => cases h; rfl
  cases h with
  | cons h1 h2 => cases key _ h1; cases h2; rfl
  | stop h1 h2 => exact absurd (key _ h1) (h2 _)

/-- The same where it is a block: it is executed for `if` but is an error for a loop, since the
body of the loop is one line. -/
theorem nested_loop_fails :
    file demo 40 (Stmts.cons (.for_ 0 1 (.line (.ite false 1 (.line (.text 7)) .none))) .nil).print
      ([], 0) = some (.err ([1], 0)) ∧
    Run demo false (.stmts (.cons (.for_ 0 1 (.line (.ite false 1 (.line (.text 7)) .none))) .nil))
      ([], 0) (.ok ([1, 7], 0)) := by
  refine ⟨rfl, .cons (.for_ rfl (.eachOk rfl (.line (.iteTrue rfl (.line .text))) .eachNil)) .nil⟩

/-- A recipe that is skipped and has an unmatched brace in it: lines after the brace are executed
(here the rest of the recipe, up to the error for what should have been its end). -/
theorem recipe_brace_executed :
    file demo 40 (Stmts.cons (.ite false 0 (.block (.cons (.rule 1 [.rcb, .text 7]) .nil)) .none)
      .nil).print ([], 0) = some (.err ([7], 0)) ∧
    Run demo false (.stmts (.cons (.ite false 0 (.block (.cons (.rule 1 [.rcb, .text 7]) .nil))
      .none) .nil)) ([], 0) (.ok ([], 0)) := by
  exact ⟨rfl, .cons (.iteFalse rfl .none) .nil⟩

/-- While the same is fine if it is not skipped. -/
example : file demo 40 (Stmts.cons (.ite false 1 (.block (.cons (.rule 1 [.rcb, .text 7]) .nil))
    .none) .nil).print ([], 0) = some (.ok ([1, 2], 0) []) := rfl

/-- `}}` ends the body of a loop that is a block without an error. -/
theorem stray_end_accepted :
    file demo 40 [.for_ 0 1, .lcb, .text 5, .mrcb, .text 6, .rcb] ([], 0) =
      some (.ok ([1, 5], 0) []) := rfl

end Verif.Flow
