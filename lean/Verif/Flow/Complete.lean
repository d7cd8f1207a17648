import Verif.Flow.Sound

/-! # Control flow in buildfiles: what is written is executed -/

namespace Verif.Flow

/-- This is the result given enough depth. -/
def Ev {α : Type} (f : Nat → Option α) (o : α) : Prop := ∃ N, ∀ n, N ≤ n → f n = some o

theorem Ev.succ {α : Type} {f : Nat → Option α} {o : α} (h : Ev (fun n => f (n + 1)) o) :
    Ev f o := by
  obtain ⟨N, h⟩ := h
  refine ⟨N + 1, fun n hn => ?_⟩
  cases n with
  | zero => omega
  | succ n => exact h n (by omega)

theorem Ev.of {α : Type} {f : Nat → Option α} {o : α} (h : ∀ n, f n = some o) : Ev f o :=
  ⟨0, fun n _ => h n⟩

/-- To go on with a result. -/
theorem Ev.use {α β : Type} {f : Nat → Option α} {o : α} {g : Nat → Option β} {p : β}
    (hf : Ev f o) (h : ∀ n, f n = some o → g n = some p) : Ev g p := by
  obtain ⟨N, hf⟩ := hf
  exact ⟨N, fun n hn => h n (hf n hn)⟩

theorem Ev.use2 {α β γ : Type} {f : Nat → Option α} {o : α} {f' : Nat → Option γ} {o' : γ}
    {g : Nat → Option β} {p : β} (hf : Ev f o) (hf' : Ev f' o')
    (h : ∀ n, f n = some o → f' n = some o' → g n = some p) : Ev g p := by
  obtain ⟨N, hf⟩ := hf
  obtain ⟨M, hf'⟩ := hf'
  exact ⟨max N M, fun n hn => h n (hf n (by omega)) (hf' n (by omega))⟩

/-- To go on with a result one deeper. -/
theorem Ev.succ' {α β : Type} {f : Nat → Option α} {o : α} {g : Nat → Option β} {p : β}
    (hf : Ev f o) (h : ∀ n, f (n + 1) = some o → g n = some p) : Ev g p := by
  obtain ⟨N, hf⟩ := hf
  exact ⟨N, fun n hn => h n (hf (n + 1) (by omega))⟩

/-- What `link` does after a branch. -/
def after {σ V : Type} (S : Sem σ V) (l taken : Bool) (ls : List Line) (s : σ) (n : Nat) :
    Option (Out σ) :=
  if isElse ls then chain S n l taken ls s else some (.ok s ls)

theorem skip_else {σ V : Type} (S : Sem σ V) (l : Bool) (s : σ) : (e : Else) → e.Ok →
    ∀ rest, isElse rest = false → Ev (after S l true (e.print ++ rest) s) (.ok s rest)
  | .none, _, rest, hr => by
    rw [else_none]
    exact .of fun n => by rw [after, hr]; rfl
  | .els b, he, rest, hr => by
    rw [Else.Ok] at he
    refine .succ (.succ (.of fun n => ?_))
    rw [after, if_pos (else_isElse (by simp) _), Else.print, List.cons_append, chain,
      show (!true) = false from rfl, branch_skip S n l false he]
  | .elif neg c b e, he, rest, hr => by
    rw [Else.Ok] at he
    refine .succ (.succ (.succ ((skip_else S l s e he.2 rest hr).succ' fun n h => ?_)))
    rw [after, if_pos (else_isElse (by simp) _), Else.print, List.cons_append, List.cons_append,
      chain, List.append_assoc, link, if_pos rfl]
    dsimp only
    rw [branch_skip S n l false he.1]
    exact h

theorem skip_cases {σ V : Type} (S : Sem σ V) (l : Bool) (vs : List V) (s : σ) : (cs : Cases) →
    cs.Ok → ∀ rest, Ev (fun n => cases S n l vs true false (cs.print ++ .rcb :: rest) s)
      (.ok s rest)
  | .nil, _, rest => by
    refine .succ (.of fun n => ?_)
    rw [Cases.print, List.nil_append, cases_end]
  | .dflt ps b, hcs, rest => by
    rw [Cases.Ok] at hcs
    have e : Cases.print (.dflt ps b) ++ .rcb :: rest =
        ps.map .case_ ++ (.dflt :: (b.print ++ .rcb :: rest)) := by
      rw [Cases.print]; simp
    refine .succ (.succ (.of fun n => ?_))
    rw [cases_step S _ l vs true false (cases_special _ (by simp) _), e,
      pick_skip S s vs true false rfl, pick, if_neg (by simp),
      pick_other _ _ _ _ _ _ (body_isSpecial b _)]
    dsimp only
    rw [show (false || !true) = false from rfl, branch_skip S n l true hcs]
    dsimp only
    rw [cases_end]
  | .case_ p ps b cs, hcs, rest => by
    rw [Cases.Ok] at hcs
    have e : Cases.print (.case_ p ps b cs) ++ .rcb :: rest =
        (p :: ps).map .case_ ++ (b.print ++ (cs.print ++ .rcb :: rest)) := by
      rw [Cases.print]; simp
    refine .succ (.succ ((skip_cases S l vs s cs hcs.2 rest).succ' fun n h => ?_))
    rw [cases_step S _ l vs true false (cases_special _ (by simp) _), e,
      pick_skip S s vs true false rfl, pick_other _ _ _ _ _ _ (body_isSpecial b _)]
    dsimp only
    rw [branch_skip S n l true hcs.1]
    exact h

/-- What the parser does for some code. -/
def Parses {σ V : Type} (S : Sem σ V) (l : Bool) : Code V → σ → Res σ → Prop
  | .stmt x, s, r => x.Ok → ∀ rest, (x.Short ∨ isElse rest = false) →
      Ev (fun n => stmt S n l (x.print ++ rest) s) (r.out rest)
  | .stmts xs, s, r => xs.Ok → ∀ rest, stops rest = true →
      Ev (fun n => clause S n l (xs.print ++ rest) s) (r.out rest)
  | .body b, s, r => b.Ok →
      (∀ sw rest, Ev (fun n => branch S n l sw true (b.print ++ rest) s) (r.out rest)) ∧
      Ev (fun n => clause S n l (b.stmts.print ++ b.tail) s) (r.out b.tail)
  | .els e, s, r => e.Ok → ∀ rest, isElse rest = false →
      Ev (after S l false (e.print ++ rest) s) (r.out rest)
  | .cases vs cs, s, r => cs.Ok → ∀ rest,
      Ev (fun n => cases S n l vs false false (cs.print ++ .rcb :: rest) s) (r.out rest)
  | .each x vs b, s, r => b.Ok →
      Ev (fun n => each S n x vs b.isBlock (b.stmts.print ++ b.tail) s) (r.out [])
  | .rep neg c b, s, r => b.Ok →
      Ev (fun n => rep S n neg c b.isBlock (b.stmts.print ++ b.tail) s) (r.out [])

theorem stmts_parse {σ V : Type} {S : Sem σ V} {l : Bool} {x : Stmt} {xs : Stmts} {s s' : σ}
    {r : Res σ} (h1 : Parses S l (.stmt x) s (.ok s')) (h2 : Parses S l (.stmts xs) s' r) :
    Parses S l (.stmts (.cons x xs)) s r := by
  intro hxs rest hr
  rw [Stmts.Ok] at hxs
  refine .succ ((h1 hxs.1 (xs.print ++ rest) (.inr (stmts_isElse xs hr))).use2
    (h2 hxs.2 rest hr) fun n e1 e2 => ?_)
  rw [Stmts.print, List.append_assoc, clause, if_neg (by rw [stmt_stops]; simp), e1]
  exact e2

theorem stop_parse {σ V : Type} {S : Sem σ V} {l : Bool} {x : Stmt} {xs : Stmts} {s : σ}
    {r : Res σ} (h1 : Parses S l (.stmt x) s r) (h2 : ∀ s', r ≠ .ok s') :
    Parses S l (.stmts (.cons x xs)) s r := by
  intro hxs rest hr
  rw [Stmts.Ok] at hxs
  refine .succ ((h1 hxs.1 (xs.print ++ rest) (.inr (stmts_isElse xs hr))).use fun n e1 => ?_)
  rw [Stmts.print, List.append_assoc, clause, if_neg (by rw [stmt_stops]; simp), e1]
  cases r with
  | ok s' => exact absurd rfl (h2 s')
  | _ => rfl

theorem nil_parse {σ V : Type} {S : Sem σ V} {l : Bool} {s : σ} :
    Parses S l (.stmts .nil) s (.ok s) := by
  intro _ rest hr
  refine .succ (.of fun n => ?_)
  rw [Stmts.print, List.nil_append, clause, if_pos hr]
  rfl

theorem line_parse {σ V : Type} {S : Sem σ V} {l : Bool} {x : Stmt} {s : σ}
    {r : Res σ} (h : Parses S l (.stmt x) s r) : Parses S l (.body (.line x)) s r := by
  intro hb
  have hb' := hb
  rw [Body.Ok] at hb
  refine ⟨fun sw rest => ?_, ?_⟩
  · refine .succ ((h (Short.ok hb) rest (.inl hb)).use fun n e => ?_)
    rw [Body.print, branch_line, e]
  · have hx : Stmts.Ok (.cons x .nil) := body_stmts_ok hb'
    cases r with
    | ok s' => exact stmts_parse h nil_parse hx _ rfl
    | brk s' => exact stop_parse h (by simp) hx _ rfl
    | cont s' => exact stop_parse h (by simp) hx _ rfl
    | err s' => exact stop_parse h (by simp) hx _ rfl

theorem block_parse {σ V : Type} {S : Sem σ V} {l : Bool} {xs : Stmts} {s : σ}
    {r : Res σ} (h : Parses S l (.stmts xs) s r) : Parses S l (.body (.block xs)) s r := by
  intro hb
  rw [Body.Ok] at hb
  refine ⟨fun sw rest => ?_, ?_⟩
  · refine .succ ((h hb (.rcb :: rest) rfl).use fun n e => ?_)
    rw [branch_block, e, Option.map_some, close_out]
  · exact h hb [.rcb] rfl

/-- A condition that holds. -/
theorem taken_parse {σ V : Type} {S : Sem σ V} {l neg : Bool} {c : Nat} {b : Body} {e : Else}
    {s : σ} {r : Res σ} (hc : S.cond c s = some (!neg)) (h : Parses S l (.body b) s r)
    (hb : b.Ok) (he : e.Ok) (rest : List Line) (hr : isElse rest = false) :
    Ev (fun n => link S n l false neg c (b.print ++ (e.print ++ rest)) s) (r.out rest) := by
  have hn : ((!neg) != neg) = true := by cases neg <;> rfl
  cases r with
  | ok s' =>
    refine .succ (((h hb).1 false (e.print ++ rest)).use2 (skip_else S l s' e he rest hr)
      fun n e1 e2 => ?_)
    rw [link, if_neg (by simp), hc, Option.map_some, hn]
    dsimp only
    rw [e1]
    exact e2
  | brk s' =>
    refine .succ (((h hb).1 false (e.print ++ rest)).use fun n e1 => ?_)
    rw [link, if_neg (by simp), hc, Option.map_some, hn]
    dsimp only
    rw [e1]
    rfl
  | cont s' =>
    refine .succ (((h hb).1 false (e.print ++ rest)).use fun n e1 => ?_)
    rw [link, if_neg (by simp), hc, Option.map_some, hn]
    dsimp only
    rw [e1]
    rfl
  | err s' =>
    refine .succ (((h hb).1 false (e.print ++ rest)).use fun n e1 => ?_)
    rw [link, if_neg (by simp), hc, Option.map_some, hn]
    dsimp only
    rw [e1]
    rfl

theorem untaken_parse {σ V : Type} {S : Sem σ V} {l neg : Bool} {c : Nat} {b : Body} {e : Else}
    {s : σ} {r : Res σ} (hc : S.cond c s = some neg) (h : Parses S l (.els e) s r)
    (hb : b.Ok) (he : e.Ok) (rest : List Line) (hr : isElse rest = false) :
    Ev (fun n => link S n l false neg c (b.print ++ (e.print ++ rest)) s) (r.out rest) := by
  have hn : (neg != neg) = false := by cases neg <;> rfl
  refine .succ (.succ ((h he rest hr).succ' fun n e1 => ?_))
  rw [link, if_neg (by simp), hc, Option.map_some, hn]
  dsimp only
  rw [branch_skip S n l false hb]
  exact e1

theorem bad_parse {σ V : Type} {S : Sem σ V} {l neg : Bool} {c : Nat} {s : σ}
    (hc : S.cond c s = none) (ls : List Line) (rest : List Line) :
    Ev (fun n => link S n l false neg c ls s) ((Res.err s).out rest) := by
  refine .succ (.of fun n => ?_)
  rw [link, if_neg (by simp), hc]
  rfl

theorem ite_parse {σ V : Type} {S : Sem σ V} {l neg : Bool} {c : Nat} {b : Body} {e : Else}
    {s : σ} {r : Res σ} (h : b.Ok → e.Ok → ∀ rest, isElse rest = false →
      Ev (fun n => link S n l false neg c (b.print ++ (e.print ++ rest)) s) (r.out rest)) :
    Parses S l (.stmt (.ite neg c b e)) s r := by
  intro hx rest hr
  rw [Stmt.Ok] at hx
  refine .succ (.succ ((h hx.1 hx.2 rest (hr.resolve_left (by simp [Stmt.Short]))).use
    fun n e1 => ?_))
  rw [Stmt.print, List.cons_append, List.cons_append, stmt, chain, List.append_assoc]
  exact e1

theorem elif_parse {σ V : Type} {S : Sem σ V} {l neg : Bool} {c : Nat} {b : Body} {e : Else}
    {s : σ} {r : Res σ} (h : b.Ok → e.Ok → ∀ rest, isElse rest = false →
      Ev (fun n => link S n l false neg c (b.print ++ (e.print ++ rest)) s) (r.out rest)) :
    Parses S l (.els (.elif neg c b e)) s r := by
  intro hx rest hr
  rw [Else.Ok] at hx
  refine .succ ((h hx.1 hx.2 rest hr).use fun n e1 => ?_)
  rw [after, if_pos (else_isElse (by simp) _), Else.print, List.cons_append, List.cons_append,
    chain, List.append_assoc]
  exact e1

/-- The iterations of loops. -/
theorem each_parse {σ V : Type} {S : Sem σ V} {l : Bool} {x : Nat} {v : V} {vs : List V}
    {b : Body} {s s1 : σ} {r' r : Res σ} (hv : S.set x v s = some s1)
    (h : Parses S true (.body b) s1 r')
    (hn : (∃ s2, (r' = .ok s2 ∨ r' = .cont s2) ∧ Parses S l (.each x vs b) s2 r) ∨
      (∃ s2, r' = .brk s2 ∧ r = .ok s2) ∨ ∃ s2, r' = .err s2 ∧ r = .err s2) :
    Parses S l (.each x (v :: vs) b) s r := by
  intro hb
  rcases hn with ⟨s2, rfl | rfl, h2⟩ | ⟨s2, rfl, rfl⟩ | ⟨s2, rfl, rfl⟩
  · refine .succ ((h hb).2.use2 (h2 hb) fun n e1 e2 => ?_)
    rw [each, hv]
    dsimp only
    rw [e1]
    dsimp only [Res.out]
    rw [if_pos (body_tail b).2, e2]
    rfl
  · refine .succ ((h hb).2.use2 (h2 hb) fun n e1 e2 => ?_)
    rw [each, hv]
    dsimp only
    rw [e1]
    exact e2
  · refine .succ ((h hb).2.use fun n e1 => ?_)
    rw [each, hv]
    dsimp only
    rw [e1]
    rfl
  · refine .succ ((h hb).2.use fun n e1 => ?_)
    rw [each, hv]
    dsimp only
    rw [e1]
    rfl

theorem rep_parse {σ V : Type} {S : Sem σ V} {l neg : Bool} {c : Nat}
    {b : Body} {s : σ} {r' r : Res σ} (hc : S.cond c s = some (!neg))
    (h : Parses S true (.body b) s r')
    (hn : (∃ s2, (r' = .ok s2 ∨ r' = .cont s2) ∧ Parses S l (.rep neg c b) s2 r) ∨
      (∃ s2, r' = .brk s2 ∧ r = .ok s2) ∨ ∃ s2, r' = .err s2 ∧ r = .err s2) :
    Parses S l (.rep neg c b) s r := by
  have hne : ¬ (((!neg) == neg) = true) := by cases neg <;> simp
  intro hb
  rcases hn with ⟨s2, rfl | rfl, h2⟩ | ⟨s2, rfl, rfl⟩ | ⟨s2, rfl, rfl⟩
  · refine .succ ((h hb).2.use2 (h2 hb) fun n e1 e2 => ?_)
    rw [rep, hc]
    dsimp only
    rw [if_neg hne, e1]
    dsimp only [Res.out]
    rw [if_pos (body_tail b).2, e2]
    rfl
  · refine .succ ((h hb).2.use2 (h2 hb) fun n e1 e2 => ?_)
    rw [rep, hc]
    dsimp only
    rw [if_neg hne, e1]
    exact e2
  · refine .succ ((h hb).2.use fun n e1 => ?_)
    rw [rep, hc]
    dsimp only
    rw [if_neg hne, e1]
    rfl
  · refine .succ ((h hb).2.use fun n e1 => ?_)
    rw [rep, hc]
    dsimp only
    rw [if_neg hne, e1]
    rfl

/-- The lines of a case with the value that they have. -/
theorem case_pick {σ V : Type} {S : Sem σ V} {s : σ} {vs : List V} {p : List (List Nat)}
    {ps : List (List (List Nat))} {t : Option Bool} (h : Rows S s vs (p :: ps) t) (b : Body)
    (cs : Cases) (rest : List Line) :
    pick S s vs false false false (Cases.print (.case_ p ps b cs) ++ .rcb :: rest) =
      t.map fun t => (t, false, b.print ++ (cs.print ++ .rcb :: rest)) := by
  have e : Cases.print (.case_ p ps b cs) ++ .rcb :: rest =
      .case_ p :: ps.map .case_ ++ (b.print ++ (cs.print ++ .rcb :: rest)) := by
    rw [Cases.print]; simp
  rw [e]
  rcases pick_case S s vs p ps b (cs.print ++ .rcb :: rest) with ⟨t', h1, h2⟩ | ⟨h1, h2⟩
  · cases Rows.unique h h1
    exact h2
  · cases Rows.unique h h1
    exact h2

theorem dflt_pick {σ V : Type} {S : Sem σ V} {s : σ} {vs : List V}
    {ps : List (List (List Nat))} {t : Option Bool} (h : Rows S s vs ps t) (b : Body)
    (rest : List Line) :
    pick S s vs false false false (Cases.print (.dflt ps b) ++ .rcb :: rest) =
      t.map fun _ => (true, true, b.print ++ .rcb :: rest) := by
  have e : Cases.print (.dflt ps b) ++ .rcb :: rest =
      ps.map .case_ ++ (.dflt :: b.print ++ .rcb :: rest) := by
    rw [Cases.print]; simp
  rw [e]
  rcases pick_dflt S s vs ps b (.rcb :: rest) with ⟨t', h1, h2⟩ | ⟨h1, h2⟩
  · cases Rows.unique h h1
    exact h2
  · cases Rows.unique h h1
    exact h2

theorem complete {σ V : Type} {S : Sem σ V} {l : Bool} {c : Code V} {s : σ} {r : Res σ}
    (h : Run S l c s r) : Parses S l c s r := by
  induction h with
  | nil => exact nil_parse
  | cons _ _ h1 h2 => exact stmts_parse h1 h2
  | stop _ h h1 => exact stop_parse h1 h
  | line _ h => exact line_parse h
  | block _ h => exact block_parse h
  | text =>
    intro _ rest _
    refine .succ (.of fun n => ?_)
    rw [Stmt.print, List.cons_append, stmt, out_of]
    rfl
  | @rule l k c s =>
    intro hx rest _
    rw [Stmt.Ok] at hx
    have e : Line.decl k :: Line.mlcb :: c ++ [.mrcb] ++ rest =
        Line.decl k :: Line.mlcb :: (c ++ .mrcb :: rest) := by simp
    refine .succ (.of fun n => ?_)
    rw [Stmt.print, e, stmt, recipe_text hx.1]
    dsimp only
    rw [out_of]
  | iteBad hc => exact ite_parse fun _ _ rest _ => bad_parse hc _ rest
  | iteTrue hc _ h => exact ite_parse (taken_parse hc h)
  | iteFalse hc _ h => exact ite_parse (untaken_parse hc h)
  | none =>
    intro _ rest hr
    rw [else_none]
    exact .of fun n => by rw [after, hr]; rfl
  | elifBad hc => exact elif_parse fun _ _ rest _ => bad_parse hc _ rest
  | elifTrue hc _ h => exact elif_parse (taken_parse hc h)
  | elifFalse hc _ h => exact elif_parse (untaken_parse hc h)
  | els _ h =>
    intro hx rest hr
    rw [Else.Ok] at hx
    refine .succ (((h hx).1 false rest).use fun n e1 => ?_)
    rw [after, if_pos (else_isElse (by simp) _), Else.print, List.cons_append, chain]
    exact e1
  | @switchBad l e cs s hv =>
    intro hx rest _
    have e' : Line.switch e :: Line.lcb :: cs.print ++ [.rcb] ++ rest =
        Line.switch e :: Line.lcb :: (cs.print ++ .rcb :: rest) := by simp
    refine .succ (.of fun n => ?_)
    rw [Stmt.print, e', stmt, hv]
    rfl
  | @switch l e cs s vs r hv _ h =>
    intro hx rest _
    rw [Stmt.Ok] at hx
    have e' : Line.switch e :: Line.lcb :: cs.print ++ [.rcb] ++ rest =
        Line.switch e :: Line.lcb :: (cs.print ++ .rcb :: rest) := by simp
    refine .succ ((h hx rest).use fun n e1 => ?_)
    rw [Stmt.print, e', stmt, hv]
    exact e1
  | noCase =>
    intro _ rest
    refine .succ (.of fun n => ?_)
    rw [Cases.print, List.nil_append, cases_end]
    rfl
  | @caseBad l vs p ps b cs s h =>
    intro hx rest
    refine .succ (.of fun n => ?_)
    rw [cases_step S n l vs false false (cases_special _ (by simp) _), case_pick h]
    rfl
  | @caseHit l vs p ps b cs s r h _ ih =>
    intro hx rest
    rw [Cases.Ok] at hx
    have e1 := (ih hx.1).1 true (cs.print ++ .rcb :: rest)
    cases r with
    | ok s' =>
      refine .succ (e1.use2 (skip_cases S l vs s' cs hx.2 rest) fun n e1 e2 => ?_)
      rw [cases_step S n l vs false false (cases_special _ (by simp) _), case_pick h,
        Option.map_some]
      dsimp only
      rw [e1]
      exact e2
    | brk s' =>
      refine .succ (e1.use fun n e1 => ?_)
      rw [cases_step S n l vs false false (cases_special _ (by simp) _), case_pick h,
        Option.map_some]
      dsimp only
      rw [e1]
      rfl
    | cont s' =>
      refine .succ (e1.use fun n e1 => ?_)
      rw [cases_step S n l vs false false (cases_special _ (by simp) _), case_pick h,
        Option.map_some]
      dsimp only
      rw [e1]
      rfl
    | err s' =>
      refine .succ (e1.use fun n e1 => ?_)
      rw [cases_step S n l vs false false (cases_special _ (by simp) _), case_pick h,
        Option.map_some]
      dsimp only
      rw [e1]
      rfl
  | @caseMiss l vs p ps b cs s r h _ ih =>
    intro hx rest
    rw [Cases.Ok] at hx
    refine .succ (.succ ((ih hx.2 rest).succ' fun n e1 => ?_))
    rw [cases_step S _ l vs false false (cases_special _ (by simp) _), case_pick h,
      Option.map_some]
    dsimp only
    rw [branch_skip S n l true hx.1]
    exact e1
  | @dfltBad l vs ps b s h =>
    intro hx rest
    refine .succ (.of fun n => ?_)
    rw [cases_step S n l vs false false (cases_special _ (by simp) _), dflt_pick h]
    rfl
  | @dflt l vs ps b s t r h _ ih =>
    intro hx rest
    rw [Cases.Ok] at hx
    have e1 := (ih hx).1 true (.rcb :: rest)
    cases r with
    | ok s' =>
      refine .succ (.succ (e1.succ' fun n e1 => ?_))
      rw [cases_step S _ l vs false false (cases_special _ (by simp) _), dflt_pick h,
        Option.map_some]
      dsimp only
      rw [e1]
      dsimp only [Res.out]
      rw [cases_end]
    | brk s' =>
      refine .succ (e1.use fun n e1 => ?_)
      rw [cases_step S n l vs false false (cases_special _ (by simp) _), dflt_pick h,
        Option.map_some]
      dsimp only
      rw [e1]
      rfl
    | cont s' =>
      refine .succ (e1.use fun n e1 => ?_)
      rw [cases_step S n l vs false false (cases_special _ (by simp) _), dflt_pick h,
        Option.map_some]
      dsimp only
      rw [e1]
      rfl
    | err s' =>
      refine .succ (e1.use fun n e1 => ?_)
      rw [cases_step S n l vs false false (cases_special _ (by simp) _), dflt_pick h,
        Option.map_some]
      dsimp only
      rw [e1]
      rfl
  | forBad hv =>
    intro hx rest _
    refine .succ (.of fun n => ?_)
    rw [Stmt.print, List.cons_append, stmt, hv]
    rfl
  | @for_ l x v b s vs r hv _ ih =>
    intro hx rest _
    rw [Stmt.Ok] at hx
    refine .succ ((ih hx).use fun n e1 => ?_)
    rw [Stmt.print, List.cons_append, stmt, hv, get_body hx]
    dsimp only
    rw [e1]
    cases r <;> rfl
  | eachNil =>
    intro _
    refine .succ (.of fun n => ?_)
    rw [each]
    rfl
  | eachBad hv =>
    intro _
    refine .succ (.of fun n => ?_)
    rw [each, hv]
    rfl
  | eachOk hv _ _ h1 h2 => exact each_parse hv h1 (.inl ⟨_, .inl rfl, h2⟩)
  | eachCont hv _ _ h1 h2 => exact each_parse hv h1 (.inl ⟨_, .inr rfl, h2⟩)
  | eachBrk hv _ h1 => exact each_parse hv h1 (.inr (.inl ⟨_, rfl, rfl⟩))
  | eachErr hv _ h1 => exact each_parse hv h1 (.inr (.inr ⟨_, rfl, rfl⟩))
  | @while_ l neg c b s r _ ih =>
    intro hx rest _
    rw [Stmt.Ok] at hx
    refine .succ ((ih hx).use fun n e1 => ?_)
    rw [Stmt.print, List.cons_append, stmt, get_body hx]
    dsimp only
    rw [e1]
    cases r <;> rfl
  | repBad hc =>
    intro _
    refine .succ (.of fun n => ?_)
    rw [rep, hc]
    rfl
  | repEnd hc =>
    intro _
    refine .succ (.of fun n => ?_)
    rw [rep, hc]
    dsimp only
    rw [if_pos (by simp)]
    rfl
  | repOk hc _ _ h1 h2 => exact rep_parse hc h1 (.inl ⟨_, .inl rfl, h2⟩)
  | repCont hc _ _ h1 h2 => exact rep_parse hc h1 (.inl ⟨_, .inr rfl, h2⟩)
  | repBrk hc _ h1 => exact rep_parse hc h1 (.inr (.inl ⟨_, rfl, rfl⟩))
  | repErr hc _ h1 => exact rep_parse hc h1 (.inr (.inr ⟨_, rfl, rfl⟩))
  | brk | brkBad | cont | contBad =>
    intro _ rest _
    refine .succ (.of fun n => ?_)
    rw [Stmt.print, List.cons_append, stmt]
    rfl
  | @dirBad l d ss s hd =>
    intro _ rest _
    have e : Line.dir d :: Line.lcb :: ss.print ++ [.rcb] ++ rest =
        Line.dir d :: Line.lcb :: (ss.print ++ .rcb :: rest) := by simp
    refine .succ (.of fun n => ?_)
    rw [Stmt.print, e, stmt, hd]
    rfl
  | @dir l d ss s s1 r hd _ ih =>
    intro hx rest _
    rw [Stmt.Ok] at hx
    have e : Line.dir d :: Line.lcb :: ss.print ++ [.rcb] ++ rest =
        Line.dir d :: Line.lcb :: (ss.print ++ .rcb :: rest) := by simp
    refine .succ ((ih hx (.rcb :: rest) rfl).use fun n e1 => ?_)
    rw [Stmt.print, e, stmt, hd]
    dsimp only
    rw [e1, Option.map_some, Option.map_some, close_out, leave_out]

end Verif.Flow
