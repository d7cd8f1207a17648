import Verif.Flow.Lemmas

/-! # Control flow in buildfiles: what is executed is what is written -/

namespace Verif.Flow

/-- How something ends, with what is after it. -/
def Res.out {σ : Type} (rest : List Line) : Res σ → Out σ
  | .ok s => .ok s rest
  | .brk s => .brk s
  | .cont s => .cont s
  | .err s => .err s

theorem out_of {σ : Type} (r : List Line) (x : Except σ σ) : Out.of r x = (Res.of x).out r := by
  cases x <;> rfl

/-- A branch that is not taken. -/
theorem branch_skip {σ V : Type} (S : Sem σ V) (n : Nat) (l sw : Bool) {b : Body} (hb : b.Ok)
    (rest : List Line) (s : σ) :
    branch S (n + 1) l sw false (b.print ++ rest) s = some (.ok s rest) := by
  cases b with
  | line x =>
    rw [Body.Ok] at hb
    rw [Body.print]
    obtain ⟨k, e⟩ := Short.line hb
    obtain ⟨k', r, e', hl, hs⟩ := x.first
    rw [e] at e'
    injection e' with e1 e2
    subst e1
    have hst := (hs rest).1
    rw [e, List.cons_append, List.nil_append]
    cases k <;> first | (exact absurd rfl hl) | (cases hst; done) | simp [branch]
  | block xs =>
    rw [Body.Ok] at hb
    have e : Line.lcb :: xs.print ++ [.rcb] ++ rest = Line.lcb :: (xs.print ++ Line.rcb :: rest) := by
      simp
    rw [Body.print, e, branch]
    simp [skip_block (xs.balanced hb)]

/-- A branch that is taken and is a line. -/
theorem branch_line {σ V : Type} (S : Sem σ V) (n : Nat) (l sw : Bool) (x : Stmt)
    (rest : List Line) (s : σ) :
    branch S (n + 1) l sw true (x.print ++ rest) s = stmt S n l (x.print ++ rest) s := by
  obtain ⟨k, r, e, hl, hs⟩ := x.first
  have hst := (hs (r ++ rest)).1
  rw [e, List.cons_append]
  cases k <;> first | (exact absurd rfl hl) | (cases hst; done) | simp [branch, hst]

theorem branch_block {σ V : Type} (S : Sem σ V) (n : Nat) (l sw : Bool) (xs : Stmts)
    (rest : List Line) (s : σ) :
    branch S (n + 1) l sw true ((Body.block xs).print ++ rest) s =
      (clause S n l (xs.print ++ .rcb :: rest) s).map closeBlock := by
  have e : Line.lcb :: xs.print ++ [.rcb] ++ rest = Line.lcb :: (xs.print ++ Line.rcb :: rest) := by
    simp
  rw [Body.print, e, branch]
  simp

theorem close_out {σ : Type} (r : Res σ) (rest : List Line) :
    closeBlock (r.out (.rcb :: rest)) = r.out rest := by
  cases r <;> rfl

theorem leave_out {σ : Type} (r : Res σ) (f : σ → σ) (rest : List Line) :
    (r.out rest).leave f = (r.map f).out rest := by
  cases r <;> rfl

theorem else_none (rest : List Line) : Else.none.print ++ rest = rest := by
  rw [Else.print, List.nil_append]

theorem else_isElse {e : Else} (h : e ≠ .none) (rest : List Line) :
    isElse (e.print ++ rest) = true := by
  cases e with
  | none => exact absurd rfl h
  | elif => rw [Else.print]; rfl
  | els => rw [Else.print]; rfl

/-- The cases of a switch are there or not. -/
theorem cases_special (cs : Cases) (h : cs ≠ .nil) (rest : List Line) :
    isSpecial (cs.print ++ rest) = true := by
  cases cs with
  | nil => exact absurd rfl h
  | case_ p ps b cs => rw [Cases.print]; rfl
  | dflt ps b =>
    rw [Cases.print]
    cases ps with
    | nil => rfl
    | cons p ps => rfl

theorem cases_step {σ V : Type} (S : Sem σ V) (n : Nat) (l : Bool) (vs : List V)
    (taken seen : Bool) {ls : List Line} (h : isSpecial ls = true) (s : σ) :
    cases S (n + 1) l vs taken seen ls s =
      match pick S s vs taken seen false ls with
      | none => some (.err s)
      | some (take, seen', r) =>
        match branch S n l true take r s with
        | some (.ok s' r') => cases S n l vs (taken || take) seen' r' s'
        | o => o := by
  rw [cases.eq_def]
  cases ls with
  | nil => cases h
  | cons k ls => cases k <;> first | (cases h; done) | rfl

theorem cases_end {σ V : Type} (S : Sem σ V) (n : Nat) (l : Bool) (vs : List V)
    (taken seen : Bool) (rest : List Line) (s : σ) :
    cases S (n + 1) l vs taken seen (.rcb :: rest) s = some (.ok s rest) := by
  rw [cases]

/-- The lines of a switch when looking for a case. -/
theorem pick_case {σ V : Type} (S : Sem σ V) (s : σ) (vs : List V) (p : List (List Nat))
    (ps : List (List (List Nat))) (b : Body) (rest : List Line) :
    (∃ t, Rows S s vs (p :: ps) (some t) ∧
      pick S s vs false false false (.case_ p :: ps.map .case_ ++ (b.print ++ rest)) =
        some (t, false, b.print ++ rest)) ∨
    (Rows S s vs (p :: ps) none ∧
      pick S s vs false false false (.case_ p :: ps.map .case_ ++ (b.print ++ rest)) = none) := by
  have := pick_rows S s vs (p :: ps) (b.print ++ rest)
  rw [List.map_cons] at this
  rcases this with ⟨t, h1, h2⟩ | h
  · exact Or.inl ⟨t, h1, by rw [h2, pick_other _ _ _ _ _ _ (body_isSpecial b rest)]⟩
  · exact Or.inr h

theorem pick_dflt {σ V : Type} (S : Sem σ V) (s : σ) (vs : List V)
    (ps : List (List (List Nat))) (b : Body) (rest : List Line) :
    (∃ t, Rows S s vs ps (some t) ∧
      pick S s vs false false false (ps.map .case_ ++ (.dflt :: b.print ++ rest)) =
        some (true, true, b.print ++ rest)) ∨
    (Rows S s vs ps none ∧
      pick S s vs false false false (ps.map .case_ ++ (.dflt :: b.print ++ rest)) = none) := by
  rcases pick_rows S s vs ps (.dflt :: b.print ++ rest) with ⟨t, h1, h2⟩ | h
  · refine Or.inl ⟨t, h1, ?_⟩
    rw [h2, List.cons_append, pick, if_neg (by simp), pick_other _ _ _ _ _ _ (body_isSpecial b rest)]
    simp
  · exact Or.inr h

structure SoundAt {σ V : Type} (S : Sem σ V) (n : Nat) : Prop where
  stmtS : ∀ x : Stmt, x.Ok → ∀ l rest s o, (x.Short ∨ isElse rest = false) →
    stmt S n l (x.print ++ rest) s = some o → ∃ r, Run S l (.stmt x) s r ∧ o = r.out rest
  clauseS : ∀ xs : Stmts, xs.Ok → ∀ l rest s o, stops rest = true →
    clause S n l (xs.print ++ rest) s = some o → ∃ r, Run S l (.stmts xs) s r ∧ o = r.out rest
  branchS : ∀ b : Body, b.Ok → ∀ l sw rest s o, branch S n l sw true (b.print ++ rest) s = some o →
    ∃ r, Run S l (.body b) s r ∧ o = r.out rest
  iteS : ∀ (b : Body) (e : Else), b.Ok → e.Ok → ∀ neg c l rest s o, isElse rest = false →
    chain S n l false (.ifk neg c :: (b.print ++ (e.print ++ rest))) s = some o →
    ∃ r, Run S l (.stmt (.ite neg c b e)) s r ∧ o = r.out rest
  elsS : ∀ e : Else, e.Ok → e ≠ .none → ∀ l rest s o, isElse rest = false →
    chain S n l false (e.print ++ rest) s = some o → ∃ r, Run S l (.els e) s r ∧ o = r.out rest
  skipS : ∀ e : Else, e.Ok → e ≠ .none → ∀ l rest s o, isElse rest = false →
    chain S n l true (e.print ++ rest) s = some o → o = .ok s rest
  linkS : ∀ (b : Body) (e : Else), b.Ok → e.Ok → ∀ neg c l rest s o, isElse rest = false →
    link S n l false neg c (b.print ++ (e.print ++ rest)) s = some o →
    ∃ r, Run S l (.els (.elif neg c b e)) s r ∧ o = r.out rest
  linkSkip : ∀ (b : Body) (e : Else), b.Ok → e.Ok → ∀ neg c l rest s o, isElse rest = false →
    link S n l true neg c (b.print ++ (e.print ++ rest)) s = some o → o = .ok s rest
  casesS : ∀ cs : Cases, cs.Ok → ∀ l vs rest s o,
    cases S n l vs false false (cs.print ++ .rcb :: rest) s = some o →
    ∃ r, Run S l (.cases vs cs) s r ∧ o = r.out rest
  casesSkip : ∀ cs : Cases, cs.Ok → ∀ l vs rest s o,
    cases S n l vs true false (cs.print ++ .rcb :: rest) s = some o → o = .ok s rest
  eachS : ∀ b : Body, b.Ok → ∀ l x vs s o,
    each S n x vs b.isBlock (b.stmts.print ++ b.tail) s = some o →
    ∃ r, Run S l (.each x vs b) s r ∧ o = r.out []
  repS : ∀ b : Body, b.Ok → ∀ l neg c s o,
    rep S n neg c b.isBlock (b.stmts.print ++ b.tail) s = some o →
    ∃ r, Run S l (.rep neg c b) s r ∧ o = r.out []

theorem sound_zero {σ V : Type} (S : Sem σ V) : SoundAt S 0 := by
  refine ⟨?_, ?_, ?_, ?_, ?_, ?_, ?_, ?_, ?_, ?_, ?_, ?_⟩
  · intro x _ l rest s o _ h; rw [stmt] at h; cases h
  · intro x _ l rest s o _ h; rw [clause] at h; cases h
  · intro x _ l sw rest s o h; rw [branch] at h; cases h
  · intro b e _ _ neg c l rest s o _ h; rw [chain] at h; cases h
  · intro e _ _ l rest s o _ h; rw [chain] at h; cases h
  · intro e _ _ l rest s o _ h; rw [chain] at h; cases h
  · intro b e _ _ neg c l rest s o _ h; rw [link] at h; cases h
  · intro b e _ _ neg c l rest s o _ h; rw [link] at h; cases h
  · intro cs _ l vs rest s o h; rw [cases] at h; cases h
  · intro cs _ l vs rest s o h; rw [cases] at h; cases h
  · intro b _ l x vs s o h; rw [each] at h; cases h
  · intro b _ l neg c s o h; rw [rep] at h; cases h

/-- An `if` is like an `elif` without anything before it. -/
theorem run_ite {σ V : Type} {S : Sem σ V} {l neg : Bool} {c : Nat} {b : Body} {e : Else} {s : σ}
    {r : Res σ} : Run S l (.els (.elif neg c b e)) s r ↔ Run S l (.stmt (.ite neg c b e)) s r := by
  constructor
  · intro h
    cases h with
    | elifBad h => exact .iteBad h
    | elifTrue h1 h2 => exact .iteTrue h1 h2
    | elifFalse h1 h2 => exact .iteFalse h1 h2
  · intro h
    cases h with
    | iteBad h => exact .elifBad h
    | iteTrue h1 h2 => exact .elifTrue h1 h2
    | iteFalse h1 h2 => exact .elifFalse h1 h2

theorem stmt_sound {σ V : Type} {S : Sem σ V} {n : Nat} (ih : SoundAt S n) (x : Stmt) (hx : x.Ok)
    (l : Bool) (rest : List Line) (s : σ) (o : Out σ) (hr : x.Short ∨ isElse rest = false)
    (h : stmt S (n + 1) l (x.print ++ rest) s = some o) :
    ∃ r, Run S l (.stmt x) s r ∧ o = r.out rest := by
  cases x with
  | text k =>
    rw [Stmt.print, List.cons_append, stmt] at h
    injection h with h
    subst h
    exact ⟨_, .text, out_of _ _⟩
  | rule k c =>
    rw [Stmt.Ok] at hx
    have e : Line.decl k :: Line.mlcb :: c ++ [.mrcb] ++ rest =
        Line.decl k :: Line.mlcb :: (c ++ .mrcb :: rest) := by simp
    rw [Stmt.print, e, stmt, recipe_text hx.1] at h
    injection h with h
    subst h
    exact ⟨_, .rule, out_of _ _⟩
  | ite neg c b e =>
    rw [Stmt.Ok] at hx
    rw [Stmt.print, List.cons_append, List.cons_append, stmt, List.append_assoc] at h
    exact ih.iteS b e hx.1 hx.2 neg c l rest s o (hr.resolve_left (by simp [Stmt.Short])) h
  | switch e cs =>
    rw [Stmt.Ok] at hx
    have e' : Line.switch e :: Line.lcb :: cs.print ++ [.rcb] ++ rest =
        Line.switch e :: Line.lcb :: (cs.print ++ .rcb :: rest) := by simp
    rw [Stmt.print, e', stmt] at h
    cases hv : S.vals e s with
    | none =>
      rw [hv] at h
      injection h with h
      subst h
      exact ⟨.err s, .switchBad hv, rfl⟩
    | some vs =>
      rw [hv] at h
      obtain ⟨r, h1, h2⟩ := ih.casesS cs hx l vs rest s o h
      exact ⟨r, .switch hv h1, h2⟩
  | for_ x v b =>
    rw [Stmt.Ok] at hx
    rw [Stmt.print, List.cons_append, stmt] at h
    cases hv : S.items v s with
    | none =>
      rw [hv] at h
      injection h with h
      subst h
      exact ⟨.err s, .forBad hv, rfl⟩
    | some vs =>
      rw [hv, get_body hx] at h
      dsimp only at h
      cases he : each S n x vs b.isBlock (b.stmts.print ++ b.tail) (S.declare x s) with
      | none => rw [he] at h; cases h
      | some o' =>
        obtain ⟨r, h1, rfl⟩ := ih.eachS b hx l x vs _ o' he
        refine ⟨r, .for_ hv h1, ?_⟩
        rw [he] at h
        cases r <;> (injection h with h; exact h.symm)
  | while_ neg c b =>
    rw [Stmt.Ok] at hx
    rw [Stmt.print, List.cons_append, stmt, get_body hx] at h
    dsimp only at h
    cases he : rep S n neg c b.isBlock (b.stmts.print ++ b.tail) s with
    | none => rw [he] at h; cases h
    | some o' =>
      obtain ⟨r, h1, rfl⟩ := ih.repS b hx l neg c _ o' he
      refine ⟨r, .while_ h1, ?_⟩
      rw [he] at h
      cases r <;> (injection h with h; exact h.symm)
  | brk =>
    rw [Stmt.print, List.cons_append, stmt] at h
    injection h with h
    subst h
    cases l
    · exact ⟨.err s, .brkBad, rfl⟩
    · exact ⟨.brk s, .brk, rfl⟩
  | cont =>
    rw [Stmt.print, List.cons_append, stmt] at h
    injection h with h
    subst h
    cases l
    · exact ⟨.err s, .contBad, rfl⟩
    · exact ⟨.cont s, .cont, rfl⟩
  | dir d ss =>
    rw [Stmt.Ok] at hx
    have e : Line.dir d :: Line.lcb :: ss.print ++ [.rcb] ++ rest =
        Line.dir d :: Line.lcb :: (ss.print ++ .rcb :: rest) := by simp
    rw [Stmt.print, e, stmt] at h
    cases hd : S.enter d s with
    | none =>
      rw [hd] at h
      injection h with h
      subst h
      exact ⟨.err s, .dirBad hd, rfl⟩
    | some s1 =>
      rw [hd] at h
      dsimp only at h
      cases hc : clause S n l (ss.print ++ .rcb :: rest) s1 with
      | none => rw [hc] at h; cases h
      | some o' =>
        obtain ⟨r, h1, rfl⟩ := ih.clauseS ss hx l (.rcb :: rest) s1 o' rfl hc
        refine ⟨_, .dir hd h1, ?_⟩
        rw [hc, Option.map_some, Option.map_some, close_out, leave_out] at h
        injection h with h
        exact h.symm

/-- What is done after the branch of a condition. -/
theorem after_branch {σ V : Type} {S : Sem σ V} {n : Nat} (ih : SoundAt S n) {e : Else}
    (he : e.Ok) {l : Bool} {rest : List Line} (hr : isElse rest = false) {s : σ} {o : Out σ} :
    ((if isElse (e.print ++ rest) = true then chain S n l true (e.print ++ rest) s
      else some (.ok s (e.print ++ rest))) = some o → o = .ok s rest) ∧
    ((if isElse (e.print ++ rest) = true then chain S n l false (e.print ++ rest) s
      else some (.ok s (e.print ++ rest))) = some o →
        ∃ r, Run S l (.els e) s r ∧ o = r.out rest) := by
  by_cases hn : e = .none
  · subst hn
    rw [else_none, if_neg (by rw [hr]; simp), if_neg (by rw [hr]; simp)]
    constructor
    · intro h; injection h with h; exact h.symm
    · intro h; injection h with h; exact ⟨.ok s, .none, h.symm⟩
  · rw [if_pos (else_isElse hn rest), if_pos (else_isElse hn rest)]
    exact ⟨ih.skipS e he hn l rest s o hr, ih.elsS e he hn l rest s o hr⟩

theorem link_sound {σ V : Type} {S : Sem σ V} {n : Nat} (ih : SoundAt S n) (b : Body) (e : Else)
    (hb : b.Ok) (he : e.Ok) (neg : Bool) (c : Nat) (l : Bool) (rest : List Line) (s : σ)
    (o : Out σ) (hr : isElse rest = false)
    (h : link S (n + 1) l false neg c (b.print ++ (e.print ++ rest)) s = some o) :
    ∃ r, Run S l (.els (.elif neg c b e)) s r ∧ o = r.out rest := by
  rw [link, if_neg (by simp)] at h
  cases hc : S.cond c s with
  | none =>
    rw [hc] at h
    injection h with h
    subst h
    exact ⟨.err s, .elifBad hc, rfl⟩
  | some t =>
    rw [hc, Option.map_some] at h
    dsimp only at h
    by_cases ht : t = neg
    · subst ht
      rw [show (t != t) = false by simp] at h
      cases n with
      | zero => rw [branch] at h; cases h
      | succ m =>
        rw [branch_skip S m l false hb] at h
        obtain ⟨r, h1, h2⟩ := (after_branch ih he hr).2 h
        exact ⟨r, .elifFalse hc h1, h2⟩
    · have ht' : (t != neg) = true := by simpa using ht
      rw [ht'] at h
      have hcc : S.cond c s = some (!neg) := by
        rw [hc]; cases t <;> cases neg <;> simp at ht ⊢
      cases hbr : branch S n l false true (b.print ++ (e.print ++ rest)) s with
      | none => rw [hbr] at h; cases h
      | some o' =>
        obtain ⟨r, h1, rfl⟩ := ih.branchS b hb l false _ s o' hbr
        refine ⟨r, .elifTrue hcc h1, ?_⟩
        rw [hbr] at h
        cases r with
        | ok s' => exact (after_branch ih he hr).1 h
        | brk s' => injection h with h; exact h.symm
        | cont s' => injection h with h; exact h.symm
        | err s' => injection h with h; exact h.symm

theorem cases_sound {σ V : Type} {S : Sem σ V} {n : Nat} (ih : SoundAt S n) (cs : Cases)
    (hcs : cs.Ok) (l : Bool) (vs : List V) (rest : List Line) (s : σ) (o : Out σ)
    (h : cases S (n + 1) l vs false false (cs.print ++ .rcb :: rest) s = some o) :
    ∃ r, Run S l (.cases vs cs) s r ∧ o = r.out rest := by
  cases cs with
  | nil =>
    rw [Cases.print, List.nil_append, cases_end] at h
    injection h with h
    exact ⟨.ok s, .noCase, h.symm⟩
  | case_ p ps b cs =>
    rw [cases_step S n l vs false false (cases_special _ (by simp) _)] at h
    rw [Cases.Ok] at hcs
    have e : Cases.print (.case_ p ps b cs) ++ .rcb :: rest =
        .case_ p :: ps.map .case_ ++ (b.print ++ (cs.print ++ .rcb :: rest)) := by
      rw [Cases.print]; simp
    rw [e] at h
    rcases pick_case S s vs p ps b (cs.print ++ .rcb :: rest) with ⟨t, h1, h2⟩ | ⟨h1, h2⟩
    · rw [h2] at h
      dsimp only at h
      cases t with
      | true =>
        cases hbr : branch S n l true true (b.print ++ (cs.print ++ .rcb :: rest)) s with
        | none => rw [hbr] at h; cases h
        | some o' =>
          obtain ⟨r, h3, rfl⟩ := ih.branchS b hcs.1 l true _ s o' hbr
          refine ⟨r, .caseHit h1 h3, ?_⟩
          rw [hbr] at h
          cases r with
          | ok s' => exact ih.casesSkip cs hcs.2 l vs rest s' o h
          | brk s' => injection h with h; exact h.symm
          | cont s' => injection h with h; exact h.symm
          | err s' => injection h with h; exact h.symm
      | false =>
        cases n with
        | zero => rw [branch] at h; cases h
        | succ m =>
          rw [branch_skip S m l true hcs.1] at h
          obtain ⟨r, h3, h4⟩ := ih.casesS cs hcs.2 l vs rest s o h
          exact ⟨r, .caseMiss h1 h3, h4⟩
    · rw [h2] at h
      injection h with h
      exact ⟨.err s, .caseBad h1, h.symm⟩
  | dflt ps b =>
    rw [cases_step S n l vs false false (cases_special _ (by simp) _)] at h
    rw [Cases.Ok] at hcs
    have e : Cases.print (.dflt ps b) ++ .rcb :: rest =
        ps.map .case_ ++ (.dflt :: b.print ++ .rcb :: rest) := by
      rw [Cases.print]; simp
    rw [e] at h
    rcases pick_dflt S s vs ps b (.rcb :: rest) with ⟨t, h1, h2⟩ | ⟨h1, h2⟩
    · rw [h2] at h
      dsimp only at h
      cases hbr : branch S n l true true (b.print ++ .rcb :: rest) s with
      | none => rw [hbr] at h; cases h
      | some o' =>
        obtain ⟨r, h3, rfl⟩ := ih.branchS b hcs l true _ s o' hbr
        refine ⟨r, .dflt h1 h3, ?_⟩
        rw [hbr] at h
        cases r with
        | ok s' =>
          dsimp only [Res.out] at h
          cases n with
          | zero => rw [cases] at h; cases h
          | succ m => rw [cases_end] at h; injection h with h; exact h.symm
        | brk s' => injection h with h; exact h.symm
        | cont s' => injection h with h; exact h.symm
        | err s' => injection h with h; exact h.symm
    · rw [h2] at h
      injection h with h
      exact ⟨.err s, .dfltBad h1, h.symm⟩

theorem casesSkip_sound {σ V : Type} {S : Sem σ V} {n : Nat} (ih : SoundAt S n) (cs : Cases)
    (hcs : cs.Ok) (l : Bool) (vs : List V) (rest : List Line) (s : σ) (o : Out σ)
    (h : cases S (n + 1) l vs true false (cs.print ++ .rcb :: rest) s = some o) :
    o = .ok s rest := by
  cases cs with
  | nil =>
    rw [Cases.print, List.nil_append, cases_end] at h
    injection h with h
    exact h.symm
  | case_ p ps b cs =>
    rw [cases_step S n l vs true false (cases_special _ (by simp) _)] at h
    rw [Cases.Ok] at hcs
    have e : Cases.print (.case_ p ps b cs) ++ .rcb :: rest =
        (p :: ps).map .case_ ++ (b.print ++ (cs.print ++ .rcb :: rest)) := by
      rw [Cases.print]; simp
    rw [e, pick_skip S s vs true false rfl, pick_other _ _ _ _ _ _ (body_isSpecial b _)] at h
    dsimp only at h
    cases n with
    | zero => rw [branch] at h; cases h
    | succ m =>
      rw [branch_skip S m l true hcs.1] at h
      exact ih.casesSkip cs hcs.2 l vs rest s o h
  | dflt ps b =>
    rw [cases_step S n l vs true false (cases_special _ (by simp) _)] at h
    rw [Cases.Ok] at hcs
    have e : Cases.print (.dflt ps b) ++ .rcb :: rest =
        ps.map .case_ ++ (.dflt :: (b.print ++ .rcb :: rest)) := by
      rw [Cases.print]; simp
    rw [e, pick_skip S s vs true false rfl, pick, if_neg (by simp),
      pick_other _ _ _ _ _ _ (body_isSpecial b _)] at h
    dsimp only at h
    cases n with
    | zero => rw [branch] at h; cases h
    | succ m =>
      rw [show (false || !true) = false from rfl, branch_skip S m l true hcs] at h
      dsimp only at h
      rw [cases_end] at h
      injection h with h
      exact h.symm

theorem sound_step {σ V : Type} {S : Sem σ V} {n : Nat} (ih : SoundAt S n) :
    SoundAt S (n + 1) := by
  refine ⟨stmt_sound ih, ?_, ?_, ?_, ?_, ?_, link_sound ih, ?_, cases_sound ih,
    casesSkip_sound ih, ?_, ?_⟩
  · intro xs hxs l rest s o hr h
    cases xs with
    | nil =>
      rw [Stmts.print, List.nil_append, clause, if_pos hr] at h
      injection h with h
      exact ⟨.ok s, .nil, h.symm⟩
    | cons x xs =>
      rw [Stmts.Ok] at hxs
      rw [Stmts.print, List.append_assoc, clause, if_neg (by rw [stmt_stops]; simp)] at h
      cases hs : stmt S n l (x.print ++ (xs.print ++ rest)) s with
      | none => rw [hs] at h; cases h
      | some o' =>
        obtain ⟨r, h1, rfl⟩ := ih.stmtS x hxs.1 l _ s o' (.inr (stmts_isElse xs hr)) hs
        rw [hs] at h
        cases r with
        | ok s' =>
          obtain ⟨r', h2, h3⟩ := ih.clauseS xs hxs.2 l rest s' o hr h
          exact ⟨r', .cons h1 h2, h3⟩
        | brk s' => injection h with h; exact ⟨_, .stop h1 (by simp), h.symm⟩
        | cont s' => injection h with h; exact ⟨_, .stop h1 (by simp), h.symm⟩
        | err s' => injection h with h; exact ⟨_, .stop h1 (by simp), h.symm⟩
  · intro b hb l sw rest s o h
    cases b with
    | line x =>
      rw [Body.Ok] at hb
      rw [Body.print, branch_line] at h
      obtain ⟨r, h1, h2⟩ := ih.stmtS x (Short.ok hb) l rest s o (.inl hb) h
      exact ⟨r, .line h1, h2⟩
    | block xs =>
      rw [Body.Ok] at hb
      rw [branch_block] at h
      cases hc : clause S n l (xs.print ++ .rcb :: rest) s with
      | none => rw [hc] at h; cases h
      | some o' =>
        obtain ⟨r, h1, rfl⟩ := ih.clauseS xs hb l (.rcb :: rest) s o' rfl hc
        rw [hc, Option.map_some, close_out] at h
        injection h with h
        exact ⟨r, .block h1, h.symm⟩
  · intro b e hb he neg c l rest s o hr h
    rw [chain] at h
    obtain ⟨r, h1, h2⟩ := ih.linkS b e hb he neg c l rest s o hr h
    exact ⟨r, run_ite.1 h1, h2⟩
  · intro e he hn l rest s o hr h
    cases e with
    | none => exact absurd rfl hn
    | elif neg c b e =>
      rw [Else.Ok] at he
      rw [Else.print, List.cons_append, List.cons_append, chain, List.append_assoc] at h
      exact ih.linkS b e he.1 he.2 neg c l rest s o hr h
    | els b =>
      rw [Else.Ok] at he
      rw [Else.print, List.cons_append, chain] at h
      obtain ⟨r, h1, h2⟩ := ih.branchS b he l false rest s o h
      exact ⟨r, .els h1, h2⟩
  · intro e he hn l rest s o hr h
    cases e with
    | none => exact absurd rfl hn
    | elif neg c b e =>
      rw [Else.Ok] at he
      rw [Else.print, List.cons_append, List.cons_append, chain, List.append_assoc] at h
      exact ih.linkSkip b e he.1 he.2 neg c l rest s o hr h
    | els b =>
      rw [Else.Ok] at he
      rw [Else.print, List.cons_append, chain] at h
      cases n with
      | zero => rw [branch] at h; cases h
      | succ m =>
        rw [show (!true) = false from rfl, branch_skip S m l false he] at h
        injection h with h
        exact h.symm
  · intro b e hb he neg c l rest s o hr h
    rw [link, if_pos rfl] at h
    dsimp only at h
    cases n with
    | zero => rw [branch] at h; cases h
    | succ m =>
      rw [branch_skip S m l false hb] at h
      exact (after_branch ih he hr).1 h
  · intro b hb l x vs s o h
    cases vs with
    | nil =>
      rw [each] at h
      injection h with h
      exact ⟨.ok s, .eachNil, h.symm⟩
    | cons v vs =>
      rw [each] at h
      cases hv : S.set x v s with
      | none =>
        rw [hv] at h
        injection h with h
        exact ⟨.err s, .eachBad hv, h.symm⟩
      | some s1 =>
        rw [hv] at h
        dsimp only at h
        cases hc : clause S n true (b.stmts.print ++ b.tail) s1 with
        | none => rw [hc] at h; cases h
        | some o' =>
          obtain ⟨r, h1, rfl⟩ := ih.clauseS b.stmts (body_stmts_ok hb) true b.tail s1 o'
            (body_tail b).1 hc
          rw [run_body] at h1
          rw [hc] at h
          cases r with
          | ok s2 =>
            dsimp only [Res.out] at h
            rw [if_pos (body_tail b).2] at h
            obtain ⟨r', h2, h3⟩ := ih.eachS b hb l x vs s2 o h
            exact ⟨r', .eachOk hv h1 h2, h3⟩
          | brk s2 => injection h with h; exact ⟨.ok s2, .eachBrk hv h1, h.symm⟩
          | cont s2 =>
            obtain ⟨r', h2, h3⟩ := ih.eachS b hb l x vs s2 o h
            exact ⟨r', .eachCont hv h1 h2, h3⟩
          | err s2 => injection h with h; exact ⟨.err s2, .eachErr hv h1, h.symm⟩
  · intro b hb l neg c s o h
    rw [rep] at h
    cases hv : S.cond c s with
    | none =>
      rw [hv] at h
      injection h with h
      exact ⟨.err s, .repBad hv, h.symm⟩
    | some t =>
      rw [hv] at h
      dsimp only at h
      by_cases ht : t = neg
      · subst ht
        rw [if_pos (by simp)] at h
        injection h with h
        exact ⟨.ok s, .repEnd hv, h.symm⟩
      · have hcc : S.cond c s = some (!neg) := by
          rw [hv]; cases t <;> cases neg <;> simp at ht ⊢
        rw [if_neg (by simpa using ht)] at h
        cases hc : clause S n true (b.stmts.print ++ b.tail) s with
        | none => rw [hc] at h; cases h
        | some o' =>
          obtain ⟨r, h1, rfl⟩ := ih.clauseS b.stmts (body_stmts_ok hb) true b.tail s o'
            (body_tail b).1 hc
          rw [run_body] at h1
          rw [hc] at h
          cases r with
          | ok s2 =>
            dsimp only [Res.out] at h
            rw [if_pos (body_tail b).2] at h
            obtain ⟨r', h2, h3⟩ := ih.repS b hb l neg c s2 o h
            exact ⟨r', .repOk hcc h1 h2, h3⟩
          | brk s2 => injection h with h; exact ⟨.ok s2, .repBrk hcc h1, h.symm⟩
          | cont s2 =>
            obtain ⟨r', h2, h3⟩ := ih.repS b hb l neg c s2 o h
            exact ⟨r', .repCont hcc h1 h2, h3⟩
          | err s2 => injection h with h; exact ⟨.err s2, .repErr hcc h1, h.symm⟩

theorem sound {σ V : Type} (S : Sem σ V) (n : Nat) : SoundAt S n := by
  induction n with
  | zero => exact sound_zero S
  | succ n ih => exact sound_step ih

end Verif.Flow
