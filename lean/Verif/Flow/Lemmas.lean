import Verif.Flow.Model

/-! # Control flow in buildfiles: printing and skipping -/

namespace Verif.Flow

/-! ## Balanced lines -/

theorem Balanced.append {a b : List Line} (ha : Balanced a) (hb : Balanced b) :
    Balanced (a ++ b) := by
  induction ha with
  | nil => exact hb
  | line h1 h2 _ ih => exact .line h1 h2 ih
  | @block as bs h1 _ _ ih2 =>
    have : Line.lcb :: as ++ Line.rcb :: bs ++ b = Line.lcb :: as ++ Line.rcb :: (bs ++ b) := by
      simp
    rw [this]
    exact .block h1 ih2

theorem Balanced.braces {a b : List Line} (ha : Balanced a) (hb : Balanced b) :
    Balanced (.lcb :: a ++ [.rcb] ++ b) := by
  have : Line.lcb :: a ++ [.rcb] ++ b = Line.lcb :: a ++ Line.rcb :: b := by simp
  rw [this]
  exact .block ha hb

theorem balanced_cases (ps : List (List (List Nat))) : Balanced (ps.map Line.case_) := by
  induction ps with
  | nil => exact .nil
  | cons p ps ih => exact .line (by simp) (by simp) ih

mutual
theorem Stmt.balanced : (x : Stmt) → x.Ok → Balanced x.print
  | .text n, _ => by rw [Stmt.print]; exact .line (by simp) (by simp) .nil
  | .rule n c, h => by
    rw [Stmt.print]
    rw [Stmt.Ok] at h
    exact .line (by simp) (by simp) (.line (by simp) (by simp)
      (h.2.append (.line (by simp) (by simp) .nil)))
  | .ite neg c b e, h => by
    rw [Stmt.print]
    rw [Stmt.Ok] at h
    exact .line (by simp) (by simp) ((Body.balanced b h.1).append (Else.balanced e h.2))
  | .switch e cs, h => by
    rw [Stmt.print]
    rw [Stmt.Ok] at h
    have := (Cases.balanced cs h).braces .nil
    rw [List.append_nil] at this
    exact .line (by simp) (by simp) this
  | .for_ x v b, h => by
    rw [Stmt.print]
    rw [Stmt.Ok] at h
    exact .line (by simp) (by simp) (Body.balanced b h)
  | .while_ neg c b, h => by
    rw [Stmt.print]
    rw [Stmt.Ok] at h
    exact .line (by simp) (by simp) (Body.balanced b h)
  | .brk, _ => by rw [Stmt.print]; exact .line (by simp) (by simp) .nil
  | .cont, _ => by rw [Stmt.print]; exact .line (by simp) (by simp) .nil
  | .dir d ss, h => by
    rw [Stmt.print]
    rw [Stmt.Ok] at h
    have := (Stmts.balanced ss h).braces .nil
    rw [List.append_nil] at this
    exact .line (by simp) (by simp) this
theorem Else.balanced : (e : Else) → e.Ok → Balanced e.print
  | .none, _ => by rw [Else.print]; exact .nil
  | .elif neg c b e, h => by
    rw [Else.print]
    rw [Else.Ok] at h
    exact .line (by simp) (by simp) ((Body.balanced b h.1).append (Else.balanced e h.2))
  | .els b, h => by
    rw [Else.print]
    rw [Else.Ok] at h
    exact .line (by simp) (by simp) (Body.balanced b h)
theorem Body.balanced : (b : Body) → b.Ok → Balanced b.print
  | .line x, h => by
    rw [Body.print]
    rw [Body.Ok] at h
    cases x <;> simp only [Stmt.Short] at h <;> rw [Stmt.print] <;>
      exact .line (by simp) (by simp) .nil
  | .block ss, h => by
    rw [Body.print]
    rw [Body.Ok] at h
    have := (Stmts.balanced ss h).braces .nil
    rw [List.append_nil] at this
    exact this
theorem Stmts.balanced : (xs : Stmts) → xs.Ok → Balanced xs.print
  | .nil, _ => by rw [Stmts.print]; exact .nil
  | .cons x xs, h => by
    rw [Stmts.print]
    rw [Stmts.Ok] at h
    exact (Stmt.balanced x h.1).append (Stmts.balanced xs h.2)
theorem Cases.balanced : (cs : Cases) → cs.Ok → Balanced cs.print
  | .nil, _ => by rw [Cases.print]; exact .nil
  | .case_ p ps b cs, h => by
    rw [Cases.print]
    rw [Cases.Ok] at h
    exact (Balanced.line (by simp) (by simp)
      ((balanced_cases ps).append (Body.balanced b h.1))).append (Cases.balanced cs h.2)
  | .dflt ps b, h => by
    rw [Cases.print]
    rw [Cases.Ok] at h
    exact (balanced_cases ps).append (.line (by simp) (by simp) (Body.balanced b h))
end

/-- Balanced lines are skipped. -/
theorem skip_balanced {l : List Line} (h : Balanced l) (b : Nat) (rest : List Line) :
    skipBlock b (l ++ rest) = (skipBlock b rest).map fun x => (l ++ x.1, x.2) := by
  induction h generalizing b rest with
  | nil => simp
  | @line x ls h1 h2 _ ih =>
    have : skipBlock b (x :: (ls ++ rest)) =
        (skipBlock b (ls ++ rest)).map fun y => (x :: y.1, y.2) := by
      rw [skipBlock.eq_def]
      cases x <;> simp at h1 h2 ⊢
    rw [List.cons_append, this, ih, Option.map_map]
    rfl
  | @block as bs _ _ ih1 ih2 =>
    have e : Line.lcb :: as ++ Line.rcb :: bs ++ rest =
        Line.lcb :: (as ++ (Line.rcb :: (bs ++ rest))) := by simp
    rw [e, skipBlock, ih1, skipBlock, ih2]
    simp only [Option.map_map]
    congr 1
    funext x
    simp

theorem skip_block {l : List Line} (h : Balanced l) (rest : List Line) :
    skipBlock 0 (l ++ .rcb :: rest) = some (l, rest) := by
  rw [skip_balanced h, skipBlock]
  simp

theorem recipe_text {c : List Line} (h : .mrcb ∉ c) (rest : List Line) :
    recipeText (c ++ .mrcb :: rest) = some (c, rest) := by
  induction c with
  | nil => rw [List.nil_append, recipeText]
  | cons l c ih =>
    rw [List.mem_cons, not_or] at h
    have : recipeText (l :: (c ++ .mrcb :: rest)) =
        (recipeText (c ++ .mrcb :: rest)).map fun x => (l :: x.1, x.2) := by
      rw [recipeText.eq_def]
      cases l <;> simp at h ⊢
    rw [List.cons_append, this, ih h.2]
    rfl

/-! ## First lines -/

theorem Stmt.first (x : Stmt) : ∃ l r, x.print = l :: r ∧ l ≠ .lcb ∧
    ∀ ls, stops (l :: ls) = false ∧ isElse (l :: ls) = false ∧ isSpecial (l :: ls) = false := by
  cases x <;> rw [Stmt.print] <;> exact ⟨_, _, rfl, by simp, fun _ => ⟨rfl, rfl, rfl⟩⟩

theorem stmt_stops (x : Stmt) (ls : List Line) : stops (x.print ++ ls) = false := by
  obtain ⟨l, r, e, _, h⟩ := x.first
  rw [e]
  exact (h _).1

theorem stmt_isElse (x : Stmt) (ls : List Line) : isElse (x.print ++ ls) = false := by
  obtain ⟨l, r, e, _, h⟩ := x.first
  rw [e]
  exact (h _).2.1

theorem body_isSpecial (b : Body) (ls : List Line) : isSpecial (b.print ++ ls) = false := by
  cases b with
  | line x =>
    rw [Body.print]
    obtain ⟨l, r, e, _, h⟩ := x.first
    rw [e]
    exact (h _).2.2
  | block ss => rw [Body.print]; rfl

theorem stops_isElse {ls : List Line} (h : stops ls = true) : isElse ls = false := by
  cases ls with
  | nil => rfl
  | cons l ls => cases l <;> first | rfl | cases h

/-- What follows a statement of a list is not another branch. -/
theorem stmts_isElse (xs : Stmts) {rest : List Line} (h : stops rest = true) :
    isElse (xs.print ++ rest) = false := by
  cases xs with
  | nil => rw [Stmts.print]; exact stops_isElse h
  | cons x xs => rw [Stmts.print, List.append_assoc]; exact stmt_isElse x _

theorem Short.line {x : Stmt} (h : x.Short) : ∃ l, x.print = [l] := by
  cases x <;> simp only [Stmt.Short] at h <;> exact ⟨_, by rw [Stmt.print]⟩

theorem Short.ok {x : Stmt} (h : x.Short) : x.Ok := by
  cases x <;> simp only [Stmt.Short] at h <;> simp [Stmt.Ok]

/-! ## Bodies of loops -/

def Body.isBlock : Body → Bool
  | .line _ => false
  | .block _ => true

def Body.stmts : Body → Stmts
  | .line x => .cons x .nil
  | .block xs => xs

/-- What is after the statements of a body. -/
def Body.tail : Body → List Line
  | .line _ => []
  | .block _ => [.rcb]

theorem get_body {b : Body} (h : b.Ok) (rest : List Line) :
    getBody (b.print ++ rest) = some (b.isBlock, b.stmts.print ++ b.tail, rest) := by
  cases b with
  | line x =>
    rw [Body.Ok] at h
    rw [Body.print]
    obtain ⟨l, e⟩ := Short.line h
    obtain ⟨l', r, e', hl, _⟩ := x.first
    rw [e] at e'
    injection e' with e1 e2
    subst e1
    rw [Body.stmts, Body.tail, Body.isBlock, Stmts.print, Stmts.print, e]
    simp only [List.cons_append, List.nil_append, List.append_nil]
    cases l <;> simp [getBody] at hl ⊢
  | block xs =>
    rw [Body.Ok] at h
    rw [Body.print, Body.stmts, Body.tail, Body.isBlock]
    have e : Line.lcb :: xs.print ++ [.rcb] ++ rest = Line.lcb :: (xs.print ++ Line.rcb :: rest) := by
      simp
    rw [e, getBody, skip_block (xs.balanced h)]
    rfl

theorem body_stmts_ok {b : Body} (h : b.Ok) : b.stmts.Ok := by
  cases b with
  | line x =>
    rw [Body.Ok] at h
    rw [Body.stmts, Stmts.Ok, Stmts.Ok]
    exact ⟨Short.ok h, trivial⟩
  | block xs => rwa [Body.Ok] at h

theorem body_tail (b : Body) : stops b.tail = true ∧ atEnd b.isBlock b.tail = true := by
  cases b <;> exact ⟨rfl, rfl⟩

/-- A body does what its statements do. -/
theorem run_body {σ V : Type} {S : Sem σ V} {l : Bool} {b : Body} {s : σ} {r : Res σ} :
    Run S l (.stmts b.stmts) s r ↔ Run S l (.body b) s r := by
  cases b with
  | line x =>
    rw [Body.stmts]
    constructor
    · intro h
      cases h with
      | cons h1 h2 => cases h2; exact .line h1
      | stop h1 _ => exact .line h1
    · intro h
      cases h with
      | line h =>
        cases r with
        | ok s' => exact .cons h .nil
        | brk s' => exact .stop h (by simp)
        | cont s' => exact .stop h (by simp)
        | err s' => exact .stop h (by simp)
  | block xs =>
    rw [Body.stmts]
    exact ⟨fun h => .block h, fun h => by cases h; assumption⟩

/-! ## Patterns -/

theorem alt_iff {σ V : Type} (S : Sem σ V) (s : σ) (v : V) (ps : List Nat) (r : Option Bool) :
    altMatch S s v ps = r ↔ Alts S s v ps r := by
  constructor
  · rintro rfl
    induction ps with
    | nil => exact .nil
    | cons p ps ih =>
      rw [altMatch]
      split
      · exact .bad ‹_›
      · exact .hit ‹_›
      · exact .miss ‹_› ih
  · intro h
    induction h with
    | nil => rfl
    | hit h => rw [altMatch, h]
    | miss h _ ih => rw [altMatch, h]; exact ih
    | bad h => rw [altMatch, h]

theorem row_iff {σ V : Type} (S : Sem σ V) (s : σ) (vs : List V) (ps : List (List Nat))
    (r : Option Bool) : rowMatch S s vs ps = r ↔ Row S s vs ps r := by
  constructor
  · rintro rfl
    induction ps generalizing vs with
    | nil => rw [rowMatch.eq_def]; exact .nil
    | cons p ps ih =>
      cases vs with
      | nil => exact .more
      | cons v vs =>
        rw [rowMatch]
        split
        · exact .bad ((alt_iff ..).1 ‹_›)
        · exact .miss ((alt_iff ..).1 ‹_›)
        · exact .hit ((alt_iff ..).1 ‹_›) (ih vs)
  · intro h
    induction h with
    | nil => rw [rowMatch.eq_def]
    | more => rfl
    | hit h _ ih => rw [rowMatch, (alt_iff ..).2 h]; exact ih
    | miss h => rw [rowMatch, (alt_iff ..).2 h]
    | bad h => rw [rowMatch, (alt_iff ..).2 h]

theorem pick_other {σ V : Type} (S : Sem σ V) (s : σ) (vs : List V) (taken seen take : Bool)
    {r : List Line} (h : isSpecial r = false) :
    pick S s vs taken seen take r = some (take, seen, r) := by
  rw [pick.eq_def]
  cases r with
  | nil => rfl
  | cons l r => cases l <;> first | rfl | cases h

/-- Cases are skipped once one of them or an earlier one is taken. -/
theorem pick_skip {σ V : Type} (S : Sem σ V) (s : σ) (vs : List V) (taken take : Bool)
    (h : (taken || take) = true) (ps : List (List (List Nat))) (r : List Line) :
    pick S s vs taken false take (ps.map .case_ ++ r) = pick S s vs taken false take r := by
  induction ps with
  | nil => rfl
  | cons p ps ih =>
    rw [List.map_cons, List.cons_append, pick, if_neg (by simp), if_pos h]
    exact ih

/-- And tried one by one before this. -/
theorem pick_rows {σ V : Type} (S : Sem σ V) (s : σ) (vs : List V) (ps : List (List (List Nat)))
    (r : List Line) :
    (∃ t, Rows S s vs ps (some t) ∧
      pick S s vs false false false (ps.map .case_ ++ r) = pick S s vs false false t r) ∨
    (Rows S s vs ps none ∧ pick S s vs false false false (ps.map .case_ ++ r) = none) := by
  induction ps with
  | nil => exact Or.inl ⟨false, .nil, rfl⟩
  | cons p ps ih =>
    rw [List.map_cons, List.cons_append, pick, if_neg (by simp), if_neg (by simp)]
    cases h : rowMatch S s vs p with
    | none => exact Or.inr ⟨.bad ((row_iff ..).1 h), rfl⟩
    | some t =>
      cases t with
      | true => exact Or.inl ⟨true, .hit ((row_iff ..).1 h), pick_skip S s vs false true rfl ps r⟩
      | false =>
        rcases ih with ⟨t, h1, h2⟩ | ⟨h1, h2⟩
        · exact Or.inl ⟨t, .miss ((row_iff ..).1 h) h1, h2⟩
        · exact Or.inr ⟨.miss ((row_iff ..).1 h) h1, h2⟩

theorem Alts.unique {σ V : Type} {S : Sem σ V} {s : σ} {v : V} {ps : List Nat}
    {r r' : Option Bool} (h : Alts S s v ps r) (h' : Alts S s v ps r') : r = r' := by
  rw [← (alt_iff ..).2 h, ← (alt_iff ..).2 h']

theorem Row.unique {σ V : Type} {S : Sem σ V} {s : σ} {vs : List V} {ps : List (List Nat)}
    {r r' : Option Bool} (h : Row S s vs ps r) (h' : Row S s vs ps r') : r = r' := by
  rw [← (row_iff ..).2 h, ← (row_iff ..).2 h']

theorem Rows.unique {σ V : Type} {S : Sem σ V} {s : σ} {vs : List V} {ps : List (List (List Nat))}
    {r r' : Option Bool} (h : Rows S s vs ps r) (h' : Rows S s vs ps r') : r = r' := by
  induction h with
  | nil => cases h'; rfl
  | hit h =>
    cases h' with
    | hit _ => rfl
    | miss h1 _ => cases h.unique h1
    | bad h1 => cases h.unique h1
  | miss h _ ih =>
    cases h' with
    | hit h1 => cases h.unique h1
    | miss _ h2 => exact ih h2
    | bad h1 => cases h.unique h1
  | bad h =>
    cases h' with
    | hit h1 => cases h.unique h1
    | miss h1 _ => cases h.unique h1
    | bad _ => rfl

end Verif.Flow
