import Verif.Eval.Complete

/-!
# Evaluation contexts: there is one way to read a text

The functions here are not a model of the code: they are a device to prove that the grammar of the
specification is unambiguous. They have the shape of the functions of the model but build the
expression instead of evaluating it.
-/

namespace Verif.Eval

variable {A F : Type}

mutual

/-- Read a list. -/
def rEval : Nat → List (Tok A F) → Option (Exs A F × List (Tok A F))
  | 0, _ => none
  | f + 1, ts =>
    match ts with
    | .rp :: r => some (.nil, r)
    | ts =>
      match rComma f ts with
      | some (es, .rp :: r) => some (es, r)
      | _ => none
termination_by structural f => f

/-- Read one or more. -/
def rComma : Nat → List (Tok A F) → Option (Exs A F × List (Tok A F))
  | 0, _ => none
  | f + 1, ts =>
    match rTern f ts with
    | some (e, .comma :: r) =>
      match rComma f r with
      | some (es, r') => some (.cons e es, r')
      | none => none
    | some (e, r) => some (.cons e .nil, r)
    | none => none
termination_by structural f => f

/-- Read a ternary. -/
def rTern : Nat → List (Tok A F) → Option (Ex A F × List (Tok A F))
  | 0, _ => none
  | f + 1, ts =>
    match rOr f ts with
    | some (q, .question :: r) =>
      match rTern f r with
      | some (m, .colon :: r') =>
        match rTern f r' with
        | some (e, r'') => some (.tern q m e, r'')
        | none => none
      | _ => none
    | o => o
termination_by structural f => f

/-- Read an `||`. -/
def rOr : Nat → List (Tok A F) → Option (Ex A F × List (Tok A F))
  | 0, _ => none
  | f + 1, ts =>
    match rAnd f ts with
    | some (v, r) => rOrLoop f v r
    | none => none
termination_by structural f => f

/-- Its loop. -/
def rOrLoop : Nat → Ex A F → List (Tok A F) → Option (Ex A F × List (Tok A F))
  | 0, _, _ => none
  | f + 1, lhs, ts =>
    match ts with
    | .or :: r =>
      match rAnd f r with
      | some (rhs, r') => rOrLoop f (.or lhs rhs) r'
      | none => none
    | ts => some (lhs, ts)
termination_by structural f => f

/-- Read an `&&`. -/
def rAnd : Nat → List (Tok A F) → Option (Ex A F × List (Tok A F))
  | 0, _ => none
  | f + 1, ts =>
    match rCmp f ts with
    | some (v, r) => rAndLoop f v r
    | none => none
termination_by structural f => f

/-- Its loop. -/
def rAndLoop : Nat → Ex A F → List (Tok A F) → Option (Ex A F × List (Tok A F))
  | 0, _, _ => none
  | f + 1, lhs, ts =>
    match ts with
    | .and :: r =>
      match rCmp f r with
      | some (rhs, r') => rAndLoop f (.and lhs rhs) r'
      | none => none
    | ts => some (lhs, ts)
termination_by structural f => f

/-- Read a comparison. -/
def rCmp : Nat → List (Tok A F) → Option (Ex A F × List (Tok A F))
  | 0, _ => none
  | f + 1, ts =>
    match rVal f ts with
    | some (v, r) => rCmpLoop f v r
    | none => none
termination_by structural f => f

/-- Its loop. -/
def rCmpLoop : Nat → Ex A F → List (Tok A F) → Option (Ex A F × List (Tok A F))
  | 0, _, _ => none
  | f + 1, lhs, ts =>
    match ts with
    | .cmp o :: r =>
      match rVal f r with
      | some (rhs, r') => rCmpLoop f (.cmp o lhs rhs) r'
      | none => none
    | ts => some (lhs, ts)
termination_by structural f => f

/-- Read a value. -/
def rVal : Nat → List (Tok A F) → Option (Ex A F × List (Tok A F))
  | 0, _ => none
  | f + 1, ts =>
    match ts with
    | .not :: r =>
      match rVal f r with
      | some (v, r') => some (.not v, r')
      | none => none
    | .atom a :: r => some (.atom a, r)
    | .lp :: r =>
      match rEval f r with
      | some (es, r') => some (.sub es, r')
      | none => none
    | .fn g :: .lp :: r =>
      match rEval f r with
      | some (es, r') => some (.call g es, r')
      | none => none
    | t :: r => some (.empty, t :: r)
    | [] => none
termination_by structural f => f

end

/-- A level without a loop. -/
def RFull (L : Level) (p : Nat → List (Tok A F) → Option (Ex A F × List (Tok A F)))
    (e : Ex A F) (t : List (Tok A F)) : Prop :=
  ∀ rest, Fol L rest → Ev (fun f => p f (t ++ rest)) (e, rest)

/-- A level with a loop. -/
def RLoop (L : Level) (p : Nat → List (Tok A F) → Option (Ex A F × List (Tok A F)))
    (pl : Nat → Ex A F → List (Tok A F) → Option (Ex A F × List (Tok A F)))
    (e : Ex A F) (t : List (Tok A F)) : Prop :=
  ∀ rest, Fol L rest → ∀ R, Ev (fun f => pl f e rest) R → Ev (fun f => p f (t ++ rest)) R

/-- What is said of each level. -/
def RW : Level → Ex A F → List (Tok A F) → Prop
  | .tern => RFull .tern rTern
  | .or => RLoop .or rOr rOrLoop
  | .and => RLoop .and rAnd rAndLoop
  | .cmp => RLoop .cmp rCmp rCmpLoop
  | .val => RFull .val rVal

/-- What is said of one or more expressions. -/
def RSome (es : Exs A F) (t : List (Tok A F)) : Prop :=
  ∀ r, Ev (fun f => rComma f (t ++ .rp :: r)) (es, .rp :: r)

/-- What is said of what is between the parentheses. -/
def RAll (es : Exs A F) (t : List (Tok A F)) : Prop :=
  ∀ r, Ev (fun f => rEval f (t ++ .rp :: r)) (es, r)

theorem rcmp_ends {rest : List (Tok A F)} (h : Fol .and rest) (f : Nat) (e : Ex A F) :
    rCmpLoop (f + 1) e rest = some (e, rest) := by
  obtain ⟨t, r, rfl, h⟩ := h
  cases t <;> simp_all [Tok.after, Tok.ends, rCmpLoop]

theorem rand_ends {rest : List (Tok A F)} (h : Fol .or rest) (f : Nat) (e : Ex A F) :
    rAndLoop (f + 1) e rest = some (e, rest) := by
  obtain ⟨t, r, rfl, h⟩ := h
  cases t <;> simp_all [Tok.after, Tok.ends, rAndLoop]

theorem ror_ends {t : Tok A F} {r : List (Tok A F)} (h : t.ends = true) (hn : t ≠ .or)
    (f : Nat) (e : Ex A F) : rOrLoop (f + 1) e (t :: r) = some (e, t :: r) := by
  cases t <;> simp_all [Tok.ends, rOrLoop]

theorem RLoop.full {L : Level} {p : Nat → List (Tok A F) → Option (Ex A F × List (Tok A F))}
    {pl : Nat → Ex A F → List (Tok A F) → Option (Ex A F × List (Tok A F))}
    {e : Ex A F} {t : List (Tok A F)} (h : RLoop L p pl e t) {rest : List (Tok A F)}
    (hf : Fol L rest) (hend : ∀ f, pl (f + 1) e rest = some (e, rest)) :
    Ev (fun f => p f (t ++ rest)) (e, rest) :=
  h rest hf _ (Ev.succ ⟨0, fun f _ => hend f⟩)

theorem RLoop.first {L : Level} {p p' : Nat → List (Tok A F) → Option (Ex A F × List (Tok A F))}
    {pl : Nat → Ex A F → List (Tok A F) → Option (Ex A F × List (Tok A F))}
    {e : Ex A F} {t : List (Tok A F)}
    (hfull : ∀ rest, Fol L rest → Ev (fun f => p' f (t ++ rest)) (e, rest))
    (hstep : ∀ f ts v r, p' f ts = some (v, r) → p (f + 1) ts = pl f v r) : RLoop L p pl e t := by
  intro rest hf R hR
  obtain ⟨N, hN⟩ := hfull rest hf
  obtain ⟨M, hM⟩ := hR
  exact Ev.succ ⟨max N M, fun f hf => (hstep f _ _ _ (hN f (by omega))).trans (hM f (by omega))⟩

theorem RLoop.step {L L' : Level} {p q : Nat → List (Tok A F) → Option (Ex A F × List (Tok A F))}
    {pl : Nat → Ex A F → List (Tok A F) → Option (Ex A F × List (Tok A F))}
    {l r e : Ex A F} {t t' : List (Tok A F)} {x : Tok A F} (hl : RLoop L p pl l t)
    (hx : x.after L = true)
    (hr : ∀ rest, Fol L' rest → Ev (fun f => q f (t' ++ rest)) (r, rest))
    (hLL : ∀ rest : List (Tok A F), Fol L rest → Fol L' rest)
    (hstep : ∀ f ts r', q f ts = some (r, r') → pl (f + 1) l (x :: ts) = pl f e r') :
    RLoop L p pl e (t ++ x :: t') := by
  intro rest hf R hR
  obtain ⟨N, hN⟩ := hr rest (hLL rest hf)
  obtain ⟨M, hM⟩ := hR
  simp only [List.append_assoc, List.cons_append]
  exact hl _ ⟨x, _, rfl, hx⟩ R (Ev.succ ⟨max N M, fun f hf =>
    (hstep f _ _ (hN f (by omega))).trans (hM f (by omega))⟩)

/-- Everything that is written is read as what it was written for. -/
theorem read_complete {es : Exs A F} {t : List (Tok A F)} (h : WrittenAll es t) : RAll es t := by
  refine WrittenAll.rec (motive_1 := fun L e t _ => RW L e t ∧ NoRp t)
    (motive_2 := fun es t _ => RAll es t) (motive_3 := fun es t _ => RSome es t ∧ NoRp t)
    ?_ ?_ ?_ ?_ ?_ ?_ ?_ ?_ ?_ ?_ ?_ ?_ ?_ ?_ ?_ ?_ ?_ h
  · intro q m r t t' t'' _ _ _ hq hm hr
    refine ⟨fun rest hf => ?_, hq.2.app (by simp)⟩
    have hfq : Fol .or (.question :: (t' ++ .colon :: (t'' ++ rest))) := ⟨_, _, rfl, rfl⟩
    obtain ⟨N, h1⟩ := RLoop.full hq.1 hfq (fun f => ror_ends rfl (by simp) f _)
    obtain ⟨M, h2⟩ := hm.1 _ (fol_colon _ (t'' ++ rest))
    obtain ⟨K, h3⟩ := hr.1 _ hf
    refine Ev.succ ⟨max N (max M K), fun f hf => ?_⟩
    simp only [List.append_assoc, List.cons_append, rTern, h1 f (by omega), h2 f (by omega),
      h3 f (by omega)]
  · intro l r t t' _ _ hl hr
    exact ⟨RLoop.step (L' := .or) hl.1 rfl
      (fun rest hf => RLoop.full hr.1 hf.and (fun f => rand_ends hf f _))
      (fun _ h => h) (fun f ts r' hp => by simp only [rOrLoop, hp]), hl.2.app (by simp)⟩
  · intro l r t t' _ _ hl hr
    exact ⟨RLoop.step (L' := .and) hl.1 rfl
      (fun rest hf => RLoop.full hr.1 hf.cmp (fun f => rcmp_ends hf f _))
      (fun _ h => h) (fun f ts r' hp => by simp only [rAndLoop, hp]), hl.2.app (by simp)⟩
  · intro o l r t t' _ _ hl hr
    exact ⟨RLoop.step (L' := .val) hl.1 rfl (fun rest hf => hr.1 rest hf) (fun _ h => h)
      (fun f ts r' hp => by simp only [rCmpLoop, hp]), hl.2.app (by simp)⟩
  · intro e t _ h
    refine ⟨fun rest hf => ?_, by intro r; simp⟩
    obtain ⟨N, h1⟩ := h.1 rest hf
    exact Ev.succ ⟨N, fun f hf => by simp only [List.cons_append, rVal, h1 f hf]⟩
  · refine ⟨fun rest hf => ?_, by intro r; simp⟩
    obtain ⟨x, r, rfl, hx⟩ := hf
    refine Ev.succ ⟨0, fun f _ => ?_⟩
    cases x <;> simp_all [Tok.after, Tok.ends, rVal]
  · intro a
    exact ⟨fun rest hf => Ev.succ ⟨0, fun f _ => by simp [rVal]⟩, by intro r; simp⟩
  · intro es t _ h
    refine ⟨fun rest hf => ?_, by intro r; simp⟩
    obtain ⟨N, h1⟩ := h rest
    exact Ev.succ ⟨N, fun f hf => by
      simp only [List.cons_append, List.append_assoc, List.nil_append, rVal, h1 f hf]⟩
  · intro g es t _ h
    refine ⟨fun rest hf => ?_, by intro r; simp⟩
    obtain ⟨N, h1⟩ := h rest
    exact Ev.succ ⟨N, fun f hf => by
      simp only [List.cons_append, List.append_assoc, List.nil_append, rVal, h1 f hf]⟩
  · intro e t _ h
    refine ⟨fun rest hf => ?_, h.2⟩
    obtain ⟨x, r, rfl, hx⟩ := hf
    have hf' : Fol .tern (x :: r) := ⟨x, r, rfl, hx⟩
    obtain ⟨N, h1⟩ := RLoop.full h.1 hf'.or (fun f =>
      ror_ends (by cases x <;> simp_all [Tok.after, Tok.ends])
        (by rintro rfl; simp [Tok.after] at hx) f _)
    refine Ev.succ ⟨N, fun f hf => ?_⟩
    simp only [rTern, h1 f hf]
    cases x <;> simp_all [Tok.after]
  · intro e t _ h
    exact ⟨RLoop.first (p' := rAnd)
      (fun rest hf => RLoop.full h.1 hf.and (fun f => rand_ends hf f _))
      (fun f ts v r hp => by simp only [rOr, hp]), h.2⟩
  · intro e t _ h
    exact ⟨RLoop.first (p' := rCmp)
      (fun rest hf => RLoop.full h.1 hf.cmp (fun f => rcmp_ends hf f _))
      (fun f ts v r hp => by simp only [rAnd, hp]), h.2⟩
  · intro e t _ h
    exact ⟨RLoop.first (p' := rVal) (fun rest hf => h.1 rest hf)
      (fun f ts v r hp => by simp only [rCmp, hp]), h.2⟩
  · intro r
    exact Ev.succ ⟨0, fun f _ => by simp only [List.nil_append, rEval]⟩
  · intro e es t _ ht h r
    obtain ⟨N, h1⟩ := h.1 r
    refine Ev.succ ⟨N, fun f hf => ?_⟩
    cases t with
    | nil => exact absurd rfl ht
    | cons x t =>
      have := h1 f hf
      simp only [List.cons_append] at this ⊢
      cases x <;> first | (simp only [rEval, this]; done) | exact absurd rfl (h.2 t)
  · intro e t _ h
    refine ⟨fun r => ?_, h.2⟩
    obtain ⟨N, h1⟩ := h.1 _ (fol_rp _ r)
    exact Ev.succ ⟨N, fun f hf => by simp only [rComma, h1 f hf]⟩
  · intro e es t t' _ _ h h'
    refine ⟨fun r => ?_, h.2.app (by simp)⟩
    obtain ⟨N, h1⟩ := h.1 _ (fol_comma _ (t' ++ .rp :: r))
    obtain ⟨M, h2⟩ := h'.1 r
    exact Ev.succ ⟨max N M, fun f hf => by
      simp only [List.append_assoc, List.cons_append, rComma, h1 f (by omega), h2 f (by omega)]⟩

theorem Ev.unique {α : Type} {g : Nat → Option α} {a b : α} (ha : Ev g a) (hb : Ev g b) : a = b := by
  obtain ⟨N, ha⟩ := ha
  obtain ⟨M, hb⟩ := hb
  have := (ha (max N M) (by omega)).symm.trans (hb (max N M) (by omega))
  exact Option.some.inj this

/-- The closing parenthesis is where it is, whatever follows. -/
theorem written_unique {es es' : Exs A F} {t t' r r' : List (Tok A F)} (h : WrittenAll es t)
    (h' : WrittenAll es' t') (he : t ++ .rp :: r = t' ++ .rp :: r') :
    es = es' ∧ t = t' ∧ r = r' := by
  have h1 := read_complete h r
  rw [he] at h1
  have := Ev.unique h1 (read_complete h' r')
  simp only [Prod.mk.injEq] at this
  obtain ⟨rfl, rfl⟩ := this
  exact ⟨rfl, List.append_cancel_right he, rfl⟩

end Verif.Eval
