import Verif.Eval.Lemmas

/-!
# Evaluation contexts: what is written is parsed
-/

namespace Verif.Eval

variable {A F W σ : Type}

/-- With enough fuel the result is `r`. -/
def Ev {α : Type} (g : Nat → Option α) (r : α) : Prop := ∃ N, ∀ f, N ≤ f → g f = some r

theorem Ev.succ {α : Type} {g : Nat → Option α} {r : α}
    (h : ∃ N, ∀ f, N ≤ f → g (f + 1) = some r) : Ev g r := by
  obtain ⟨N, h⟩ := h
  refine ⟨N + 1, fun f hf => ?_⟩
  cases f with
  | zero => omega
  | succ f => exact h f (by omega)

/-- Which token can follow at a level. -/
def Tok.after : Level → Tok A F → Bool
  | .val, t => t.ends
  | .cmp, t => t.ends
  | .and, .cmp _ => false
  | .and, t => t.ends
  | .or, .cmp _ => false
  | .or, .and => false
  | .or, t => t.ends
  | .tern, .rp => true
  | .tern, .comma => true
  | .tern, .colon => true
  | .tern, _ => false

/-- Something can follow at a level. -/
def Fol (L : Level) (rest : List (Tok A F)) : Prop := ∃ t r, rest = t :: r ∧ t.after L = true

theorem fol_rp (L : Level) (r : List (Tok A F)) : Fol L (.rp :: r) :=
  ⟨.rp, r, rfl, by cases L <;> rfl⟩

theorem fol_comma (L : Level) (r : List (Tok A F)) : Fol L (.comma :: r) :=
  ⟨.comma, r, rfl, by cases L <;> rfl⟩

theorem fol_colon (L : Level) (r : List (Tok A F)) : Fol L (.colon :: r) :=
  ⟨.colon, r, rfl, by cases L <;> rfl⟩

theorem Fol.or {rest : List (Tok A F)} (h : Fol .tern rest) : Fol .or rest := by
  obtain ⟨t, r, rfl, h⟩ := h
  exact ⟨t, r, rfl, by cases t <;> simp_all [Tok.after, Tok.ends]⟩

theorem Fol.and {rest : List (Tok A F)} (h : Fol .or rest) : Fol .and rest := by
  obtain ⟨t, r, rfl, h⟩ := h
  exact ⟨t, r, rfl, by cases t <;> simp_all [Tok.after, Tok.ends]⟩

theorem Fol.cmp {rest : List (Tok A F)} (h : Fol .and rest) : Fol .cmp rest := by
  obtain ⟨t, r, rfl, h⟩ := h
  exact ⟨t, r, rfl, by cases t <;> simp_all [Tok.after, Tok.ends]⟩

section complete

variable (c : Sem A F W σ)

/-- A level without a loop. -/
def CFull (L : Level) (p : Nat → Bool → List (Tok A F) → σ → Option (W × List (Tok A F) × σ))
    (e : Ex A F) (t : List (Tok A F)) : Prop :=
  ∀ pp s w s' rest, Fol L rest → Den c pp e s w s' →
    ∃ w', (pp = false → w' = w) ∧ Ev (fun f => p f pp (t ++ rest) s) (w', rest, s')

/-- A level with a loop: parsing comes to the loop with the value. -/
def CLoop (L : Level) (stop : Option Bool)
    (p : Nat → Bool → List (Tok A F) → σ → Option (W × List (Tok A F) × σ))
    (pl : Nat → Bool → W → List (Tok A F) → σ → Option (W × List (Tok A F) × σ))
    (e : Ex A F) (t : List (Tok A F)) : Prop :=
  ∀ pp s w s' rest, Fol L rest → Den c pp e s w s' →
    ∃ w' cur, (pp = false → w' = w) ∧ (pp = true → cur = true) ∧
      (pp = false → cur = true → stop.isSome = true ∧ c.truth w' = stop) ∧
      ∀ R, Ev (fun f => pl f cur w' rest s') R → Ev (fun f => p f pp (t ++ rest) s) R

/-- What is said of each level. -/
def CW : Level → Ex A F → List (Tok A F) → Prop
  | .tern => CFull c .tern (pTern c)
  | .or => CLoop c .or (some true) (pOr c) (pOrLoop c)
  | .and => CLoop c .and (some false) (pAnd c) (pAndLoop c)
  | .cmp => CLoop c .cmp none (pCmp c) (pCmpLoop c)
  | .val => CFull c .val (pVal c)

/-- What is said of one or more expressions. -/
def CSome (es : Exs A F) (t : List (Tok A F)) : Prop :=
  ∀ pp s ws s' r, DenAll c pp es s ws s' →
    ∃ ws', (pp = false → ws' = ws) ∧
      Ev (fun f => pComma c f pp (t ++ .rp :: r) s) (ws', .rp :: r, s')

/-- What is said of what is between the parentheses. -/
def CAll (es : Exs A F) (t : List (Tok A F)) : Prop :=
  ∀ pp s ws s' r, DenAll c pp es s ws s' →
    ∃ ws', (pp = false → ws' = ws) ∧ Ev (fun f => pEval c f pp (t ++ .rp :: r) s) (ws', r, s')

variable {c}

/-- A loop that ends. -/
theorem CLoop.full {L : Level} {stop : Option Bool}
    {p : Nat → Bool → List (Tok A F) → σ → Option (W × List (Tok A F) × σ)}
    {pl : Nat → Bool → W → List (Tok A F) → σ → Option (W × List (Tok A F) × σ)}
    {e : Ex A F} {t : List (Tok A F)} (h : CLoop c L stop p pl e t) {pp : Bool} {s : σ} {w : W}
    {s' : σ} {rest : List (Tok A F)} (hf : Fol L rest) (hd : Den c pp e s w s')
    (hend : ∀ f cur w s, pl (f + 1) cur w rest s = some (w, rest, s)) :
    ∃ w', (pp = false → w' = w) ∧ Ev (fun f => p f pp (t ++ rest) s) (w', rest, s') := by
  obtain ⟨w', cur, h1, _, _, h4⟩ := h pp s w s' rest hf hd
  exact ⟨w', h1, h4 _ (Ev.succ ⟨0, fun f _ => hend f cur w' s'⟩)⟩

/-- The first operand of a loop. -/
theorem CLoop.first {L : Level} {stop : Option Bool}
    {p p' : Nat → Bool → List (Tok A F) → σ → Option (W × List (Tok A F) × σ)}
    {pl : Nat → Bool → W → List (Tok A F) → σ → Option (W × List (Tok A F) × σ)}
    {e : Ex A F} {t : List (Tok A F)}
    (hfull : ∀ pp s w s' rest, Fol L rest → Den c pp e s w s' →
      ∃ w', (pp = false → w' = w) ∧ Ev (fun f => p' f pp (t ++ rest) s) (w', rest, s'))
    (hstep : ∀ f pp ts s v r s', p' f pp ts s = some (v, r, s') → p (f + 1) pp ts s = pl f pp v r s') :
    CLoop c L stop p pl e t := by
  intro pp s w s' rest hf hd
  obtain ⟨w', h1, N, h2⟩ := hfull pp s w s' rest hf hd
  refine ⟨w', pp, h1, id, (fun h h' => by rw [h] at h'; cases h'), fun R hR => Ev.succ ?_⟩
  obtain ⟨M, hM⟩ := hR
  exact ⟨max N M, fun f hf => (hstep f pp _ s w' rest s' (h2 f (by omega))).trans (hM f (by omega))⟩

theorem cmp_ends {rest : List (Tok A F)} (h : Fol .and rest) (f : Nat) (pp : Bool) (w : W) (s : σ) :
    pCmpLoop c (f + 1) pp w rest s = some (w, rest, s) := by
  obtain ⟨t, r, rfl, h⟩ := h
  cases t <;> simp_all [Tok.after, Tok.ends, pCmpLoop]

theorem and_ends {rest : List (Tok A F)} (h : Fol .or rest) (f : Nat) (pp : Bool) (w : W) (s : σ) :
    pAndLoop c (f + 1) pp w rest s = some (w, rest, s) := by
  obtain ⟨t, r, rfl, h⟩ := h
  cases t <;> simp_all [Tok.after, Tok.ends, pAndLoop]

/-- What can follow the condition of a ternary, and what can follow a ternary. -/
theorem or_ends {t : Tok A F} {r : List (Tok A F)} (h : t.ends = true) (hn : t ≠ .or)
    (f : Nat) (pp : Bool) (w : W) (s : σ) :
    pOrLoop c (f + 1) pp w (t :: r) s = some (w, t :: r, s) := by
  cases t <;> simp_all [Tok.ends, pOrLoop]

theorem c_valCmp {e : Ex A F} {t : List (Tok A F)} (h : CW c .val e t) : CW c .cmp e t :=
  CLoop.first (p' := pVal c) (fun pp s w s' rest hf hd => h pp s w s' rest hf hd)
    (fun f pp ts s v r s' hp => by simp only [pCmp, hp])

theorem c_cmpAnd {e : Ex A F} {t : List (Tok A F)} (h : CW c .cmp e t) : CW c .and e t :=
  CLoop.first (p' := pCmp c)
    (fun pp s w s' rest hf hd => CLoop.full h hf.cmp hd (cmp_ends hf))
    (fun f pp ts s v r s' hp => by simp only [pAnd, hp])

theorem c_andOr {e : Ex A F} {t : List (Tok A F)} (h : CW c .and e t) : CW c .or e t :=
  CLoop.first (p' := pAnd c)
    (fun pp s w s' rest hf hd => CLoop.full h hf.and hd (and_ends hf))
    (fun f pp ts s v r s' hp => by simp only [pOr, hp])

theorem c_orTern {e : Ex A F} {t : List (Tok A F)} (h : CW c .or e t) : CW c .tern e t := by
  intro pp s w s' rest hf hd
  obtain ⟨x, r, rfl, hx⟩ := hf
  have hf' : Fol .tern (x :: r) := ⟨x, r, rfl, hx⟩
  obtain ⟨w', h1, N, h2⟩ := CLoop.full h hf'.or hd
    (or_ends (by cases x <;> simp_all [Tok.after, Tok.ends]) (by rintro rfl; simp [Tok.after] at hx))
  refine ⟨w', h1, Ev.succ ⟨N, fun f hf => ?_⟩⟩
  simp only [pTern, h2 f hf]
  cases x <;> simp_all [Tok.after]

theorem c_empty : CW c .val .empty ([] : List (Tok A F)) := by
  intro pp s w s' rest hf hd
  obtain ⟨x, r, rfl, hx⟩ := hf
  refine ⟨c.none, ?_, Ev.succ ⟨0, fun f _ => ?_⟩⟩
  · intro h
    have := hd.2 h
    simp only [Ex.eval, Option.some.injEq, Prod.mk.injEq] at this
    exact this.1
  · have hs : s' = s := by
      cases pp with
      | true => exact hd.1 rfl
      | false =>
        have := hd.2 rfl
        simp only [Ex.eval, Option.some.injEq, Prod.mk.injEq] at this
        exact this.2.symm
    subst hs
    cases x <;> simp_all [Tok.after, Tok.ends, pVal]

theorem c_atom (a : A) : CW c .val (.atom a) ([.atom a] : List (Tok A F)) := by
  intro pp s w s' rest hf hd
  cases pp with
  | true =>
    refine ⟨c.none, (fun h => by cases h), Ev.succ ⟨0, fun f _ => ?_⟩⟩
    simp [pVal, hd.1 rfl]
  | false =>
    refine ⟨w, (fun _ => rfl), Ev.succ ⟨0, fun f _ => ?_⟩⟩
    have := hd.2 rfl
    simp only [Ex.eval] at this
    simp [pVal, this]

theorem c_not {e : Ex A F} {t : List (Tok A F)} (h : CW c .val e t) :
    CW c .val (.not e) (.not :: t) := by
  intro pp s w s' rest hf hd
  cases pp with
  | true =>
    obtain ⟨w', _, N, h2⟩ := h true s w s' rest hf ⟨hd.1, fun h => by cases h⟩
    refine ⟨c.none, (fun h => by cases h), Ev.succ ⟨N, fun f hf => ?_⟩⟩
    simp only [List.cons_append, pVal, h2 f hf, if_true]
  | false =>
    have he := hd.2 rfl
    simp only [Ex.eval] at he
    cases hv : e.eval c s with
    | none => rw [hv] at he; cases he
    | some x =>
      obtain ⟨v, s1⟩ := x
      rw [hv] at he
      simp only [Option.map_eq_some_iff, Prod.mk.injEq] at he
      obtain ⟨b, hb, rfl, rfl⟩ := he
      obtain ⟨w', hw', N, h2⟩ := h false s v s1 rest hf ⟨(fun h => by cases h), fun _ => hv⟩
      cases hw' rfl
      refine ⟨c.ofBool !b, (fun _ => rfl), Ev.succ ⟨N, fun f hf => ?_⟩⟩
      simp only [List.cons_append, pVal, h2 f hf, hb, Bool.false_eq_true, if_false]

theorem c_sub {es : Exs A F} {t : List (Tok A F)} (h : CAll c es t) :
    CW c .val (.sub es) (.lp :: (t ++ [.rp])) := by
  intro pp s w s' rest hf hd
  cases pp with
  | true =>
    obtain ⟨ws', _, N, h2⟩ := h true s [] s' rest ⟨hd.1, fun h => by cases h⟩
    refine ⟨c.none, (fun h => by cases h), Ev.succ ⟨N, fun f hf => ?_⟩⟩
    simp only [List.cons_append, List.append_assoc, List.nil_append, pVal, h2 f hf, if_true]
  | false =>
    have he := hd.2 rfl
    simp only [Ex.eval] at he
    cases hv : es.eval c s with
    | none => rw [hv] at he; cases he
    | some x =>
      obtain ⟨ws, s1⟩ := x
      rw [hv] at he
      obtain ⟨ws', hw', N, h2⟩ := h false s ws s1 rest ⟨(fun h => by cases h), fun _ => hv⟩
      cases hw' rfl
      refine ⟨w, (fun _ => rfl), Ev.succ ⟨N, fun f hf => ?_⟩⟩
      simp only [List.cons_append, List.append_assoc, List.nil_append, pVal, h2 f hf,
        Bool.false_eq_true, if_false]
      match ws, he with
      | [], he => cases he; rfl
      | [v], he => cases he; rfl

theorem c_call {g : F} {es : Exs A F} {t : List (Tok A F)} (h : CAll c es t) :
    CW c .val (.call g es) (.fn g :: .lp :: (t ++ [.rp])) := by
  intro pp s w s' rest hf hd
  cases pp with
  | true =>
    obtain ⟨ws', _, N, h2⟩ := h true s [] s' rest ⟨hd.1, fun h => by cases h⟩
    refine ⟨c.none, (fun h => by cases h), Ev.succ ⟨N, fun f hf => ?_⟩⟩
    simp only [List.cons_append, List.append_assoc, List.nil_append, pVal, h2 f hf, if_true]
  | false =>
    have he := hd.2 rfl
    simp only [Ex.eval] at he
    cases hv : es.eval c s with
    | none => rw [hv] at he; cases he
    | some x =>
      obtain ⟨ws, s1⟩ := x
      rw [hv] at he
      obtain ⟨ws', hw', N, h2⟩ := h false s ws s1 rest ⟨(fun h => by cases h), fun _ => hv⟩
      cases hw' rfl
      refine ⟨w, (fun _ => rfl), Ev.succ ⟨N, fun f hf => ?_⟩⟩
      simp only at he
      simp only [List.cons_append, List.append_assoc, List.nil_append, pVal, h2 f hf,
        Bool.false_eq_true, if_false, he, Option.map_some]

theorem c_cmp {o : Op} {l r : Ex A F} {t t' : List (Tok A F)} (hl : CW c .cmp l t)
    (hr : CW c .val r t') : CW c .cmp (.cmp o l r) (t ++ .cmp o :: t') := by
  intro pp s w s' rest hf hd
  have hfl : Fol .cmp (.cmp o :: (t' ++ rest)) := ⟨_, _, rfl, rfl⟩
  cases pp with
  | true =>
    have hs := hd.1 rfl
    subst hs
    obtain ⟨v, cur, _, hc, _, hK⟩ := hl true s' w s' _ hfl ⟨fun _ => rfl, fun h => by cases h⟩
    cases hc rfl
    obtain ⟨w', _, N, h2⟩ := hr true s' w s' rest hf ⟨fun _ => rfl, fun h => by cases h⟩
    refine ⟨v, true, (fun h => by cases h), (fun _ => rfl), (fun h => by cases h), fun R hR => ?_⟩
    simp only [List.append_assoc, List.cons_append]
    refine hK R (Ev.succ ?_)
    obtain ⟨M, hM⟩ := hR
    refine ⟨max N M, fun f hf => ?_⟩
    simp only [pCmpLoop, h2 f (by omega), if_true]
    exact hM f (by omega)
  | false =>
    have he := hd.2 rfl
    simp only [Ex.eval] at he
    cases hv : l.eval c s with
    | none => rw [hv] at he; cases he
    | some x =>
      obtain ⟨v, s1⟩ := x
      rw [hv] at he
      simp only at he
      cases hu : r.eval c s1 with
      | none => rw [hu] at he; cases he
      | some y =>
        obtain ⟨u, s2⟩ := y
        rw [hu] at he
        simp only [Option.map_eq_some_iff, Prod.mk.injEq] at he
        obtain ⟨b, hb, rfl, rfl⟩ := he
        obtain ⟨v', cur, hv', _, hc, hK⟩ := hl false s v s1 _ hfl ⟨(fun h => by cases h), fun _ => hv⟩
        cases hv' rfl
        have hcur : cur = false := by
          cases cur with
          | false => rfl
          | true => exact absurd (hc rfl rfl).1 (by simp)
        subst hcur
        obtain ⟨u', hu', N, h2⟩ := hr false s1 u s2 rest hf ⟨(fun h => by cases h), fun _ => hu⟩
        cases hu' rfl
        refine ⟨c.ofBool b, false, (fun _ => rfl), (fun h => by cases h), (fun _ h => by cases h),
          fun R hR => ?_⟩
        simp only [List.append_assoc, List.cons_append]
        refine hK R (Ev.succ ?_)
        obtain ⟨M, hM⟩ := hR
        refine ⟨max N M, fun f hf => ?_⟩
        simp only [pCmpLoop, h2 f (by omega), hb, Bool.false_eq_true, if_false]
        exact hM f (by omega)

theorem c_and {l r : Ex A F} {t t' : List (Tok A F)} (hl : CW c .and l t)
    (hr : CW c .cmp r t') : CW c .and (.and l r) (t ++ .and :: t') := by
  intro pp s w s' rest hf hd
  have hfl : Fol .and (.and :: (t' ++ rest)) := ⟨_, _, rfl, rfl⟩
  cases pp with
  | true =>
    have hs := hd.1 rfl
    subst hs
    obtain ⟨v, cur, _, hc, _, hK⟩ := hl true s' w s' _ hfl ⟨fun _ => rfl, fun h => by cases h⟩
    cases hc rfl
    obtain ⟨w', _, N, h2⟩ := CLoop.full hr (pp := true) (s := s') (w := w) hf.cmp
      ⟨fun _ => rfl, fun h => by cases h⟩ (cmp_ends hf)
    refine ⟨v, true, (fun h => by cases h), (fun _ => rfl), (fun h => by cases h), fun R hR => ?_⟩
    simp only [List.append_assoc, List.cons_append]
    refine hK R (Ev.succ ?_)
    obtain ⟨M, hM⟩ := hR
    refine ⟨max N M, fun f hf => ?_⟩
    simp only [pAndLoop, if_true, Bool.true_or, h2 f (by omega)]
    exact hM f (by omega)
  | false =>
    have he := hd.2 rfl
    simp only [Ex.eval] at he
    cases hv : l.eval c s with
    | none => rw [hv] at he; cases he
    | some x =>
      obtain ⟨v, s1⟩ := x
      rw [hv] at he
      simp only at he
      obtain ⟨v', cur, hv', _, hc, hK⟩ := hl false s v s1 _ hfl ⟨(fun h => by cases h), fun _ => hv⟩
      cases hv' rfl
      cases ht : c.truth v with
      | none => rw [ht] at he; cases he
      | some b =>
        rw [ht] at he
        cases b with
        | false =>
          simp only [Option.some.injEq, Prod.mk.injEq] at he
          obtain ⟨rfl, rfl⟩ := he
          obtain ⟨w', _, N, h2⟩ := CLoop.full hr (pp := true) (s := s1) (w := v) hf.cmp
            ⟨fun _ => rfl, fun h => by cases h⟩ (cmp_ends hf)
          refine ⟨v, true, (fun _ => rfl), (fun _ => rfl), (fun _ _ => ⟨rfl, ht⟩), fun R hR => ?_⟩
          simp only [List.append_assoc, List.cons_append]
          refine hK R (Ev.succ ?_)
          obtain ⟨M, hM⟩ := hR
          refine ⟨max N M, fun f hf => ?_⟩
          cases cur with
          | true =>
            simp only [pAndLoop, if_true, Bool.true_or, h2 f (by omega)]
            exact hM f (by omega)
          | false =>
            simp only [pAndLoop, Bool.false_eq_true, if_false, ht, Bool.not_false, Bool.or_true,
              h2 f (by omega), if_true]
            exact hM f (by omega)
        | true =>
          have hcur : cur = false := by
            cases cur with
            | false => rfl
            | true =>
              have := (hc rfl rfl).2
              rw [ht] at this
              cases this
          subst hcur
          simp only at he
          cases hu : r.eval c s1 with
          | none => rw [hu] at he; cases he
          | some y =>
            obtain ⟨u, s2⟩ := y
            rw [hu] at he
            simp only [Option.map_eq_some_iff, Prod.mk.injEq] at he
            obtain ⟨b, hb, rfl, rfl⟩ := he
            obtain ⟨u', hu', N, h2⟩ := CLoop.full hr (pp := false) hf.cmp
              ⟨(fun h => by cases h), fun _ => hu⟩ (cmp_ends hf)
            cases hu' rfl
            refine ⟨c.ofBool b, false, (fun _ => rfl), (fun h => by cases h),
              (fun _ h => by cases h), fun R hR => ?_⟩
            simp only [List.append_assoc, List.cons_append]
            refine hK R (Ev.succ ?_)
            obtain ⟨M, hM⟩ := hR
            refine ⟨max N M, fun f hf => ?_⟩
            simp only [pAndLoop, Bool.false_eq_true, if_false, ht, Bool.not_true, Bool.or_false,
              h2 f (by omega), hb]
            exact hM f (by omega)

theorem c_or {l r : Ex A F} {t t' : List (Tok A F)} (hl : CW c .or l t)
    (hr : CW c .and r t') : CW c .or (.or l r) (t ++ .or :: t') := by
  intro pp s w s' rest hf hd
  have hfl : Fol .or (.or :: (t' ++ rest)) := ⟨_, _, rfl, rfl⟩
  cases pp with
  | true =>
    have hs := hd.1 rfl
    subst hs
    obtain ⟨v, cur, _, hc, _, hK⟩ := hl true s' w s' _ hfl ⟨fun _ => rfl, fun h => by cases h⟩
    cases hc rfl
    obtain ⟨w', _, N, h2⟩ := CLoop.full hr (pp := true) (s := s') (w := w) hf.and
      ⟨fun _ => rfl, fun h => by cases h⟩ (and_ends hf)
    refine ⟨v, true, (fun h => by cases h), (fun _ => rfl), (fun h => by cases h), fun R hR => ?_⟩
    simp only [List.append_assoc, List.cons_append]
    refine hK R (Ev.succ ?_)
    obtain ⟨M, hM⟩ := hR
    refine ⟨max N M, fun f hf => ?_⟩
    simp only [pOrLoop, if_true, Bool.true_or, h2 f (by omega)]
    exact hM f (by omega)
  | false =>
    have he := hd.2 rfl
    simp only [Ex.eval] at he
    cases hv : l.eval c s with
    | none => rw [hv] at he; cases he
    | some x =>
      obtain ⟨v, s1⟩ := x
      rw [hv] at he
      simp only at he
      obtain ⟨v', cur, hv', _, hc, hK⟩ := hl false s v s1 _ hfl ⟨(fun h => by cases h), fun _ => hv⟩
      cases hv' rfl
      cases ht : c.truth v with
      | none => rw [ht] at he; cases he
      | some b =>
        rw [ht] at he
        cases b with
        | true =>
          simp only [Option.some.injEq, Prod.mk.injEq] at he
          obtain ⟨rfl, rfl⟩ := he
          obtain ⟨w', _, N, h2⟩ := CLoop.full hr (pp := true) (s := s1) (w := v) hf.and
            ⟨fun _ => rfl, fun h => by cases h⟩ (and_ends hf)
          refine ⟨v, true, (fun _ => rfl), (fun _ => rfl), (fun _ _ => ⟨rfl, ht⟩), fun R hR => ?_⟩
          simp only [List.append_assoc, List.cons_append]
          refine hK R (Ev.succ ?_)
          obtain ⟨M, hM⟩ := hR
          refine ⟨max N M, fun f hf => ?_⟩
          cases cur with
          | true =>
            simp only [pOrLoop, if_true, Bool.true_or, h2 f (by omega)]
            exact hM f (by omega)
          | false =>
            simp only [pOrLoop, Bool.false_eq_true, if_false, ht, Bool.or_true,
              h2 f (by omega), if_true]
            exact hM f (by omega)
        | false =>
          have hcur : cur = false := by
            cases cur with
            | false => rfl
            | true =>
              have := (hc rfl rfl).2
              rw [ht] at this
              cases this
          subst hcur
          simp only at he
          cases hu : r.eval c s1 with
          | none => rw [hu] at he; cases he
          | some y =>
            obtain ⟨u, s2⟩ := y
            rw [hu] at he
            simp only [Option.map_eq_some_iff, Prod.mk.injEq] at he
            obtain ⟨b, hb, rfl, rfl⟩ := he
            obtain ⟨u', hu', N, h2⟩ := CLoop.full hr (pp := false) hf.and
              ⟨(fun h => by cases h), fun _ => hu⟩ (and_ends hf)
            cases hu' rfl
            refine ⟨c.ofBool b, false, (fun _ => rfl), (fun h => by cases h),
              (fun _ h => by cases h), fun R hR => ?_⟩
            simp only [List.append_assoc, List.cons_append]
            refine hK R (Ev.succ ?_)
            obtain ⟨M, hM⟩ := hR
            refine ⟨max N M, fun f hf => ?_⟩
            simp only [pOrLoop, Bool.false_eq_true, if_false, ht, Bool.or_false,
              h2 f (by omega), hb]
            exact hM f (by omega)

theorem c_tern {q m r : Ex A F} {t t' t'' : List (Tok A F)} (hq : CW c .or q t)
    (hm : CW c .tern m t') (hr : CW c .tern r t'') :
    CW c .tern (.tern q m r) (t ++ .question :: (t' ++ .colon :: t'')) := by
  intro pp s w s' rest hf hd
  have hfq : Fol .or (.question :: (t' ++ .colon :: (t'' ++ rest))) := ⟨_, _, rfl, rfl⟩
  have hfm : Fol .tern (.colon :: (t'' ++ rest)) := fol_colon _ _
  cases pp with
  | true =>
    have hs := hd.1 rfl
    subst hs
    obtain ⟨v, _, N, h1⟩ := CLoop.full hq (pp := true) (s := s') (w := w) hfq
      ⟨fun _ => rfl, fun h => by cases h⟩ (or_ends rfl (by simp))
    obtain ⟨u, _, M, h2⟩ := hm true s' w s' _ hfm ⟨fun _ => rfl, fun h => by cases h⟩
    obtain ⟨x, _, K, h3⟩ := hr true s' w s' rest hf ⟨fun _ => rfl, fun h => by cases h⟩
    refine ⟨u, (fun h => by cases h), Ev.succ ⟨max N (max M K), fun f hf => ?_⟩⟩
    simp only [List.append_assoc, List.cons_append, pTern, h1 f (by omega), if_true,
      h2 f (by omega), h3 f (by omega)]
  | false =>
    have he := hd.2 rfl
    simp only [Ex.eval] at he
    cases hv : q.eval c s with
    | none => rw [hv] at he; cases he
    | some x =>
      obtain ⟨v, s1⟩ := x
      rw [hv] at he
      simp only at he
      obtain ⟨v', hv', N, h1⟩ := CLoop.full hq (pp := false) hfq
        ⟨(fun h => by cases h), fun _ => hv⟩ (or_ends rfl (by simp))
      cases hv' rfl
      cases ht : c.truth v with
      | none => rw [ht] at he; cases he
      | some b =>
        rw [ht] at he
        cases b with
        | true =>
          simp only at he
          obtain ⟨u, hu, M, h2⟩ := hm false s1 w s' _ hfm ⟨(fun h => by cases h), fun _ => he⟩
          cases hu rfl
          obtain ⟨x, _, K, h3⟩ := hr true s' w s' rest hf ⟨fun _ => rfl, fun h => by cases h⟩
          refine ⟨w, (fun _ => rfl), Ev.succ ⟨max N (max M K), fun f hf => ?_⟩⟩
          simp only [List.append_assoc, List.cons_append, pTern, h1 f (by omega), if_true,
            h2 f (by omega), h3 f (by omega), Bool.false_eq_true, if_false, ht, Bool.not_true]
        | false =>
          simp only at he
          obtain ⟨u, _, M, h2⟩ := hm true s1 w s1 _ hfm ⟨fun _ => rfl, fun h => by cases h⟩
          obtain ⟨x, hx, K, h3⟩ := hr false s1 w s' rest hf ⟨(fun h => by cases h), fun _ => he⟩
          cases hx rfl
          refine ⟨w, (fun _ => rfl), Ev.succ ⟨max N (max M K), fun f hf => ?_⟩⟩
          simp only [List.append_assoc, List.cons_append, pTern, h1 f (by omega),
            h2 f (by omega), h3 f (by omega), Bool.false_eq_true, if_false, ht, Bool.not_false]

theorem c_one {e : Ex A F} {t : List (Tok A F)} (h : CW c .tern e t) : CSome c (.cons e .nil) t := by
  intro pp s ws s' r hd
  cases pp with
  | true =>
    have hs := hd.1 rfl
    subst hs
    obtain ⟨u, _, N, h1⟩ := h true s' c.none s' (.rp :: r) (fol_rp _ _)
      ⟨fun _ => rfl, fun h => by cases h⟩
    refine ⟨[], (fun h => by cases h), Ev.succ ⟨N, fun f hf => ?_⟩⟩
    simp only [pComma, h1 f hf, if_true]
  | false =>
    have he := hd.2 rfl
    simp only [Exs.eval] at he
    cases hv : e.eval c s with
    | none => rw [hv] at he; cases he
    | some x =>
      obtain ⟨v, s1⟩ := x
      rw [hv] at he
      simp only [Option.map_some, Option.some.injEq, Prod.mk.injEq] at he
      obtain ⟨rfl, rfl⟩ := he
      obtain ⟨u, hu, N, h1⟩ := h false s v s1 (.rp :: r) (fol_rp _ _)
        ⟨(fun h => by cases h), fun _ => hv⟩
      cases hu rfl
      refine ⟨[v], (fun _ => rfl), Ev.succ ⟨N, fun f hf => ?_⟩⟩
      simp only [pComma, h1 f hf, Bool.false_eq_true, if_false]

theorem c_more {e : Ex A F} {es : Exs A F} {t t' : List (Tok A F)} (h : CW c .tern e t)
    (h' : CSome c es t') : CSome c (.cons e es) (t ++ .comma :: t') := by
  intro pp s ws s' r hd
  cases pp with
  | true =>
    have hs := hd.1 rfl
    subst hs
    obtain ⟨u, _, N, h1⟩ := h true s' c.none s' (.comma :: (t' ++ .rp :: r)) (fol_comma _ _)
      ⟨fun _ => rfl, fun h => by cases h⟩
    obtain ⟨ws', _, M, h2⟩ := h' true s' [] s' r ⟨fun _ => rfl, fun h => by cases h⟩
    refine ⟨ws', (fun h => by cases h), Ev.succ ⟨max N M, fun f hf => ?_⟩⟩
    simp only [List.append_assoc, List.cons_append, pComma, h1 f (by omega), h2 f (by omega), if_true]
  | false =>
    have he := hd.2 rfl
    simp only [Exs.eval] at he
    cases hv : e.eval c s with
    | none => rw [hv] at he; cases he
    | some x =>
      obtain ⟨v, s1⟩ := x
      rw [hv] at he
      simp only [Option.map_eq_some_iff, Prod.mk.injEq] at he
      obtain ⟨y, hy, rfl, rfl⟩ := he
      obtain ⟨u, hu, N, h1⟩ := h false s v s1 (.comma :: (t' ++ .rp :: r)) (fol_comma _ _)
        ⟨(fun h => by cases h), fun _ => hv⟩
      cases hu rfl
      obtain ⟨ws', hws, M, h2⟩ := h' false s1 y.1 y.2 r ⟨(fun h => by cases h), fun _ => hy⟩
      cases hws rfl
      refine ⟨v :: y.1, (fun _ => rfl), Ev.succ ⟨max N M, fun f hf => ?_⟩⟩
      simp only [List.append_assoc, List.cons_append, pComma, h1 f (by omega), h2 f (by omega),
        Bool.false_eq_true, if_false]

/-- Nothing written starts with a closing parenthesis. -/
def NoRp (t : List (Tok A F)) : Prop := ∀ r, t ≠ .rp :: r

theorem NoRp.app {t t' : List (Tok A F)} {x : Tok A F} (h : NoRp t) (hx : x ≠ .rp) :
    NoRp (t ++ x :: t') := by
  intro r
  cases t with
  | nil => simpa using fun h => absurd h hx
  | cons y t =>
    simp only [List.cons_append, ne_eq, List.cons.injEq, not_and]
    rintro rfl
    exact absurd rfl (h t)

theorem c_all {e : Ex A F} {es : Exs A F} {t : List (Tok A F)} (h : CSome c (.cons e es) t)
    (ht : t ≠ []) (hn : NoRp t) : CAll c (.cons e es) t := by
  intro pp s ws s' r hd
  obtain ⟨ws', h1, N, h2⟩ := h pp s ws s' r hd
  refine ⟨ws', h1, Ev.succ ⟨N, fun f hf => ?_⟩⟩
  cases t with
  | nil => exact absurd rfl ht
  | cons x t =>
    have := h2 f hf
    simp only [List.cons_append] at this ⊢
    cases x <;> first | (simp only [pEval, this]; done) | exact absurd rfl (hn t)

theorem c_nil : CAll c (.nil : Exs A F) [] := by
  intro pp s ws s' r hd
  have hs : s' = s ∧ (pp = false → ws = []) := by
    cases pp with
    | true => exact ⟨hd.1 rfl, fun h => by cases h⟩
    | false =>
      have he := hd.2 rfl
      simp only [Exs.eval, Option.some.injEq, Prod.mk.injEq] at he
      exact ⟨he.2.symm, fun _ => he.1.symm⟩
  obtain ⟨rfl, hw⟩ := hs
  exact ⟨[], fun h => (hw h).symm, Ev.succ ⟨0, fun f _ => by simp only [List.nil_append, pEval]⟩⟩

variable (c) in
/-- Everything that is written is parsed. -/
theorem parse_complete {es : Exs A F} {t : List (Tok A F)} (h : WrittenAll es t) : CAll c es t := by
  refine WrittenAll.rec (motive_1 := fun L e t _ => CW c L e t ∧ NoRp t)
    (motive_2 := fun es t _ => CAll c es t) (motive_3 := fun es t _ => CSome c es t ∧ NoRp t)
    ?_ ?_ ?_ ?_ ?_ ?_ ?_ ?_ ?_ ?_ ?_ ?_ ?_ ?_ ?_ ?_ ?_ h
  · intro q m r t t' t'' _ _ _ hq hm hr
    exact ⟨c_tern hq.1 hm.1 hr.1, hq.2.app (by simp)⟩
  · intro l r t t' _ _ hl hr
    exact ⟨c_or hl.1 hr.1, hl.2.app (by simp)⟩
  · intro l r t t' _ _ hl hr
    exact ⟨c_and hl.1 hr.1, hl.2.app (by simp)⟩
  · intro o l r t t' _ _ hl hr
    exact ⟨c_cmp hl.1 hr.1, hl.2.app (by simp)⟩
  · intro e t _ h
    exact ⟨c_not h.1, by intro r; simp⟩
  · exact ⟨c_empty, by intro r; simp⟩
  · intro a
    exact ⟨c_atom a, by intro r; simp⟩
  · intro es t _ h
    exact ⟨c_sub h, by intro r; simp⟩
  · intro g es t _ h
    exact ⟨c_call h, by intro r; simp⟩
  · intro e t _ h
    exact ⟨c_orTern h.1, h.2⟩
  · intro e t _ h
    exact ⟨c_andOr h.1, h.2⟩
  · intro e t _ h
    exact ⟨c_cmpAnd h.1, h.2⟩
  · intro e t _ h
    exact ⟨c_valCmp h.1, h.2⟩
  · exact c_nil
  · intro e es t _ ht h
    exact c_all h.1 ht h.2
  · intro e t _ h
    exact ⟨c_one h.1, h.2⟩
  · intro e es t t' _ _ h h'
    exact ⟨c_more h.1 h'.1, h.2.app (by simp)⟩

end complete

end Verif.Eval
