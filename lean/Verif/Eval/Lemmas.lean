import Verif.Eval.Model

/-!
# Evaluation contexts: lemmas
-/

namespace Verif.Eval

variable {A F W σ : Type}

/-- What a parsed expression has done: nothing if it was only pre-parsed. -/
def Den (c : Sem A F W σ) (pp : Bool) (e : Ex A F) (s : σ) (w : W) (s' : σ) : Prop :=
  (pp = true → s' = s) ∧ (pp = false → e.eval c s = some (w, s'))

/-- The same for a list. -/
def DenAll (c : Sem A F W σ) (pp : Bool) (es : Exs A F) (s : σ) (ws : List W) (s' : σ) : Prop :=
  (pp = true → s' = s) ∧ (pp = false → es.eval c s = some (ws, s'))

/-! ## What is parsed is an expression -/

section sound

variable (c : Sem A F W σ)

/-- A parser of a level is sound. -/
def Snd (L : Level) (p : Bool → List (Tok A F) → σ → Option (W × List (Tok A F) × σ)) : Prop :=
  ∀ pp ts s w r s', p pp ts s = some (w, r, s') →
    ∃ e t, Written L e t ∧ ts = t ++ r ∧ Den c pp e s w s'

/-- A loop of a level is sound: `stop` is the value at which it stops evaluating. -/
def SndLoop (L : Level) (stop : Option Bool)
    (p : Bool → W → List (Tok A F) → σ → Option (W × List (Tok A F) × σ)) : Prop :=
  ∀ (pp0 pp : Bool) (lhs : W) (ts : List (Tok A F)) (s : σ) (w : W) (r : List (Tok A F)) (s' : σ)
    (e0 : Ex A F) (t0 : List (Tok A F)) (s0 : σ),
    Written L e0 t0 →
    (pp0 = true → s = s0 ∧ pp = true) →
    (pp0 = false → e0.eval c s0 = some (lhs, s) ∧
      (pp = true → stop.isSome = true ∧ c.truth lhs = stop)) →
    p pp lhs ts s = some (w, r, s') →
    ∃ e t, Written L e (t0 ++ t) ∧ ts = t ++ r ∧ Den c pp0 e s0 w s'

variable {c}

theorem snd_val {f : Nat} (hV : Snd c .val (pVal c f))
    (hE : ∀ pp ts s vs r s', pEval c f pp ts s = some (vs, r, s') →
      ∃ es t, WrittenAll es t ∧ ts = t ++ .rp :: r ∧ DenAll c pp es s vs s') :
    Snd c .val (pVal c (f + 1)) := by
  intro pp ts s w r s' h
  cases ts with
  | nil => simp [pVal] at h
  | cons t ts =>
    cases t with
    | not =>
      simp only [pVal] at h
      cases hp : pVal c f pp ts s with
      | none => rw [hp] at h; cases h
      | some x =>
        obtain ⟨v, r1, s1⟩ := x
        rw [hp] at h
        obtain ⟨e, t, hw, rfl, hd⟩ := hV pp ts s v r1 s1 hp
        cases pp with
        | true =>
          simp only [if_true, Option.some.injEq, Prod.mk.injEq] at h
          obtain ⟨rfl, rfl, rfl⟩ := h
          exact ⟨.not e, .not :: t, .not hw, rfl, fun _ => hd.1 rfl, fun h => by cases h⟩
        | false =>
          simp only [Bool.false_eq_true, if_false] at h
          cases ht : c.truth v with
          | none => rw [ht] at h; cases h
          | some b =>
            rw [ht] at h
            simp only [Option.some.injEq, Prod.mk.injEq] at h
            obtain ⟨rfl, rfl, rfl⟩ := h
            refine ⟨.not e, .not :: t, .not hw, rfl, (fun h => by cases h), fun _ => ?_⟩
            simp only [Ex.eval, hd.2 rfl, ht, Option.map_some]
    | atom a =>
      simp only [pVal] at h
      cases pp with
      | true =>
        simp only [if_true, Option.some.injEq, Prod.mk.injEq] at h
        obtain ⟨rfl, rfl, rfl⟩ := h
        exact ⟨.atom a, [.atom a], .atom a, rfl, fun _ => rfl, fun h => by cases h⟩
      | false =>
        simp only [Bool.false_eq_true, if_false, Option.map_eq_some_iff, Prod.mk.injEq] at h
        obtain ⟨x, hx, rfl, rfl, rfl⟩ := h
        exact ⟨.atom a, [.atom a], .atom a, rfl, (fun h => by cases h), fun _ => hx⟩
    | lp =>
      simp only [pVal] at h
      cases hp : pEval c f pp ts s with
      | none => rw [hp] at h; cases h
      | some x =>
        obtain ⟨vs, r1, s1⟩ := x
        rw [hp] at h
        obtain ⟨es, t, hw, rfl, hd⟩ := hE pp ts s vs r1 s1 hp
        cases pp with
        | true =>
          simp only [if_true, Option.some.injEq, Prod.mk.injEq] at h
          obtain ⟨rfl, rfl, rfl⟩ := h
          exact ⟨.sub es, .lp :: (t ++ [.rp]), .sub hw, by simp, fun _ => hd.1 rfl,
            fun h => by cases h⟩
        | false =>
          simp only [Bool.false_eq_true, if_false] at h
          refine ⟨.sub es, .lp :: (t ++ [.rp]), .sub hw, ?_, (fun h => by cases h), fun _ => ?_⟩
          · match vs, h with
            | [], h => cases h; simp
            | [v], h => cases h; simp
          · simp only [Ex.eval, hd.2 rfl]
            match vs, h with
            | [], h => cases h; rfl
            | [v], h => cases h; rfl
    | fn g =>
      cases ts with
      | nil => simp [pVal, Tok.ends] at h
      | cons t ts =>
        cases t with
        | lp =>
          simp only [pVal] at h
          cases hp : pEval c f pp ts s with
          | none => rw [hp] at h; cases h
          | some x =>
            obtain ⟨vs, r1, s1⟩ := x
            rw [hp] at h
            obtain ⟨es, t, hw, rfl, hd⟩ := hE pp ts s vs r1 s1 hp
            cases pp with
            | true =>
              simp only [if_true, Option.some.injEq, Prod.mk.injEq] at h
              obtain ⟨rfl, rfl, rfl⟩ := h
              exact ⟨.call g es, .fn g :: .lp :: (t ++ [.rp]), .call hw, by simp, fun _ => hd.1 rfl,
                fun h => by cases h⟩
            | false =>
              simp only [Bool.false_eq_true, if_false, Option.map_eq_some_iff, Prod.mk.injEq] at h
              obtain ⟨x, hx, rfl, rfl, rfl⟩ := h
              refine ⟨.call g es, .fn g :: .lp :: (t ++ [.rp]), .call hw, by simp,
                (fun h => by cases h), fun _ => ?_⟩
              simp only [Ex.eval, hd.2 rfl, hx]
        | _ => simp [pVal, Tok.ends] at h
    | _ =>
      simp only [pVal, Tok.ends, if_true, Option.some.injEq, Prod.mk.injEq] at h
      first
      | (obtain ⟨rfl, rfl, rfl⟩ := h
         exact ⟨.empty, [], .empty, rfl, fun _ => rfl, fun _ => rfl⟩)
      | simp at h

theorem snd_cmpLoop {f : Nat} (hV : Snd c .val (pVal c f)) (hL : SndLoop c .cmp none (pCmpLoop c f)) :
    SndLoop c .cmp none (pCmpLoop c (f + 1)) := by
  intro pp0 pp lhs ts s w r s' e0 t0 s0 hw h1 h2 hz
  have stop : some (lhs, ts, s) = some (w, r, s') →
      ∃ e t, Written .cmp e (t0 ++ t) ∧ ts = t ++ r ∧ Den c pp0 e s0 w s' := by
    intro h
    cases h
    exact ⟨e0, [], by simpa using hw, rfl, fun hp => (h1 hp).1, fun hp => (h2 hp).1⟩
  match ts, hz with
  | [], h => exact stop (by simpa [pCmpLoop] using h)
  | .atom _ :: _, h => exact stop (by simpa [pCmpLoop] using h)
  | .fn _ :: _, h => exact stop (by simpa [pCmpLoop] using h)
  | .lp :: _, h => exact stop (by simpa [pCmpLoop] using h)
  | .rp :: _, h => exact stop (by simpa [pCmpLoop] using h)
  | .question :: _, h => exact stop (by simpa [pCmpLoop] using h)
  | .colon :: _, h => exact stop (by simpa [pCmpLoop] using h)
  | .comma :: _, h => exact stop (by simpa [pCmpLoop] using h)
  | .or :: _, h => exact stop (by simpa [pCmpLoop] using h)
  | .and :: _, h => exact stop (by simpa [pCmpLoop] using h)
  | .not :: _, h => exact stop (by simpa [pCmpLoop] using h)
  | .cmp o :: ts, h =>
    simp only [pCmpLoop] at h
    cases hp : pVal c f pp ts s with
    | none => rw [hp] at h; cases h
    | some x =>
      obtain ⟨rhs, r1, s1⟩ := x
      rw [hp] at h
      obtain ⟨e1, t1, hw1, rfl, hd1⟩ := hV pp ts s rhs r1 s1 hp
      have hw' : Written .cmp (.cmp o e0 e1) (t0 ++ .cmp o :: t1) := .cmp hw hw1
      cases hpp : pp with
      | true =>
        subst hpp
        simp only [if_true] at h
        have hp0 : pp0 = true := by
          cases pp0 with
          | true => rfl
          | false => exact absurd ((h2 rfl).2 rfl).1 (by simp)
        obtain ⟨e, t, hwe, hr, hd⟩ := hL pp0 true lhs r1 s1 w r s' _ _ s0 hw'
          (fun _ => ⟨(hd1.1 rfl).trans (h1 hp0).1, rfl⟩) (fun h => by rw [hp0] at h; cases h) h
        exact ⟨e, .cmp o :: (t1 ++ t), by simpa using hwe, by simp [hr], hd⟩
      | false =>
        subst hpp
        simp only [Bool.false_eq_true, if_false] at h
        cases hc : c.comp o lhs rhs with
        | none => rw [hc] at h; cases h
        | some b =>
          rw [hc] at h
          have hp0 : pp0 = false := by
            cases pp0 with
            | true => exact absurd (h1 rfl).2 (by simp)
            | false => rfl
          obtain ⟨e, t, hwe, hr, hd⟩ := hL pp0 false _ r1 s1 w r s' _ _ s0 hw'
            (fun h => by rw [hp0] at h; cases h)
            (fun h => ⟨by simp only [Ex.eval, (h2 h).1, hd1.2 rfl, hc, Option.map_some],
              fun h => by cases h⟩) h
          exact ⟨e, .cmp o :: (t1 ++ t), by simpa using hwe, by simp [hr], hd⟩

theorem snd_andLoop {f : Nat} (hV : Snd c .cmp (pCmp c f))
    (hL : SndLoop c .and (some false) (pAndLoop c f)) :
    SndLoop c .and (some false) (pAndLoop c (f + 1)) := by
  intro pp0 pp lhs ts s w r s' e0 t0 s0 hw h1 h2 hz
  have stop : some (lhs, ts, s) = some (w, r, s') →
      ∃ e t, Written .and e (t0 ++ t) ∧ ts = t ++ r ∧ Den c pp0 e s0 w s' := by
    intro h
    cases h
    exact ⟨e0, [], by simpa using hw, rfl, fun hp => (h1 hp).1, fun hp => (h2 hp).1⟩
  match ts, hz with
  | [], h => exact stop (by simpa [pAndLoop] using h)
  | .atom _ :: _, h => exact stop (by simpa [pAndLoop] using h)
  | .fn _ :: _, h => exact stop (by simpa [pAndLoop] using h)
  | .lp :: _, h => exact stop (by simpa [pAndLoop] using h)
  | .rp :: _, h => exact stop (by simpa [pAndLoop] using h)
  | .question :: _, h => exact stop (by simpa [pAndLoop] using h)
  | .colon :: _, h => exact stop (by simpa [pAndLoop] using h)
  | .comma :: _, h => exact stop (by simpa [pAndLoop] using h)
  | .or :: _, h => exact stop (by simpa [pAndLoop] using h)
  | .cmp _ :: _, h => exact stop (by simpa [pAndLoop] using h)
  | .not :: _, h => exact stop (by simpa [pAndLoop] using h)
  | .and :: ts, h =>
    simp only [pAndLoop] at h
    cases hb : (if pp = true then some true else c.truth lhs) with
    | none => rw [hb] at h; cases h
    | some b =>
      rw [hb] at h
      simp only at h
      cases hp : pCmp c f (pp || !b) ts s with
      | none => rw [hp] at h; cases h
      | some x =>
        obtain ⟨rhs, r1, s1⟩ := x
        rw [hp] at h
        simp only at h
        obtain ⟨e1, t1, hw1, rfl, hd1⟩ := hV _ ts s rhs r1 s1 hp
        have hw' : Written .and (.and e0 e1) (t0 ++ .and :: t1) := .and hw hw1
        by_cases hpb : (pp || !b) = true
        · rw [if_pos hpb] at h
          rw [hpb] at h hd1
          have hss := hd1.1 rfl
          obtain ⟨e, t, hwe, hr, hd⟩ := hL pp0 true lhs r1 s1 w r s' _ _ s0 hw'
            (fun hp0 => ⟨hss.trans (h1 hp0).1, rfl⟩)
            (fun hp0 => by
              have ht : c.truth lhs = some false := by
                cases pp with
                | true => exact ((h2 hp0).2 rfl).2
                | false =>
                  simp only [Bool.false_eq_true, if_false] at hb
                  simp only [Bool.false_or, Bool.not_eq_true'] at hpb
                  rw [hb, hpb]
              exact ⟨by simp only [Ex.eval, (h2 hp0).1, ht, hss], fun _ => ⟨rfl, ht⟩⟩) h
          exact ⟨e, .and :: (t1 ++ t), by simpa using hwe, by simp [hr], hd⟩
        · rw [if_neg hpb] at h
          rw [Bool.not_eq_true] at hpb
          rw [hpb] at h hd1
          simp only [Bool.or_eq_false_iff, Bool.not_eq_false'] at hpb
          obtain ⟨rfl, rfl⟩ := hpb
          simp only [Bool.false_eq_true, if_false] at hb
          have hp0 : pp0 = false := by
            cases pp0 with
            | true => exact absurd (h1 rfl).2 (by simp)
            | false => rfl
          cases ht : c.truth rhs with
          | none => rw [ht] at h; cases h
          | some b' =>
            rw [ht] at h
            obtain ⟨e, t, hwe, hr, hd⟩ := hL pp0 false _ r1 s1 w r s' _ _ s0 hw'
              (fun h => by rw [hp0] at h; cases h)
              (fun h => ⟨by simp only [Ex.eval, (h2 h).1, hb, hd1.2 rfl, ht, Option.map_some],
                fun h => by cases h⟩) h
            exact ⟨e, .and :: (t1 ++ t), by simpa using hwe, by simp [hr], hd⟩

theorem snd_orLoop {f : Nat} (hV : Snd c .and (pAnd c f))
    (hL : SndLoop c .or (some true) (pOrLoop c f)) :
    SndLoop c .or (some true) (pOrLoop c (f + 1)) := by
  intro pp0 pp lhs ts s w r s' e0 t0 s0 hw h1 h2 hz
  have stop : some (lhs, ts, s) = some (w, r, s') →
      ∃ e t, Written .or e (t0 ++ t) ∧ ts = t ++ r ∧ Den c pp0 e s0 w s' := by
    intro h
    cases h
    exact ⟨e0, [], by simpa using hw, rfl, fun hp => (h1 hp).1, fun hp => (h2 hp).1⟩
  match ts, hz with
  | [], h => exact stop (by simpa [pOrLoop] using h)
  | .atom _ :: _, h => exact stop (by simpa [pOrLoop] using h)
  | .fn _ :: _, h => exact stop (by simpa [pOrLoop] using h)
  | .lp :: _, h => exact stop (by simpa [pOrLoop] using h)
  | .rp :: _, h => exact stop (by simpa [pOrLoop] using h)
  | .question :: _, h => exact stop (by simpa [pOrLoop] using h)
  | .colon :: _, h => exact stop (by simpa [pOrLoop] using h)
  | .comma :: _, h => exact stop (by simpa [pOrLoop] using h)
  | .and :: _, h => exact stop (by simpa [pOrLoop] using h)
  | .cmp _ :: _, h => exact stop (by simpa [pOrLoop] using h)
  | .not :: _, h => exact stop (by simpa [pOrLoop] using h)
  | .or :: ts, h =>
    simp only [pOrLoop] at h
    cases hb : (if pp = true then some false else c.truth lhs) with
    | none => rw [hb] at h; cases h
    | some b =>
      rw [hb] at h
      simp only at h
      cases hp : pAnd c f (pp || b) ts s with
      | none => rw [hp] at h; cases h
      | some x =>
        obtain ⟨rhs, r1, s1⟩ := x
        rw [hp] at h
        simp only at h
        obtain ⟨e1, t1, hw1, rfl, hd1⟩ := hV _ ts s rhs r1 s1 hp
        have hw' : Written .or (.or e0 e1) (t0 ++ .or :: t1) := .or hw hw1
        by_cases hpb : (pp || b) = true
        · rw [if_pos hpb] at h
          rw [hpb] at h hd1
          have hss := hd1.1 rfl
          obtain ⟨e, t, hwe, hr, hd⟩ := hL pp0 true lhs r1 s1 w r s' _ _ s0 hw'
            (fun hp0 => ⟨hss.trans (h1 hp0).1, rfl⟩)
            (fun hp0 => by
              have ht : c.truth lhs = some true := by
                cases pp with
                | true => exact ((h2 hp0).2 rfl).2
                | false =>
                  simp only [Bool.false_eq_true, if_false] at hb
                  simp only [Bool.false_or] at hpb
                  rw [hb, hpb]
              exact ⟨by simp only [Ex.eval, (h2 hp0).1, ht, hss], fun _ => ⟨rfl, ht⟩⟩) h
          exact ⟨e, .or :: (t1 ++ t), by simpa using hwe, by simp [hr], hd⟩
        · rw [if_neg hpb] at h
          rw [Bool.not_eq_true] at hpb
          rw [hpb] at h hd1
          simp only [Bool.or_eq_false_iff] at hpb
          obtain ⟨rfl, rfl⟩ := hpb
          simp only [Bool.false_eq_true, if_false] at hb
          have hp0 : pp0 = false := by
            cases pp0 with
            | true => exact absurd (h1 rfl).2 (by simp)
            | false => rfl
          cases ht : c.truth rhs with
          | none => rw [ht] at h; cases h
          | some b' =>
            rw [ht] at h
            obtain ⟨e, t, hwe, hr, hd⟩ := hL pp0 false _ r1 s1 w r s' _ _ s0 hw'
              (fun h => by rw [hp0] at h; cases h)
              (fun h => ⟨by simp only [Ex.eval, (h2 h).1, hb, hd1.2 rfl, ht, Option.map_some],
                fun h => by cases h⟩) h
            exact ⟨e, .or :: (t1 ++ t), by simpa using hwe, by simp [hr], hd⟩

/-- From the first operand and the loop. -/
theorem snd_level {L L' : Level} {stop : Option Bool}
    {p : Bool → List (Tok A F) → σ → Option (W × List (Tok A F) × σ)}
    {pl : Bool → W → List (Tok A F) → σ → Option (W × List (Tok A F) × σ)}
    (hlift : ∀ e t, Written L' e t → Written L (e : Ex A F) t)
    (hV : Snd c L' p) (hL : SndLoop c L stop pl)
    {pp : Bool} {ts : List (Tok A F)} {s : σ} {w : W} {r : List (Tok A F)} {s' : σ}
    {v : W} {r1 : List (Tok A F)} {s1 : σ} (hp : p pp ts s = some (v, r1, s1))
    (h : pl pp v r1 s1 = some (w, r, s')) :
    ∃ e t, Written L e t ∧ ts = t ++ r ∧ Den c pp e s w s' := by
  obtain ⟨e0, t0, hw, rfl, hd⟩ := hV pp ts s v r1 s1 hp
  obtain ⟨e, t, hwe, rfl, hd'⟩ := hL pp pp v r1 s1 w r s' e0 t0 s (hlift _ _ hw)
    (fun h => ⟨hd.1 h, h⟩) (fun h => ⟨hd.2 h, fun h' => by rw [h] at h'; cases h'⟩) h
  exact ⟨e, t0 ++ t, hwe, by simp, hd'⟩

theorem snd_tern {f : Nat} (hO : Snd c .or (pOr c f)) (hT : Snd c .tern (pTern c f)) :
    Snd c .tern (pTern c (f + 1)) := by
  intro pp ts s w r s' h
  simp only [pTern] at h
  cases hp : pOr c f pp ts s with
  | none => rw [hp] at h; cases h
  | some x =>
    obtain ⟨v, r1, s1⟩ := x
    rw [hp] at h
    obtain ⟨e0, t0, hw0, rfl, hd0⟩ := hO pp ts s v r1 s1 hp
    have stop : some (v, r1, s1) = some (w, r, s') →
        ∃ e t, Written .tern e t ∧ t0 ++ r1 = t ++ r ∧ Den c pp e s w s' := by
      intro h
      cases h
      exact ⟨e0, t0, .orTern hw0, rfl, hd0⟩
    match r1, h with
    | [], h => exact stop h
    | .atom _ :: _, h => exact stop h
    | .fn _ :: _, h => exact stop h
    | .lp :: _, h => exact stop h
    | .rp :: _, h => exact stop h
    | .or :: _, h => exact stop h
    | .colon :: _, h => exact stop h
    | .comma :: _, h => exact stop h
    | .and :: _, h => exact stop h
    | .cmp _ :: _, h => exact stop h
    | .not :: _, h => exact stop h
    | .question :: r1, h =>
      simp only at h
      cases hq : (if pp = true then some true else c.truth v) with
      | none => rw [hq] at h; cases h
      | some q =>
        rw [hq] at h
        simp only at h
        cases hm : pTern c f (if pp = true then pp else !q) r1 s1 with
        | none => rw [hm] at h; cases h
        | some x =>
          obtain ⟨m, r2, s2⟩ := x
          rw [hm] at h
          obtain ⟨e1, t1, hw1, rfl, hd1⟩ := hT _ r1 s1 m r2 s2 hm
          match r2, h with
          | .colon :: r2, h =>
            simp only at h
            cases hr : pTern c f (if pp = true then pp else q) r2 s2 with
            | none => rw [hr] at h; cases h
            | some x =>
              obtain ⟨w', r3, s3⟩ := x
              rw [hr] at h
              obtain ⟨e2, t2, hw2, rfl, hd2⟩ := hT _ r2 s2 w' r3 s3 hr
              simp only [Option.some.injEq, Prod.mk.injEq] at h
              obtain ⟨hw', rfl, rfl⟩ := h
              refine ⟨.tern e0 e1 e2, t0 ++ .question :: (t1 ++ .colon :: t2),
                .tern hw0 hw1 hw2, by simp, ?_, ?_⟩
              · intro hpp
                subst hpp
                simp only [if_true] at hd1 hd2
                rw [hd2.1 rfl, hd1.1 rfl, hd0.1 rfl]
              · intro hpp
                subst hpp
                simp only [Bool.false_eq_true, if_false] at hd1 hd2 hq
                cases q with
                | true =>
                  simp only [if_true] at hw'
                  subst hw'
                  simp only [Ex.eval, hd0.2 rfl, hq, hd1.2 rfl, hd2.1 rfl]
                | false =>
                  simp only [Bool.false_eq_true, if_false] at hw'
                  subst hw'
                  have := hd1.1 rfl
                  subst this
                  simp only [Ex.eval, hd0.2 rfl, hq, hd2.2 rfl]

theorem snd_comma {f : Nat} (hT : Snd c .tern (pTern c f))
    (hC : ∀ pp ts s vs r s', pComma c f pp ts s = some (vs, r, s') →
      ∃ e es t, WrittenSome (.cons e es) t ∧ ts = t ++ r ∧ DenAll c pp (.cons e es) s vs s') :
    ∀ pp ts s vs r s', pComma c (f + 1) pp ts s = some (vs, r, s') →
      ∃ e es t, WrittenSome (.cons e es) t ∧ ts = t ++ r ∧ DenAll c pp (.cons e es) s vs s' := by
  intro pp ts s vs r s' h
  simp only [pComma] at h
  cases hp : pTern c f pp ts s with
  | none => rw [hp] at h; cases h
  | some x =>
    obtain ⟨v, r1, s1⟩ := x
    rw [hp] at h
    obtain ⟨e0, t0, hw0, rfl, hd0⟩ := hT pp ts s v r1 s1 hp
    have stop : some (if pp = true then ([] : List W) else [v], r1, s1) = some (vs, r, s') →
        ∃ e es t, WrittenSome (.cons e es) t ∧ t0 ++ r1 = t ++ r ∧
          DenAll c pp (.cons e es) s vs s' := by
      intro h
      simp only [Option.some.injEq, Prod.mk.injEq] at h
      obtain ⟨hv, rfl, rfl⟩ := h
      refine ⟨e0, .nil, t0, .one hw0, rfl, fun h => hd0.1 h, fun h => ?_⟩
      subst h
      simp only [Bool.false_eq_true, if_false] at hv
      subst hv
      simp only [Exs.eval, hd0.2 rfl, Option.map_some]
    match r1, h with
    | [], h => exact stop h
    | .atom _ :: _, h => exact stop h
    | .fn _ :: _, h => exact stop h
    | .lp :: _, h => exact stop h
    | .rp :: _, h => exact stop h
    | .or :: _, h => exact stop h
    | .colon :: _, h => exact stop h
    | .question :: _, h => exact stop h
    | .and :: _, h => exact stop h
    | .cmp _ :: _, h => exact stop h
    | .not :: _, h => exact stop h
    | .comma :: r1, h =>
      simp only at h
      cases hc : pComma c f pp r1 s1 with
      | none => rw [hc] at h; cases h
      | some x =>
        obtain ⟨vs1, r2, s2⟩ := x
        rw [hc] at h
        obtain ⟨e1, es1, t1, hw1, rfl, hd1⟩ := hC pp r1 s1 vs1 r2 s2 hc
        simp only [Option.some.injEq, Prod.mk.injEq] at h
        obtain ⟨hv, rfl, rfl⟩ := h
        refine ⟨e0, .cons e1 es1, t0 ++ .comma :: t1, .more hw0 hw1, by simp,
          fun h => (hd1.1 h).trans (hd0.1 h), fun h => ?_⟩
        subst h
        simp only [Bool.false_eq_true, if_false] at hv
        subst hv
        rw [Exs.eval]
        simp only [hd0.2 rfl, hd1.2 rfl, Option.map_some]

theorem snd_eval {f : Nat}
    (hC : ∀ pp ts s vs r s', pComma c f pp ts s = some (vs, r, s') →
      ∃ e es t, WrittenSome (.cons e es) t ∧ ts = t ++ r ∧ DenAll c pp (.cons e es) s vs s') :
    ∀ pp ts s vs r s', pEval c (f + 1) pp ts s = some (vs, r, s') →
      ∃ es t, WrittenAll es t ∧ ts = t ++ .rp :: r ∧ DenAll c pp es s vs s' := by
  intro pp ts s vs r s' h
  have main : pComma c f pp ts s = some (vs, .rp :: r, s') → (∀ r', ts ≠ .rp :: r') →
      ∃ es t, WrittenAll es t ∧ ts = t ++ .rp :: r ∧ DenAll c pp es s vs s' := by
    intro hc hn
    obtain ⟨e, es, t, hw, rfl, hd⟩ := hC pp ts s _ _ _ hc
    refine ⟨.cons e es, t, .some hw ?_, rfl, hd⟩
    rintro rfl
    exact hn r rfl
  match ts, h with
  | .rp :: ts, h =>
    simp only [pEval, Option.some.injEq, Prod.mk.injEq] at h
    obtain ⟨rfl, rfl, rfl⟩ := h
    exact ⟨.nil, [], .nil, rfl, fun _ => rfl, fun _ => rfl⟩
  | [], h => exact main (by simp only [pEval] at h; split at h <;> simp_all) (by simp)
  | .atom _ :: _, h => exact main (by simp only [pEval] at h; split at h <;> simp_all) (by simp)
  | .fn _ :: _, h => exact main (by simp only [pEval] at h; split at h <;> simp_all) (by simp)
  | .lp :: _, h => exact main (by simp only [pEval] at h; split at h <;> simp_all) (by simp)
  | .comma :: _, h => exact main (by simp only [pEval] at h; split at h <;> simp_all) (by simp)
  | .or :: _, h => exact main (by simp only [pEval] at h; split at h <;> simp_all) (by simp)
  | .colon :: _, h => exact main (by simp only [pEval] at h; split at h <;> simp_all) (by simp)
  | .question :: _, h => exact main (by simp only [pEval] at h; split at h <;> simp_all) (by simp)
  | .and :: _, h => exact main (by simp only [pEval] at h; split at h <;> simp_all) (by simp)
  | .cmp _ :: _, h => exact main (by simp only [pEval] at h; split at h <;> simp_all) (by simp)
  | .not :: _, h => exact main (by simp only [pEval] at h; split at h <;> simp_all) (by simp)

/-- Everything that is parsed is an expression that is written that way, and evaluating it gives
the result. -/
theorem parse_sound (c : Sem A F W σ) (f : Nat) :
    ((∀ pp ts s vs r s', pEval c f pp ts s = some (vs, r, s') →
      ∃ es t, WrittenAll es t ∧ ts = t ++ .rp :: r ∧ DenAll c pp es s vs s') ∧
    (∀ pp ts s vs r s', pComma c f pp ts s = some (vs, r, s') →
      ∃ e es t, WrittenSome (.cons e es) t ∧ ts = t ++ r ∧ DenAll c pp (.cons e es) s vs s') ∧
    Snd c .tern (pTern c f)) ∧
    (Snd c .or (pOr c f) ∧ SndLoop c .or (some true) (pOrLoop c f) ∧
    Snd c .and (pAnd c f) ∧ SndLoop c .and (some false) (pAndLoop c f)) ∧
    (Snd c .cmp (pCmp c f) ∧ SndLoop c .cmp none (pCmpLoop c f) ∧ Snd c .val (pVal c f)) := by
  induction f with
  | zero =>
    refine ⟨⟨?_, ?_, ?_⟩, ⟨?_, ?_, ?_, ?_⟩, ?_, ?_, ?_⟩
    · intro _ _ _ _ _ _ h; simp [pEval] at h
    · intro _ _ _ _ _ _ h; simp [pComma] at h
    · intro _ _ _ _ _ _ h; simp [pTern] at h
    · intro _ _ _ _ _ _ h; simp [pOr] at h
    · intro _ _ _ _ _ _ _ _ _ _ _ _ _ _ h; simp [pOrLoop] at h
    · intro _ _ _ _ _ _ h; simp [pAnd] at h
    · intro _ _ _ _ _ _ _ _ _ _ _ _ _ _ h; simp [pAndLoop] at h
    · intro _ _ _ _ _ _ h; simp [pCmp] at h
    · intro _ _ _ _ _ _ _ _ _ _ _ _ _ _ h; simp [pCmpLoop] at h
    · intro _ _ _ _ _ _ h; simp [pVal] at h
  | succ f ih =>
    obtain ⟨⟨hE, hC, hT⟩, ⟨hO, hOL, hA, hAL⟩, hCm, hCL, hV⟩ := ih
    refine ⟨⟨snd_eval hC, snd_comma hT hC, snd_tern hO hT⟩,
      ⟨?_, snd_orLoop hA hOL, ?_, snd_andLoop hCm hAL⟩, ?_, snd_cmpLoop hV hCL, snd_val hV hE⟩
    · intro pp ts s w r s' h
      simp only [pOr] at h
      cases hp : pAnd c f pp ts s with
      | none => rw [hp] at h; cases h
      | some x => rw [hp] at h; exact snd_level (fun _ _ => .andOr) hA hOL hp h
    · intro pp ts s w r s' h
      simp only [pAnd] at h
      cases hp : pCmp c f pp ts s with
      | none => rw [hp] at h; cases h
      | some x => rw [hp] at h; exact snd_level (fun _ _ => .cmpAnd) hCm hAL hp h
    · intro pp ts s w r s' h
      simp only [pCmp] at h
      cases hp : pVal c f pp ts s with
      | none => rw [hp] at h; cases h
      | some x => rw [hp] at h; exact snd_level (fun _ _ => .valCmp) hV hCL hp h

end sound

end Verif.Eval
