import Verif.BuildFlow.Complete

/-!
# Conditions, switches and loops in buildfiles: if parsing terminates then so does execution
-/

namespace Verif.BuildFlow

variable {L : Lang}

/-- What is said of the parsing with some fuel. -/
structure Term (c : Sem L) (f : Nat) : Prop where
  stmt : ∀ lp (a : Stmt L) rest s, Fol rest → pStmt c f lp (a.lines ++ rest) s ≠ none →
    ∃ o, Exec c lp (.stmt a) s o
  stmts : ∀ lp (ss : Stmts L) rest s, End rest → pClause c f lp (ss.lines ++ rest) s ≠ none →
    ∃ o, Exec c lp (.stmts ss) s o
  branch : ∀ lp (b : Body L) rest s, pBranch c f lp true (b.lines ++ rest) s ≠ none →
    ∃ o, Exec c lp (.body b) s o
  inner : ∀ lp (b : Body L) s, pClause c f lp b.inner s ≠ none → ∃ o, Exec c lp (.body b) s o
  elifs : ∀ lp (e : Elifs L) rest s, Fol rest → pNext c f lp false (e.lines ++ rest) s ≠ none →
    ∃ o, Exec c lp (.elifs e) s o
  arms : ∀ lp vs (a : Arms L) rest s,
    pCases c f lp vs false false (a.lines ++ .rb :: rest) s ≠ none → ∃ o, Exec c lp (.arms vs a) s o
  iter : ∀ lp i es (b : Body L) s, pIter c f i b.isBlock b.inner es s ≠ none →
    ∃ o, Exec c lp (.iter i es b) s o
  while_ : ∀ lp q (b : Body L) s, pWhile c f q b.isBlock b.inner s ≠ none →
    ∃ o, Exec c lp (.stmt (.while_ q b)) s o

theorem simple_ex (c : Sem L) (lp : Bool) (x : Simple L) (s : L.S) :
    ∃ o, Exec c lp (.simple x) s o := by
  cases x with
  | plain p =>
    cases h : c.run p s with
    | none => exact ⟨_, .plainFail h⟩
    | some s' => exact ⟨_, .plain h⟩
  | brk => cases lp <;> exact ⟨_, by constructor⟩
  | cont => cases lp <;> exact ⟨_, by constructor⟩

/-- The job of an if or an elif. -/
theorem link_term {c : Sem L} {f : Nat} (ih : ∀ f' < f, Term c f') {lp : Bool} {q : L.C} {b : Body L}
    {e : Elifs L} {rest : List (Ln L)} (hf : Fol rest) {s : L.S}
    (h : pLink c f lp false (c.cond q s) (b.lines ++ (e.lines ++ rest)) ≠ none) :
    c.cond q s = none ∨ (∃ s' o, c.cond q s = some (true, s') ∧ Exec c lp (.body b) s' o) ∨
      ∃ s' o, c.cond q s = some (false, s') ∧ Exec c lp (.elifs e) s' o := by
  cases f with
  | zero => simp only [pLink, ne_eq, not_true_eq_false] at h
  | succ f =>
    cases hq : c.cond q s with
    | none => exact .inl rfl
    | some x =>
      obtain ⟨t, s'⟩ := x
      simp only [pLink, hq] at h
      cases t with
      | true =>
        cases hb : pBranch c f lp true (b.lines ++ (e.lines ++ rest)) s' with
        | none => simp [hb] at h
        | some y =>
          obtain ⟨o, ho⟩ := (ih f (by omega)).branch lp b (e.lines ++ rest) s' (by simp [hb])
          exact .inr (.inl ⟨s', o, rfl, ho⟩)
      | false =>
        cases f with
        | zero => simp [pBranch] at h
        | succ f =>
          rw [pBranch_skip] at h
          obtain ⟨o, ho⟩ := (ih (f + 1) (by omega)).elifs lp e rest s' hf h
          exact .inr (.inr ⟨s', o, rfl, ho⟩)

/-- The body of an arm that is taken. -/
theorem arm_body_term {c : Sem L} {f : Nat} (ih : ∀ f' < f, Term c f') {lp : Bool} {vs : List L.V}
    {seen : Bool} {b : Body L} {l : List (Ln L)} {s : L.S}
    (h : pArmBody c f lp vs false true seen (b.lines ++ l) s ≠ none) :
    ∃ o, Exec c lp (.body b) s o := by
  cases f with
  | zero => simp only [pArmBody, ne_eq, not_true_eq_false] at h
  | succ f =>
    cases hb : pBranch c f lp true (b.lines ++ l) s with
    | none => simp [pArmBody, hb] at h
    | some y => exact (ih f (by omega)).branch lp b l s (by simp [hb])

/-- The cases of an arm. -/
theorem arm_term {c : Sem L} {F : Nat} (ih : ∀ f' < F, Term c f') {lp : Bool} (b : Body L)
    (r : Arms L) (rest : List (Ln L)) : (cs : List (Case L.Q)) →
    ∀ (f : Nat) (vs : List L.V) (k : Case L.Q) (s : L.S), f ≤ F →
    pCases c f lp vs false false
      (.case k :: (cs.map .case ++ (b.lines ++ (r.lines ++ .rb :: rest)))) s ≠ none →
    ∃ o, Exec c lp (.arms vs (.arm k cs b r)) s o := by
  intro cs
  induction cs with
  | nil =>
    intro f vs k s hF h
    match f, hF, h with
    | 0, _, h => simp only [pCases, ne_eq, not_true_eq_false] at h
    | f + 1, hF, h =>
      simp only [pCases, Bool.false_eq_true, if_false, pPats_case] at h
      cases hm : matchPats c vs (k.pat :: k.pats) s with
      | none => exact ⟨_, .armFail (by rw [matchCases_cons, hm])⟩
      | some x =>
        obtain ⟨t, vs', s'⟩ := x
        simp only [hm] at h
        match f, hF, h with
        | 0, _, h => simp only [pArm, ne_eq, not_true_eq_false] at h
        | f + 1, hF, h =>
          cases t with
          | true =>
            rw [pArm_skip c f lp vs' false true rfl [] b _ s'] at h
            obtain ⟨o, ho⟩ := arm_body_term (fun f' hf' => ih f' (by omega)) h
            exact ⟨o, .armTrue (by rw [matchCases_cons, hm]) ho⟩
          | false =>
            simp only [List.map_nil, List.nil_append, pArm, special_body] at h
            match f, hF, h with
            | 0, _, h => simp only [pArmBody, ne_eq, not_true_eq_false] at h
            | 1, _, h => simp [pArmBody, pBranch] at h
            | f + 2, hF, h =>
              simp only [pArmBody, pBranch_skip, Bool.or_false] at h
              obtain ⟨o, ho⟩ := (ih (f + 1) (by omega)).arms lp vs' r rest s' h
              exact ⟨o, .armFalse (by rw [matchCases_cons, hm]; rfl) ho⟩
  | cons k' cs ihc =>
    intro f vs k s hF h
    match f, hF, h with
    | 0, _, h => simp only [pCases, ne_eq, not_true_eq_false] at h
    | f + 1, hF, h =>
      simp only [pCases, Bool.false_eq_true, if_false, pPats_case] at h
      cases hm : matchPats c vs (k.pat :: k.pats) s with
      | none => exact ⟨_, .armFail (by rw [matchCases_cons, hm])⟩
      | some x =>
        obtain ⟨t, vs', s'⟩ := x
        simp only [hm] at h
        match f, hF, h with
        | 0, _, h => simp only [pArm, ne_eq, not_true_eq_false] at h
        | f + 1, hF, h =>
          cases t with
          | true =>
            rw [pArm_skip c f lp vs' false true rfl (k' :: cs) b _ s'] at h
            obtain ⟨o, ho⟩ := arm_body_term (fun f' hf' => ih f' (by omega)) h
            exact ⟨o, .armTrue (by rw [matchCases_cons, hm]) ho⟩
          | false =>
            have hy : special (L := L) false (List.map Ln.case (k' :: cs) ++
                (b.lines ++ (r.lines ++ .rb :: rest))) = some (true, false) := rfl
            simp only [pArm, hy, Bool.not_false, Bool.and_self, if_true] at h
            obtain ⟨o, ho⟩ := ihc f vs' k' s' (by omega) h
            have hc : matchCases c vs (k :: k' :: cs) s = matchCases c vs' (k' :: cs) s' := by
              rw [matchCases_cons, hm]
            cases ho with
            | armFail h1 => exact ⟨_, .armFail (hc.trans h1)⟩
            | armTrue h1 h2 => exact ⟨_, .armTrue (hc.trans h1) h2⟩
            | armFalse h1 h2 => exact ⟨_, .armFalse (hc.trans h1) h2⟩

/-- The cases of a default and the default itself. -/
theorem dflt_term {c : Sem L} {F : Nat} (ih : ∀ f' < F, Term c f') {lp : Bool} (b : Body L)
    (rest : List (Ln L)) : (cs : List (Case L.Q)) →
    ∀ (f : Nat) (vs : List L.V) (s : L.S), f ≤ F →
    pCases c f lp vs false false (cs.map .case ++ .dflt :: (b.lines ++ .rb :: rest)) s ≠ none →
    ∃ o, Exec c lp (.arms vs (.dflt cs b)) s o := by
  intro cs
  induction cs with
  | nil =>
    intro f vs s hF h
    match f, hF, h with
    | 0, _, h => simp only [pCases, ne_eq, not_true_eq_false] at h
    | 1, _, h => simp [pCases, pArm] at h
    | f + 2, hF, h =>
      simp only [List.map_nil, List.nil_append, pCases, Bool.false_eq_true, if_false, Bool.not_false,
        pArm, special_body] at h
      obtain ⟨o, ho⟩ := arm_body_term (fun f' hf' => ih f' (by omega)) h
      exact ⟨o, .dflt rfl ho⟩
  | cons k cs ihc =>
    intro f vs s hF h
    match f, hF, h with
    | 0, _, h => simp only [pCases, ne_eq, not_true_eq_false] at h
    | f + 1, hF, h =>
      simp only [List.map_cons, List.cons_append, pCases, Bool.false_eq_true, if_false,
        pPats_case] at h
      cases hm : matchPats c vs (k.pat :: k.pats) s with
      | none => exact ⟨_, .dfltFail (by rw [matchCases_cons, hm])⟩
      | some x =>
        obtain ⟨t, vs', s'⟩ := x
        simp only [hm] at h
        match f, hF, h with
        | 0, _, h => simp only [pArm, ne_eq, not_true_eq_false] at h
        | f + 1, hF, h =>
          cases t with
          | true =>
            rw [pArm_skip_dflt c f lp vs' false true rfl cs b _ s'] at h
            obtain ⟨o, ho⟩ := arm_body_term (fun f' hf' => ih f' (by omega)) h
            exact ⟨o, .dflt (by rw [matchCases_cons, hm]) ho⟩
          | false =>
            have hy : ∃ y, special (L := L) false (List.map Ln.case cs ++
                .dflt :: (b.lines ++ .rb :: rest)) = some (true, y) := by
              cases cs with
              | nil => exact ⟨true, rfl⟩
              | cons k' cs => exact ⟨false, rfl⟩
            obtain ⟨y, hy⟩ := hy
            simp only [pArm, hy, Bool.not_false, Bool.and_self, if_true] at h
            obtain ⟨o, ho⟩ := ihc f vs' s' (by omega) h
            have hc : matchCases c vs (k :: cs) s = matchCases c vs' cs s' := by
              rw [matchCases_cons, hm]
            cases ho with
            | dfltFail h1 => exact ⟨_, .dfltFail (hc.trans h1)⟩
            | dflt h1 h2 => exact ⟨_, .dflt (hc.trans h1) h2⟩

theorem cond_term {c : Sem L} {f : Nat} (ih : ∀ f' < f, Term c f') {lp : Bool} {q : L.C} {b : Body L}
    {e : Elifs L} {rest : List (Ln L)} (hf : Fol rest) {s : L.S} {l : Ln L}
    (hl : l = .ift q ∨ l = .elif q)
    (h : pChain c f lp false (l :: (b.lines ++ (e.lines ++ rest))) s ≠ none) :
    c.cond q s = none ∨ (∃ s' o, c.cond q s = some (true, s') ∧ Exec c lp (.body b) s' o) ∨
      ∃ s' o, c.cond q s = some (false, s') ∧ Exec c lp (.elifs e) s' o := by
  cases f with
  | zero => simp only [pChain, ne_eq, not_true_eq_false] at h
  | succ f =>
    rcases hl with rfl | rfl
    · simp only [pChain, Bool.false_eq_true, if_false] at h
      exact link_term (fun f' hf' => ih f' (by omega)) hf h
    · simp only [pChain, Bool.false_eq_true, if_false] at h
      exact link_term (fun f' hf' => ih f' (by omega)) hf h

/-- **If parsing terminates then so does execution.** -/
theorem term (c : Sem L) (f : Nat) : Term c f := by
  induction f using Nat.strongRecOn with
  | _ f ih =>
    match f, ih with
    | 0, _ => constructor <;> intros <;> simp_all [pStmt, pClause, pBranch, pNext, pCases, pIter, pWhile]
    | f + 1, ih =>
      have ihf := ih f (by omega)
      have hclause : ∀ lp (ss : Stmts L) rest s, End rest →
          pClause c (f + 1) lp (ss.lines ++ rest) s ≠ none → ∃ o, Exec c lp (.stmts ss) s o := by
        intro lp ss rest s he h
        cases ss with
        | nil => exact ⟨_, .nil⟩
        | cons a as =>
          simp only [Stmts.lines, List.append_assoc] at h
          rw [pClause_cons] at h
          have hfol := fol_stmts as he
          cases hx : pStmt c f lp (a.lines ++ (as.lines ++ rest)) s with
          | none => simp [hx] at h
          | some x =>
            obtain ⟨o, ho⟩ := ihf.stmt lp a _ s hfol (by simp [hx])
            have hxo := ((exec_good ho).1 _ hfol).eq hx
            subst hxo
            cases o with
            | ok s' =>
              simp only [hx, Out.res] at h
              obtain ⟨o, ho'⟩ := ihf.stmts lp as rest s' he h
              exact ⟨o, .consOk ho ho'⟩
            | brk s' => exact ⟨_, .consStop ho trivial⟩
            | cont s' => exact ⟨_, .consStop ho trivial⟩
            | fail => exact ⟨_, .consStop ho trivial⟩
      refine ⟨?_, hclause, ?_, ?_, ?_, ?_, ?_, ?_⟩
      · intro lp a rest s hf h
        cases a with
        | simple x =>
          obtain ⟨o, ho⟩ := simple_ex c lp x s
          exact ⟨o, .simple ho⟩
        | cond q b e =>
          simp only [Stmt.lines, List.cons_append, List.append_assoc, pStmt] at h
          rcases cond_term (fun f' hf' => ih f' (by omega)) hf (.inl rfl) h with
            h1 | ⟨s', o, h1, h2⟩ | ⟨s', o, h1, h2⟩
          · exact ⟨_, .condFail h1⟩
          · exact ⟨_, .condTrue h1 h2⟩
          · exact ⟨_, .condFalse h1 h2⟩
        | switch x xs a =>
          cases hv : vals c (x :: xs) s with
          | none => exact ⟨_, .switchFail hv⟩
          | some y =>
            simp only [Stmt.lines, List.cons_append, List.append_assoc, List.nil_append, pStmt, pVals_eq,
              hv, Option.map_some] at h
            obtain ⟨o, ho⟩ := ihf.arms lp y.1 a rest y.2 h
            exact ⟨o, .switch (vs := y.1) (s' := y.2) hv ho⟩
        | for_ i b =>
          cases hv : c.elems i s with
          | none => exact ⟨_, .forFail hv⟩
          | some y =>
            obtain ⟨es, s'⟩ := y
            simp only [Stmt.lines, List.cons_append, pStmt, hv, takeBody_lines] at h
            obtain ⟨o, ho⟩ := ihf.iter lp i es b s' (by intro h1; simp [h1] at h)
            exact ⟨o, .for_ hv ho⟩
        | while_ q b =>
          simp only [Stmt.lines, List.cons_append, pStmt, takeBody_lines] at h
          exact ihf.while_ lp q b s (by intro h1; simp [h1] at h)
      · intro lp b rest s h
        cases b with
        | one x =>
          obtain ⟨o, ho⟩ := simple_ex c lp x s
          exact ⟨o, .one ho⟩
        | block ss =>
          rw [pBranch_block] at h
          obtain ⟨o, ho⟩ := ihf.stmts lp ss (.rb :: rest) s (.inr ⟨rest, rfl⟩)
            (by intro h1; simp [h1] at h)
          exact ⟨o, .block ho⟩
      · intro lp b s h
        cases b with
        | one x =>
          obtain ⟨o, ho⟩ := simple_ex c lp x s
          exact ⟨o, .one ho⟩
        | block ss =>
          obtain ⟨o, ho⟩ := hclause lp ss [.rb] s (.inr ⟨[], rfl⟩) h
          exact ⟨o, .block ho⟩
      · intro lp e rest s hf h
        cases e with
        | nil => exact ⟨_, .elifsNil⟩
        | els b =>
          simp only [Elifs.lines, List.cons_append, pNext] at h
          cases f with
          | zero => simp only [pChain, ne_eq, not_true_eq_false] at h
          | succ f =>
            simp only [pChain, Bool.not_false] at h
            obtain ⟨o, ho⟩ := (ih f (by omega)).branch lp b rest s h
            exact ⟨o, .els ho⟩
        | elif q b e =>
          simp only [Elifs.lines, List.cons_append, List.append_assoc, pNext] at h
          rcases cond_term (fun f' hf' => ih f' (by omega)) hf (.inr rfl) h with
            h1 | ⟨s', o, h1, h2⟩ | ⟨s', o, h1, h2⟩
          · exact ⟨_, .elifFail h1⟩
          · exact ⟨_, .elifTrue h1 h2⟩
          · exact ⟨_, .elifFalse h1 h2⟩
      · intro lp vs a rest s h
        cases a with
        | nil => exact ⟨_, .armsNil⟩
        | dflt cs b =>
          simp only [Arms.lines, List.cons_append, List.append_assoc] at h
          exact dflt_term ih b rest cs (f + 1) vs s (Nat.le_refl _) h
        | arm k cs b r =>
          simp only [Arms.lines, List.cons_append, List.append_assoc] at h
          exact arm_term ih b r rest cs (f + 1) vs k s (Nat.le_refl _) h
      · intro lp i es b s h
        cases es with
        | nil => exact ⟨_, .iterNil⟩
        | cons e es =>
          cases hs : c.set i e s with
          | none => exact ⟨_, .iterFail hs⟩
          | some s1 =>
            simp only [pIter, hs] at h
            cases hx : pClause c f true b.inner s1 with
            | none => simp [hx] at h
            | some x =>
              obtain ⟨o, ho⟩ := ihf.inner true b s1 (by simp [hx])
              have hxo := (exec_good ho).2.eq hx
              subst hxo
              cases o with
              | ok s2 =>
                simp only [hx, Out.res, ends_left, if_true] at h
                obtain ⟨o, ho'⟩ := ihf.iter lp i es b s2 h
                exact ⟨o, .iterNext hs ho (.inl rfl) ho'⟩
              | cont s2 =>
                simp only [hx, Out.res] at h
                obtain ⟨o, ho'⟩ := ihf.iter lp i es b s2 h
                exact ⟨o, .iterNext hs ho (.inr rfl) ho'⟩
              | brk s2 => exact ⟨_, .iterBrk hs ho⟩
              | fail => exact ⟨_, .iterStop hs ho⟩
      · intro lp q b s h
        cases hs : c.cond q s with
        | none => exact ⟨_, .whileFail hs⟩
        | some y =>
          obtain ⟨t, s1⟩ := y
          cases t with
          | false => exact ⟨_, .whileFalse hs⟩
          | true =>
            simp only [pWhile, hs] at h
            cases hx : pClause c f true b.inner s1 with
            | none => simp [hx] at h
            | some x =>
              obtain ⟨o, ho⟩ := ihf.inner true b s1 (by simp [hx])
              have hxo := (exec_good ho).2.eq hx
              subst hxo
              cases o with
              | ok s2 =>
                simp only [hx, Out.res, ends_left, if_true] at h
                obtain ⟨o, ho'⟩ := ihf.while_ lp q b s2 h
                exact ⟨o, .whileNext hs ho (.inl rfl) ho'⟩
              | cont s2 =>
                simp only [hx, Out.res] at h
                obtain ⟨o, ho'⟩ := ihf.while_ lp q b s2 h
                exact ⟨o, .whileNext hs ho (.inr rfl) ho'⟩
              | brk s2 => exact ⟨_, .whileBrk hs ho⟩
              | fail => exact ⟨_, .whileStop hs ho⟩

/-- Outside a loop there is nothing to break out of. -/
theorem exec_outside {c : Sem L} {lp : Bool} {j : Job L} {s : L.S} {o : Out L.S}
    (h : Exec c lp j s o) (hl : lp = false) : (∃ s', o = .ok s') ∨ o = .fail := by
  induction h <;> simp_all

end Verif.BuildFlow
