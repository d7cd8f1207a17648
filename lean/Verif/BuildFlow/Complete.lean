import Verif.BuildFlow.Lemmas

/-!
# Conditions, switches and loops in buildfiles: what is executed is what is parsed
-/

namespace Verif.BuildFlow

variable {L : Lang}

/-- With enough fuel the result is `r`, and otherwise there is none. -/
def Det {α : Type} (g : Nat → Option α) (r : α) : Prop :=
  ∃ N, ∀ f, g f = if N ≤ f then some r else none

theorem Det.const {α : Type} {g : Nat → Option α} {r : α} (h0 : g 0 = none)
    (hs : ∀ f, g (f + 1) = some r) : Det g r := by
  refine ⟨1, fun f => ?_⟩
  cases f with
  | zero => simpa using h0
  | succ f => simpa using hs f

theorem Det.always {α : Type} (r : α) : Det (fun _ => some r) r := ⟨0, fun f => by simp⟩

theorem Det.bind {α β : Type} {g k : Nat → Option α} {h : Nat → Option β} {x : β} {r : α}
    (h0 : g 0 = none) (hh : Det h x) (hn : ∀ f, h f = none → g (f + 1) = none)
    (hs : ∀ f, h f = some x → g (f + 1) = k f) (hk : Det k r) : Det g r := by
  obtain ⟨N, hN⟩ := hh
  obtain ⟨M, hM⟩ := hk
  refine ⟨max N M + 1, fun f => ?_⟩
  cases f with
  | zero => simpa using h0
  | succ f =>
    by_cases hf : N ≤ f
    · rw [hs f (by rw [hN f, if_pos hf]), hM f]
      by_cases hm : M ≤ f
      · rw [if_pos hm, if_pos (by omega)]
      · rw [if_neg hm, if_neg (by omega)]
    · rw [hn f (by rw [hN f, if_neg hf]), if_neg (by omega)]

theorem Det.succ {α : Type} {g k : Nat → Option α} {r : α}
    (h0 : g 0 = none) (hs : ∀ f, g (f + 1) = k f) (hk : Det k r) : Det g r :=
  Det.bind (h := fun _ => some ()) h0 (Det.always ()) (fun _ h => by cases h) (fun f _ => hs f) hk

theorem Det.eq {α : Type} {g : Nat → Option α} {r r' : α} (h : Det g r) {f : Nat}
    (h' : g f = some r') : r' = r := by
  obtain ⟨N, h⟩ := h
  rw [h f] at h'
  split at h'
  · exact (Option.some.inj h').symm
  · cases h'

theorem Det.ex {α : Type} {g : Nat → Option α} {r : α} (h : Det g r) : ∃ f, g f = some r := by
  obtain ⟨N, h⟩ := h
  exact ⟨N, by simp [h]⟩

/-! ## Skipping -/

section

variable (c : Sem L) (lp : Bool)

theorem branch_skip (b : Body L) (r : List (Ln L)) (s : L.S) :
    Det (fun f => pBranch c f lp false (b.lines ++ r) s) (.ok r s) :=
  Det.const (by simp only [pBranch]) (fun f => pBranch_skip c f lp b r s)

/-- The rest of a chain after a branch has been taken. -/
theorem next_skip : (e : Elifs L) → ∀ {rest : List (Ln L)}, Fol rest → ∀ s : L.S,
    Det (fun f => pNext c f lp true (e.lines ++ rest) s) (.ok rest s)
  | .nil, rest, hf, s => by
    simp only [Elifs.lines, List.nil_append]
    exact Det.const (by simp only [pNext]) (fun f => pNext_fol c f lp true hf s)
  | .els b, rest, hf, s => by
    simp only [Elifs.lines, List.cons_append]
    refine Det.succ (k := fun f => pChain c f lp true (.els :: (b.lines ++ rest)) s)
      (by simp only [pNext]) (fun f => by simp only [pNext]) ?_
    exact Det.succ (by simp only [pChain]) (fun f => by simp only [pChain, Bool.not_true])
      (branch_skip c lp b rest s)
  | .elif q b r, rest, hf, s => by
    simp only [Elifs.lines, List.cons_append, List.append_assoc]
    refine Det.succ (k := fun f => pChain c f lp true (.elif q :: (b.lines ++ (r.lines ++ rest))) s)
      (by simp only [pNext]) (fun f => by simp only [pNext]) ?_
    refine Det.succ (k := fun f => pLink c f lp true (some (false, s)) (b.lines ++ (r.lines ++ rest)))
      (by simp only [pChain]) (fun f => by simp only [pChain, if_true]) ?_
    refine Det.bind (by simp only [pLink]) (branch_skip c lp b (r.lines ++ rest) s) ?_ ?_
      (next_skip r hf s)
    · intro f h; simp only [pLink, h]
    · intro f h; simp only [pLink, h, Bool.true_or]

/-- The rest of a switch after an arm has been taken. -/
theorem cases_skip : (a : Arms L) → ∀ (rest : List (Ln L)) (vs : List L.V) (s : L.S),
    Det (fun f => pCases c f lp vs true false (a.lines ++ .rb :: rest) s) (.ok rest s)
  | .nil, rest, vs, s => by
    simp only [Arms.lines, List.nil_append]
    exact Det.const (by simp only [pCases]) (fun f => by simp only [pCases])
  | .dflt [] b, rest, vs, s => by
    simp only [Arms.lines, List.map_nil, List.nil_append, List.cons_append]
    refine Det.succ (k := fun f => pArm c f lp vs true false true (b.lines ++ .rb :: rest) s)
      (by simp only [pCases])
      (fun f => by simp only [pCases, Bool.false_eq_true, if_false, Bool.not_true]) ?_
    refine Det.succ (k := fun f => pArmBody c f lp vs true false true (b.lines ++ .rb :: rest) s)
      (by simp only [pArm]) (fun f => by simp only [pArm, special_body]) ?_
    refine Det.bind (k := fun f => pCases c f lp vs true true (.rb :: rest) s)
      (by simp only [pArmBody]) (branch_skip c lp b (.rb :: rest) s) ?_ ?_
      (Det.const (by simp only [pCases]) (fun f => by simp only [pCases]))
    · intro f h; simp only [pArmBody, h]
    · intro f h; simp only [pArmBody, h, Bool.true_or]
  | .dflt (k :: cs) b, rest, vs, s => by
    simp only [Arms.lines, List.map_cons, List.cons_append, List.append_assoc]
    refine Det.succ
      (k := fun f => pArm c f lp vs true false false (cs.map .case ++ .dflt :: (b.lines ++ .rb :: rest)) s)
      (by simp only [pCases])
      (fun f => by simp only [pCases, Bool.false_eq_true, if_false, if_true]) ?_
    refine Det.succ (by simp only [pArm]) (fun f => pArm_skip_dflt c f lp vs true false rfl cs b _ s) ?_
    refine Det.bind (k := fun f => pCases c f lp vs true true (.rb :: rest) s)
      (by simp only [pArmBody]) (branch_skip c lp b (.rb :: rest) s) ?_ ?_
      (Det.const (by simp only [pCases]) (fun f => by simp only [pCases]))
    · intro f h; simp only [pArmBody, h]
    · intro f h; simp only [pArmBody, h, Bool.true_or]
  | .arm k cs b r, rest, vs, s => by
    simp only [Arms.lines, List.cons_append, List.append_assoc]
    refine Det.succ
      (k := fun f => pArm c f lp vs true false false (cs.map .case ++ (b.lines ++ (r.lines ++ .rb :: rest))) s)
      (by simp only [pCases])
      (fun f => by simp only [pCases, Bool.false_eq_true, if_false, if_true]) ?_
    refine Det.succ (by simp only [pArm]) (fun f => pArm_skip c f lp vs true false rfl cs b _ s) ?_
    refine Det.bind (by simp only [pArmBody]) (branch_skip c lp b (r.lines ++ .rb :: rest) s) ?_ ?_
      (cases_skip r rest vs s)
    · intro f h; simp only [pArmBody, h]
    · intro f h; simp only [pArmBody, h, Bool.true_or]

end

/-! ## Executing -/

/-- What is said of each kind of job. -/
def Good (c : Sem L) (lp : Bool) : Job L → L.S → Out L.S → Prop
  | .simple x, s, o => ∀ rest, Det (fun f => pStmt c f lp (x.line :: rest) s) (o.res rest)
  | .stmt a, s, o =>
    (∀ rest, Fol rest → Det (fun f => pStmt c f lp (a.lines ++ rest) s) (o.res rest)) ∧
    ∀ q b, a = .while_ q b → Det (fun f => pWhile c f q b.isBlock b.inner s) (o.res [])
  | .stmts ss, s, o =>
    ∀ rest, End rest → Det (fun f => pClause c f lp (ss.lines ++ rest) s) (o.res rest)
  | .body b, s, o =>
    (∀ rest, Det (fun f => pBranch c f lp true (b.lines ++ rest) s) (o.res rest)) ∧
    Det (fun f => pClause c f lp b.inner s) (o.res b.left)
  | .elifs e, s, o =>
    ∀ rest, Fol rest → Det (fun f => pNext c f lp false (e.lines ++ rest) s) (o.res rest)
  | .arms vs a, s, o =>
    ∀ rest, Det (fun f => pCases c f lp vs false false (a.lines ++ .rb :: rest) s) (o.res rest)
  | .iter i es b, s, o => Det (fun f => pIter c f i b.isBlock b.inner es s) (o.res [])

/-- An if or elif of which the condition fails. -/
theorem link_fail (c : Sem L) (lp t : Bool) (r : List (Ln L)) :
    Det (fun f => pLink c f lp t none r) .fail :=
  Det.const (by simp only [pLink]) (fun f => by simp only [pLink])

/-- One that is taken. -/
theorem link_true {c : Sem L} {lp : Bool} {b : Body L} {s : L.S} {o : Out L.S}
    (h : Good c lp (.body b) s o) (e : Elifs L) {rest : List (Ln L)} (hf : Fol rest) :
    Det (fun f => pLink c f lp false (some (true, s)) (b.lines ++ (e.lines ++ rest))) (o.res rest) := by
  have hb := h.1 (e.lines ++ rest)
  cases o with
  | ok s' =>
    refine Det.bind (by simp only [pLink]) hb ?_ ?_ (next_skip c lp e hf s')
    · intro f h; simp only [pLink, h]
    · intro f h; simp only [pLink, h, Out.res, Bool.or_true]
  | _ =>
    refine Det.bind (by simp only [pLink]) hb ?_ ?_ (Det.always _)
    · intro f h; simp only [pLink, h]
    · intro f h; simp only [pLink, h, Out.res]

/-- One that is not. -/
theorem link_false {c : Sem L} {lp : Bool} (b : Body L) {s : L.S} {o : Out L.S} {e : Elifs L}
    (h : Good c lp (.elifs e) s o) {rest : List (Ln L)} (hf : Fol rest) :
    Det (fun f => pLink c f lp false (some (false, s)) (b.lines ++ (e.lines ++ rest)))
      (o.res rest) := by
  refine Det.bind (by simp only [pLink]) (branch_skip c lp b (e.lines ++ rest) s) ?_ ?_ (h rest hf)
  · intro f h; simp only [pLink, h]
  · intro f h; simp only [pLink, h, Bool.or_false]

/-- The body of an arm that is taken. -/
theorem arm_body {c : Sem L} {lp : Bool} {b : Body L} {s : L.S} {o : Out L.S}
    (h : Good c lp (.body b) s o) (vs : List L.V) (seen : Bool) (l rest : List (Ln L))
    (hr : ∀ s', Det (fun f => pCases c f lp vs true seen l s') (.ok rest s')) :
    Det (fun f => pArmBody c f lp vs false true seen (b.lines ++ l) s) (o.res rest) := by
  have hb := h.1 l
  cases o with
  | ok s' =>
    refine Det.bind (by simp only [pArmBody]) hb ?_ ?_ (hr s')
    · intro f h; simp only [pArmBody, h]
    · intro f h; simp only [pArmBody, h, Out.res, Bool.or_true]
  | _ =>
    refine Det.bind (by simp only [pArmBody]) hb ?_ ?_ (Det.always _)
    · intro f h; simp only [pArmBody, h]
    · intro f h; simp only [pArmBody, h, Out.res]

/-- A case of which matching fails. -/
theorem case_fail {c : Sem L} {lp : Bool} {vs : List L.V} {k : Case L.Q} {s : L.S}
    (h : matchPats c vs (k.pat :: k.pats) s = none) (r : List (Ln L)) :
    Det (fun f => pCases c f lp vs false false (.case k :: r) s) .fail :=
  Det.const (by simp only [pCases])
    (fun f => by simp only [pCases, Bool.false_eq_true, if_false, pPats_case, h])

/-- One that was matched. -/
theorem case_some {c : Sem L} {lp : Bool} {vs vs' : List L.V} {k : Case L.Q} {s s' : L.S} {t : Bool}
    (h : matchPats c vs (k.pat :: k.pats) s = some (t, vs', s')) {r : List (Ln L)} {x : Res L}
    (hx : Det (fun f => pArm c f lp vs' false t false r s') x) :
    Det (fun f => pCases c f lp vs false false (.case k :: r) s) x :=
  Det.succ (by simp only [pCases])
    (fun f => by simp only [pCases, Bool.false_eq_true, if_false, pPats_case, h]) hx

/-- The next case or default after one that does not match. -/
theorem arm_next {c : Sem L} {lp : Bool} {vs : List L.V} {s : L.S} {r : List (Ln L)} {y : Bool}
    (hy : special false r = some (true, y)) {x : Res L}
    (hx : Det (fun f => pCases c f lp vs false false r s) x) :
    Det (fun f => pArm c f lp vs false false false r s) x :=
  Det.succ (by simp only [pArm])
    (fun f => by simp only [pArm, hy, Bool.not_false, Bool.and_self, if_true]) hx

/-- The cases of an arm. -/
theorem arm_cases {c : Sem L} {lp : Bool} (b : Body L) (r : Arms L) (rest : List (Ln L)) :
    (cs : List (Case L.Q)) → ∀ (vs : List L.V) (k : Case L.Q) (s : L.S) (o : Out L.S),
    ((matchCases c vs (k :: cs) s = none ∧ o = .fail) ∨
     (∃ vs' s', matchCases c vs (k :: cs) s = some (true, vs', s') ∧ Good c lp (.body b) s' o) ∨
     (∃ vs' s', matchCases c vs (k :: cs) s = some (false, vs', s') ∧ Good c lp (.arms vs' r) s' o)) →
    Det (fun f => pCases c f lp vs false false
      (.case k :: (cs.map .case ++ (b.lines ++ (r.lines ++ .rb :: rest)))) s) (o.res rest) := by
  intro cs
  induction cs with
  | nil =>
    intro vs k s o h
    simp only [matchCases_cons] at h
    cases hm : matchPats c vs (k.pat :: k.pats) s with
    | none =>
      simp only [hm, reduceCtorEq, false_and, exists_false, or_false, true_and] at h
      subst h
      exact case_fail hm _
    | some x =>
      obtain ⟨t, vs', s'⟩ := x
      rw [hm] at h
      refine case_some hm ?_
      cases t with
      | true =>
        simp only [reduceCtorEq, false_and, false_or, Option.some.injEq, Prod.mk.injEq, true_and,
          Bool.true_eq_false, exists_false, or_false] at h
        obtain ⟨_, _, ⟨rfl, rfl⟩, hg⟩ := h
        exact Det.succ (by simp only [pArm]) (fun f => pArm_skip c f lp vs' false true rfl [] b _ s')
          (arm_body hg vs' false _ rest (fun s'' => cases_skip c lp r rest vs' s''))
      | false =>
        simp only [matchCases, reduceCtorEq, false_and, false_or, Option.some.injEq, Prod.mk.injEq,
          Bool.false_eq_true, exists_false, true_and] at h
        obtain ⟨_, _, ⟨rfl, rfl⟩, hg⟩ := h
        refine Det.succ (k := fun f => pArmBody c f lp vs' false false false
            (b.lines ++ (r.lines ++ .rb :: rest)) s')
          (by simp only [pArm])
          (fun f => by simp only [List.map_nil, List.nil_append, pArm, special_body]) ?_
        refine Det.bind (by simp only [pArmBody]) (branch_skip c lp b (r.lines ++ .rb :: rest) s') ?_ ?_
          (hg rest)
        · intro f h; simp only [pArmBody, h]
        · intro f h; simp only [pArmBody, h, Bool.or_false]
  | cons k' cs ih =>
    intro vs k s o h
    rw [matchCases_cons] at h
    cases hm : matchPats c vs (k.pat :: k.pats) s with
    | none =>
      simp only [hm, reduceCtorEq, false_and, exists_false, or_false, true_and] at h
      subst h
      exact case_fail hm _
    | some x =>
      obtain ⟨t, vs', s'⟩ := x
      rw [hm] at h
      refine case_some hm ?_
      cases t with
      | true =>
        simp only [reduceCtorEq, false_and, false_or, Option.some.injEq, Prod.mk.injEq, true_and,
          Bool.true_eq_false, exists_false, or_false] at h
        obtain ⟨_, _, ⟨rfl, rfl⟩, hg⟩ := h
        exact Det.succ (by simp only [pArm])
          (fun f => pArm_skip c f lp vs' false true rfl (k' :: cs) b _ s')
          (arm_body hg vs' false _ rest (fun s'' => cases_skip c lp r rest vs' s''))
      | false =>
        exact arm_next (y := false) rfl (ih vs' k' s' o h)

/-- The cases of a default and the default itself. -/
theorem dflt_cases {c : Sem L} {lp : Bool} (b : Body L) (rest : List (Ln L)) :
    (cs : List (Case L.Q)) → ∀ (vs : List L.V) (s : L.S) (o : Out L.S),
    ((matchCases c vs cs s = none ∧ o = .fail) ∨
     (∃ m vs' s', matchCases c vs cs s = some (m, vs', s') ∧ Good c lp (.body b) s' o)) →
    Det (fun f => pCases c f lp vs false false
      (cs.map .case ++ .dflt :: (b.lines ++ .rb :: rest)) s) (o.res rest) := by
  intro cs
  have hend : ∀ (vs : List L.V) (s' : L.S),
      Det (fun f => pCases c f lp vs true true (.rb :: rest) s') (.ok rest s') :=
    fun vs s' => Det.const (by simp only [pCases]) (fun f => by simp only [pCases])
  induction cs with
  | nil =>
    intro vs s o h
    simp only [matchCases, reduceCtorEq, false_and, false_or, Option.some.injEq, Prod.mk.injEq] at h
    obtain ⟨_, _, _, ⟨_, rfl, rfl⟩, hg⟩ := h
    simp only [List.map_nil, List.nil_append]
    refine Det.succ (k := fun f => pArm c f lp vs false true true (b.lines ++ .rb :: rest) s)
      (by simp only [pCases])
      (fun f => by simp only [pCases, Bool.false_eq_true, if_false, Bool.not_false]) ?_
    exact Det.succ (by simp only [pArm]) (fun f => by simp only [pArm, special_body])
      (arm_body hg vs true _ rest (hend vs))
  | cons k cs ih =>
    intro vs s o h
    rw [matchCases_cons] at h
    simp only [List.map_cons, List.cons_append]
    cases hm : matchPats c vs (k.pat :: k.pats) s with
    | none =>
      simp only [hm, reduceCtorEq, false_and, exists_false, or_false, true_and] at h
      subst h
      exact case_fail hm _
    | some x =>
      obtain ⟨t, vs', s'⟩ := x
      rw [hm] at h
      refine case_some hm ?_
      cases t with
      | true =>
        simp only [reduceCtorEq, false_and, false_or, Option.some.injEq, Prod.mk.injEq] at h
        obtain ⟨_, _, _, ⟨_, rfl, rfl⟩, hg⟩ := h
        exact Det.succ (by simp only [pArm])
          (fun f => pArm_skip_dflt c f lp vs' false true rfl cs b _ s')
          (arm_body hg vs' true _ rest (hend vs'))
      | false =>
        have hy : ∃ y, special false ((cs.map .case ++ .dflt :: (b.lines ++ .rb :: rest) :
            List (Ln L))) = some (true, y) := by
          cases cs with
          | nil => exact ⟨true, rfl⟩
          | cons k' cs => exact ⟨false, rfl⟩
        obtain ⟨y, hy⟩ := hy
        exact arm_next hy (ih vs' s' o h)

/-- A for-loop, given the iterations. -/
theorem attach {o : Out L.S} {r : List (Ln L)} {g k : Nat → Option (Res L)} (h0 : g 0 = none)
    (hk : Det k (o.res [])) (hn : ∀ f, k f = none → g (f + 1) = none)
    (hs : ∀ f x s, k f = some (.ok x s) → g (f + 1) = some (.ok r s))
    (hb : ∀ f s, k f = some (.brk s) → g (f + 1) = some (.brk s))
    (hc : ∀ f s, k f = some (.cont s) → g (f + 1) = some (.cont s))
    (hf : ∀ f, k f = some .fail → g (f + 1) = some .fail) : Det g (o.res r) := by
  refine Det.bind (k := fun _ => some (o.res r)) h0 hk hn ?_ (Det.always _)
  intro f h
  cases o with
  | ok s => exact hs f _ _ h
  | brk s => exact hb f _ h
  | cont s => exact hc f _ h
  | fail => exact hf f h

theorem while_stmt {c : Sem L} {lp : Bool} {q : L.C} {b : Body L} {s : L.S} {o : Out L.S}
    (h : Det (fun f => pWhile c f q b.isBlock b.inner s) (o.res [])) :
    Good c lp (.stmt (.while_ q b)) s o := by
  refine ⟨fun rest _ => ?_, ?_⟩
  · simp only [Stmt.lines, List.cons_append]
    refine attach (by simp only [pStmt]) h ?_ ?_ ?_ ?_ ?_ <;> intro f
    · intro h; simp only [pStmt, takeBody_lines, h]
    · intro x s h; simp only [pStmt, takeBody_lines, h]
    · intro s h; simp only [pStmt, takeBody_lines, h]
    · intro s h; simp only [pStmt, takeBody_lines, h]
    · intro h; simp only [pStmt, takeBody_lines, h]
  · rintro q' b' he
    cases he
    exact h

theorem not_while {c : Sem L} {lp : Bool} {a : Stmt L} {s : L.S} {o : Out L.S}
    (ha : ∀ q b, a ≠ .while_ q b)
    (h : ∀ rest, Fol rest → Det (fun f => pStmt c f lp (a.lines ++ rest) s) (o.res rest)) :
    Good c lp (.stmt a) s o := ⟨h, fun q b he => absurd he (ha q b)⟩

/-- **What is executed is what is parsed.** -/
theorem exec_good {c : Sem L} {lp : Bool} {j : Job L} {s : L.S} {o : Out L.S}
    (h : Exec c lp j s o) : Good c lp j s o := by
  induction h with
  | plain h =>
    intro rest
    exact Det.const (by simp only [pStmt]) (fun f => by
      simp only [Simple.line, pStmt_simple, h, Out.res])
  | plainFail h =>
    intro rest
    exact Det.const (by simp only [pStmt]) (fun f => by
      simp only [Simple.line, pStmt_simple, h, Out.res])
  | brk => exact fun rest => Det.const (by simp only [pStmt]) (fun f => by
      simp only [Simple.line, pStmt, if_true, Out.res])
  | cont => exact fun rest => Det.const (by simp only [pStmt]) (fun f => by
      simp only [Simple.line, pStmt, if_true, Out.res])
  | brkFail => exact fun rest => Det.const (by simp only [pStmt]) (fun f => by
      simp only [Simple.line, pStmt, Bool.false_eq_true, if_false, Out.res])
  | contFail => exact fun rest => Det.const (by simp only [pStmt]) (fun f => by
      simp only [Simple.line, pStmt, Bool.false_eq_true, if_false, Out.res])
  | simple h ih =>
    refine not_while (by simp) fun rest _ => ?_
    simpa only [Stmt.lines, List.cons_append, List.nil_append] using ih rest
  | nil =>
    intro rest he
    simp only [Stmts.lines, List.nil_append]
    exact Det.const (by simp only [pClause]) (fun f => by
      simp only [pClause_end c f _ he, Out.res])
  | @consOk lp a as s s' o h h' ih ih' =>
    intro rest he
    simp only [Stmts.lines, List.append_assoc]
    refine Det.bind (by simp only [pClause]) (ih.1 (as.lines ++ rest) (fol_stmts as he)) ?_ ?_
      (ih' rest he)
    · intro f h; simp only [pClause_cons, h]
    · intro f h; simp only [pClause_cons, h, Out.res]
  | @consStop lp a as s o h ho ih =>
    intro rest he
    simp only [Stmts.lines, List.append_assoc]
    refine Det.bind (k := fun _ => some (o.res rest)) (by simp only [pClause])
      (ih.1 (as.lines ++ rest) (fol_stmts as he)) ?_ ?_ (Det.always _)
    · intro f h; simp only [pClause_cons, h]
    · intro f h
      cases o with
      | ok s => exact absurd ho (by simp [Out.stops])
      | _ => simp only [pClause_cons, h, Out.res]
  | @one lp x s o h ih =>
    refine ⟨fun rest => ?_, ?_⟩
    · exact Det.succ (by simp only [pBranch]) (fun f => pBranch_one c f lp x rest s) (ih rest)
    · have hend : ∀ s', Det (fun f => pClause c f lp [] s') (.ok [] s') :=
        fun s' => Det.const (by simp only [pClause]) (fun f => by simp only [pClause])
      have hc := fun f => pClause_cons c f lp (.simple x) [] s
      simp only [Stmt.lines, List.append_nil] at hc
      simp only [Body.inner, Body.left]
      cases o with
      | ok s' =>
        refine Det.bind (by simp only [pClause]) (ih []) ?_ ?_ (hend s')
        · intro f h; rw [hc]; simp only [h]
        · intro f h; rw [hc]; simp only [h, Out.res]
      | _ =>
        refine Det.bind (by simp only [pClause]) (ih []) ?_ ?_ (Det.always _)
        · intro f h; rw [hc]; simp only [h]
        · intro f h; rw [hc]; simp only [h, Out.res]
  | @block lp ss s o h ih =>
    refine ⟨fun rest => ?_, ?_⟩
    · refine Det.bind (k := fun _ => some (o.res rest)) (by simp only [pBranch])
        (ih (.rb :: rest) (.inr ⟨rest, rfl⟩)) ?_ ?_ (Det.always _)
      · intro f h; simp only [pBranch_block, h]
      · intro f h
        cases o <;> simp only [pBranch_block, h, Out.res]
    · exact ih [.rb] (.inr ⟨[], rfl⟩)
  | @condFail lp q b r s h =>
    refine not_while (by simp) fun rest hf => ?_
    simp only [Stmt.lines, List.cons_append, List.append_assoc]
    refine Det.succ (k := fun f => pChain c f lp false (.ift q :: (b.lines ++ (r.lines ++ rest))) s)
      (by simp only [pStmt]) (fun f => by simp only [pStmt]) ?_
    exact Det.succ (by simp only [pChain])
      (fun f => by simp only [pChain, Bool.false_eq_true, if_false, h]) (link_fail c lp false (b.lines ++ (r.lines ++ rest)))
  | @condTrue lp q b r s s' o h h' ih =>
    refine not_while (by simp) fun rest hf => ?_
    simp only [Stmt.lines, List.cons_append, List.append_assoc]
    refine Det.succ (k := fun f => pChain c f lp false (.ift q :: (b.lines ++ (r.lines ++ rest))) s)
      (by simp only [pStmt]) (fun f => by simp only [pStmt]) ?_
    exact Det.succ (by simp only [pChain])
      (fun f => by simp only [pChain, Bool.false_eq_true, if_false, h]) (link_true ih r hf)
  | @condFalse lp q b r s s' o h h' ih =>
    refine not_while (by simp) fun rest hf => ?_
    simp only [Stmt.lines, List.cons_append, List.append_assoc]
    refine Det.succ (k := fun f => pChain c f lp false (.ift q :: (b.lines ++ (r.lines ++ rest))) s)
      (by simp only [pStmt]) (fun f => by simp only [pStmt]) ?_
    exact Det.succ (by simp only [pChain])
      (fun f => by simp only [pChain, Bool.false_eq_true, if_false, h]) (link_false b ih hf)
  | elifsNil =>
    intro rest hf
    simp only [Elifs.lines, List.nil_append]
    exact Det.const (by simp only [pNext]) (fun f => by simp only [pNext_fol c f _ _ hf, Out.res])
  | @els lp b s o h ih =>
    intro rest hf
    simp only [Elifs.lines, List.cons_append]
    refine Det.succ (k := fun f => pChain c f lp false (.els :: (b.lines ++ rest)) s)
      (by simp only [pNext]) (fun f => by simp only [pNext]) ?_
    exact Det.succ (by simp only [pChain]) (fun f => by simp only [pChain, Bool.not_false])
      (ih.1 rest)
  | @elifFail lp q b r s h =>
    intro rest hf
    simp only [Elifs.lines, List.cons_append, List.append_assoc]
    refine Det.succ (k := fun f => pChain c f lp false (.elif q :: (b.lines ++ (r.lines ++ rest))) s)
      (by simp only [pNext]) (fun f => by simp only [pNext]) ?_
    exact Det.succ (by simp only [pChain])
      (fun f => by simp only [pChain, Bool.false_eq_true, if_false, h]) (link_fail c lp false (b.lines ++ (r.lines ++ rest)))
  | @elifTrue lp q b r s s' o h h' ih =>
    intro rest hf
    simp only [Elifs.lines, List.cons_append, List.append_assoc]
    refine Det.succ (k := fun f => pChain c f lp false (.elif q :: (b.lines ++ (r.lines ++ rest))) s)
      (by simp only [pNext]) (fun f => by simp only [pNext]) ?_
    exact Det.succ (by simp only [pChain])
      (fun f => by simp only [pChain, Bool.false_eq_true, if_false, h]) (link_true ih r hf)
  | @elifFalse lp q b r s s' o h h' ih =>
    intro rest hf
    simp only [Elifs.lines, List.cons_append, List.append_assoc]
    refine Det.succ (k := fun f => pChain c f lp false (.elif q :: (b.lines ++ (r.lines ++ rest))) s)
      (by simp only [pNext]) (fun f => by simp only [pNext]) ?_
    exact Det.succ (by simp only [pChain])
      (fun f => by simp only [pChain, Bool.false_eq_true, if_false, h]) (link_false b ih hf)
  | switchFail h =>
    refine not_while (by simp) fun rest hf => ?_
    simp only [Stmt.lines, List.cons_append]
    exact Det.const (by simp only [pStmt]) (fun f => by
      simp only [pStmt, pVals_eq, h, Option.map_none, Out.res])
  | switch h h' ih =>
    refine not_while (by simp) fun rest hf => ?_
    simp only [Stmt.lines, List.cons_append, List.append_assoc, List.nil_append]
    exact Det.succ (by simp only [pStmt]) (fun f => by
      simp only [pStmt, pVals_eq, h, Option.map_some, List.nil_append]) (ih rest)
  | armsNil =>
    intro rest
    simp only [Arms.lines, List.nil_append]
    exact Det.const (by simp only [pCases]) (fun f => by simp only [pCases, Out.res])
  | @dfltFail lp vs cs b s h =>
    intro rest
    simp only [Arms.lines, List.cons_append, List.append_assoc]
    exact dflt_cases b rest cs vs s .fail (.inl ⟨h, rfl⟩)
  | @dflt lp vs vs' cs b s s' m o h h' ih =>
    intro rest
    simp only [Arms.lines, List.cons_append, List.append_assoc]
    exact dflt_cases b rest cs vs s o (.inr ⟨m, vs', s', h, ih⟩)
  | @armFail lp vs k cs b r s h =>
    intro rest
    simp only [Arms.lines, List.cons_append, List.append_assoc]
    exact arm_cases b r rest cs vs k s .fail (.inl ⟨h, rfl⟩)
  | @armTrue lp vs vs' k cs b r s s' o h h' ih =>
    intro rest
    simp only [Arms.lines, List.cons_append, List.append_assoc]
    exact arm_cases b r rest cs vs k s o (.inr (.inl ⟨vs', s', h, ih⟩))
  | @armFalse lp vs vs' k cs b r s s' o h h' ih =>
    intro rest
    simp only [Arms.lines, List.cons_append, List.append_assoc]
    exact arm_cases b r rest cs vs k s o (.inr (.inr ⟨vs', s', h, ih⟩))
  | forFail h =>
    refine not_while (by simp) fun rest hf => ?_
    simp only [Stmt.lines, List.cons_append]
    exact Det.const (by simp only [pStmt]) (fun f => by simp only [pStmt, h, Out.res])
  | @for_ lp i b s s' es o h h' ih =>
    refine not_while (by simp) fun rest hf => ?_
    simp only [Stmt.lines, List.cons_append]
    refine attach (by simp only [pStmt]) ih ?_ ?_ ?_ ?_ ?_ <;> intro f
    · intro h1; simp only [pStmt, takeBody_lines, h, h1]
    · intro x s h1; simp only [pStmt, takeBody_lines, h, h1]
    · intro s h1; simp only [pStmt, takeBody_lines, h, h1]
    · intro s h1; simp only [pStmt, takeBody_lines, h, h1]
    · intro h1; simp only [pStmt, takeBody_lines, h, h1]
  | iterNil => exact Det.const (by simp only [pIter]) (fun f => by simp only [pIter, Out.res])
  | iterFail h => exact Det.const (by simp only [pIter]) (fun f => by simp only [pIter, h, Out.res])
  | @iterNext lp i b e es s s1 s2 o h o1 h1 ho h2 ih1 ih2 =>
    refine Det.bind (by simp only [pIter]) ih1.2 ?_ ?_ ih2
    · intro f h3; simp only [pIter, h, h3]
    · intro f h3
      rcases ho with rfl | rfl
      · simp only [pIter, h, h3, Out.res, ends_left, if_true]
      · simp only [pIter, h, h3, Out.res]
  | iterBrk h h1 ih =>
    refine Det.bind (by simp only [pIter]) ih.2 ?_ ?_ (Det.always _)
    · intro f h3; simp only [pIter, h, h3]
    · intro f h3; simp only [pIter, h, h3, Out.res]
  | iterStop h h1 ih =>
    refine Det.bind (by simp only [pIter]) ih.2 ?_ ?_ (Det.always _)
    · intro f h3; simp only [pIter, h, h3]
    · intro f h3; simp only [pIter, h, h3, Out.res]
  | whileFail h =>
    exact while_stmt (Det.const (by simp only [pWhile]) (fun f => by simp only [pWhile, h, Out.res]))
  | whileFalse h =>
    exact while_stmt (Det.const (by simp only [pWhile]) (fun f => by simp only [pWhile, h, Out.res]))
  | @whileNext lp q b s s1 s2 o h o1 h1 ho h2 ih1 ih2 =>
    refine while_stmt (Det.bind (by simp only [pWhile]) ih1.2 ?_ ?_ (ih2.2 q b rfl))
    · intro f h3; simp only [pWhile, h, h3]
    · intro f h3
      rcases ho with rfl | rfl
      · simp only [pWhile, h, h3, Out.res, ends_left, if_true]
      · simp only [pWhile, h, h3, Out.res]
  | whileBrk h h1 ih =>
    refine while_stmt (Det.bind (by simp only [pWhile]) ih.2 ?_ ?_ (Det.always _))
    · intro f h3; simp only [pWhile, h, h3]
    · intro f h3; simp only [pWhile, h, h3, Out.res]
  | whileStop h h1 ih =>
    refine while_stmt (Det.bind (by simp only [pWhile]) ih.2 ?_ ?_ (Det.always _))
    · intro f h3; simp only [pWhile, h, h3]
    · intro f h3; simp only [pWhile, h, h3, Out.res]

end Verif.BuildFlow
