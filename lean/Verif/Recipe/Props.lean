import Verif.Recipe.History

/-!
# Changes that an ad hoc recipe depends on: properties (C64)

What a script is and does is in Spec.lean (`meaning`), as is what may not change
(`Steady`). `Sound` and `Recorded` (History.lean) are about the script: there are no
computed function names, and, only for scripts that use the `depdb` builtin, that what
it computes is recorded.
-/

namespace Verif.Recipe

variable {σ ξ ρ : Type}

/-- **C64** (partial): after any history of edits, changes of prerequisites and builds,
successful or not, if a build succeeds then the target is what the recipe, as it is now,
makes of the prerequisites as they are now. What is missing: see `Good`, and the
counterexamples below. -/
theorem up_to_date_partial (S : Sem σ ξ ρ) (fuel : Nat)
    (parse : Nat → Nat → Option (List Top)) (Is : Input ξ → Prop)
    (hg : Good S fuel parse Is) (i : Input ξ) (s : σ) (es : List (Event σ ξ)) (hi : Is i)
    (hw : Within Is es)
    (hok : (step S fuel parse (run S fuel parse (World.init i s) es) .build).1 ≠ .failed) :
    ∃ ts l s', parse (run S fuel parse (World.init i s) es).inp.text
        (run S fuel parse (World.init (ρ := ρ) i s) es).inp.syntx = some ts ∧
      meaning S fuel ts (run S fuel parse (World.init (ρ := ρ) i s) es).inp
        (run S fuel parse (World.init (ρ := ρ) i s) es).src = .ok l s' ∧
      (step S fuel parse (run S fuel parse (World.init i s) es) .build).2.st.done =
        some (S.out s') :=
  build_ok S fuel parse hg _
    (run_inv S fuel parse hg.steady es _ ⟨hi, (fun o ho => by cases ho)⟩ hw) hok

/-- **C64**: nothing is executed if nothing has changed since a build that succeeded. -/
theorem not_rerun (S : Sem σ ξ ρ) (fuel : Nat) (parse : Nat → Nat → Option (List Top))
    (w : World σ ξ ρ) (hok : (step S fuel parse w .build).1 ≠ .failed) :
    step S fuel parse (step S fuel parse w .build).2 .build =
      (.unchanged, (step S fuel parse w .build).2) := by
  simp only [step] at hok ⊢
  cases hpp : (parse w.inp.text w.inp.syntx).bind (preParse S) with
  | none => simp [hpp] at hok
  | some p =>
    simp only [hpp] at hok ⊢
    simp only [update] at hok ⊢
    cases hpre : preamble S fuel p w.inp p.preamble w.inp.start w.src (keyLines p w.inp) with
    | fail ls => simp [hpre] at hok
    | ok l s1 ls =>
      simp only [hpre] at hok ⊢
      by_cases hc : (matches_ w.st.lines ls && w.st.done.isSome && !w.st.newer) = true
      · simp only [hc, if_true]
      · rw [if_neg hc] at hok
        simp only [if_neg hc]
        cases hb : execs S (ctx fuel p w.inp true) p.body l s1 with
        | ok l2 s2 =>
          have hm : matches_ (if matches_ w.st.lines ls then w.st.lines else some ls) ls = true := by
            split
            · assumption
            · exact List.isPrefixOf_iff_prefix.2 (List.prefix_refl ls)
          simp [hm]
        | fail => simp [hb] at hok
        | stuck => simp [hb] at hok

/-- If nothing is executed then the lines are those of the build before. -/
theorem unchanged_lines (S : Sem σ ξ ρ) (fuel : Nat) (parse : Nat → Nat → Option (List Top))
    {Is : Input ξ → Prop} (hst : Steady Is) (w : World σ ξ ρ) (i : Input ξ)
    (hi : Inv S fuel parse Is w) (hj : Is i)
    (hok : (step S fuel parse w .build).1 ≠ .failed)
    (hun : (step S fuel parse
      (step S fuel parse (step S fuel parse w .build).2 (.input i)).2 .build).1 = .unchanged) :
    ∃ ts p, parse w.inp.text w.inp.syntx = some ts ∧ parse i.text i.syntx = some ts ∧
      preParse S ts = some p ∧ i.text = w.inp.text ∧ keyLines p i = keyLines p w.inp := by
  obtain ⟨_, ts, p, l, s1, ls, ht, hp, hpre, hl⟩ := after_build S fuel parse hst w hi hok
  generalize (step S fuel parse w .build).2 = w1 at hun hl
  simp only [step] at hun
  cases hqq : (parse i.text i.syntx).bind (preParse S) with
  | none => simp [hqq] at hun
  | some q =>
    simp only [hqq] at hun
    obtain ⟨ts', ht', hq⟩ := Option.bind_eq_some_iff.1 hqq
    simp only [update] at hun
    cases hpre' : preamble S fuel q i q.preamble i.start w1.src (keyLines q i) with
    | fail ls => simp [hpre'] at hun
    | ok l' s1' ls' =>
      simp only [hpre'] at hun
      split at hun
      · rename_i hc
        simp only [Bool.and_eq_true, hl] at hc
        obtain ⟨e1, e2, _, e3⟩ :=
          match_same S fuel parse hst hj hi.1 ht' ht hq hp hpre' hpre hc.1.1
        subst e1 e2
        refine ⟨ts, p, ht, ht', hp, ?_, e3⟩
        simp only [keyLines, List.cons_append, List.nil_append, List.cons.injEq,
          Line.text.injEq, true_and] at e3
        exact e3.1
      · exfalso
        revert hun
        cases execs S (ctx fuel q i true) q.body l' s1' <;> simp

/-- **C64**: after a change of the text of the recipe, it is executed: for any history,
then a build that succeeds, then this change and another build. -/
theorem text_change_rerun (S : Sem σ ξ ρ) (fuel : Nat)
    (parse : Nat → Nat → Option (List Top)) {Is : Input ξ → Prop} (hst : Steady Is)
    (i j : Input ξ) (s : σ) (es : List (Event σ ξ)) (hi : Is i) (hw : Within Is es) (hj : Is j)
    (w : World σ ξ ρ) (hrun : w = run S fuel parse (World.init i s) es)
    (ht : w.inp.text ≠ j.text) (hok : (step S fuel parse w .build).1 ≠ .failed) :
    (step S fuel parse (run S fuel parse w [.build, .input j]) .build).1 ≠ .unchanged := by
  subst hrun
  intro hun
  obtain ⟨_, _, _, _, _, h, _⟩ := unchanged_lines S fuel parse hst _ j
    (run_inv S fuel parse hst es _ ⟨hi, (fun o ho => by cases ho)⟩ hw) hj hok hun
  exact ht h.symm

/-- **C64** (partial): unless this has been disabled with `depdb clear`, after a change of
the value of a variable that is expanded anywhere in the recipe, or of the targets, or of
the prerequisites, or of the programs among them, it is executed. What is missing: see
`Steady`. -/
theorem change_rerun_partial (S : Sem σ ξ ρ) (fuel : Nat)
    (parse : Nat → Nat → Option (List Top)) {Is : Input ξ → Prop} (hst : Steady Is)
    (i j : Input ξ) (s : σ) (es : List (Event σ ξ)) (hi : Is i) (hw : Within Is es) (hj : Is j)
    (w : World σ ξ ρ) (hrun : w = run S fuel parse (World.init i s) es) (ts : List Top)
    (hts : parse w.inp.text w.inp.syntx = some ts) (hcl : Top.clear ∉ ts)
    (hnul : ∀ t ∈ ts, ∀ n, t.Uses n → 0 ∉ n)
    (hch : (∃ t ∈ ts, ∃ n, t.Uses n ∧ special n = false ∧ w.inp.env n ≠ j.env n) ∨
      w.inp.start [62] ≠ j.start [62] ∨ w.inp.start [60] ≠ j.start [60] ∨
      w.inp.progs ≠ j.progs)
    (hok : (step S fuel parse w .build).1 ≠ .failed) :
    (step S fuel parse (run S fuel parse w [.build, .input j]) .build).1 ≠ .unchanged := by
  have hinv : Inv S fuel parse Is w := by
    rw [hrun]
    exact run_inv S fuel parse hst es _ ⟨hi, (fun o ho => by cases ho)⟩ hw
  intro hun
  obtain ⟨ts', p, h1, _, h2, _, h3⟩ := unchanged_lines S fuel parse hst w j hinv hj hok hun
  have e : ts' = ts := by
    rw [hts] at h1; exact (Option.some.inj h1).symm
  subst e
  obtain ⟨hpi, _, _⟩ := preParse_inv S ts' p h2
  have hc : p.clear = false := preParse_clear S ts' p h2 hcl
  have ha : Agree p j w.inp := agree_of_key p hst hj hinv.1 hc (fun n hn => by
    obtain ⟨t, ht, e, he, hn⟩ := hpi.from_ n hn
    exact hnul t ht n (top_uses.2 ⟨e, he, hn⟩)) h3
  rcases hch with ⟨t, ht, n, hu, hs, h⟩ | h | h | h
  · obtain ⟨e, he, hn⟩ := top_uses.1 hu
    exact h (ha.env n (hpi.vars hc t ht e he n hn hs)).symm
  · exact h (congrFun ha.start [62]).symm
  · exact h (congrFun ha.start [60]).symm
  · exact h ha.progs.symm

/-- **C64**: in a recipe without the `depdb` builtin no variable is untracked: with and
without the check everything is the same. -/
theorem never_untracked (S : Sem σ ξ ρ) (fuel : Nat) (ts : List Top) (p : Script)
    (hl : ∀ t ∈ ts, ∃ a, t = Top.line a) (hso : Sound ts) (hp : preParse S ts = some p)
    (i : Input ξ) (s : σ) :
    ResRel (fun l l' => l = l') (execs S (ctx fuel p i true) p.body i.start s)
      (meaning S fuel ts i s) := by
  obtain ⟨hpi, _, _⟩ := preParse_inv S ts p hp
  have hpre : p.preamble = [] := by
    cases h : p.preamble with
    | nil => rfl
    | cons t r =>
      obtain ⟨ts', k, e, he⟩ := hpi.last (by rw [h]; simp)
      obtain ⟨a, ha⟩ := hl (.depdb k e) (hpi.pre _ (by rw [he]; simp))
      cases ha
  have hc : p.clear = false := preParse_clear S ts p hp fun h => by
    obtain ⟨a, ha⟩ := hl _ h; cases ha
  have hlines := hpi.lines
  rw [hpre] at hlines
  unfold meaning
  rw [show ts.filterMap Top.line? = p.body from hlines]
  have hrel : CtxRel (p.body.flatMap fun a => a.exprs.flatMap Expr.refs)
      (fun l l' => l = l' ∧ ∀ n, special n = true → (l n).isSome)
      (ctx fuel p i true) (plainCtx fuel i) := by
    refine ⟨rfl, rfl, rfl, ?_, ?_, ?_⟩
    · rintro l _ ⟨rfl, hd⟩ n hn
      show guardedLook p i.env l n = plainLook i.env l n
      unfold guardedLook plainLook
      cases hln : l n with
      | some v => rfl
      | none =>
        have hs : special n = false := by
          cases h : special n with
          | false => rfl
          | true => have := hd n h; rw [hln] at this; cases this
        obtain ⟨a, ha, e, he, hne⟩ := mem_refs hn
        have hv := hpi.vars hc _ (hpi.bod a ha) e he n hne hs
        cases he : i.env n with
        | none => rfl
        | some v => simp [hv]
    · rintro l _ ⟨rfl, _⟩ n _; rfl
    · rintro l _ ⟨rfl, hd⟩ n v
      exact ⟨rfl, fun m hm => put_grow l n m v (hd m hm)⟩
  have := execs_rel S hrel p.body (body_closed S hso hp) i.start i.start s
    ⟨rfl, start_special i⟩
  revert this
  show ResRel _ _ (execs S (plainCtx fuel i) p.body i.start s) → ResRel _ _
    (execs S (plainCtx fuel i) p.body i.start s)
  cases execs S (ctx fuel p i true) p.body i.start s <;>
    cases execs S (plainCtx fuel i) p.body i.start s <;> simp only [ResRel, imp_self]
  exact fun h => ⟨h.1.1, h.2⟩

/-- **C64**: a recipe with a call of an impure function or with a computed variable name
after the last line with the `depdb` builtin is rejected. -/
theorem impure_rejected (S : Sem σ ξ ρ) (ts us : List Top) (a : Scr) (e : Expr)
    (hu : ∀ t ∈ us, isDep t = false) (he : e ∈ a.exprs)
    (h : (∃ f ∈ e.calls, impure S f = true) ∨ e.hasComputed = true) :
    preParse S (ts ++ .line a :: us) = none := by
  cases hp : preParse S (ts ++ .line a :: us) with
  | none => rfl
  | some p =>
    exfalso
    obtain ⟨hpi, h1, h2⟩ := preParse_inv S _ p hp
    have hmem : a ∈ p.body := preParse_body S ts us a p hu hp
    rcases h with ⟨f, hf, hi⟩ | hc
    · rw [hpi.imp h1 a hmem e he f hf] at hi; cases hi
    · rw [hpi.comp h2 a hmem e he] at hc; cases hc

/-- **C64**: what a preamble has to record: with `x = e` and `depdb hash $x` whatever it is
that `e` depends on is tracked, provided the value is not unusual. -/
theorem recorded_enough (S : Sem σ ξ ρ) (fuel : Nat) (p : Script) (x : Str) (e : Expr)
    (Is : Input ξ → Prop) (hst : Steady Is)
    (hpre : p.preamble = [.line (.assign x e), .depdb .hash (.var x)]) (hc : p.clear = false)
    (hn : ∀ n ∈ p.vars, 0 ∉ n)
    (he : ∀ i, Is i → ∀ v, eval S i.ext (guardedLook p i.env i.start) e = some v →
      v.ty = 0 ∧ ∃ ns, v.data = some ns ∧ ∀ n ∈ ns, n.Plain) :
    Recorded S fuel p Is := by
  intro i j s l s1 l' s1' ls hi hj h h'
  have hlook : ∀ (k : Input ξ) v, guardedLook p k.env (k.start.put x v) x = some v := by
    intro k v; simp [guardedLook, Loc.put]
  have step1 : ∀ k, Is k → ∀ l s1 ls,
      preamble S fuel p k p.preamble k.start s (keyLines p k) = .ok l s1 ls →
      ∃ ns, l = k.start.put x ⟨0, some ns⟩ ∧ s1 = s ∧
        ls = keyLines p k ++ [.entry .hash (namesSum ns)] ∧ ∀ n ∈ ns, n.Plain := by
    intro k hk l s1 ls h
    rw [hpre] at h
    simp only [preamble, exec, ctx] at h
    cases hev : eval S k.ext (guardedLook p k.env k.start) e with
    | none => rw [hev] at h; simp at h
    | some v =>
      obtain ⟨ht, ns, hd, hp⟩ := he k hk v hev
      have hv : v = ⟨0, some ns⟩ := by cases v; simp_all
      subst hv
      rw [hev] at h
      simp only [eval, hlook, Option.bind_some, record, Option.getD_some, Pre.ok.injEq] at h
      exact ⟨ns, h.1.symm, h.2.1.symm, h.2.2.symm, hp⟩
  obtain ⟨ns, a1, a2, a3, a4⟩ := step1 i hi l s1 ls h
  obtain ⟨ms, b1, b2, b3, b4⟩ := step1 j hj l' s1' ls h'
  rw [a3] at b3
  have hkl : (keyLines p i).length = (keyLines p j).length := by
    unfold keyLines; split <;> rfl
  obtain ⟨c1, c2⟩ := List.append_inj b3 hkl
  simp only [List.cons.injEq, Line.entry.injEq, and_true, true_and] at c2
  have c3 := namesSum_inj a4 b4 c2
  have c4 := (agree_of_key p hst hi hj hc hn c1).start
  refine ⟨by rw [a2, b2], ?_, fun h => by rw [hc] at h; cases h⟩
  intro n _
  rw [a1, b1, c3, c4]

/-! ## Not vacuous, and counterexamples

The files are what commands have been given, and so is the content of the target. Function
`f` is impure, `g` is not. Operation 0 is concatenation, and 1 whether the first is NULL,
and 2 is the type of the first. -/

/-- A name that is just a value. -/
def nm (v : Str) : Name := { value := v }

/-- An untyped value. -/
def vl (vs : List Str) : Val := ⟨0, some (vs.map nm)⟩

def S0 : Sem (List Val) Nat (List Val) where
  op k a b :=
    if k = 0 then some ⟨0, some (a.data.getD [] ++ b.data.getD [])⟩
    else if k = 1 then some (if a.data = none then vl [[116]] else vl [])
    else some (vl [[a.ty]])
  add a b := some ⟨0, some (a.data.getD [] ++ b.data.getD [])⟩
  truth v := some (v.data ≠ some [])
  name v := match v.data with | some [n] => some n.value | _ => none
  str v := match v.data with | some [n] => some n.value | _ => none
  items v := (v.data.getD []).map fun n => ⟨0, some [n]⟩
  fn n :=
    if n = [102] then some (.impure fun x _ => some (vl [[x]]))
    else if n = [103] then some (.pure fun v => some v)
    else none
  cmd ps v s :=
    (s ++ [v] ++ (if ps.all (fun p => p.sum = none ∧ p.envs = []) then []
      else ps.map fun p => vl (p.sum.getD [] :: p.envs.map fun e => e.2.getD [33])), true, v)
  out s := s

/-- A file. -/
def file (p : Str) : Tgt := ⟨some p, [nm p]⟩

/-- Target `t` and prerequisite `a`, variable `x` is `v`. -/
def i0 (text : Nat) (v : Option Val) : Input Nat :=
  ⟨text, 1, fun n => if n = [120] then v else none, 7, [file [116]], [{ tgt := file [97] }],
    fun _ => none, vl [[109]]⟩

/-- The recipes: `cmd $x $<`; and with `for`, `if` and local variables. -/
def parse0 (text syntx : Nat) : Option (List Top) :=
  match text, syntx with
  | 0, _ => some [.line (.cmd (.op 0 (.var [120]) (.var [60])))]
  | 1, _ => some [.line (.assign [121] (.call [103] (.var [120]))),
      .line (.each [122] (.var [121]) (.ite (.var [122]) (.cmd (.var [122])) .skip))]
  | _, _ => none

/-- The values of `x` in the examples are two names each. -/
theorem steady0 : Steady fun i => ∃ t v, i = i0 t (some (vl [[v + 4], [97]])) ∧ t < 2 ∧
    v < 10 := by
  refine ⟨⟨1, ?_⟩, ⟨vl [[109]], ?_⟩, ⟨fun _ => 0, ?_⟩, ?_, ⟨fun p => [nm p], ?_⟩,
    ⟨fun _ => false, ?_⟩, ⟨fun _ => false, fun _ => [], ?_⟩, ⟨fun _ => false, ?_⟩⟩
  · rintro _ ⟨t, v, rfl, _⟩; rfl
  · rintro _ ⟨t, v, rfl, _⟩; rfl
  · rintro _ ⟨t, v, rfl, _⟩ n w h
    simp only [i0] at h
    split at h
    · cases h; rfl
    · cases h
  · rintro _ ⟨t, v, rfl, _⟩ n w ns h hd m hm
    simp only [i0] at h
    split at h
    · cases h
      simp only [vl, Option.some.injEq] at hd
      subst hd
      simp only [List.map_cons, List.map_nil, List.mem_cons, List.not_mem_nil, or_false] at hm
      rcases hm with rfl | rfl
      · exact ⟨rfl, rfl, by simp [nm], by simp [nm], by simp [nm], by simp [nm]⟩
      · exact ⟨rfl, rfl, by simp [nm], by simp [nm], by simp [nm], by simp [nm]⟩
    · cases h
  · rintro _ ⟨t, v, rfl, _⟩ u hu
    simp only [i0, List.map_cons, List.map_nil, List.mem_append, List.mem_cons,
      List.not_mem_nil, or_false] at hu
    rcases hu with rfl | rfl
    · exact ⟨[116], rfl, by simp, rfl⟩
    · exact ⟨[97], rfl, by simp, rfl⟩
  · rintro _ ⟨t, v, rfl, _⟩ q hq
    simp only [i0, List.mem_cons, List.not_mem_nil, or_false] at hq
    subst hq
    exact ⟨rfl, fun _ _ => rfl⟩
  · rintro _ ⟨t, v, rfl, _⟩ q hq p _
    simp only [i0, List.mem_cons, List.not_mem_nil, or_false] at hq
    subst hq
    exact ⟨rfl, rfl, (fun c h => by cases h), (fun n h => by cases h)⟩
  · rintro _ ⟨t, v, rfl, _⟩ n
    exact ⟨rfl, fun v h => by cases h⟩

theorem good0 : Good S0 10 parse0 fun i => ∃ t v, i = i0 t (some (vl [[v + 4], [97]])) ∧ t < 2 ∧
    v < 10 := by
  refine ⟨steady0, ?_, ?_⟩
  · rintro _ ⟨t, v, rfl, ht, _⟩ ts h
    have : t = 0 ∨ t = 1 := by omega
    rcases this with rfl | rfl
    · cases h
      refine ⟨?_, ?_, ?_⟩
      · intro t ht e he n hn
        simp only [List.mem_singleton] at ht; subst ht
        simp only [Top.exprs, Scr.exprs, List.mem_singleton] at he; subst he
        simp only [Expr.refs, List.cons_append, List.nil_append, List.mem_cons,
          List.not_mem_nil, or_false] at hn
        rcases hn with rfl | rfl <;> decide
      · intro a ha e he
        simp only [List.mem_singleton, Top.line.injEq] at ha; subst ha
        simp only [Scr.exprs, List.mem_singleton] at he; subst he
        rfl
      · intro a ha n hn
        simp only [List.mem_singleton, Top.line.injEq] at ha; subst ha
        cases hn
    · cases h
      refine ⟨?_, ?_, ?_⟩
      · intro t ht e he n hn
        simp only [List.mem_cons, List.not_mem_nil, or_false] at ht
        rcases ht with rfl | rfl
        · simp only [Top.exprs, Scr.exprs, List.mem_singleton] at he; subst he
          simp only [Expr.refs, List.mem_singleton] at hn
          subst hn; decide
        · simp only [Top.exprs, Scr.exprs, List.append_nil, List.mem_cons, List.not_mem_nil,
            or_false] at he
          rcases he with rfl | rfl | rfl <;>
            (simp only [Expr.refs, List.mem_singleton] at hn; subst hn; decide)
      · intro a ha e he
        simp only [List.mem_cons, Top.line.injEq, List.not_mem_nil, or_false] at ha
        rcases ha with rfl | rfl
        · simp only [Scr.exprs, List.mem_singleton] at he; subst he; rfl
        · simp only [Scr.exprs, List.append_nil, List.mem_cons, List.not_mem_nil,
            or_false] at he
          rcases he with rfl | rfl | rfl <;> rfl
      · intro a ha n hn
        simp only [List.mem_cons, Top.line.injEq, List.not_mem_nil, or_false] at ha
        rcases ha with rfl | rfl
        · cases hn
        · simp [Scr.appended] at hn
  · rintro _ ⟨t, v, rfl, ht, _⟩ ts p h hp hc
    exfalso
    have : t = 0 ∨ t = 1 := by omega
    rcases this with rfl | rfl
    · cases h; cases hp; rcases hc with hc | hc
      · exact hc rfl
      · cases hc
    · cases h; cases hp; rcases hc with hc | hc
      · exact hc rfl
      · cases hc

/-- A history with both recipes, and what is made is what it should be: the last build
executes the recipe because of `x`. -/
example :
    let w := run S0 10 parse0 (World.init (i0 0 (some (vl [[5], [97]]))) [vl [[1]]])
      [.build, .build, .input (i0 1 (some (vl [[5], [97]]))), .build, .source [],
       .build, .input (i0 1 (some (vl [[6], [97]])))]
    w.st.done = some [vl [[5]], vl [[5]], vl [[97]], vl [[97]]] ∧
    (step S0 10 parse0 w .build).1 = .changed ∧
    (step S0 10 parse0 w .build).2.st.done = some [vl [[6]], vl [[6]], vl [[97]], vl [[97]]] := by
  refine ⟨rfl, rfl, rfl⟩

/-- Of `impure_rejected`: an impure function is only accepted in the preamble. -/
example : preParse S0 [.line (.cmd (.call [102] (.lit .null)))] = none ∧
    (preParse S0 [.line (.assign [120] (.call [102] (.lit .null))),
      .depdb .hash (.var [120]), .line (.cmd (.var [120]))]).isSome := by
  refine ⟨rfl, rfl⟩

/-- Of `recorded_enough`: a change of what is external is noticed. -/
example :
    let ts : List Top := [.line (.assign [121] (.call [102] (.lit .null))),
      .depdb .hash (.var [121]), .line (.cmd (.var [121]))]
    let w := run S0 10 (fun _ _ => some ts) (World.init (i0 0 none) [])
      [.build, .build, .input { i0 0 none with ext := 8 }]
    w.st.done = some [vl [[7]]] ∧
    (step S0 10 (fun _ _ => some ts) w .build).1 = .changed ∧
    (step S0 10 (fun _ _ => some ts) w .build).2.st.done = some [vl [[8]]] := by
  refine ⟨rfl, rfl, rfl⟩

/-- With the recipe, first with the one input, then with the other, nothing is executed
in the second build although the recipe now makes something else. -/
def Missed (parse : Nat → Nat → Option (List Top)) (i j : Input Nat) : Prop :=
  ∃ w, w = run S0 10 parse (World.init i []) [.build, .input j] ∧
    (step S0 10 parse w .build).1 = .unchanged ∧
    ∃ ts l s, parse j.text j.syntx = some ts ∧ meaning S0 10 ts j [] = .ok l s ∧
      (step S0 10 parse w .build).2.st.done ≠ some (S0.out s)

/-- The same script for any text. -/
def only (ts : List Top) (_ _ : Nat) : Option (List Top) := some ts

/-- `cmd $<` -/
def cmdPrqs : List Top := [.line (.cmd (.var [60]))]

/-- Finding: a prerequisite that becomes ad hoc is no longer in `$<` but the checksum of
prerequisites is the same. -/
theorem adhoc_change_missed :
    Missed (only cmdPrqs)
      { i0 0 none with prqs := [{ tgt := file [97] }, { tgt := file [98] }] }
      { i0 0 none with prqs := [{ tgt := file [97] }, { tgt := file [98], adhoc := true }] } :=
  ⟨_, rfl, rfl, _, _, _, rfl, rfl, by decide⟩

/-- Finding: a prerequisite with `update=unmatch` is in `$<` but not in the checksum. -/
theorem unmatch_change_missed :
    Missed (only cmdPrqs)
      { i0 0 none with prqs := [{ tgt := file [97] }] }
      { i0 0 none with prqs := [{ tgt := file [97] }, { tgt := file [98], unmatch := true }] } :=
  ⟨_, rfl, rfl, _, _, _, rfl, rfl, by decide⟩

/-- Finding: that it is another target (of another type) with the same path. -/
theorem same_path_missed :
    Missed (only cmdPrqs)
      { i0 0 none with prqs := [{ tgt := ⟨some [97], [{ type := [99], value := [97] }]⟩ }] }
      { i0 0 none with prqs := [{ tgt := ⟨some [97], [{ type := [104], value := [97] }]⟩ }] } :=
  ⟨_, rfl, rfl, _, _, _, rfl, rfl, by decide⟩

/-- Finding: the type of a variable, which, for example, decides how values are compared. -/
theorem type_change_missed :
    Missed (only [.line (.cmd (.op 2 (.var [120]) (.lit .null)))])
      (i0 0 (some (vl [[97]]))) (i0 0 (some ⟨5, (vl [[97]]).data⟩)) :=
  ⟨_, rfl, rfl, _, _, _, rfl, rfl, by decide⟩

/-- Finding: the version of the syntax, which can be set outside of the text. -/
theorem syntax_change_missed :
    Missed (fun _ x => some [.line (.cmd (.lit (vl [[x]])))])
      (i0 0 none) { i0 0 none with syntx := 2 } :=
  ⟨_, rfl, rfl, _, _, _, rfl, rfl, by decide⟩

/-- Finding: an impure function is accepted if its name is computed, and then what it
depends on is not tracked. -/
theorem computed_function_missed :
    Missed (only [.line (.cmd (.callc (.lit (vl [[102]])) (.lit .null)))])
      (i0 0 none) { i0 0 none with ext := 8 } :=
  ⟨_, rfl, rfl, _, _, _, rfl, rfl, by decide⟩

/-- Finding: one program no longer has a checksum, and the next one now has the same. -/
theorem program_change_missed :
    Missed (only cmdPrqs)
      { i0 0 none with
        prqs := [{ tgt := file [97], sum := some [49] }, { tgt := file [98] }] }
      { i0 0 none with
        prqs := [{ tgt := file [97] }, { tgt := file [98], sum := some [49] }] } :=
  ⟨_, rfl, rfl, _, _, _, rfl, rfl, by decide⟩

/-- Finding: environment variable `A`, which was `B`, is unset, and `B`, which was not set,
is now `B`. -/
theorem environment_change_missed :
    Missed (only cmdPrqs)
      { i0 0 none with
        prqs := [{ tgt := file [97], envs := [[65], [66]] }]
        getenv := fun n => if n = [65] then some [66] else none }
      { i0 0 none with
        prqs := [{ tgt := file [97], envs := [[65], [66]] }]
        getenv := fun n => if n = [66] then some [66] else none } :=
  ⟨_, rfl, rfl, _, _, _, rfl, rfl, by decide⟩

/-- Finding: `a%b/c{} d%e/f g%h{i} %j/k{l}` and `a/b{c} d{e} f/g h/i{} j/k{l}` have the same
checksum because whether there is a project is not in it. -/
theorem project_change_missed :
    Missed (only [.line (.cmd (.var [120]))])
      (i0 0 (some ⟨0, some [
        { proj := some [97], dir := [98], type := [99] },
        { proj := some [100], dir := [101], value := [102] },
        { proj := some [103], type := [104], value := [105] },
        { proj := some [], dir := [106], type := [107], value := [108] }]⟩))
      (i0 0 (some ⟨0, some [
        { dir := [97], type := [98], value := [99] },
        { type := [100], value := [101] },
        { dir := [102], value := [103] },
        { dir := [104], type := [105] },
        { dir := [106], type := [107], value := [108] }]⟩)) :=
  ⟨_, rfl, rfl, _, _, _, rfl, rfl, by decide⟩

/-- Finding: what `depdb hash` is given can change from NULL to empty. -/
theorem null_change_missed :
    Missed (only [.line (.assign [121] (.op 1 (.computed (.lit (vl [[120]]))) (.lit .null))),
        .depdb .hash (.computed (.lit (vl [[120]]))), .depdb .env (.lit .null),
        .line (.cmd (.var [121]))])
      (i0 0 (some ⟨0, none⟩)) (i0 0 (some ⟨0, some []⟩)) :=
  ⟨_, rfl, rfl, _, _, _, rfl, rfl, by decide⟩

/-- Finding: the argument of the last `depdb` line cannot be computed with an impure
function, or from a variable with a computed name, although it is in the preamble: this is
accepted only if another such line follows. -/
theorem depdb_argument_rejected :
    preParse S0 [.depdb .string (.call [102] (.lit .null))] = none ∧
    preParse S0 [.depdb .hash (.computed (.lit (vl [[120]])))] = none ∧
    (preParse S0 [.depdb .string (.call [102] (.lit .null)),
      .depdb .string (.lit (vl [[120]]))]).isSome := by
  refine ⟨rfl, rfl, rfl⟩

end Verif.Recipe
