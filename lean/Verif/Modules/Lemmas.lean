import Verif.Modules.Model

/-! # Build system modules: invariants -/

namespace Verif.Modules

theorem find_push (s : St) (m m' : Nat) (v : Option Mode) (lg : List Ev) :
    find { s with loaded := s.loaded ++ [(m, v)], log := lg } m' =
      match find s m' with
      | some x => some x
      | none => if m' = m then some v else none := by
  unfold find
  dsimp only
  rw [List.find?_append]
  cases h : s.loaded.find? (fun x => x.1 == m') with
  | some x => simp
  | none =>
    by_cases hm : m' = m
    · subst hm; simp
    · simp [hm, Ne.symm hm]

theorem find_setMode (s : St) (m m' : Nat) (v : Option Mode) :
    find (setMode s m v) m' = if m' = m then (find s m).map (fun _ => v) else find s m' := by
  unfold find setMode
  dsimp only
  rw [List.find?_map]
  have h : ∀ k, s.loaded.find? ((fun x => x.1 == k) ∘ (fun x => if x.1 == m then (x.1, v) else x)) =
      s.loaded.find? (fun x => x.1 == k) := by
    intro k
    congr 1
    funext x
    simp only [Function.comp]
    by_cases hx : (x.1 == m) = true
    · rw [if_pos hx]
    · rw [if_neg hx]
  rw [h]
  by_cases hm : m' = m
  · subst hm
    rw [if_pos rfl]
    cases hf : s.loaded.find? (fun x => x.1 == m') with
    | none => rfl
    | some x =>
      have := List.find?_some hf
      simp only [beq_iff_eq] at this
      simp [this]
  · rw [if_neg hm]
    cases hf : s.loaded.find? (fun x => x.1 == m') with
    | none => rfl
    | some x =>
      have := List.find?_some hf
      simp only [beq_iff_eq] at this
      simp [this, hm]

theorem find_setVar (s : St) (m sc m' : Nat) (v : Option (Bool × Bool)) :
    find (setVar s m sc v) m' = find s m' := rfl

theorem var_setVar (s : St) (m sc m' sc' : Nat) (v : Option (Bool × Bool)) :
    var (setVar s m sc v) m' sc' = if (m', sc') = (m, sc) then some v else var s m' sc' := by
  unfold var setVar
  dsimp only
  rw [List.find?_cons]
  by_cases h : (m', sc') = (m, sc)
  · rw [if_pos h, h]; simp
  · rw [if_neg h]
    have : ((m, sc) == (m', sc')) = false := by
      rw [beq_eq_false_iff_ne]
      exact fun e => h e.symm
    rw [this]

/-- The variables of a module are set for a scope. -/
def Set' (s : St) (m sc : Nat) : Prop := ∃ v, var s m sc = some (some v)

/-- What holds once modules have been booted. -/
structure J (S : Sys) (s : St) : Prop where
  inited : ∀ m, find s m = some none ↔ Inited s.log m
  found : ∀ m, find s m ≠ none → (S.mods m).found = true
  vars : ∀ m sc l c, var s m sc = some (some (l, c)) →
    (l = true → find s m = some none) ∧ (l = false → c = false ∧ (S.mods m).found = false)
  first : FirstOk s.log

/-- Initialized but the variables are not set yet. -/
def Open (s : St) (x : Nat × Nat) : Prop := x ∈ inits s.log ∧ ¬ Set' s x.1 x.2

/-- What the state after says about the state before. -/
structure Ext (S : Sys) (s s' : St) : Prop where
  inv : J S s → J S s'
  vars : J S s → ∀ m sc v, var s m sc = some (some v) → var s' m sc = some (some v)
  log : ∃ l, s'.log = s.log ++ l ∧ boots l = [] ∧ .rootBuild ∉ l
  none : ∀ m, find s m = some none → find s' m = some none
  some : ∀ m v, find s' m = some (some v) → find s m = some (some v)
  kept : ∀ m, find s m ≠ .none → find s' m ≠ .none
  opened : ∀ x, Open s' x → Open s x

theorem Ext.refl (S : Sys) (s : St) : Ext S s s :=
  ⟨id, fun _ _ _ _ h => h, ⟨[], by simp, rfl, by simp⟩, fun _ h => h, fun _ _ h => h,
   fun _ h => h, fun _ h => h⟩

theorem boots_append (a b : List Ev) : boots (a ++ b) = boots a ++ boots b := by
  simp [boots]

theorem inits_append (a b : List Ev) : inits (a ++ b) = inits a ++ inits b := by
  simp [inits]

theorem Ext.trans {S : Sys} {a b c : St} (h : Ext S a b) (h' : Ext S b c) : Ext S a c := by
  refine ⟨fun x => h'.inv (h.inv x), fun x m sc v hv => h'.vars (h.inv x) m sc v (h.vars x m sc v hv),
    ?_, fun m x => h'.none m (h.none m x), fun m v x => h.some m v (h'.some m v x),
    fun m x => h'.kept m (h.kept m x), fun x hx => h.opened x (h'.opened x hx)⟩
  obtain ⟨l, e, e1, e2⟩ := h.log
  obtain ⟨l', e', e1', e2'⟩ := h'.log
  exact ⟨l ++ l', by rw [e', e, List.append_assoc], by rw [boots_append, e1, e1']; rfl,
    by simp [e2, e2']⟩

theorem firstOk_add {log : List Ev} {m sc : Nat} {f : Bool} (h : FirstOk log)
    (hf : f = true ↔ ¬ Inited log m) : FirstOk (log ++ [.init m sc f]) := by
  intro pre m' sc' f' post e
  rcases List.eq_nil_or_concat post with rfl | ⟨post', x, rfl⟩
  · have := List.append_inj' e rfl
    obtain ⟨rfl, e2⟩ := this
    simp only [List.cons.injEq, Ev.init.injEq, and_true] at e2
    obtain ⟨rfl, rfl, rfl⟩ := e2
    rw [hf]
    unfold Inited
    constructor
    · intro h sc f hm; exact h ⟨sc, f, hm⟩
    · rintro h ⟨sc, f, hm⟩; exact h sc f hm
  · rw [List.concat_eq_append, ← List.cons_append, ← List.append_assoc] at e
    have := List.append_inj' e rfl
    exact h pre m' sc' f' post' this.1

theorem inited_add (log : List Ev) (m sc : Nat) (f : Bool) (m' : Nat) :
    Inited (log ++ [.init m sc f]) m' ↔ Inited log m' ∨ m' = m := by
  unfold Inited
  constructor
  · rintro ⟨sc', f', h⟩
    rcases List.mem_append.1 h with h | h
    · exact .inl ⟨sc', f', h⟩
    · simp only [List.mem_singleton, Ev.init.injEq] at h
      exact .inr h.1
  · rintro (⟨sc', f', h⟩ | rfl)
    · exact ⟨sc', f', by simp [h]⟩
    · exact ⟨sc, f, by simp⟩

/-- The cases of `enter`. -/
theorem enter_cases {S : Sys} {m : Nat} {opt : Bool} {s s' : St} {f : Bool}
    (h : enter S m opt s = .ok (s', f)) :
    (find s m = none ∧ (S.mods m).found = true ∧ (S.mods m).boot = none ∧ f = true ∧
      s' = { s with loaded := s.loaded ++ [(m, none)] }) ∨
    (find s m = none ∧ (S.mods m).found = false ∧ opt = true ∧ f = true ∧ s' = s) ∨
    (find s m = some none ∧ f = false ∧ s' = s) ∨
    (∃ v, find s m = some (some v) ∧ f = true ∧ s' = setMode s m none) := by
  unfold enter at h
  cases hf : find s m with
  | none =>
    rw [hf] at h
    dsimp only at h
    by_cases h1 : (S.mods m).found = true
    · rw [if_pos h1] at h
      cases hb : (S.mods m).boot with
      | some x => rw [hb] at h; simp at h
      | none =>
        rw [hb] at h
        simp only [Option.isSome_none, Bool.false_eq_true, if_false, Except.ok.injEq,
          Prod.mk.injEq] at h
        exact .inl ⟨rfl, h1, rfl, h.2.symm, h.1.symm⟩
    · rw [if_neg h1] at h
      cases opt with
      | false => simp at h
      | true =>
        simp only [if_true, Except.ok.injEq, Prod.mk.injEq] at h
        exact .inr (.inl ⟨rfl, by simpa using h1, rfl, h.2.symm, h.1.symm⟩)
  | some x =>
    rw [hf] at h
    cases x with
    | none =>
      simp only [Except.ok.injEq, Prod.mk.injEq] at h
      exact .inr (.inr (.inl ⟨rfl, h.2.symm, h.1.symm⟩))
    | some v =>
      simp only [Except.ok.injEq, Prod.mk.injEq] at h
      exact .inr (.inr (.inr ⟨v, rfl, h.2.symm, h.1.symm⟩))

/-- What `enter` leaves alone. -/
theorem enter_frame {S : Sys} {m : Nat} {opt : Bool} {s s' : St} {f : Bool}
    (h : enter S m opt s = .ok (s', f)) :
    s'.vars = s.vars ∧ s'.log = s.log ∧
    (∀ m', m' ≠ m → find s' m' = find s m') ∧
    ((S.mods m).found = true ∨ find s m ≠ none → find s' m = some none) ∧
    (find s m = none → (S.mods m).found = false → find s' m = none) := by
  rcases enter_cases h with ⟨h1, h2, _, rfl, rfl⟩ | ⟨h1, h2, _, rfl, rfl⟩ | ⟨h1, rfl, rfl⟩ |
    ⟨v, h1, rfl, rfl⟩
  · refine ⟨rfl, rfl, ?_, ?_, ?_⟩
    · intro m' hm
      have := find_push s m m' none s.log
      rw [this]
      cases find s m' <;> simp [hm]
    · intro _
      have := find_push s m m none s.log
      rw [this, h1]
      simp
    · intro _ h; rw [h2] at h; cases h
  · refine ⟨rfl, rfl, fun _ _ => rfl, ?_, fun _ _ => h1⟩
    rintro (h | h)
    · rw [h2] at h; cases h
    · exact absurd h1 h
  · refine ⟨rfl, rfl, fun _ _ => rfl, fun _ => h1, ?_⟩
    intro h; rw [h1] at h; cases h
  · refine ⟨rfl, rfl, ?_, ?_, ?_⟩
    · intro m' hm; rw [find_setMode, if_neg hm]
    · intro _; rw [find_setMode, if_pos rfl, h1]; rfl
    · intro h; rw [h1] at h; cases h

theorem var_of_vars {s s' : St} (h : s'.vars = s.vars) (m sc : Nat) : var s' m sc = var s m sc := by
  unfold var; rw [h]

/-- The state in which the program of a module is started. -/
def started (s : St) (m sc : Nat) (f : Bool) : St :=
  { setVar s m sc none with log := s.log ++ [.init m sc f] }

/-- Once `init_module` calls the module, everything is in order. -/
theorem started_inv {S : Sys} {m sc : Nat} {opt f : Bool} {s s' : St}
    (h : enter S m opt s = .ok (s', f)) (hs : (find s' m).isSome = true)
    (hJ : J S s) : J S (started s' m sc f) := by
  obtain ⟨e1, e2, e3, e4, e5⟩ := enter_frame h
  have hfound : (S.mods m).found = true := by
    rcases enter_cases h with ⟨_, h2, _⟩ | ⟨h1, h2, _, _, rfl⟩ | ⟨h1, _⟩ | ⟨v, h1, _⟩
    · exact h2
    · rw [h1] at hs; cases hs
    · exact hJ.found m (by rw [h1]; simp)
    · exact hJ.found m (by rw [h1]; simp)
  have hm : find s' m = some none := e4 (.inl hfound)
  have hff : f = true ↔ ¬ Inited s.log m := by
    rw [← hJ.inited]
    rcases enter_cases h with ⟨h1, _, _, rfl, _⟩ | ⟨h1, _, _, rfl, _⟩ | ⟨h1, rfl, _⟩ |
      ⟨v, h1, rfl, _⟩ <;> simp [h1]
  refine ⟨?_, ?_, ?_, ?_⟩
  · intro m'
    show find s' m' = some none ↔ Inited (s'.log ++ [.init m sc f]) m'
    rw [inited_add, e2]
    by_cases hmm : m' = m
    · subst hmm; simp [hm]
    · rw [e3 m' hmm, hJ.inited]; simp [hmm]
  · intro m' hf
    have hf' : find s' m' ≠ none := hf
    by_cases hmm : m' = m
    · subst hmm; exact hfound
    · rw [e3 m' hmm] at hf'; exact hJ.found m' hf'
  · intro m' sc' l c hv
    have hv' : var (setVar s' m sc none) m' sc' = some (some (l, c)) := hv
    rw [var_setVar] at hv'
    by_cases hx : (m', sc') = (m, sc)
    · rw [if_pos hx] at hv'; cases hv'
    · rw [if_neg hx, var_of_vars e1] at hv'
      obtain ⟨a, b⟩ := hJ.vars m' sc' l c hv'
      refine ⟨fun hl => ?_, b⟩
      show find s' m' = some none
      by_cases hmm : m' = m
      · subst hmm; exact hm
      · rw [e3 m' hmm]; exact a hl
  · show FirstOk (s'.log ++ [.init m sc f])
    rw [e2]
    exact firstOk_add hJ.first hff

theorem mem_inits_init (l : List Ev) (m sc : Nat) (f : Bool) :
    inits (l ++ [.init m sc f]) = inits l ++ [(m, sc)] := by
  rw [inits_append]; rfl

/-- `init_module` keeps everything in order if the modules do. -/
theorem initWith_ext {S : Sys} {run : Prog → St → Except Err (St × Bool)}
    (hr : ∀ p s s' b, run p s = .ok (s', b) → Ext S s s') {sc m : Nat} {opt : Bool} {s s' : St}
    {b : Bool} (h : initWith S run sc m opt s = .ok (s', b)) :
    Ext S s s' ∧ (J S s → ∃ l c, var s' m sc = some (some (l, c)) ∧ b = (l && c)) := by
  unfold initWith at h
  cases he : enter S m opt s with
  | error e => rw [he] at h; cases h
  | ok r =>
    obtain ⟨s1, f⟩ := r
    rw [he] at h
    dsimp only at h
    obtain ⟨e1, e2, e3, e4, e5⟩ := enter_frame he
    have hfind : ∀ m' v, find s1 m' = some (some v) → find s m' = some (some v) := by
      intro m' v hv
      by_cases hmm : m' = m
      · subst hmm
        rcases enter_cases he with ⟨h1, h2, _⟩ | ⟨h1, h2, _, _, rfl⟩ | ⟨h1, _, rfl⟩ | ⟨w, h1, _⟩
        · rw [e4 (.inl h2)] at hv; cases hv
        · exact hv
        · exact hv
        · rw [e4 (.inr (by rw [h1]; simp))] at hv; cases hv
      · rw [e3 m' hmm] at hv; exact hv
    have hnone : ∀ m', find s m' = some none → find s1 m' = some none := by
      intro m' hv
      by_cases hmm : m' = m
      · subst hmm; exact e4 (.inr (by rw [hv]; simp))
      · rw [e3 m' hmm]; exact hv
    have hkept : ∀ m', find s m' ≠ none → find s1 m' ≠ none := by
      intro m' hv
      by_cases hmm : m' = m
      · subst hmm; rw [e4 (.inr hv)]; simp
      · rw [e3 m' hmm]; exact hv
    cases hv : var s1 m sc with
    | some v =>
      cases v with
      | some lc =>
        -- The variables are set.
        obtain ⟨l, c⟩ := lc
        rw [hv] at h
        dsimp only at h
        have hres : s' = s1 ∧ b = (l && c) := by
          by_cases ha : (!opt && !l) = true
          · rw [if_pos ha] at h; cases h
          · rw [if_neg ha] at h
            by_cases hb : (!opt && !c) = true
            · rw [if_pos hb] at h; cases h
            · rw [if_neg hb] at h
              simp only [Except.ok.injEq, Prod.mk.injEq] at h
              exact ⟨h.1.symm, h.2.symm⟩
        obtain ⟨rfl, rfl⟩ := hres
        have hv' : var s m sc = some (some (l, c)) := by rw [← var_of_vars e1]; exact hv
        have hstay : J S s → s' = s := by
          intro hJ
          obtain ⟨a, b⟩ := hJ.vars m sc l c hv'
          rcases enter_cases he with ⟨h1, h2, _⟩ | ⟨_, _, _, _, rfl⟩ | ⟨_, _, rfl⟩ | ⟨w, h1, _⟩
          · cases l with
            | true => rw [h1] at a; cases a rfl
            | false => rw [h2] at b; cases (b rfl).2
          · rfl
          · rfl
          · cases l with
            | true => rw [h1] at a; cases a rfl
            | false =>
              have := hJ.found m (by rw [h1]; simp)
              rw [this] at b; cases (b rfl).2
        refine ⟨⟨fun hJ => by rw [hstay hJ]; exact hJ, fun hJ m' sc' v hh => by rw [hstay hJ]; exact hh,
          ⟨[], by simp [e2], rfl, by simp⟩, hnone, hfind, hkept, ?_⟩, fun _ => ⟨l, c, hv, rfl⟩⟩
        intro x ⟨hx, hn⟩
        rw [e2] at hx
        refine ⟨hx, fun ⟨v, hvv⟩ => hn ⟨v, ?_⟩⟩
        rw [var_of_vars e1]; exact hvv
      | none =>
        rw [hv] at h
        exact initWith_aux hr he e1 e2 e3 e4 hnone hfind hkept (by rw [hv]; simp) h
    | none =>
      rw [hv] at h
      exact initWith_aux hr he e1 e2 e3 e4 hnone hfind hkept (by rw [hv]; simp) h
where
  initWith_aux {S : Sys} {run : Prog → St → Except Err (St × Bool)}
      (hr : ∀ p s s' b, run p s = .ok (s', b) → Ext S s s') {sc m : Nat} {opt f : Bool}
      {s s1 s' : St} {b : Bool} (he : enter S m opt s = .ok (s1, f))
      (e1 : s1.vars = s.vars) (e2 : s1.log = s.log)
      (e3 : ∀ m', m' ≠ m → find s1 m' = find s m')
      (e4 : (S.mods m).found = true ∨ find s m ≠ none → find s1 m = some none)
      (hnone : ∀ m', find s m' = some none → find s1 m' = some none)
      (hfind : ∀ m' v, find s1 m' = some (some v) → find s m' = some (some v))
      (hkept : ∀ m', find s m' ≠ none → find s1 m' ≠ none)
      (hns : ∀ v, var s1 m sc ≠ some (some v))
      (h : (let s := setVar s1 m sc none
        if (find s m).isSome then
          match run ((S.mods m).init sc f opt) { s with log := s.log ++ [.init m sc f] } with
          | .error e => .error e
          | .ok (s, c) => .ok (setVar s m sc (some (true, c)), c)
        else .ok (setVar s m sc (some (false, false)), false)) = (.ok (s', b) : Except Err _)) :
      Ext S s s' ∧ (J S s → ∃ l c, var s' m sc = some (some (l, c)) ∧ b = (l && c)) := by
    dsimp only at h
    rw [find_setVar] at h
    have hns' : ∀ m' sc' v, var s m' sc' = some (some v) → (m', sc') ≠ (m, sc) := by
      intro m' sc' v hh e
      simp only [Prod.mk.injEq] at e
      obtain ⟨rfl, rfl⟩ := e
      rw [← var_of_vars e1] at hh
      exact hns v hh
    by_cases hs : (find s1 m).isSome = true
    · rw [if_pos hs] at h
      have hst : ({ setVar s1 m sc none with
          log := (setVar s1 m sc none).log ++ [.init m sc f] } : St) = started s1 m sc f := rfl
      rw [hst] at h
      cases hrun : run ((S.mods m).init sc f opt) (started s1 m sc f) with
      | error e => rw [hrun] at h; cases h
      | ok r =>
        obtain ⟨s2, c⟩ := r
        rw [hrun] at h
        simp only [Except.ok.injEq, Prod.mk.injEq] at h
        obtain ⟨rfl, rfl⟩ := h
        have hx := hr _ _ _ _ hrun
        have hstart : J S s → J S (started s1 m sc f) := fun hJ => started_inv he hs hJ
        have hm1 : J S s → find s2 m = some none := by
          intro hJ
          refine hx.none m ?_
          rw [(hstart hJ).inited]
          exact ⟨sc, f, by simp [started]⟩
        refine ⟨⟨?_, ?_, ?_, ?_, ?_, ?_, ?_⟩, ?_⟩
        · intro hJ
          have hJ2 := hx.inv (hstart hJ)
          refine ⟨hJ2.inited, hJ2.found, ?_, hJ2.first⟩
          intro m' sc' l c' hv
          rw [var_setVar] at hv
          by_cases hxx : (m', sc') = (m, sc)
          · rw [if_pos hxx] at hv
            simp only [Option.some.injEq, Prod.mk.injEq] at hv hxx
            obtain ⟨rfl, rfl⟩ := hv
            obtain ⟨rfl, rfl⟩ := hxx
            exact ⟨fun _ => hm1 hJ, fun h => by cases h⟩
          · rw [if_neg hxx] at hv; exact hJ2.vars m' sc' l c' hv
        · intro hJ m' sc' v hv
          rw [var_setVar, if_neg (hns' m' sc' v hv)]
          refine hx.vars (hstart hJ) m' sc' v ?_
          show var (setVar s1 m sc none) m' sc' = _
          rw [var_setVar, if_neg (hns' m' sc' v hv), var_of_vars e1]
          exact hv
        · obtain ⟨l, el, eb, er⟩ := hx.log
          refine ⟨.init m sc f :: l, ?_, ?_, ?_⟩
          · show s2.log = _
            rw [el]
            show (s1.log ++ [.init m sc f]) ++ l = _
            rw [e2]; simp
          · exact eb
          · simp [er]
        · intro m' hh; exact hx.none m' (hnone m' hh)
        · intro m' v hh; exact hfind m' v (hx.some m' v hh)
        · intro m' hh; exact hx.kept m' (hkept m' hh)
        · intro x ⟨hx1, hx2⟩
          have hne : x ≠ (m, sc) := by
            rintro rfl
            exact hx2 ⟨(true, c), by rw [var_setVar, if_pos rfl]⟩
          have hop : Open s2 x := by
            refine ⟨hx1, fun ⟨v, hv⟩ => hx2 ⟨v, ?_⟩⟩
            rw [var_setVar, if_neg hne]; exact hv
          obtain ⟨ho1, ho2⟩ := hx.opened x hop
          have ho1' : x ∈ inits (s1.log ++ [.init m sc f]) := ho1
          rw [mem_inits_init, e2] at ho1'
          refine ⟨?_, ?_⟩
          · rcases List.mem_append.1 ho1' with hh | hh
            · exact hh
            · simp only [List.mem_singleton] at hh; exact absurd hh hne
          · rintro ⟨v, hv⟩
            apply ho2
            refine ⟨v, ?_⟩
            show var (setVar s1 m sc none) x.1 x.2 = _
            rw [var_setVar, if_neg hne, var_of_vars e1]
            exact hv
        · intro _
          exact ⟨true, c, by rw [var_setVar, if_pos rfl], by simp⟩
    · rw [if_neg hs] at h
      simp only [Except.ok.injEq, Prod.mk.injEq] at h
      obtain ⟨rfl, rfl⟩ := h
      have hnf : (S.mods m).found = false ∧ find s m = none ∧ s1 = s := by
        rcases enter_cases he with ⟨_, h2, _⟩ | ⟨h1, h2, _, _, rfl⟩ | ⟨h1, _, rfl⟩ | ⟨w, h1, _⟩
        · rw [e4 (.inl h2)] at hs; exact absurd rfl hs
        · exact ⟨h2, h1, rfl⟩
        · rw [h1] at hs; exact absurd rfl hs
        · rw [e4 (.inr (by rw [h1]; simp))] at hs; exact absurd rfl hs
      obtain ⟨n1, n2, rfl⟩ := hnf
      have hvv : ∀ m' sc', (m', sc') ≠ (m, sc) →
          var (setVar (setVar s1 m sc none) m sc (some (false, false))) m' sc' = var s1 m' sc' := by
        intro m' sc' hne
        rw [var_setVar, if_neg hne, var_setVar, if_neg hne]
      refine ⟨⟨?_, ?_, ⟨[], by simp [setVar], rfl, by simp⟩, fun _ h => h, fun _ _ h => h,
        fun _ h => h, ?_⟩, ?_⟩
      · intro hJ
        refine ⟨hJ.inited, hJ.found, ?_, hJ.first⟩
        intro m' sc' l c hv
        by_cases hxx : (m', sc') = (m, sc)
        · rw [var_setVar, if_pos hxx] at hv
          simp only [Option.some.injEq, Prod.mk.injEq] at hv hxx
          obtain ⟨hv1, hv2⟩ := hv
          rw [← hv1, ← hv2, hxx.1]
          exact ⟨(by intro h; cases h), fun _ => ⟨rfl, n1⟩⟩
        · rw [hvv _ _ hxx] at hv; exact hJ.vars m' sc' l c hv
      · intro _ m' sc' v hv
        rw [hvv _ _ (hns' m' sc' v hv)]; exact hv
      · intro x ⟨hx1, hx2⟩
        have hne : x ≠ (m, sc) := by
          rintro rfl
          exact hx2 ⟨(false, false), by rw [var_setVar, if_pos rfl]⟩
        refine ⟨hx1, fun ⟨v, hv⟩ => hx2 ⟨v, ?_⟩⟩
        rw [hvv _ _ hne]; exact hv
      · intro _
        exact ⟨false, false, by rw [var_setVar, if_pos rfl], rfl⟩

/-- So does what uses modules. -/
theorem exec_ext {S : Sys} {init : Nat → Nat → Bool → St → Except Err (St × Bool)}
    (hi : ∀ sc m opt s s' b, init sc m opt s = .ok (s', b) → Ext S s s') :
    ∀ p s s' b, exec S init p s = .ok (s', b) → Ext S s s' := by
  intro p
  induction p with
  | done c => intro s s' b h; cases h; exact .refl S s
  | fail => intro s s' b h; cases h
  | use sc m opt k ih =>
    intro s s' b h
    rw [exec] at h
    cases hr : init sc m opt s with
    | error e => rw [hr] at h; cases h
    | ok r =>
      obtain ⟨s1, b1⟩ := r
      rw [hr] at h
      exact (hi _ _ _ _ _ _ hr).trans (ih b1 _ _ _ h)
  | tryLoad sc m k ih =>
    intro s s' b h
    rw [exec] at h
    cases hr : tryLoadWith S init sc m s with
    | error e => rw [hr] at h; cases h
    | ok r =>
      obtain ⟨s1, b1⟩ := r
      rw [hr] at h
      refine Ext.trans ?_ (ih b1 _ _ _ h)
      unfold tryLoadWith at hr
      split at hr
      · cases hr; exact .refl S s
      · exact hi _ _ _ _ _ _ hr
  | load sc m k ih =>
    intro s s' b h
    rw [exec] at h
    cases hr : loadWith S init sc m s with
    | error e => rw [hr] at h; cases h
    | ok s1 =>
      rw [hr] at h
      refine Ext.trans ?_ (ih _ _ _ h)
      unfold loadWith at hr
      split at hr
      · cases hr; exact .refl S s
      · cases hr2 : init sc m false s with
        | error e => rw [hr2] at hr; cases hr
        | ok r =>
          obtain ⟨s2, b2⟩ := r
          rw [hr2] at hr
          cases b2 with
          | false => cases hr
          | true =>
            cases hr
            exact hi _ _ _ _ _ _ hr2

theorem initModule_ext (S : Sys) : ∀ n sc m opt s s' b,
    initModule S n sc m opt s = .ok (s', b) →
    Ext S s s' ∧ (J S s → ∃ l c, var s' m sc = some (some (l, c)) ∧ b = (l && c)) := by
  intro n
  induction n with
  | zero => intro sc m opt s s' b h; cases h
  | succ n ih =>
    intro sc m opt s s' b h
    exact initWith_ext (exec_ext (fun sc m opt s s' b h => (ih sc m opt s s' b h).1)) h

theorem execN_ext (S : Sys) (n : Nat) (p : Prog) (s s' : St) (b : Bool)
    (h : exec S (initModule S n) p s = .ok (s', b)) : Ext S s s' :=
  exec_ext (fun sc m opt s s' b h => (initModule_ext S n sc m opt s s' b h).1) p s s' b h

theorem initModules_ext (S : Sys) (n : Nat) (v : Mode) : ∀ ms s s',
    initModules S n v ms s = .ok s' →
    Ext S s s' ∧ (J S s → ∀ m ∈ ms, find s' m ≠ some (some v)) := by
  intro ms
  induction ms with
  | nil => intro s s' h; cases h; exact ⟨.refl S s, by simp⟩
  | cons m ms ih =>
    intro s s' h
    rw [initModules] at h
    by_cases hf : find s m = some (some v)
    · rw [if_pos hf] at h
      cases hr : initModule S n 0 m false s with
      | error e => rw [hr] at h; cases h
      | ok r =>
        obtain ⟨s1, b⟩ := r
        rw [hr] at h
        obtain ⟨x1, y1⟩ := initModule_ext S n 0 m false s s1 b hr
        obtain ⟨x2, y2⟩ := ih s1 s' h
        refine ⟨x1.trans x2, ?_⟩
        intro hJ m' hm'
        rcases List.mem_cons.1 hm' with rfl | hm'
        · intro hh
          have h1 := x2.some m' v hh
          obtain ⟨l, c, hv, _⟩ := y1 hJ
          have hJ1 := x1.inv hJ
          obtain ⟨a, b'⟩ := hJ1.vars m' 0 l c hv
          cases l with
          | true => rw [a rfl] at h1; cases h1
          | false =>
            have := hJ1.found m' (by rw [h1]; simp)
            rw [this] at b'
            cases (b' rfl).2
        · exact y2 (x1.inv hJ) m' hm'
    · rw [if_neg hf] at h
      obtain ⟨x2, y2⟩ := ih s s' h
      refine ⟨x2, ?_⟩
      intro hJ m' hm'
      rcases List.mem_cons.1 hm' with rfl | hm'
      · intro hh; exact hf (x2.some m' v hh)
      · exact y2 hJ m' hm'

end Verif.Modules
