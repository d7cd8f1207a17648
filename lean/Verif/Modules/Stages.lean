import Verif.Modules.Boot

/-! # Build system modules: the stages of a project, depth, repeated uses -/

namespace Verif.Modules

/-- The state when `root.build` is about to be loaded. -/
def atRoot (s : St) : St := { s with log := s.log ++ [.rootBuild] }

/-- The stages of a project. -/
theorem project_cases {S : Sys} {n : Nat} {ms : List Nat} {rb rest : Prog} {s : St}
    (h : project S n ms rb rest = .ok s) :
    ∃ s0 s1 s2 s3 s4 s5 b b',
      ms.foldlM (fun s m => bootModule S n m s) ⟨[], [], []⟩ = .ok s0 ∧
      initModules S n .first (s0.loaded.map Prod.fst) s0 = .ok s1 ∧
      initModules S n .second (s0.loaded.map Prod.fst) s1 = .ok s2 ∧
      initModules S n .before (s0.loaded.map Prod.fst) s2 = .ok s3 ∧
      exec S (initModule S n) rb (atRoot s3) = .ok (s4, b) ∧
      initModules S n .after (s0.loaded.map Prod.fst) s4 = .ok s5 ∧
      exec S (initModule S n) rest s5 = .ok (s, b') := by
  unfold project at h
  cases h0 : ms.foldlM (fun s m => bootModule S n m s) ⟨[], [], []⟩ with
  | error e => rw [h0] at h; cases h
  | ok s0 =>
    rw [h0] at h
    dsimp only at h
    unfold loadRoot at h
    dsimp only at h
    cases h1 : initModules S n .first (s0.loaded.map Prod.fst) s0 with
    | error e => rw [h1] at h; cases h
    | ok s1 =>
    rw [h1] at h
    dsimp only at h
    cases h2 : initModules S n .second (s0.loaded.map Prod.fst) s1 with
    | error e => rw [h2] at h; cases h
    | ok s2 =>
    rw [h2] at h
    dsimp only at h
    cases h3 : initModules S n .before (s0.loaded.map Prod.fst) s2 with
    | error e => rw [h3] at h; cases h
    | ok s3 =>
    rw [h3] at h
    dsimp only at h
    cases h4 : exec S (initModule S n) rb (atRoot s3) with
    | error e =>
      have h4' : exec S (initModule S n) rb { s3 with log := s3.log ++ [.rootBuild] } = _ := h4
      rw [h4'] at h; cases h
    | ok r =>
    obtain ⟨s4, b⟩ := r
    have h4' : exec S (initModule S n) rb { s3 with log := s3.log ++ [.rootBuild] } = _ := h4
    rw [h4'] at h
    dsimp only at h
    cases h5 : initModules S n .after (s0.loaded.map Prod.fst) s4 with
    | error e => rw [h5] at h; cases h
    | ok s5 =>
    rw [h5] at h
    dsimp only at h
    cases h6 : exec S (initModule S n) rest s5 with
    | error e => rw [h6] at h; cases h
    | ok r =>
    obtain ⟨s6, b'⟩ := r
    rw [h6] at h
    cases h
    exact ⟨s0, s1, s2, s3, s4, s5, b, b', rfl, h1, h2, h3, h4, h5, h6⟩

theorem inited_atRoot (l : List Ev) (m : Nat) : Inited (l ++ [.rootBuild]) m ↔ Inited l m := by
  simp [Inited]

theorem atRoot_inv {S : Sys} {s : St} (h : J S s) : J S (atRoot s) := by
  refine ⟨?_, h.found, h.vars, ?_⟩
  · intro m
    show find s m = some none ↔ Inited (s.log ++ [.rootBuild]) m
    rw [inited_atRoot]; exact h.inited m
  · intro pre m sc f post e
    have e : s.log ++ [.rootBuild] = pre ++ .init m sc f :: post := e
    rcases List.eq_nil_or_concat post with rfl | ⟨post', x, rfl⟩
    · have := (List.append_inj' e rfl).2
      simp at this
    · rw [List.concat_eq_append, ← List.cons_append, ← List.append_assoc] at e
      exact h.first pre m sc f post' (List.append_inj' e rfl).1

theorem inits_atRoot (l : List Ev) : inits (l ++ [.rootBuild]) = inits l := by
  rw [inits_append]; simp [inits]

theorem atRoot_open {s : St} {x : Nat × Nat} (h : Open (atRoot s) x) : Open s x := by
  refine ⟨?_, h.2⟩
  have := h.1
  unfold atRoot at this
  rw [inits_atRoot] at this
  exact this

theorem inits_boot (l : List Nat) : inits (l.map Ev.boot) = [] := by
  induction l with
  | nil => rfl
  | cons a l ih => exact ih

/-! ## Each module once for a scope -/

theorem Prog.Only.mono {P Q : Nat → Prop} (h : ∀ m, P m → Q m) :
    ∀ {p : Prog}, p.Only P → p.Only Q := by
  intro p
  induction p with
  | done c => intro _; trivial
  | fail => intro _; trivial
  | use sc m opt k ih => intro hp; exact ⟨h m hp.1, fun b => ih b (hp.2 b)⟩
  | tryLoad sc m k ih => intro hp; exact ⟨h m hp.1, fun b => ih b (hp.2 b)⟩
  | load sc m k ih => intro hp; exact ⟨h m hp.1, ih hp.2⟩

theorem Prog.only_all {P : Nat → Prop} (h : ∀ m, P m) : ∀ p : Prog, p.Only P := by
  intro p
  induction p with
  | done c => trivial
  | fail => trivial
  | use sc m opt k ih => exact ⟨h m, ih⟩
  | tryLoad sc m k ih => exact ⟨h m, ih⟩
  | load sc m k ih => exact ⟨h m, ih⟩

/-- Something that holds before still holds after, given what a program uses. -/
theorem exec_keeps {S : Sys} {init : Nat → Nat → Bool → St → Except Err (St × Bool)}
    {K : St → St → Prop} {P : Nat → Prop} (hrefl : ∀ s, K s s)
    (htrans : ∀ a b c, K a b → K b c → K a c)
    (hi : ∀ sc m opt s s' b, P m → init sc m opt s = .ok (s', b) → K s s') :
    ∀ p s s' b, Prog.Only P p → exec S init p s = .ok (s', b) → K s s' := by
  intro p
  induction p with
  | done c => intro s s' b _ h; cases h; exact hrefl s
  | fail => intro s s' b _ h; cases h
  | use sc m opt k ih =>
    intro s s' b hp h
    rw [exec] at h
    cases hr : init sc m opt s with
    | error e => rw [hr] at h; cases h
    | ok r =>
      obtain ⟨s1, b1⟩ := r
      rw [hr] at h
      exact htrans _ _ _ (hi _ _ _ _ _ _ hp.1 hr) (ih b1 _ _ _ (hp.2 b1) h)
  | tryLoad sc m k ih =>
    intro s s' b hp h
    rw [exec] at h
    cases hr : tryLoadWith S init sc m s with
    | error e => rw [hr] at h; cases h
    | ok r =>
      obtain ⟨s1, b1⟩ := r
      rw [hr] at h
      refine htrans _ _ _ ?_ (ih b1 _ _ _ (hp.2 b1) h)
      unfold tryLoadWith at hr
      split at hr
      · cases hr; exact hrefl s
      · exact hi _ _ _ _ _ _ hp.1 hr
  | load sc m k ih =>
    intro s s' b hp h
    rw [exec] at h
    cases hr : loadWith S init sc m s with
    | error e => rw [hr] at h; cases h
    | ok s1 =>
      rw [hr] at h
      refine htrans _ _ _ ?_ (ih _ _ _ hp.2 h)
      unfold loadWith at hr
      split at hr
      · cases hr; exact hrefl s
      · cases hr2 : init sc m false s with
        | error e => rw [hr2] at hr; cases hr
        | ok r =>
          obtain ⟨s2, b2⟩ := r
          rw [hr2] at hr
          cases b2 with
          | false => cases hr
          | true =>
            cases hr
            exact hi _ _ _ _ _ _ hp.1 hr2

/-- The cases of `init_module`. -/
theorem initWith_cases {S : Sys} {run : Prog → St → Except Err (St × Bool)} {sc m : Nat}
    {opt : Bool} {s s' : St} {b : Bool} (h : initWith S run sc m opt s = .ok (s', b)) :
    ∃ s1 f, enter S m opt s = .ok (s1, f) ∧
      ((∃ l c, var s1 m sc = some (some (l, c)) ∧ s' = s1 ∧ b = (l && c) ∧
          (opt = true ∨ (l = true ∧ c = true))) ∨
       ((∀ v, var s1 m sc ≠ some (some v)) ∧ (find s1 m).isSome = true ∧
          ∃ s2, run ((S.mods m).init sc f opt) (started s1 m sc f) = .ok (s2, b) ∧
            s' = setVar s2 m sc (some (true, b))) ∨
       ((∀ v, var s1 m sc ≠ some (some v)) ∧ find s1 m = none ∧ b = false ∧ s'.log = s1.log ∧
          s'.loaded = s1.loaded ∧ opt = true ∧
          ∀ x, x ≠ (m, sc) → var s' x.1 x.2 = var s1 x.1 x.2)) := by
  unfold initWith at h
  cases he : enter S m opt s with
  | error e => rw [he] at h; cases h
  | ok r =>
    obtain ⟨s1, f⟩ := r
    rw [he] at h
    dsimp only at h
    refine ⟨s1, f, rfl, ?_⟩
    have aux : (∀ v, var s1 m sc ≠ some (some v)) →
        (if (find (setVar s1 m sc none) m).isSome = true then
          match run ((S.mods m).init sc f opt) (started s1 m sc f) with
          | .error e => .error e
          | .ok (s, c) => .ok (setVar s m sc (some (true, c)), c)
        else .ok (setVar (setVar s1 m sc none) m sc (some (false, false)), false)) =
          (.ok (s', b) : Except Err _) →
        ((∀ v, var s1 m sc ≠ some (some v)) ∧ (find s1 m).isSome = true ∧
          ∃ s2, run ((S.mods m).init sc f opt) (started s1 m sc f) = .ok (s2, b) ∧
            s' = setVar s2 m sc (some (true, b))) ∨
        ((∀ v, var s1 m sc ≠ some (some v)) ∧ find s1 m = none ∧ b = false ∧ s'.log = s1.log ∧
          s'.loaded = s1.loaded ∧ opt = true ∧
          ∀ x, x ≠ (m, sc) → var s' x.1 x.2 = var s1 x.1 x.2) := by
      intro hns h
      rw [find_setVar] at h
      by_cases hs : (find s1 m).isSome = true
      · rw [if_pos hs] at h
        cases hrun : run ((S.mods m).init sc f opt) (started s1 m sc f) with
        | error e => rw [hrun] at h; cases h
        | ok r =>
          obtain ⟨s2, c⟩ := r
          rw [hrun] at h
          simp only [Except.ok.injEq, Prod.mk.injEq] at h
          obtain ⟨rfl, rfl⟩ := h
          exact .inl ⟨hns, hs, s2, rfl, rfl⟩
      · rw [if_neg hs] at h
        simp only [Except.ok.injEq, Prod.mk.injEq] at h
        obtain ⟨rfl, rfl⟩ := h
        have hfn : find s1 m = none := by simpa using hs
        refine .inr ⟨hns, hfn, rfl, rfl, rfl, ?_, fun x hx => by
          rw [var_setVar, if_neg hx, var_setVar, if_neg hx]⟩
        obtain ⟨_, _, _, e4, _⟩ := enter_frame he
        rcases enter_cases he with ⟨_, h2, _⟩ | ⟨_, _, h3, _⟩ | ⟨h1, _, rfl⟩ | ⟨w, h1, _⟩
        · rw [e4 (.inl h2)] at hfn; cases hfn
        · exact h3
        · rw [h1] at hfn; cases hfn
        · rw [e4 (.inr (by rw [h1]; simp))] at hfn; cases hfn
    cases hv : var s1 m sc with
    | some v =>
      cases v with
      | some lc =>
        obtain ⟨l, c⟩ := lc
        rw [hv] at h
        dsimp only at h
        by_cases ha : (!opt && !l) = true
        · rw [if_pos ha] at h; cases h
        · rw [if_neg ha] at h
          by_cases hb : (!opt && !c) = true
          · rw [if_pos hb] at h; cases h
          · rw [if_neg hb] at h
            simp only [Except.ok.injEq, Prod.mk.injEq] at h
            refine .inl ⟨l, c, rfl, h.1.symm, h.2.symm, ?_⟩
            revert ha hb
            cases opt <;> cases l <;> cases c <;> simp
      | none =>
        rw [hv] at h
        exact .inr (by rw [← hv]; exact aux (by rw [hv]; simp) h)
    | none =>
      rw [hv] at h
      exact .inr (by rw [← hv]; exact aux (by rw [hv]; simp) h)

/-- What is needed for a module to be initialized once for a scope, for uses of modules of a rank
lower than that of the ones in progress. -/
def OnceK (S : Sys) (O : Nat × Nat → Prop) (s s' : St) : Prop :=
  J S s → (∀ x, Open s x → O x) → (inits s.log).Nodup →
    J S s' ∧ (∀ x, Open s' x → O x) ∧ (inits s'.log).Nodup

theorem OnceK.refl (S : Sys) (O : Nat × Nat → Prop) (s : St) : OnceK S O s s :=
  fun h1 h2 h3 => ⟨h1, h2, h3⟩

theorem OnceK.trans {S : Sys} {O : Nat × Nat → Prop} (a b c : St) (h : OnceK S O a b)
    (h' : OnceK S O b c) : OnceK S O a c :=
  fun h1 h2 h3 => let ⟨a1, a2, a3⟩ := h h1 h2 h3; h' a1 a2 a3

theorem initModule_once {S : Sys} {r : Nat → Nat} (hA : Acyclic S r) : ∀ n sc m opt s s' b
    (O : Nat × Nat → Prop), (∀ x, O x → r m < r x.1) →
    initModule S n sc m opt s = .ok (s', b) → OnceK S O s s' := by
  intro n
  induction n with
  | zero => intro sc m opt s s' b O _ h; cases h
  | succ n ih =>
    intro sc m opt s s' b O hO h hJ ho hn
    have hext := (initModule_ext S (n + 1) sc m opt s s' b h).1
    refine ⟨hext.inv hJ, fun x hx => ho x (hext.opened x hx), ?_⟩
    obtain ⟨s1, f, he, hc⟩ := initWith_cases h
    obtain ⟨e1, e2, e3, e4, e5⟩ := enter_frame he
    rcases hc with ⟨l, c, _, rfl, _⟩ | ⟨hns, hs, s2, hrun, rfl⟩ | ⟨_, _, _, el, _⟩
    · rw [e2]; exact hn
    · show (inits s2.log).Nodup
      have hst := started_inv (sc := sc) he hs hJ
      refine (exec_keeps (K := OnceK S (fun x => r m ≤ r x.1)) (P := fun m' => r m' < r m)
        (OnceK.refl S _) OnceK.trans ?_ _ _ _ _ (hA m sc f opt) hrun hst ?_ ?_).2.2
      · intro sc' m' opt' a a' b' hm' hh
        exact ih sc' m' opt' a a' b' _ (fun x hx => Nat.lt_of_lt_of_le hm' hx) hh
      · intro x ⟨hx1, hx2⟩
        have hx1' : x ∈ inits (s1.log ++ [.init m sc f]) := hx1
        rw [mem_inits_init, e2] at hx1'
        by_cases hxx : x = (m, sc)
        · rw [hxx]; exact Nat.le_refl _
        · apply Nat.le_of_lt
          apply hO
          apply ho
          rcases List.mem_append.1 hx1' with hh | hh
          · refine ⟨hh, ?_⟩
            rintro ⟨v, hv⟩
            apply hx2
            refine ⟨v, ?_⟩
            show var (setVar s1 m sc none) x.1 x.2 = _
            rw [var_setVar, if_neg hxx, var_of_vars e1]
            exact hv
          · simp only [List.mem_singleton] at hh; exact absurd hh hxx
      · show (inits (s1.log ++ [.init m sc f])).Nodup
        rw [mem_inits_init, e2, List.nodup_append]
        refine ⟨hn, by simp, ?_⟩
        intro a ha b' hb' e
        simp only [List.mem_singleton] at hb'
        subst hb'; subst e
        have := hO _ (ho (m, sc) ⟨ha, ?_⟩)
        · exact Nat.lt_irrefl _ this
        · rintro ⟨v, hv⟩
          exact hns v (by rw [var_of_vars e1]; exact hv)
    · rw [el, e2]; exact hn

theorem initModules_keeps {S : Sys} {K : St → St → Prop} (hrefl : ∀ s, K s s)
    (htrans : ∀ a b c, K a b → K b c → K a c) {n : Nat}
    (hi : ∀ m s s' b, initModule S n 0 m false s = .ok (s', b) → K s s') (v : Mode) :
    ∀ ms s s', initModules S n v ms s = .ok s' → K s s' := by
  intro ms
  induction ms with
  | nil => intro s s' h; cases h; exact hrefl s
  | cons m ms ih =>
    intro s s' h
    rw [initModules] at h
    by_cases hf : find s m = some (some v)
    · rw [if_pos hf] at h
      cases hr : initModule S n 0 m false s with
      | error e => rw [hr] at h; cases h
      | ok r =>
        obtain ⟨s1, b⟩ := r
        rw [hr] at h
        exact htrans _ _ _ (hi _ _ _ _ hr) (ih _ _ h)
    · rw [if_neg hf] at h; exact ih _ _ h

end Verif.Modules
