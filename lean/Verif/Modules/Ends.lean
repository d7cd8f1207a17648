import Verif.Modules.Stages

/-! # Build system modules: depth and failures -/

namespace Verif.Modules

abbrev InitF := Nat → Nat → Bool → St → Except Err (St × Bool)

/-- Uses that don't run out of depth. -/
theorem exec_deep {S : Sys} {init : InitF} {P : Nat → Prop}
    (hi : ∀ sc m opt s, P m → init sc m opt s ≠ .error .fuel) :
    ∀ p s, Prog.Only P p → exec S init p s ≠ .error .fuel := by
  intro p
  induction p with
  | done c => intro s _ h; cases h
  | fail => intro s _ h; cases h
  | use sc m opt k ih =>
    intro s hp h
    rw [exec] at h
    cases hr : init sc m opt s with
    | error e => rw [hr] at h; cases h; exact hi _ _ _ _ hp.1 hr
    | ok r => rw [hr] at h; exact ih r.2 _ (hp.2 _) h
  | tryLoad sc m k ih =>
    intro s hp h
    rw [exec] at h
    cases hr : tryLoadWith S init sc m s with
    | error e =>
      rw [hr] at h; cases h
      unfold tryLoadWith at hr
      split at hr
      · cases hr
      · exact hi _ _ _ _ hp.1 hr
    | ok r => rw [hr] at h; exact ih r.2 _ (hp.2 _) h
  | load sc m k ih =>
    intro s hp h
    rw [exec] at h
    cases hr : loadWith S init sc m s with
    | error e =>
      rw [hr] at h; cases h
      unfold loadWith at hr
      split at hr
      · cases hr
      · cases hr2 : init sc m false s with
        | error e => rw [hr2] at hr; cases hr; exact hi _ _ _ _ hp.1 hr2
        | ok r =>
          obtain ⟨s2, b2⟩ := r
          rw [hr2] at hr
          cases b2 <;> cases hr
    | ok r => rw [hr] at h; exact ih _ hp.2 h

theorem enter_err {S : Sys} {m : Nat} {opt : Bool} {s : St} {e : Err}
    (h : enter S m opt s = .error e) : e ≠ .fuel ∧ e ≠ .assertion := by
  unfold enter at h
  split at h
  · split at h
    · split at h <;> cases h
      exact ⟨by simp, by simp⟩
    · split at h <;> cases h
      exact ⟨by simp, by simp⟩
  · cases h
  · cases h

theorem initWith_err {S : Sys} {run : Prog → St → Except Err (St × Bool)} {sc m : Nat}
    {opt : Bool} {s : St} {e : Err} (h : initWith S run sc m opt s = .error e) :
    (e ≠ .fuel ∧ e ≠ .assertion) ∨
      ∃ f s1, run ((S.mods m).init sc f opt) s1 = .error e := by
  unfold initWith at h
  cases he : enter S m opt s with
  | error e' => rw [he] at h; cases h; exact .inl (enter_err he)
  | ok r =>
    obtain ⟨s1, f⟩ := r
    rw [he] at h
    dsimp only at h
    split at h
    · split at h
      · cases h; exact .inl ⟨by simp, by simp⟩
      · split at h
        · cases h; exact .inl ⟨by simp, by simp⟩
        · cases h
    · split at h
      · split at h
        · rename_i hr
          cases h
          exact .inr ⟨f, _, hr⟩
        · cases h
      · cases h

theorem initModule_deep {S : Sys} {r : Nat → Nat} (hA : Acyclic S r) : ∀ n sc m opt s,
    r m < n → initModule S n sc m opt s ≠ .error .fuel := by
  intro n
  induction n with
  | zero => intro sc m opt s h; cases h
  | succ n ih =>
    intro sc m opt s hm h
    rcases initWith_err h with h | ⟨f, s1, h⟩
    · exact h.1 rfl
    · exact exec_deep (P := fun m' => r m' < r m)
        (fun sc' m' opt' s' hm' => ih sc' m' opt' s' (by omega)) _ _ (hA m sc f opt) h

theorem initModules_deep {S : Sys} {n : Nat}
    (hi : ∀ m s, initModule S n 0 m false s ≠ .error .fuel) (v : Mode) :
    ∀ ms s, initModules S n v ms s ≠ .error .fuel := by
  intro ms
  induction ms with
  | nil => intro s h; cases h
  | cons m ms ih =>
    intro s h
    rw [initModules] at h
    split at h
    · cases hr : initModule S n 0 m false s with
      | error e => rw [hr] at h; cases h; exact hi _ _ hr
      | ok r => rw [hr] at h; exact ih _ h
    · exact ih _ h

theorem foldlM_err {f : St → Nat → Except Err St} {I : St → Prop} {bad : Err}
    (hok : ∀ s x s', I s → f s x = .ok s' → I s') : ∀ xs s,
    (∀ s x, x ∈ xs → I s → f s x ≠ .error bad) → I s → List.foldlM f s xs ≠ .error bad := by
  intro xs
  induction xs with
  | nil => intro s _ _ h; cases h
  | cons x xs ih =>
    intro s hbad hI h
    rw [List.foldlM_cons] at h
    cases hx : f s x with
    | error e => rw [hx] at h; cases h; exact hbad s x (by simp) hI hx
    | ok s1 =>
      rw [hx] at h
      exact ih s1 (fun s x hx => hbad s x (by simp [hx])) (hok _ _ _ hI hx) h

/-- Booting neither runs out of depth nor finds a module that is being booted. -/
theorem bootModule_fine {S : Sys} {r : Nat → Nat} (hA : BootAcyclic S r) : ∀ n m s,
    (∀ m', find s m' = some none → r m < r m') →
    (r m < n → bootModule S n m s ≠ .error .fuel) ∧ bootModule S n m s ≠ .error .assertion := by
  intro n
  induction n with
  | zero => intro m s _; exact ⟨fun h => absurd h (Nat.not_lt_zero _), (by intro h; cases h)⟩
  | succ n ih =>
    intro m s hp
    have key : ∀ bad : Err, (bad = .fuel ∧ r m < n + 1) ∨ bad = .assertion →
        bootModule S (n + 1) m s ≠ .error bad := by
      intro bad hbad h
      rw [bootModule, bootWith] at h
      cases hf : find s m with
      | some mode =>
        rw [hf] at h
        cases mode with
        | some v => simp at h
        | none => exact Nat.lt_irrefl _ (hp m hf)
      | none =>
        rw [hf] at h
        dsimp only at h
        split at h
        · cases h
        · cases hb : (S.mods m).boot with
          | none =>
            rw [hb] at h
            cases h
            rcases hbad with h | h
            · cases h.1
            · cases h
          | some x =>
            obtain ⟨ms, v⟩ := x
            rw [hb] at h
            dsimp only at h
            split at h
            · rename_i e hr
              cases h
              refine foldlM_err (f := fun s m => bootModule S n m s)
                (I := fun s' => ∀ m', find s' m' = some none → r m ≤ r m') ?_ ms _ ?_ ?_ hr
              · intro a x a' ha hx m' hm'
                exact ha m' ((bootModule_ext S n x a a' hx).pend m' hm')
              · intro a x hx ha
                have hlt := hA m ms v hb x hx
                have := ih x a (fun m' hm' => Nat.lt_of_lt_of_le hlt (ha m' hm'))
                rcases hbad with h | h
                · rw [h.1]; exact this.1 (by omega)
                · rw [h]; exact this.2
              · intro m' hm'
                rw [find_push] at hm'
                cases hfm : find s m' with
                | some x =>
                  rw [hfm] at hm'
                  exact Nat.le_of_lt (hp m' (by rw [hfm]; exact hm'))
                | none =>
                  rw [hfm] at hm'
                  dsimp only at hm'
                  split at hm'
                  · rename_i e; subst e; exact Nat.le_refl _
                  · cases hm'
            · cases h
    exact ⟨fun h => key .fuel (.inl ⟨rfl, h⟩), key .assertion (.inr rfl)⟩

theorem bootAll_fine {S : Sys} {r : Nat → Nat} (hA : BootAcyclic S r) (n : Nat) (ms : List Nat) :
    ((∀ m, r m < n) → ms.foldlM (fun s m => bootModule S n m s) ⟨[], [], []⟩ ≠ .error .fuel) ∧
    ms.foldlM (fun s m => bootModule S n m s) ⟨[], [], []⟩ ≠ .error .assertion := by
  have h0 : ∀ m', find ⟨[], [], []⟩ m' ≠ some none := fun m' h => by cases h
  have hstep : ∀ s x s', (∀ m', find s m' ≠ some none) → bootModule S n x s = .ok s' →
      ∀ m', find s' m' ≠ some none :=
    fun s x s' h hx m' hm' => h m' ((bootModule_ext S n x s s' hx).pend m' hm')
  constructor
  · intro hr
    exact foldlM_err (I := fun s => ∀ m', find s m' ≠ some none) hstep ms _
      (fun s x _ hI => (bootModule_fine hA n x s (fun m' hm' => absurd hm' (hI m'))).1 (hr x)) h0
  · exact foldlM_err (I := fun s => ∀ m', find s m' ≠ some none) hstep ms _
      (fun s x _ hI => (bootModule_fine hA n x s (fun m' hm' => absurd hm' (hI m'))).2) h0

/-- A program that configures the module if it doesn't fail does so. -/
theorem exec_configures {S : Sys} {init : InitF} : ∀ p s s' b, Prog.Configures p →
    exec S init p s = .ok (s', b) → b = true := by
  intro p
  induction p with
  | done c => intro s s' b hp h; cases h; exact hp
  | fail => intro s s' b hp h; cases h
  | use sc m opt k ih =>
    intro s s' b hp h
    rw [exec] at h
    split at h
    · cases h
    · exact ih _ _ _ _ (hp _) h
  | tryLoad sc m k ih =>
    intro s s' b hp h
    rw [exec] at h
    split at h
    · cases h
    · exact ih _ _ _ _ (hp _) h
  | load sc m k ih =>
    intro s s' b hp h
    rw [exec] at h
    split at h
    · cases h
    · exact ih _ _ _ hp h

theorem initModule_required {S : Sys} (hS : Strict S) : ∀ n sc m s s' b,
    initModule S n sc m false s = .ok (s', b) → b = true := by
  intro n sc m s s' b h
  cases n with
  | zero => cases h
  | succ n =>
    obtain ⟨s1, f, _, hc⟩ := initWith_cases h
    rcases hc with ⟨l, c, _, _, hb, ho⟩ | ⟨_, _, s2, hrun, _⟩ | ⟨_, _, _, _, _, ho, _⟩
    · rcases ho with ho | ⟨rfl, rfl⟩
      · cases ho
      · exact hb
    · exact exec_configures _ _ _ _ (hS m sc f) hrun
    · cases ho

theorem exec_noassert {S : Sys} {init : InitF}
    (hi : ∀ sc m opt s, init sc m opt s ≠ .error .assertion)
    (hr : ∀ sc m s s' b, init sc m false s = .ok (s', b) → b = true) :
    ∀ p s, exec S init p s ≠ .error .assertion := by
  intro p
  induction p with
  | done c => intro s h; cases h
  | fail => intro s h; cases h
  | use sc m opt k ih =>
    intro s h
    rw [exec] at h
    cases hx : init sc m opt s with
    | error e => rw [hx] at h; cases h; exact hi _ _ _ _ hx
    | ok r => rw [hx] at h; exact ih r.2 _ h
  | tryLoad sc m k ih =>
    intro s h
    rw [exec] at h
    cases hx : tryLoadWith S init sc m s with
    | error e =>
      rw [hx] at h; cases h
      unfold tryLoadWith at hx
      split at hx
      · cases hx
      · exact hi _ _ _ _ hx
    | ok r => rw [hx] at h; exact ih r.2 _ h
  | load sc m k ih =>
    intro s h
    rw [exec] at h
    cases hx : loadWith S init sc m s with
    | error e =>
      rw [hx] at h; cases h
      unfold loadWith at hx
      split at hx
      · cases hx
      · cases hx2 : init sc m false s with
        | error e => rw [hx2] at hx; cases hx; exact hi _ _ _ _ hx2
        | ok r =>
          obtain ⟨s2, b2⟩ := r
          have := hr _ _ _ _ _ hx2
          subst this
          rw [hx2] at hx
          cases hx
    | ok r => rw [hx] at h; exact ih _ h

theorem initModule_noassert {S : Sys} (hS : Strict S) : ∀ n sc m opt s,
    initModule S n sc m opt s ≠ .error .assertion := by
  intro n
  induction n with
  | zero => intro sc m opt s h; cases h
  | succ n ih =>
    intro sc m opt s h
    rcases initWith_err h with h | ⟨f, s1, h⟩
    · exact h.2 rfl
    · exact exec_noassert ih (initModule_required hS n) _ _ h

theorem initModules_noassert {S : Sys} (hS : Strict S) (n : Nat) (v : Mode) :
    ∀ ms s, initModules S n v ms s ≠ .error .assertion := by
  intro ms
  induction ms with
  | nil => intro s h; cases h
  | cons m ms ih =>
    intro s h
    rw [initModules] at h
    split at h
    · cases hr : initModule S n 0 m false s with
      | error e => rw [hr] at h; cases h; exact initModule_noassert hS _ _ _ _ _ hr
      | ok r => rw [hr] at h; exact ih _ h
    · exact ih _ h

/-- The failures of a project are those of its stages. -/
theorem project_err {S : Sys} {n : Nat} {ms : List Nat} {rb rest : Prog} {e : Err}
    (h0 : ms.foldlM (fun s m => bootModule S n m s) ⟨[], [], []⟩ ≠ .error e)
    (h1 : ∀ v ms s, initModules S n v ms s ≠ .error e)
    (h2 : ∀ s, exec S (initModule S n) rb s ≠ .error e)
    (h3 : ∀ s, exec S (initModule S n) rest s ≠ .error e) :
    project S n ms rb rest ≠ .error e := by
  intro h
  unfold project at h
  split at h
  · rename_i hh; cases h; exact h0 hh
  · split at h
    · rename_i hh
      cases h
      unfold loadRoot at hh
      dsimp only at hh
      split at hh
      · rename_i hx; cases hh; exact h1 _ _ _ hx
      · split at hh
        · rename_i hx; cases hh; exact h1 _ _ _ hx
        · split at hh
          · rename_i hx; cases hh; exact h1 _ _ _ hx
          · split at hh
            · rename_i hx; cases hh; exact h2 _ hx
            · exact h1 _ _ _ hh
    · split at h
      · rename_i hh; cases h; exact h3 _ hh
      · cases h

/-! ## The depth does not matter -/

/-- What one says, if it is not that it ran out of depth, the other says too. -/
def Refines (f g : InitF) : Prop :=
  ∀ sc m opt s, f sc m opt s ≠ .error .fuel → g sc m opt s = f sc m opt s

theorem tryLoad_refines {S : Sys} {f g : InitF} (h : Refines f g) {sc m : Nat} {s : St}
    (hn : tryLoadWith S f sc m s ≠ .error .fuel) : tryLoadWith S g sc m s = tryLoadWith S f sc m s := by
  unfold tryLoadWith at hn ⊢
  split
  · rfl
  · rename_i hx
    apply h
    intro e
    split at hn
    · rename_i hy; exact hx _ hy
    · exact hn e

theorem load_refines {S : Sys} {f g : InitF} (h : Refines f g) {sc m : Nat} {s : St}
    (hn : loadWith S f sc m s ≠ .error .fuel) : loadWith S g sc m s = loadWith S f sc m s := by
  unfold loadWith at hn ⊢
  split
  · rfl
  · rename_i hx
    have : g sc m false s = f sc m false s := by
      apply h
      intro e
      split at hn
      · rename_i hy; exact hx _ hy
      · rw [e] at hn; exact hn rfl
    rw [this]

theorem exec_refines {S : Sys} {f g : InitF} (h : Refines f g) : ∀ p s,
    exec S f p s ≠ .error .fuel → exec S g p s = exec S f p s := by
  intro p
  induction p with
  | done c => intro s _; rfl
  | fail => intro s _; rfl
  | use sc m opt k ih =>
    intro s hn
    rw [exec] at hn
    rw [exec, exec]
    have : g sc m opt s = f sc m opt s := by
      apply h
      intro e
      rw [e] at hn
      exact hn rfl
    rw [this]
    cases hr : f sc m opt s with
    | error e => rfl
    | ok r =>
      rw [hr] at hn
      exact ih r.2 _ hn
  | tryLoad sc m k ih =>
    intro s hn
    rw [exec] at hn
    rw [exec, exec]
    have : tryLoadWith S g sc m s = tryLoadWith S f sc m s := by
      apply tryLoad_refines h
      intro e
      rw [e] at hn
      exact hn rfl
    rw [this]
    cases hr : tryLoadWith S f sc m s with
    | error e => rfl
    | ok r =>
      rw [hr] at hn
      exact ih r.2 _ hn
  | load sc m k ih =>
    intro s hn
    rw [exec] at hn
    rw [exec, exec]
    have : loadWith S g sc m s = loadWith S f sc m s := by
      apply load_refines h
      intro e
      rw [e] at hn
      exact hn rfl
    rw [this]
    cases hr : loadWith S f sc m s with
    | error e => rfl
    | ok r =>
      rw [hr] at hn
      exact ih _ hn

theorem initModule_refines (S : Sys) : ∀ n, Refines (initModule S n) (initModule S (n + 1)) := by
  intro n
  induction n with
  | zero => intro sc m opt s h; exact absurd rfl h
  | succ n ih =>
    intro sc m opt s h
    show initWith S (exec S (initModule S (n + 1))) sc m opt s =
      initWith S (exec S (initModule S n)) sc m opt s
    have h : initWith S (exec S (initModule S n)) sc m opt s ≠ .error .fuel := h
    rw [initWith] at h
    rw [initWith, initWith]
    cases he : enter S m opt s with
    | error e => rfl
    | ok r =>
      rw [he] at h
      dsimp only at h ⊢
      split
      · rfl
      · rename_i hx
        split
        · rename_i hs
          rw [if_pos hs] at h
          have : ∀ q, exec S (initModule S n) ((S.mods m).init sc r.2 opt) q ≠ .error .fuel →
              exec S (initModule S (n + 1)) ((S.mods m).init sc r.2 opt) q =
              exec S (initModule S n) ((S.mods m).init sc r.2 opt) q :=
            fun q hq => exec_refines ih _ q hq
          rw [this]
          intro e
          rw [e] at h
          split at h
          · rename_i hy; exact hx _ _ hy
          · exact h rfl
        · rfl

theorem initModule_le (S : Sys) {n n' : Nat} (h : n ≤ n') :
    Refines (initModule S n) (initModule S n') := by
  induction h with
  | refl => intro _ _ _ _ _; rfl
  | step _ ih =>
    intro sc m opt s hn
    rw [initModule_refines S _ sc m opt s (by rw [ih sc m opt s hn]; exact hn), ih sc m opt s hn]

end Verif.Modules
