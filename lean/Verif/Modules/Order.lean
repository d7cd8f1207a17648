import Verif.Modules.Ends

/-! # Build system modules: the order of initialization -/

namespace Verif.Modules

theorem bootInits_append (S : Sys) (a b : List Ev) :
    bootInits S (a ++ b) = bootInits S a ++ bootInits S b := by
  simp [bootInits, inits_append]

/-- Modules that have a boot function are left alone. -/
def Alone (S : Sys) (s s' : St) : Prop :=
  bootInits S s'.log = bootInits S s.log ∧
  ∀ m, (S.mods m).boot.isSome = true → find s' m = find s m

theorem Alone.refl (S : Sys) (s : St) : Alone S s s := ⟨rfl, fun _ _ => rfl⟩

theorem Alone.trans {S : Sys} (a b c : St) (h : Alone S a b) (h' : Alone S b c) : Alone S a c :=
  ⟨h'.1.trans h.1, fun m hm => (h'.2 m hm).trans (h.2 m hm)⟩

theorem initModule_alone {S : Sys} (hN : NoUse S) : ∀ n sc m opt s s' b,
    (S.mods m).boot = none → initModule S n sc m opt s = .ok (s', b) → Alone S s s' := by
  intro n
  induction n with
  | zero => intro sc m opt s s' b _ h; cases h
  | succ n ih =>
    intro sc m opt s s' b hm h
    obtain ⟨s1, f, he, hc⟩ := initWith_cases h
    obtain ⟨e1, e2, e3, e4, e5⟩ := enter_frame he
    have h1 : Alone S s s1 := by
      refine ⟨by rw [e2], fun m' hm' => e3 m' ?_⟩
      rintro rfl; rw [hm] at hm'; cases hm'
    rcases hc with ⟨l, c, _, rfl, _⟩ | ⟨hns, hs, s2, hrun, rfl⟩ | ⟨_, _, _, el, el2, _⟩
    · exact h1
    · have h2 : Alone S (started s1 m sc f) s2 :=
        exec_keeps (K := Alone S) (P := fun m' => (S.mods m').boot = none) (Alone.refl S)
          Alone.trans (fun sc' m' opt' a a' b' hm' hh => ih sc' m' opt' a a' b' hm' hh) _ _ _ _
          (hN m sc f opt) hrun
      refine h1.trans _ _ _ ⟨?_, fun m' hm' => h2.2 m' hm'⟩
      show bootInits S s2.log = _
      rw [h2.1]
      show bootInits S (s1.log ++ [.init m sc f]) = _
      rw [bootInits_append]
      simp [bootInits, inits, hm]
    · refine h1.trans _ _ _ ⟨by rw [el], fun m' _ => ?_⟩
      unfold find; rw [el2]

theorem exec_alone {S : Sys} (hN : NoUse S) {n : Nat} {p : Prog} {s s' : St} {b : Bool}
    (hp : p.Only (fun m' => (S.mods m').boot = none))
    (h : exec S (initModule S n) p s = .ok (s', b)) : Alone S s s' :=
  exec_keeps (K := Alone S) (P := fun m' => (S.mods m').boot = none) (Alone.refl S)
    Alone.trans (fun sc' m' opt' a a' b' hm' hh => initModule_alone hN n sc' m' opt' a a' b' hm' hh)
    _ _ _ _ hp h

/-- The initialization of a module that has been booted. -/
theorem initModule_booted {S : Sys} (hN : NoUse S) {n m : Nat} {v : Mode} {s s' : St} {b : Bool}
    (hJ : J S s) (hm : (S.mods m).boot.isSome = true) (hf : find s m = some (some v))
    (h : initModule S n 0 m false s = .ok (s', b)) :
    bootInits S s'.log = bootInits S s.log ++ [(m, 0)] ∧ find s' m = some none ∧
    ∀ m', (S.mods m').boot.isSome = true → m' ≠ m → find s' m' = find s m' := by
  cases n with
  | zero => cases h
  | succ n =>
    obtain ⟨s1, f, he, hc⟩ := initWith_cases h
    obtain ⟨e1, e2, e3, e4, e5⟩ := enter_frame he
    have hm1 : find s1 m = some none := e4 (.inr (by rw [hf]; simp))
    rcases hc with ⟨l, c, hv, rfl, _⟩ | ⟨hns, hs, s2, hrun, rfl⟩ | ⟨_, hn, _⟩
    · exfalso
      rw [var_of_vars e1] at hv
      obtain ⟨a, b'⟩ := hJ.vars m 0 l c hv
      cases l with
      | true => rw [a rfl] at hf; cases hf
      | false =>
        have := hJ.found m (by rw [hf]; simp)
        rw [this] at b'
        cases (b' rfl).2
    · have h2 : Alone S (started s1 m 0 f) s2 := exec_alone hN (hN m 0 f false) hrun
      refine ⟨?_, ?_, ?_⟩
      · show bootInits S s2.log = _
        rw [h2.1]
        show bootInits S (s1.log ++ [.init m 0 f]) = _
        rw [bootInits_append, e2]
        simp [bootInits, inits, hm]
      · show find s2 m = _
        rw [h2.2 m hm]
        exact hm1
      · intro m' hm' hne
        show find s2 m' = _
        rw [h2.2 m' hm']
        exact e3 m' hne
    · rw [hm1] at hn; cases hn

theorem initModules_order {S : Sys} (hN : NoUse S) {n : Nat} (v : Mode) : ∀ ms s s',
    J S s → ms.Nodup → (∀ m ∈ ms, (S.mods m).boot.isSome = true) →
    initModules S n v ms s = .ok s' →
    bootInits S s'.log = bootInits S s.log ++
      (ms.filter (fun m => find s m == some (some v))).map (fun m => (m, 0)) ∧
    ∀ m', (S.mods m').boot.isSome = true →
      find s' m' = if m' ∈ ms ∧ find s m' = some (some v) then some none else find s m' := by
  intro ms
  induction ms with
  | nil => intro s s' _ _ _ h; cases h; simp
  | cons m ms ih =>
    intro s s' hJ hnd hb h
    rw [initModules] at h
    rw [List.nodup_cons] at hnd
    have hbm := hb m (by simp)
    have hb' : ∀ m ∈ ms, (S.mods m).boot.isSome = true := fun x hx => hb x (by simp [hx])
    by_cases hf : find s m = some (some v)
    · rw [if_pos hf] at h
      cases hr : initModule S n 0 m false s with
      | error e => rw [hr] at h; cases h
      | ok r =>
        obtain ⟨s1, b⟩ := r
        rw [hr] at h
        have hJ1 := (initModule_ext S n 0 m false s s1 b hr).1.inv hJ
        obtain ⟨k1, k2, k3⟩ := initModule_booted hN hJ hbm hf hr
        obtain ⟨i1, i2⟩ := ih s1 s' hJ1 hnd.2 hb' h
        have hsame : ms.filter (fun m => find s1 m == some (some v)) =
            ms.filter (fun m => find s m == some (some v)) := by
          apply List.filter_congr
          intro x hx
          rw [k3 x (hb' x hx) (by rintro rfl; exact hnd.1 hx)]
        refine ⟨?_, ?_⟩
        · rw [i1, k1, hsame, List.filter_cons_of_pos (by simp [hf])]
          simp
        · intro m' hm'
          rw [i2 m' hm']
          by_cases hmm : m' = m
          · subst hmm
            rw [k2]
            simp [hf]
          · rw [k3 m' hm' hmm]
            simp [hmm]
    · rw [if_neg hf] at h
      obtain ⟨i1, i2⟩ := ih s s' hJ hnd.2 hb' h
      refine ⟨?_, ?_⟩
      · rw [i1, List.filter_cons_of_neg (by simp [hf])]
      · intro m' hm'
        rw [i2 m' hm']
        by_cases hmm : m' = m
        · subst hmm; simp [hf]
        · simp [hmm]

/-- Modules that are entered anew don't have a boot function. -/
def Fresh (S : Sys) (s s' : St) : Prop :=
  ∀ m, find s' m ≠ none → find s m ≠ none ∨ (S.mods m).boot = none

theorem Fresh.refl (S : Sys) (s : St) : Fresh S s s := fun _ h => .inl h

theorem Fresh.trans {S : Sys} (a b c : St) (h : Fresh S a b) (h' : Fresh S b c) : Fresh S a c := by
  intro m hm
  rcases h' m hm with hm | hm
  · exact h m hm
  · exact .inr hm

theorem initModule_fresh {S : Sys} : ∀ n sc m opt s s' b,
    initModule S n sc m opt s = .ok (s', b) → Fresh S s s' := by
  intro n
  induction n with
  | zero => intro sc m opt s s' b h; cases h
  | succ n ih =>
    intro sc m opt s s' b h
    obtain ⟨s1, f, he, hc⟩ := initWith_cases h
    obtain ⟨e1, e2, e3, e4, e5⟩ := enter_frame he
    have h1 : Fresh S s s1 := by
      intro m' hm'
      by_cases hmm : m' = m
      · subst hmm
        rcases enter_cases he with ⟨_, _, hb, _⟩ | ⟨_, _, _, _, rfl⟩ | ⟨hf, _⟩ | ⟨w, hf, _⟩
        · exact .inr hb
        · exact .inl hm'
        · left; rw [hf]; simp
        · left; rw [hf]; simp
      · left; rw [← e3 m' hmm]; exact hm'
    rcases hc with ⟨l, c, _, rfl, _⟩ | ⟨hns, hs, s2, hrun, rfl⟩ | ⟨_, _, _, el, el2, _⟩
    · exact h1
    · have h2 : Fresh S (started s1 m sc f) s2 :=
        exec_keeps (K := Fresh S) (P := fun _ => True) (Fresh.refl S) Fresh.trans
          (fun sc' m' opt' a a' b' _ hh => ih sc' m' opt' a a' b' hh) _ _ _ _
          (Prog.only_all (fun _ => trivial) _) hrun
      exact h1.trans _ _ _ h2
    · refine h1.trans _ _ _ ?_
      intro m' hm'
      left
      unfold find at hm' ⊢
      rw [el2] at hm'; exact hm'

theorem exec_fresh {S : Sys} {n : Nat} {p : Prog} {s s' : St} {b : Bool}
    (h : exec S (initModule S n) p s = .ok (s', b)) : Fresh S s s' :=
  exec_keeps (K := Fresh S) (P := fun _ => True) (Fresh.refl S) Fresh.trans
    (fun sc' m' opt' a a' b' _ hh => initModule_fresh n sc' m' opt' a a' b' hh) _ _ _ _
    (Prog.only_all (fun _ => trivial) _) h

theorem initModules_fresh {S : Sys} {n : Nat} {v : Mode} {ms : List Nat} {s s' : St}
    (h : initModules S n v ms s = .ok s') : Fresh S s s' :=
  initModules_keeps (Fresh.refl S) Fresh.trans
    (fun m s s' b hh => initModule_fresh n 0 m false s s' b hh) v ms s s' h

/-- If the variables of a module that is found are assigned for a scope, then it has been
initialized for it. -/
def V (S : Sys) (s : St) : Prop :=
  ∀ m sc, (S.mods m).found = true → var s m sc ≠ none → (m, sc) ∈ inits s.log

theorem initModule_V {S : Sys} : ∀ n sc m opt s s' b,
    initModule S n sc m opt s = .ok (s', b) → V S s → V S s' := by
  intro n
  induction n with
  | zero => intro sc m opt s s' b h; cases h
  | succ n ih =>
    intro sc m opt s s' b h hV
    obtain ⟨s1, f, he, hc⟩ := initWith_cases h
    obtain ⟨e1, e2, e3, e4, e5⟩ := enter_frame he
    have h1 : V S s1 := by
      intro m' sc' hf hv
      rw [var_of_vars e1] at hv
      rw [e2]; exact hV m' sc' hf hv
    rcases hc with ⟨l, c, _, rfl, _⟩ | ⟨hns, hs, s2, hrun, rfl⟩ | ⟨_, hn, _, el, el2, _, hx⟩
    · exact h1
    · have h0 : V S (started s1 m sc f) := by
        intro m' sc' hf hv
        show (m', sc') ∈ inits (s1.log ++ [.init m sc f])
        rw [mem_inits_init]
        have hv : var (setVar s1 m sc none) m' sc' ≠ none := hv
        rw [var_setVar] at hv
        split at hv
        · rename_i e; rw [e]; simp
        · exact List.mem_append_left _ (h1 m' sc' hf hv)
      have h2 : V S s2 :=
        exec_keeps (K := fun a b => V S a → V S b) (P := fun _ => True) (fun _ h => h)
          (fun _ _ _ h h' x => h' (h x))
          (fun sc' m' opt' a a' b' _ hh => ih sc' m' opt' a a' b' hh) _ _ _ _
          (Prog.only_all (fun _ => trivial) _) hrun h0
      have hl := (execN_ext S n _ _ _ _ hrun).log
      obtain ⟨l, el, _⟩ := hl
      intro m' sc' hf hv
      show (m', sc') ∈ inits s2.log
      rw [var_setVar] at hv
      split at hv
      · rename_i e
        rw [e, el, inits_append]
        apply List.mem_append_left
        show (m, sc) ∈ inits (s1.log ++ [.init m sc f])
        rw [mem_inits_init]; simp
      · exact h2 m' sc' hf hv
    · intro m' sc' hf hv
      rw [el]
      by_cases hxx : (m', sc') = (m, sc)
      · simp only [Prod.mk.injEq] at hxx
        rw [hxx.1] at hf
        rw [e4 (.inl hf)] at hn; cases hn
      · have := hx (m', sc') hxx
        dsimp only at this
        rw [this] at hv
        exact h1 m' sc' hf hv

theorem exec_V {S : Sys} {n : Nat} {p : Prog} {s s' : St} {b : Bool}
    (h : exec S (initModule S n) p s = .ok (s', b)) : V S s → V S s' :=
  exec_keeps (K := fun a b => V S a → V S b) (P := fun _ => True) (fun _ h => h)
    (fun _ _ _ h h' x => h' (h x))
    (fun sc' m' opt' a a' b' _ hh => initModule_V n sc' m' opt' a a' b' hh) _ _ _ _
    (Prog.only_all (fun _ => trivial) _) h

theorem initModules_V {S : Sys} {n : Nat} {v : Mode} {ms : List Nat} {s s' : St}
    (h : initModules S n v ms s = .ok s') : V S s → V S s' :=
  initModules_keeps (K := fun a b => V S a → V S b) (fun _ h => h) (fun _ _ _ h h' x => h' (h x))
    (fun m s s' b hh => initModule_V n 0 m false s s' b hh) v ms s s' h

end Verif.Modules
