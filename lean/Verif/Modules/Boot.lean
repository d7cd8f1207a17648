import Verif.Modules.Lemmas

/-! # Build system modules: bootstrap -/

namespace Verif.Modules

/-- What holds while modules are booted. -/
structure B (S : Sys) (s : St) : Prop where
  vars : s.vars = []
  log : s.log = (s.loaded.map Prod.fst).map Ev.boot
  nodup : (s.loaded.map Prod.fst).Nodup
  found : ∀ m, find s m ≠ none → (S.mods m).found = true
  mode : ∀ m v, find s m = some (some v) → (S.mods m).mode = some v

/-- What booting leaves alone. -/
structure BExt (S : Sys) (s s' : St) : Prop where
  inv : B S s → B S s'
  keep : ∀ m v, find s m = some v → find s' m = some v
  pend : ∀ m, find s' m = some none → find s m = some none

theorem BExt.refl (S : Sys) (s : St) : BExt S s s := ⟨id, fun _ _ h => h, fun _ h => h⟩

theorem BExt.trans {S : Sys} {a b c : St} (h : BExt S a b) (h' : BExt S b c) : BExt S a c :=
  ⟨fun x => h'.inv (h.inv x), fun m v x => h'.keep m v (h.keep m v x),
   fun m x => h.pend m (h'.pend m x)⟩

theorem find_none_iff (s : St) (m : Nat) : find s m = none ↔ m ∉ s.loaded.map Prod.fst := by
  unfold find
  simp only [Option.map_eq_none_iff, List.find?_eq_none, beq_iff_eq, List.mem_map, not_exists,
    not_and]

theorem setMode_names (s : St) (m : Nat) (v : Option Mode) :
    (setMode s m v).loaded.map Prod.fst = s.loaded.map Prod.fst := by
  unfold setMode
  rw [List.map_map]
  apply List.map_congr_left
  intro x _
  simp only [Function.comp]
  split <;> rfl

theorem foldlM_ok {α : Type} {f : St → α → Except Err St} {R : St → St → Prop}
    (hrefl : ∀ s, R s s) (htrans : ∀ a b c, R a b → R b c → R a c)
    (h : ∀ s x s', f s x = .ok s' → R s s') : ∀ xs s s', List.foldlM f s xs = .ok s' → R s s' := by
  intro xs
  induction xs with
  | nil => intro s s' e; cases e; exact hrefl s
  | cons x xs ih =>
    intro s s' e
    rw [List.foldlM_cons] at e
    cases hx : f s x with
    | error e' => rw [hx] at e; cases e
    | ok s1 => rw [hx] at e; exact htrans _ _ _ (h _ _ _ hx) (ih _ _ e)

theorem bootWith_ext {S : Sys} {call : Nat → St → Except Err St}
    (hc : ∀ m s s', call m s = .ok s' → BExt S s s') {m : Nat} {s s' : St}
    (h : bootWith S call m s = .ok s') : BExt S s s' := by
  unfold bootWith at h
  cases hf : find s m with
  | some mode =>
    rw [hf] at h
    cases mode with
    | none => simp at h
    | some v => simp at h; subst h; exact .refl S s
  | none =>
    rw [hf] at h
    dsimp only at h
    cases hfo : (S.mods m).found with
    | false => rw [hfo] at h; simp at h; subst h; exact .refl S s
    | true =>
      rw [hfo] at h
      cases hb : (S.mods m).boot with
      | none => rw [hb] at h; simp at h
      | some x =>
        obtain ⟨ms, v⟩ := x
        rw [hb] at h
        simp only [Bool.not_true, Bool.false_eq_true, if_false] at h
        generalize hs0 : (St.mk (s.loaded ++ [(m, none)]) s.vars (s.log ++ [.boot m])) = s0 at h
        have hp : ∀ m', find s0 m' = match find s m' with
            | some x => some x
            | none => if m' = m then some none else none := by
          intro m'; rw [← hs0]; exact find_push s m m' none _
        cases hr : List.foldlM (fun s m => call m s) s0 ms with
        | error e => rw [hr] at h; cases h
        | ok s1 =>
          rw [hr] at h
          simp only [Except.ok.injEq] at h
          subst h
          have hx : BExt S s0 s1 := foldlM_ok (R := BExt S) (BExt.refl S)
            (fun _ _ _ h h' => h.trans h') (fun s m s' h => hc m s s' h) ms s0 s1 hr
          have hm1 : find s1 m = some none := hx.keep m none (by rw [hp, hf]; simp)
          refine ⟨?_, ?_, ?_⟩
          · intro hB
            have hB0 : B S s0 := by
              refine ⟨?_, ?_, ?_, ?_, ?_⟩
              · rw [← hs0]; exact hB.vars
              · rw [← hs0]
                show s.log ++ [.boot m] = _
                rw [hB.log]; simp
              · rw [← hs0]
                show ((s.loaded ++ [(m, none)]).map Prod.fst).Nodup
                rw [List.map_append, List.nodup_append]
                refine ⟨hB.nodup, by simp, ?_⟩
                intro a ha b hb e
                simp only [List.map_cons, List.map_nil, List.mem_singleton] at hb
                subst hb; subst e
                exact (find_none_iff s a).1 hf ha
              · intro m' hm'
                rw [hp] at hm'
                by_cases hmm : m' = m
                · subst hmm; exact hfo
                · refine hB.found m' ?_
                  intro hn
                  rw [hn] at hm'
                  simp [hmm] at hm'
              · intro m' v' hm'
                rw [hp] at hm'
                cases hfm : find s m' with
                | some x =>
                  rw [hfm] at hm'
                  exact hB.mode m' v' (by rw [hfm]; exact hm')
                | none =>
                  rw [hfm] at hm'
                  dsimp only at hm'
                  split at hm' <;> cases hm'
            have hB1 := hx.inv hB0
            refine ⟨hB1.vars, ?_, ?_, ?_, ?_⟩
            · rw [setMode_names]; exact hB1.log
            · rw [setMode_names]; exact hB1.nodup
            · intro m' hm'
              rw [find_setMode] at hm'
              by_cases hmm : m' = m
              · subst hmm; exact hfo
              · rw [if_neg hmm] at hm'; exact hB1.found m' hm'
            · intro m' v' hm'
              rw [find_setMode] at hm'
              by_cases hmm : m' = m
              · subst hmm
                rw [if_pos rfl, hm1] at hm'
                simp only [Option.map_some, Option.some.injEq] at hm'
                unfold Mod.mode
                rw [hb, ← hm']; rfl
              · rw [if_neg hmm] at hm'; exact hB1.mode m' v' hm'
          · intro m' v' hv'
            have hmm : m' ≠ m := by rintro rfl; rw [hf] at hv'; cases hv'
            rw [find_setMode, if_neg hmm]
            exact hx.keep m' v' (by rw [hp, hv'])
          · intro m' hv'
            rw [find_setMode] at hv'
            by_cases hmm : m' = m
            · subst hmm; rw [if_pos rfl, hm1] at hv'; cases hv'
            · rw [if_neg hmm] at hv'
              have := hx.pend m' hv'
              rw [hp] at this
              cases hfm : find s m' with
              | some x => rw [hfm] at this; exact this
              | none => rw [hfm] at this; simp [hmm] at this

theorem bootModule_ext (S : Sys) : ∀ n m s s', bootModule S n m s = .ok s' → BExt S s s' := by
  intro n
  induction n with
  | zero => intro m s s' h; cases h
  | succ n ih => intro m s s' h; exact bootWith_ext ih h

/-- The state after the bootstrap file. -/
theorem booted {S : Sys} {n : Nat} {ms : List Nat} {s : St}
    (h : ms.foldlM (fun s m => bootModule S n m s) ⟨[], [], []⟩ = .ok s) :
    B S s ∧ J S s ∧ ∀ m, find s m ≠ some none := by
  have hx : BExt S ⟨[], [], []⟩ s := foldlM_ok (R := BExt S) (BExt.refl S)
    (fun _ _ _ h h' => h.trans h') (fun s m s' h => bootModule_ext S n m s s' h) _ _ _ h
  have hB0 : B S ⟨[], [], []⟩ :=
    ⟨rfl, rfl, .nil, fun m h => absurd rfl h, fun m v h => by cases h⟩
  have hB := hx.inv hB0
  have hp : ∀ m, find s m ≠ some none := fun m hm => by cases hx.pend m hm
  refine ⟨hB, ⟨?_, hB.found, ?_, ?_⟩, hp⟩
  · intro m
    constructor
    · intro hm; exact absurd hm (hp m)
    · rintro ⟨sc, f, hm⟩
      rw [hB.log] at hm
      simp at hm
  · intro m sc l c hv
    unfold var at hv
    rw [hB.vars] at hv
    cases hv
  · intro pre m sc f post e
    exfalso
    have : Ev.init m sc f ∈ s.log := by rw [e]; simp
    rw [hB.log] at this
    simp at this

theorem boots_map_boot (l : List Nat) : boots (l.map Ev.boot) = l := by
  induction l with
  | nil => rfl
  | cons a l ih =>
    show a :: boots (l.map Ev.boot) = _
    rw [ih]

end Verif.Modules
