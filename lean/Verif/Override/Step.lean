import Verif.Override.Lemmas

/-!
# Command line overrides: the third pass
-/

namespace Verif.Override

open Verif.Lookup (Val)

variable {α : Type}

/-- How the variables of the third pass relate to the specification; `strict` if
their location is to be related as well. -/
structure Rel (strict : Bool) (a : Acc α) (st : St α) : Prop where
  val   : st.cv = a.val.join
  dfn   : a.val.isSome = a.loc.isSome
  vars  : st.vars.isSome = a.loc.isSome
  proj  : a.loc.isSome = true → st.proj = a.proj
  loc   : strict = true → st.vars = a.loc ∧ ∀ l, a.loc = some l → st.depth = l.pos + 1

/-- One iteration of the loop over the overrides (scope.cxx:580-635). -/
def stepM (sub : Nat → Nat → Bool) (i : Nat) (s : Sc α) (d : Nat) (st : St α) (e : Ov × Nat) :
    Option (St α) := do
  let ok ← (match st.vars with
    | some vars => applies sub e.1 i s vars st.proj
    | none => some true)
  if ok then some (addOne i s d st e.1 e.2) else some st

theorem addIn_false (sub : Nat → Nat → Bool) (i : Nat) (s : Sc α) (d : Nat) (sovr : Option Nat) :
    ∀ (l : List (Ov × Nat)) (st : St α),
      addIn sub i s d sovr false st l = l.foldlM (stepM sub i s d) st
  | [], _ => rfl
  | (o, j) :: l, st => by
    rw [addIn.eq_def]
    simp only [Bool.false_eq_true, if_false, List.foldlM_cons]
    unfold stepM
    cases st.vars with
    | none =>
      simp only [Option.bind_eq_bind, Option.bind_some, if_true]
      exact addIn_false sub i s d sovr l _
    | some vars =>
      simp only [Option.bind_eq_bind]
      cases applies sub o i s vars st.proj with
      | none => rfl
      | some b =>
        simp only [Option.bind_some]
        cases b with
        | true =>
          simp only [if_true, Option.bind_some]
          exact addIn_false sub i s d sovr l _
        | false =>
          simp only [Bool.false_eq_true, if_false, Option.bind_some]
          exact addIn_false sub i s d sovr l _

theorem addIn_skip (sub : Nat → Nat → Bool) (i : Nat) (s : Sc α) (d : Nat) (j0 : Nat) (st : St α) :
    ∀ (l : List Ov) (k : Nat), k ≤ j0 →
      addIn sub i s d (some j0) true st (l.zipIdx k) =
        addIn sub i s d (some j0) false st
          ((l.zipIdx k).filter (fun e => !decide (e.2 ≤ j0)))
  | [], _, _ => rfl
  | o :: l, k, hk => by
    rw [List.zipIdx_cons, addIn.eq_def]
    simp only [if_true]
    rw [List.filter_cons]
    have : (!decide (k ≤ j0)) = false := by simp [hk]
    simp only [this, Bool.false_eq_true, if_false]
    by_cases hj : j0 = k
    · subst hj
      have hf : (l.zipIdx (j0 + 1)).filter (fun e => !decide (e.2 ≤ j0)) = l.zipIdx (j0 + 1) := by
        rw [List.filter_eq_self]
        rintro ⟨o, j⟩ h
        have := List.le_snd_of_mem_zipIdx h
        simp only [Bool.not_eq_eq_eq_not, Bool.not_true, decide_eq_false_iff_not]
        simp only at this
        omega
      rw [hf]
      simp
    · have : (some j0 == some k) = false := by simp [hj]
      simp only [this, Bool.false_eq_true, if_false]
      exact addIn_skip sub i s d j0 st l (k + 1) (by omega)

/-- That no null pointer is dereferenced from scope `i` on. -/
def Safe (chain : List (Sc α)) (ovs : List Ov) (i : Nat) (a : Acc α) : Prop :=
  (∀ o ∈ ovs, o.vis ≠ .project) ∨
  (a.loc.isSome = true → a.proj ≠ none ∨ ∀ k, i ≤ k → projAt chain k = none)

theorem add_join (k : OKind) (hk : (k == .replace) = false) (x : Option (Val α)) (v : Val α) :
    (match v with | some ns => addTo k x.join ns | none => x.join) = (extend k x v).join := by
  cases k with
  | replace => exact absurd hk (by decide)
  | «prefix» =>
    cases v with
    | none => rfl
    | some l => cases h : x.join <;> simp [addTo, extend, h]
  | suffix =>
    cases v with
    | none => rfl
    | some l => cases h : x.join <;> simp [addTo, extend, h]

theorem extend_isSome (k : OKind) (x : Option (Val α)) (v : Val α) :
    (extend k x v).isSome = true := by
  cases k <;> cases v <;> rfl

theorem step_rel {sub : Nat → Nat → Bool} {pre : List (Sc α)} {s : Sc α} {rest : List (Sc α)}
    {ovs : List Ov} {strict : Bool} {d : Nat} {a : Acc α} {st : St α} {e : Ov × Nat}
    (he : e.1 ∈ ovs)
    (hp : ProjOk (pre ++ s :: rest))
    (hs : strict = true ∧ d = pre.length + 1 ∨ strict = false ∧ ∀ o ∈ ovs, o.vis ≠ .scope)
    (hsafe : Safe (pre ++ s :: rest) ovs pre.length a) (hr : Rel strict a st) :
    ∃ st', stepM sub pre.length s d st e = some st' ∧
      Rel strict (contribute sub (pre ++ s :: rest) a (pre.length, e)) st' ∧
      Safe (pre ++ s :: rest) ovs pre.length (contribute sub (pre ++ s :: rest) a (pre.length, e))
    := by
  obtain ⟨o, j⟩ := e
  have hproj : projAt (pre ++ s :: rest) pre.length = s.proj := projAt_append pre s rest
  have hovr : ovrAt (pre ++ s :: rest) pre.length j = s.ovr j := ovrAt_append pre s rest j
  cases hal : a.loc with
  | none =>
    have hv : st.vars = none := by
      have := hr.vars; rw [hal] at this; simpa using this
    have hval : a.val = none := by
      have := hr.dfn; rw [hal] at this; simpa using this
    have hstep : stepM sub pre.length s d st (o, j) = some (addOne pre.length s d st o j) := by
      unfold stepM; rw [hv]; rfl
    refine ⟨_, hstep, ?_⟩
    unfold addOne contribute
    simp only [hovr, hal]
    cases hk : (o.kind == .replace) with
    | true =>
      simp only [if_true]
      cases s.ovr j with
      | none => exact ⟨hr, hsafe⟩
      | some v => exact ⟨hr, hsafe⟩
    | false =>
      simp only [Bool.false_eq_true, if_false]
      cases s.ovr j with
      | none => exact ⟨hr, hsafe⟩
      | some v =>
        simp only [hv, hproj]
        refine ⟨⟨?_, ?_, rfl, fun _ => rfl, fun h => ⟨rfl, ?_⟩⟩, ?_⟩
        · simp only [hr.val]; exact add_join o.kind hk a.val v
        · simp [extend_isSome]
        · rintro l hl
          cases hl
          rcases hs with ⟨_, hd⟩ | ⟨hn, _⟩
          · exact hd
          · rw [h] at hn; exact absurd hn (by decide)
        · rcases hsafe with h | _
          · exact .inl h
          · refine .inr fun _ => ?_
            dsimp only
            cases hsp : s.proj with
            | some q => exact .inl (by simp)
            | none => exact .inr fun k hk => hp _ k hk (by rw [hproj, hsp])
  | some l =>
    obtain ⟨vars, hvars⟩ : ∃ vars, st.vars = some vars := by
      have := hr.vars; rw [hal] at this
      exact Option.isSome_iff_exists.1 this
    have hprojst : st.proj = a.proj := hr.proj (by simp [hal])
    -- `applies`.
    have happ : applies sub o pre.length s vars st.proj =
        some (reaches sub (pre ++ s :: rest) o pre.length l a.proj) := by
      have hn : o.vis ≠ .project ∨ st.proj ≠ none ∨ s.proj = none := by
        rcases hsafe with h | h
        · exact .inl (h o he)
        · rcases h (by simp [hal]) with h | h
          · exact .inr (.inl (by rw [hprojst]; exact h))
          · exact .inr (.inr (by rw [← hproj]; exact h _ (Nat.le_refl _)))
      rw [applies_eq (rest := rest) hn, hprojst]
      rcases hs with ⟨hs, _⟩ | ⟨_, hns⟩
      · have := (hr.loc hs).1
        rw [hvars, hal] at this
        cases this; rfl
      · unfold reaches
        cases ho : o.vis with
        | scope => exact absurd ho (hns o he)
        | project => rfl
        | global => rfl
    cases hreach : reaches sub (pre ++ s :: rest) o pre.length l a.proj with
    | false =>
      have hstep : stepM sub pre.length s d st (o, j) = some st := by
        unfold stepM; rw [hvars]; simp [happ, hreach]
      refine ⟨_, hstep, ?_⟩
      have hcon : contribute sub (pre ++ s :: rest) a (pre.length, o, j) = a := by
        unfold contribute
        simp only [hovr, hal]
        cases s.ovr j with
        | none => rfl
        | some v =>
          dsimp only
          cases (o.kind == .replace) <;> simp [hreach]
      rw [hcon]
      exact ⟨hr, hsafe⟩
    | true =>
      have hstep : stepM sub pre.length s d st (o, j) = some (addOne pre.length s d st o j) := by
        unfold stepM; rw [hvars]; simp [happ, hreach]
      refine ⟨_, hstep, ?_⟩
      unfold addOne contribute
      simp only [hovr, hal, hvars]
      cases hk : (o.kind == .replace) with
      | true =>
        simp only [if_true]
        cases s.ovr j with
        | none => exact ⟨hr, hsafe⟩
        | some v => exact ⟨hr, hsafe⟩
      | false =>
        simp only [Bool.false_eq_true, if_false]
        cases s.ovr j with
        | none => exact ⟨hr, hsafe⟩
        | some v =>
          simp only [hreach, if_true]
          have hval : (match v with | some ns => addTo o.kind st.cv ns | none => st.cv) =
              (extend o.kind a.val v).join := by
            rw [hr.val]; exact add_join o.kind hk a.val v
          have hsafe' : Safe (pre ++ s :: rest) ovs pre.length
              ⟨extend o.kind a.val v, some (if pre.length < l.pos then .plain pre.length else l),
                a.proj⟩ := by
            rcases hsafe with h | h
            · exact .inl h
            · exact .inr fun _ => h (by simp [hal])
          refine ⟨?_, hsafe'⟩
          by_cases hd : d < st.depth
          · rw [if_pos hd]
            refine ⟨hval, by simp [extend_isSome], rfl, fun _ => hprojst, fun h => ?_⟩
            rcases hs with ⟨_, hd'⟩ | ⟨hn, _⟩
            · have hst := (hr.loc h).2 l hal
              have : pre.length < l.pos := by omega
              refine ⟨by simp [this], ?_⟩
              rintro l' hl'
              simp only [this, if_true, Option.some.injEq] at hl'
              subst hl'
              exact hd'
            · rw [h] at hn; exact absurd hn (by decide)
          · rw [if_neg hd]
            refine ⟨hval, by simp [extend_isSome], by simp, fun _ => hprojst, fun h => ?_⟩
            rcases hs with ⟨_, hd'⟩ | ⟨hn, _⟩
            · have hst := (hr.loc h)
              rw [hvars, hal] at hst
              have hst2 := hst.2 l rfl
              have : ¬ pre.length < l.pos := by omega
              refine ⟨by simp [this, hst.1], ?_⟩
              rintro l' hl'
              simp only [this, if_false, Option.some.injEq] at hl'
              subst hl'
              exact hst2
            · rw [h] at hn; exact absurd hn (by decide)

theorem fold_rel {sub : Nat → Nat → Bool} {pre : List (Sc α)} {s : Sc α} {rest : List (Sc α)}
    {ovs : List Ov} {strict : Bool} {d : Nat} (hp : ProjOk (pre ++ s :: rest))
    (hs : strict = true ∧ d = pre.length + 1 ∨ strict = false ∧ ∀ o ∈ ovs, o.vis ≠ .scope) :
    ∀ (l : List (Ov × Nat)) (a : Acc α) (st : St α), (∀ e ∈ l, e.1 ∈ ovs) →
      Safe (pre ++ s :: rest) ovs pre.length a → Rel strict a st →
      ∃ st', l.foldlM (stepM sub pre.length s d) st = some st' ∧
        Rel strict ((l.map (fun e => (pre.length, e))).foldl
          (contribute sub (pre ++ s :: rest)) a) st' ∧
        Safe (pre ++ s :: rest) ovs pre.length ((l.map (fun e => (pre.length, e))).foldl
          (contribute sub (pre ++ s :: rest)) a)
  | [], a, st, _, hsafe, hr => ⟨st, rfl, hr, hsafe⟩
  | e :: l, a, st, hl, hsafe, hr => by
    obtain ⟨st1, h1, h2, h3⟩ := step_rel (sub := sub) (hl e (by simp)) hp hs hsafe hr
    obtain ⟨st2, h4, h5, h6⟩ := fold_rel hp hs l _ st1 (fun e he => hl e (by simp [he])) h3 h2
    refine ⟨st2, ?_, h5, h6⟩
    rw [List.foldlM_cons, h1]
    exact h4

theorem filter_map_pair (i : Nat) (l : List (Ov × Nat)) (f : Nat × Ov × Nat → Bool) :
    (l.map (fun o => (i, o))).filter f = (l.filter (fun o => f (i, o))).map (fun o => (i, o)) := by
  induction l with
  | nil => rfl
  | cons a l ih =>
    simp only [List.map_cons, List.filter_cons]
    cases f (i, a) <;> simp [ih]

theorem pass3_eq {sub : Nat → Nat → Bool} {ovs : List Ov} {strict : Bool} {base : Nat}
    (r : Option (Nat × Ov × Nat)) (sovr : Option Nat) (sdepth : Nat)
    (hr0 : (r = none ∧ sovr = none) ∨
      ∃ i o j, r = some (i, o, j) ∧ sovr = some j ∧ sdepth = base + i + 1)
    (hs : strict = true ∧ base = 0 ∨ strict = false ∧ ∀ o ∈ ovs, o.vis ≠ .scope) :
    ∀ (rest pre : List (Sc α)) (a : Acc α) (st : St α), ProjOk (pre ++ rest) →
      Safe (pre ++ rest) ovs pre.length a → Rel strict a st →
      ∃ st', pass3 sub ovs.zipIdx sovr sdepth pre.length (base + pre.length) st rest = some st' ∧
        Rel strict (((pairsFrom pre.length rest.length ovs.zipIdx).filter
          (fun e => !superseded r e)).foldl (contribute sub (pre ++ rest)) a) st'
  | [], _, a, st, _, _, hr => ⟨st, rfl, hr⟩
  | s :: rest, pre, a, st, hp, hsafe, hr => by
    rw [pass3]
    have hs' : strict = true ∧ base + pre.length + 1 = pre.length + 1 ∨
        strict = false ∧ ∀ o ∈ ovs, o.vis ≠ .scope := by
      rcases hs with ⟨h, h'⟩ | h
      · exact .inl ⟨h, by omega⟩
      · exact .inr h
    have hadd : addIn sub pre.length s (base + pre.length + 1) sovr
        (sovr.isSome && sdepth == base + pre.length + 1) st ovs.zipIdx =
        ((ovs.zipIdx).filter (fun e => !superseded r (pre.length, e))).foldlM
          (stepM sub pre.length s (base + pre.length + 1)) st := by
      rcases hr0 with ⟨rfl, rfl⟩ | ⟨i, o, j, rfl, rfl, hd⟩
      · have : (ovs.zipIdx).filter (fun e => !superseded none (pre.length, e)) = ovs.zipIdx := by
          rw [List.filter_eq_self]; intro _ _; rfl
        rw [this]
        exact addIn_false _ _ _ _ _ _ _
      · by_cases hi : i = pre.length
        · subst hi
          have : (Option.isSome (some j) && sdepth == base + pre.length + 1) = true := by
            simp [hd]
          rw [this, addIn_skip sub pre.length s _ j st ovs 0 (by omega), addIn_false]
          congr 1
          congr 1
          funext e
          simp [superseded]
        · have : (Option.isSome (some j) && sdepth == base + pre.length + 1) = false := by
            simp [hd]; omega
          rw [this, addIn_false]
          congr 1
          symm
          rw [List.filter_eq_self]
          intro e _
          simp [superseded]
          exact .inl fun h => hi h.symm
    have hmem : ∀ e ∈ (ovs.zipIdx).filter (fun e => !superseded r (pre.length, e)),
        e.1 ∈ ovs := by
      rintro ⟨o, j⟩ he
      have := (List.mem_filter.1 he).1
      exact List.fst_mem_of_mem_zipIdx this
    obtain ⟨st1, h1, h2, h3⟩ := fold_rel (sub := sub) hp hs' _ a st hmem hsafe hr
    rw [hadd, h1]
    simp only [Option.bind_eq_bind, Option.bind_some]
    have e1 : (pre ++ [s]) ++ rest = pre ++ s :: rest := by simp
    have e2 : (pre ++ [s]).length = pre.length + 1 := by simp
    have hsafe2 : Safe ((pre ++ [s]) ++ rest) ovs (pre ++ [s]).length
        ((((ovs.zipIdx).filter (fun e => !superseded r (pre.length, e))).map
          (fun e => (pre.length, e))).foldl (contribute sub (pre ++ s :: rest)) a) := by
      rw [e1, e2]
      rcases h3 with h | h
      · exact .inl h
      · refine .inr fun hh => ?_
        rcases h hh with h | h
        · exact .inl h
        · exact .inr fun k hk => h k (by omega)
    obtain ⟨st2, h4, h5⟩ := pass3_eq r sovr sdepth hr0 hs rest (pre ++ [s]) _ st1
      (by rw [e1]; exact hp) hsafe2 h2
    rw [e2] at h4 h5
    rw [e1] at h5
    refine ⟨st2, by rw [← Nat.add_assoc] at h4; exact h4, ?_⟩
    simp only [List.length_cons, pairsFrom, List.filter_append, List.foldl_append, filter_map_pair]
    exact h5

end Verif.Override
