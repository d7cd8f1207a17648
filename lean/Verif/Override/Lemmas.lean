import Verif.Override.Model

/-!
# Command line overrides: lemmas
-/

namespace Verif.Override

open Verif.Lookup (Val)

variable {α : Type}

/-! ## Pairs -/

/-- `pairs`, starting from scope number `i`. -/
def pairsFrom : Nat → Nat → List (Ov × Nat) → List (Nat × Ov × Nat)
  | _, 0,     _ => []
  | i, n + 1, l => l.map (fun o => (i, o)) ++ pairsFrom (i + 1) n l

theorem pairs_eq (n : Nat) (l : List (Ov × Nat)) : pairs n l = pairsFrom 0 n l := by
  unfold pairs
  rw [List.range_eq_range']
  suffices ∀ i, (List.range' i n).flatMap (fun i => l.map (fun o => (i, o))) = pairsFrom i n l
    from this 0
  induction n with
  | zero => intro i; rfl
  | succ n ih => intro i; rw [List.range'_succ, List.flatMap_cons, ih]; rfl

theorem ovrAt_append (pre : List (Sc α)) (s : Sc α) (rest : List (Sc α)) (j : Nat) :
    ovrAt (pre ++ s :: rest) pre.length j = s.ovr j := by simp [ovrAt]

theorem projAt_append (pre : List (Sc α)) (s : Sc α) (rest : List (Sc α)) :
    projAt (pre ++ s :: rest) pre.length = s.proj := by simp [projAt]

/-! ## Well-formed inputs -/

/-- Outside of a scope that is not in any project there are no projects. (The
parents of a scope that has no root scope have none: libbuild2/scope.hxx:68-71, the
root scope is the innermost project that contains the scope.) -/
def ProjOk (chain : List (Sc α)) : Prop :=
  ∀ i j, i ≤ j → projAt chain i = none → projAt chain j = none

/-- The original value is in one of the scopes or in the target (only for a lookup
on behalf of a target) and its depth is accordingly. -/
def Located (chain : List (Sc α)) (target rule : Bool) : Option (Orig α) → Prop
  | none => True
  | some g =>
    g.loc.pos < chain.length ∧
    (if target then
       (g.loc = .target ∧ targetspec target rule (some g) = true) ∨
       (g.loc ≠ .target ∧ targetspec target rule (some g) = false)
     else ∃ i, g.loc = .plain i ∧ g.depth = i + 1)

/-- The stem for the original. -/
def origStem (chain : List (Sc α)) (g : Orig α) : Stem α :=
  ⟨g.val, g.loc, g.depth, projAt chain g.loc.pos, none⟩

theorem targetspec_false (rule : Bool) (g : Option (Orig α)) :
    targetspec false rule g = false := rfl

/-- Whether the original has been met before scope `i` is looked at. -/
def met (target rule : Bool) (g : Orig α) (i : Nat) : Bool :=
  targetspec target rule (some g) || decide (g.loc.pos < i)

theorem met_succ {chain : List (Sc α)} {target rule : Bool} {g : Orig α}
    (hl : Located chain target rule (some g)) (i : Nat) :
    (belongs target i g.loc = true ∨ met target rule g i = true) ↔ g.loc.pos ≤ i := by
  obtain ⟨_, h⟩ := hl
  obtain ⟨gv, loc, gd⟩ := g
  unfold met
  cases target with
  | false =>
    simp only [Bool.false_eq_true, if_false] at h
    obtain ⟨k, rfl, _⟩ := h
    simp [belongs, targetspec]
    simp only [Loc.pos]
    omega
  | true =>
    simp only [if_true] at h
    rcases h with ⟨hg, ht⟩ | ⟨hg, ht⟩
    · have hg' : loc = .target := hg
      subst hg'
      simp [ht, Loc.pos]
    · cases loc with
      | target => exact absurd rfl hg
      | pattern k => simp [ht, belongs]; simp only [Loc.pos]; omega
      | plain k => simp [ht, belongs]; simp only [Loc.pos]; omega

theorem met_after {chain : List (Sc α)} {target rule : Bool} {g : Orig α}
    (hl : Located chain target rule (some g)) (i : Nat) :
    met target rule g (i + 1) = decide (g.loc.pos ≤ i) := by
  have h := met_succ hl i
  unfold met at h ⊢
  by_cases hp : g.loc.pos ≤ i
  · simp [hp]; right; omega
  · have : ¬ (targetspec target rule (some g) = true) := by
      intro ht
      exact hp (h.1 (.inr (by simp [ht])))
    simp [hp]
    exact ⟨by simpa using this, by omega⟩

/-- `applies` is what is documented, provided that there is no null dereference. -/
theorem applies_eq {sub : Nat → Nat → Bool} {pre : List (Sc α)} {s : Sc α} {rest : List (Sc α)}
    {o : Ov} {vars : Loc} {proj : Option Nat}
    (hn : o.vis ≠ .project ∨ proj ≠ none ∨ s.proj = none) :
    applies sub o pre.length s vars proj =
      some (reaches sub (pre ++ s :: rest) o pre.length vars proj) := by
  unfold applies reaches
  rw [projAt_append]
  cases ho : o.vis with
  | scope => rfl
  | global => rfl
  | project =>
    cases hs : s.proj with
    | none => rfl
    | some p =>
      cases proj with
      | some q => rfl
      | none =>
        rcases hn with h | h | h
        · exact absurd ho h
        · exact absurd rfl h
        · rw [hs] at h; exact absurd h (by simp)

/-! ## The condition of the first two passes -/

/-- Whether override `o` in scope `i` is visible or applies to the original. -/
def cond (sub : Nat → Nat → Bool) (chain : List (Sc α)) (orig : Option (Orig α)) (i : Nat)
    (o : Ov) : Bool :=
  match orig with
  | none   => true
  | some g => decide (i < g.loc.pos) || reaches sub chain o i g.loc (projAt chain g.loc.pos)

/-- The location and the project of the original after scope `i` has been examined. -/
def seen (chain : List (Sc α)) (orig : Option (Orig α)) (b : Orig α → Bool) :
    Option (Loc × Option Nat) :=
  match orig with
  | some g => if b g then some (g.loc, projAt chain g.loc.pos) else none
  | none => none

theorem skip_eq {sub : Nat → Nat → Bool} {pre : List (Sc α)} {s : Sc α} {rest : List (Sc α)}
    (hp : ProjOk (pre ++ s :: rest)) (orig : Option (Orig α)) (o : Ov) :
    skips sub o pre.length s
      (seen (pre ++ s :: rest) orig (fun g => decide (g.loc.pos ≤ pre.length))) =
    some (!cond sub (pre ++ s :: rest) orig pre.length o) := by
  unfold seen cond
  cases orig with
  | none => rfl
  | some g =>
    dsimp only
    by_cases h : g.loc.pos ≤ pre.length
    · rw [if_pos (by simpa using h)]
      have hn : o.vis ≠ .project ∨ projAt (pre ++ s :: rest) g.loc.pos ≠ none ∨ s.proj = none := by
        by_cases h' : projAt (pre ++ s :: rest) g.loc.pos = none
        · right; right
          have := hp _ _ h h'
          rwa [projAt_append] at this
        · exact .inr (.inl h')
      rw [skips, applies_eq (rest := rest) hn]
      have : decide (pre.length < g.loc.pos) = false := by simp; omega
      rw [this]; rfl
    · rw [if_neg (by simpa using h)]
      have : decide (pre.length < g.loc.pos) = true := by simp; omega
      rw [this]; rfl

/-! ## The first pass -/

theorem anyIn_eq {sub : Nat → Nat → Bool} {i : Nat} {s : Sc α}
    {inner : Option (Loc × Option Nat)} {C : Ov → Bool}
    (hC : ∀ o, skips sub o i s inner = some (!C o)) :
    ∀ l : List (Ov × Nat), anyIn sub i s inner l =
      some (l.any (fun e => (s.ovr e.2).isSome && C e.1))
  | [] => rfl
  | (o, j) :: l => by
    rw [anyIn]
    rw [hC o]
    simp only [Option.bind_eq_bind, Option.bind_some, List.any_cons]
    cases hc : C o with
    | false =>
      simp only [Bool.not_false, if_true, Bool.and_false, Bool.false_or]
      exact anyIn_eq hC l
    | true =>
      cases hs : (s.ovr j).isSome with
      | true => simp
      | false =>
        simp only [Bool.not_true, Bool.false_eq_true, if_false, Bool.false_and, Bool.false_or]
        exact anyIn_eq hC l

theorem any_map_pair (i : Nat) (l : List (Ov × Nat)) (f : Nat × Ov × Nat → Bool) :
    (l.map (fun o => (i, o))).any f = l.any (fun o => f (i, o)) := by
  induction l with
  | nil => rfl
  | cons a l ih => simp [ih]

/-- The condition under which an override counts in the first pass. -/
def counts (sub : Nat → Nat → Bool) (chain : List (Sc α)) (orig : Option (Orig α))
    (e : Nat × Ov × Nat) : Bool :=
  (ovrAt chain e.1 e.2.2).isSome && cond sub chain orig e.1 e.2.1

theorem pass1_eq {sub : Nat → Nat → Bool} {target rule : Bool} {ovs : List (Ov × Nat)}
    {orig : Option (Orig α)} :
    ∀ (rest pre : List (Sc α)), ProjOk (pre ++ rest) → Located (pre ++ rest) target rule orig →
      pass1 sub target ovs orig pre.length
        (seen (pre ++ rest) orig (fun g => met target rule g pre.length)) rest =
      some ((pairsFrom pre.length rest.length ovs.reverse).any
        (counts sub (pre ++ rest) orig))
  | [], _, _, _ => rfl
  | s :: rest, pre, hp, hl => by
    rw [pass1]
    have hin : innerAt target orig pre.length s
        (seen (pre ++ s :: rest) orig (fun g => met target rule g pre.length)) =
        seen (pre ++ s :: rest) orig (fun g => decide (g.loc.pos ≤ pre.length)) := by
      cases orig with
      | none => rfl
      | some g =>
        have hm := met_succ hl pre.length
        unfold innerAt seen
        dsimp only
        by_cases hmet : met target rule g pre.length = true
        · have := hm.1 (.inr hmet)
          simp [this, hmet]
        · rw [if_neg hmet]
          dsimp only
          have hmet : met target rule g pre.length = false := by simpa using hmet
          cases hb : belongs target pre.length g.loc with
          | true =>
            have hle := hm.1 (.inl hb)
            have heq : g.loc.pos = pre.length := by
              unfold met at hmet
              simp at hmet
              omega
            simp only [if_true]
            rw [if_pos (by simpa using hle), heq, projAt_append]
          | false =>
            have : ¬ g.loc.pos ≤ pre.length := by
              intro h
              rcases hm.2 h with h | h
              · rw [hb] at h; exact absurd h (by decide)
              · rw [hmet] at h; exact absurd h (by decide)
            simp [this]
    rw [hin, anyIn_eq (C := cond sub (pre ++ s :: rest) orig pre.length)
      (fun o => skip_eq hp orig o)]
    simp only [Option.bind_eq_bind, Option.bind_some]
    have hnext : seen (pre ++ s :: rest) orig (fun g => decide (g.loc.pos ≤ pre.length)) =
        seen ((pre ++ [s]) ++ rest) orig (fun g => met target rule g (pre ++ [s]).length) := by
      cases orig with
      | none => rfl
      | some g =>
        unfold seen
        dsimp only
        have hm := met_after hl pre.length
        simp [List.length_append, hm]
    have ih := pass1_eq (sub := sub) (target := target) (rule := rule) (ovs := ovs) (orig := orig)
      rest (pre ++ [s]) (by simpa using hp) (by simpa using hl)
    rw [← hnext] at ih
    simp only [List.length_append, List.length_singleton, List.append_assoc,
      List.singleton_append] at ih
    rw [ih]
    simp only [List.length_cons, pairsFrom, List.any_append, any_map_pair]
    have hc : (fun e : Ov × Nat => (s.ovr e.2).isSome &&
        cond sub (pre ++ s :: rest) orig pre.length e.1) =
        (fun e => counts sub (pre ++ s :: rest) orig (pre.length, e)) := by
      funext e
      unfold counts
      rw [ovrAt_append]
    rw [hc]
    cases (ovs.reverse.any fun e => counts sub (pre ++ s :: rest) orig (pre.length, e)) <;> rfl

/-! ## The second pass -/

/-- The stem for a replacement. -/
def ovrStem (chain : List (Sc α)) (base : Nat) (e : Nat × Ov × Nat) : Stem α :=
  ⟨(ovrAt chain e.1 e.2.2).getD none, .plain e.1, base + e.1 + 1, projAt chain e.1, some e.2.2⟩

theorem replaceIn_eq {sub : Nat → Nat → Bool} {i : Nat} {s : Sc α} {d : Nat}
    {stem : Option (Stem α)} {C : Ov → Bool}
    (hC : ∀ o, skips sub o i s (stem.map (fun st => (st.loc, st.proj))) = some (!C o)) :
    ∀ l : List (Ov × Nat), replaceIn sub i s d stem l =
      some ((l.find? (fun e => e.1.kind == .replace && (s.ovr e.2).isSome && C e.1)).map
        (fun e => ⟨(s.ovr e.2).getD none, .plain i, d, s.proj, some e.2⟩))
  | [] => rfl
  | (o, j) :: l => by
    rw [replaceIn]
    rw [hC o]
    simp only [Option.bind_eq_bind, Option.bind_some, List.find?_cons]
    cases hc : C o with
    | false =>
      simp only [Bool.not_false, if_true, Bool.and_false]
      exact replaceIn_eq hC l
    | true =>
      cases hk : (o.kind == .replace) with
      | false =>
        simp only [Bool.not_true, Bool.false_eq_true, if_false, Bool.false_and]
        exact replaceIn_eq hC l
      | true =>
        cases hs : s.ovr j with
        | some v => simp [hs]
        | none =>
          simp only [Bool.not_true, Bool.false_eq_true, if_false, if_true, Bool.true_and,
            Option.isSome_none, Bool.false_and]
          exact replaceIn_eq hC l

theorem find_map_pair (i : Nat) (l : List (Ov × Nat)) (f : Nat × Ov × Nat → Bool) :
    (l.map (fun o => (i, o))).find? f = (l.find? (fun o => f (i, o))).map (fun o => (i, o)) := by
  induction l with
  | nil => rfl
  | cons a l ih =>
    simp only [List.map_cons, List.find?_cons]
    cases f (i, a) <;> simp [ih]

/-- The condition for the replacement. -/
def replaces (sub : Nat → Nat → Bool) (chain : List (Sc α)) (orig : Option (Orig α))
    (e : Nat × Ov × Nat) : Bool :=
  e.2.1.kind == .replace && (ovrAt chain e.1 e.2.2).isSome && cond sub chain orig e.1 e.2.1

theorem replacement_eq (sub : Nat → Nat → Bool) (chain : List (Sc α)) (ovs : List Ov)
    (orig : Option (Orig α)) :
    replacement sub chain ovs orig =
      (pairsFrom 0 chain.length ovs.zipIdx.reverse).find? (replaces sub chain orig) := by
  unfold replacement
  rw [pairs_eq]
  congr 1

/-- What the second pass starts with and carries along. -/
def carried (chain : List (Sc α)) (orig : Option (Orig α)) (b : Orig α → Bool) :
    Option (Stem α) :=
  match orig with
  | some g => if b g then some (origStem chain g) else none
  | none => none

theorem pass2_eq {sub : Nat → Nat → Bool} {target rule : Bool} {ovs : List (Ov × Nat)}
    {orig : Option (Orig α)} {base : Nat} :
    ∀ (rest pre : List (Sc α)), ProjOk (pre ++ rest) → Located (pre ++ rest) target rule orig →
      pass2 sub target ovs orig pre.length (base + pre.length)
        (carried (pre ++ rest) orig (fun g => met target rule g pre.length)) rest =
      some (match (pairsFrom pre.length rest.length ovs.reverse).find?
          (replaces sub (pre ++ rest) orig) with
        | some e => some (ovrStem (pre ++ rest) base e)
        | none => orig.map (origStem (pre ++ rest)))
  | [], pre, _, hl => by
    rw [pass2]
    simp only [List.length_nil, pairsFrom, List.find?_nil]
    cases orig with
    | none => rfl
    | some g =>
      have : met target rule g pre.length = true := by
        unfold met
        have := hl.1
        simp only [List.append_nil] at this
        simp [this]
      simp [carried, this]
  | s :: rest, pre, hp, hl => by
    rw [pass2]
    have hin : stemAt target orig pre.length s
        (carried (pre ++ s :: rest) orig (fun g => met target rule g pre.length)) =
        carried (pre ++ s :: rest) orig (fun g => decide (g.loc.pos ≤ pre.length)) := by
      cases orig with
      | none => rfl
      | some g =>
        have hm := met_succ hl pre.length
        unfold stemAt carried
        dsimp only
        cases hb : belongs target pre.length g.loc with
        | true =>
          have hle := hm.1 (.inl hb)
          have heq : g.loc.pos = pre.length := by
            unfold belongs at hb
            cases hloc : g.loc with
            | target => rw [hloc] at hb; simp at hb
            | pattern k => rw [hloc] at hb; simp at hb; simp [Loc.pos, hb]
            | plain k => rw [hloc] at hb; simp at hb; simp [Loc.pos, hb]
          rw [if_pos rfl, if_pos (by simpa using hle)]
          unfold origStem
          rw [heq, projAt_append]
        | false =>
          simp only [Bool.false_eq_true, if_false]
          by_cases hmet : met target rule g pre.length = true
          · have := hm.1 (.inr hmet)
            simp [this, hmet]
          · have : ¬ g.loc.pos ≤ pre.length := by
              intro h
              rcases hm.2 h with h | h
              · rw [hb] at h; exact absurd h (by decide)
              · exact hmet h
            simp [this, hmet]
    have hskip : ∀ o, skips sub o pre.length s ((carried (pre ++ s :: rest) orig
          (fun g => decide (g.loc.pos ≤ pre.length))).map (fun st => (st.loc, st.proj))) = some (!cond sub (pre ++ s :: rest) orig pre.length o) := by
      intro o
      have := skip_eq (sub := sub) hp orig o
      cases orig with
      | none => exact this
      | some g =>
        unfold seen at this
        unfold carried
        dsimp only at this ⊢
        by_cases h : decide (g.loc.pos ≤ pre.length) = true
        · rw [if_pos h] at this ⊢; exact this
        · rw [if_neg h] at this ⊢; exact this
    rw [hin, replaceIn_eq (C := cond sub (pre ++ s :: rest) orig pre.length) hskip]
    simp only [Option.bind_eq_bind, Option.bind_some]
    have hnext : carried (pre ++ s :: rest) orig (fun g => decide (g.loc.pos ≤ pre.length)) =
        carried ((pre ++ [s]) ++ rest) orig (fun g => met target rule g (pre ++ [s]).length) := by
      cases orig with
      | none => rfl
      | some g =>
        unfold carried
        dsimp only
        have hm := met_after hl pre.length
        simp [List.length_append, hm]
    have ih := pass2_eq (sub := sub) (target := target) (rule := rule) (ovs := ovs) (orig := orig)
      (base := base) rest (pre ++ [s]) (by simpa using hp) (by simpa using hl)
    rw [← hnext] at ih
    simp only [List.length_append, List.length_singleton, List.append_assoc,
      List.singleton_append] at ih
    rw [Nat.add_assoc base, ih]
    simp only [List.length_cons, pairsFrom, List.find?_append, find_map_pair]
    have hc : (fun e : Ov × Nat => e.1.kind == .replace && (s.ovr e.2).isSome &&
        cond sub (pre ++ s :: rest) orig pre.length e.1) =
        (fun e => replaces sub (pre ++ s :: rest) orig (pre.length, e)) := by
      funext e
      unfold replaces
      rw [ovrAt_append]
    rw [hc]
    cases ovs.reverse.find? (fun e => replaces sub (pre ++ s :: rest) orig (pre.length, e)) with
    | none => rfl
    | some e =>
      simp only [Option.map_some, Option.some_or]
      unfold ovrStem
      dsimp only
      rw [ovrAt_append, projAt_append, Nat.add_assoc]

end Verif.Override
