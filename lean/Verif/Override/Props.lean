import Verif.Override.Step

/-!
# C32: command line overrides apply as documented

`lookup_overridden_partial` says that a lookup gives the value (and, for scopes,
its location) that Spec `overridden` describes. What is missing from the full claim
is false of the code and is shown so by witnesses:

* `null_dereference`: a null pointer is dereferenced if the stem is in the global
  scope and there is a `%` override of the variable;
* `scope_override_leaks`: in a lookup on behalf of a target, an override that only
  applies to the values in its own scope is applied to one in an inner scope;
* `pattern_original_lost`: `scope::lookup` on behalf of a target key ignores the
  target type/pattern-specific original.

`unchanged`, `command_line_order` and `single_replacement_partial` are consequences
in the user's terms.
-/

namespace Verif.Override

open Verif.Lookup (Val)

variable {α : Type}

/-! ## The passes together -/

theorem rootScope_eq (chain : List (Sc α)) : rootScope chain = projAt chain 0 := by
  cases chain <;> rfl

theorem targetspec_loc {chain : List (Sc α)} {target rule : Bool} {g : Orig α}
    (hl : Located chain target rule (some g)) (ht : targetspec target rule (some g) = true) :
    g.loc = .target := by
  cases target with
  | false => simp [targetspec] at ht
  | true =>
    have := hl.2
    simp only [if_true] at this
    rcases this with h | h
    · exact h.1
    · rw [ht] at h; exact absurd h.2 (by decide)

theorem start_seen {chain : List (Sc α)} {target rule : Bool} {orig : Option (Orig α)}
    (hl : Located chain target rule orig) :
    startInner chain target rule orig = seen chain orig (fun g => met target rule g 0) := by
  cases orig with
  | none => rfl
  | some g =>
    unfold startInner seen met
    dsimp only
    by_cases ht : targetspec target rule (some g) = true
    · have := targetspec_loc hl ht
      simp [ht, this, Loc.pos, rootScope_eq]
    · simp [ht]

theorem start_carried {chain : List (Sc α)} {target rule : Bool} {orig : Option (Orig α)}
    (hl : Located chain target rule orig) :
    startStem chain target rule orig = carried chain orig (fun g => met target rule g 0) := by
  cases orig with
  | none => rfl
  | some g =>
    unfold startStem carried met
    dsimp only
    by_cases ht : targetspec target rule (some g) = true
    · have := targetspec_loc hl ht
      simp [ht, this, Loc.pos, rootScope_eq, origStem]
    · simp [ht]

/-- The stem that the second pass finds. -/
def stemOf (sub : Nat → Nat → Bool) (chain : List (Sc α)) (ovs : List Ov)
    (orig : Option (Orig α)) (base : Nat) : Option (Stem α) :=
  match replacement sub chain ovs orig with
  | some e => some (ovrStem chain base e)
  | none => orig.map (origStem chain)

theorem lookupOverride_eq {sub : Nat → Nat → Bool} {chain : List (Sc α)} {ovs : List Ov}
    {orig : Option (Orig α)} {target rule : Bool} (hp : ProjOk chain)
    (hl : Located chain target rule orig) :
    lookupOverride sub chain ovs orig target rule =
      if (pairsFrom 0 chain.length ovs.zipIdx.reverse).any (counts sub chain orig)
      then finish sub chain ovs (baseDepth target rule)
        (stemOf sub chain ovs orig (baseDepth target rule))
      else some (unchangedInfo orig) := by
  unfold lookupOverride
  have h1 := pass1_eq (sub := sub) (target := target) (rule := rule) (ovs := ovs.zipIdx)
    (orig := orig) chain [] hp hl
  have h2 := pass2_eq (sub := sub) (target := target) (rule := rule) (ovs := ovs.zipIdx)
    (orig := orig) (base := baseDepth target rule) chain [] hp hl
  simp only [List.nil_append, List.length_nil, Nat.add_zero] at h1 h2
  rw [start_seen hl, start_carried hl, h1]
  simp only [Option.bind_eq_bind, Option.bind_some]
  rw [h2, ← replacement_eq]
  cases (pairsFrom 0 chain.length ovs.zipIdx.reverse).any (counts sub chain orig) with
  | false => rfl
  | true => rfl

/-! ## No override -/

/-- **C32.** If no override applies, i.e., if those that are set are all set in the
scope of the original or outside of it and do not reach it, then the result is the
original: the same value, location and depth. -/
theorem unchanged {sub : Nat → Nat → Bool} {chain : List (Sc α)} {ovs : List Ov}
    {orig : Option (Orig α)} {target rule : Bool} (hp : ProjOk chain)
    (hl : Located chain target rule orig)
    (h : ∀ i j o, ovs[j]? = some o → (ovrAt chain i j).isSome = true →
      ∃ g, orig = some g ∧ g.loc.pos ≤ i ∧
        reaches sub chain o i g.loc (projAt chain g.loc.pos) = false) :
    lookupOverride sub chain ovs orig target rule = some (unchangedInfo orig) := by
  rw [lookupOverride_eq hp hl, if_neg]
  rw [List.any_eq_true]
  rintro ⟨⟨i, o, j⟩, hm, hc⟩
  unfold counts at hc
  simp only [Bool.and_eq_true] at hc
  have hmem : (o, j) ∈ ovs.zipIdx.reverse := by
    have : ∀ n i', (i, o, j) ∈ pairsFrom i' n ovs.zipIdx.reverse →
        (o, j) ∈ ovs.zipIdx.reverse := by
      intro n
      induction n with
      | zero => intro _ h; simp [pairsFrom] at h
      | succ n ih =>
        intro i' h
        simp only [pairsFrom, List.mem_append, List.mem_map] at h
        rcases h with ⟨e, he, heq⟩ | h
        · cases heq; exact he
        · exact ih _ h
    exact this _ _ hm
  rw [List.mem_reverse, List.mk_mem_zipIdx_iff_getElem?] at hmem
  obtain ⟨g, rfl, hpos, hr⟩ := h i j o hmem hc.1
  have := hc.2
  unfold cond at this
  simp [hr] at this
  omega

/-! ## The general statement -/

theorem contribute_dfn {sub : Nat → Nat → Bool} {chain : List (Sc α)} (a : Acc α)
    (e : Nat × Ov × Nat) (h : a.val.isSome = true) :
    (contribute sub chain a e).val.isSome = true := by
  unfold contribute
  cases ovrAt chain e.1 e.2.2 with
  | none => exact h
  | some v =>
    dsimp only
    cases (e.2.1.kind == .replace) with
    | true => exact h
    | false =>
      simp only [Bool.false_eq_true, if_false]
      cases a.loc with
      | none => exact extend_isSome _ _ _
      | some l =>
        dsimp only
        split
        · exact extend_isSome _ _ _
        · exact h

theorem fold_dfn {sub : Nat → Nat → Bool} {chain : List (Sc α)} :
    ∀ (l : List (Nat × Ov × Nat)) (a : Acc α), a.val.isSome = true →
      (l.foldl (contribute sub chain) a).val.isSome = true
  | [], _, h => h
  | e :: l, a, h => fold_dfn l _ (contribute_dfn a e h)

theorem fold_first {sub : Nat → Nat → Bool} {chain : List (Sc α)} (e : Nat × Ov × Nat)
    (he : (ovrAt chain e.1 e.2.2).isSome = true) (hk : (e.2.1.kind == .replace) = false) :
    ∀ (l : List (Nat × Ov × Nat)) (a : Acc α), a.val.isSome = a.loc.isSome → e ∈ l →
      (l.foldl (contribute sub chain) a).val.isSome = true
  | [], _, _, h => absurd h (by simp)
  | e' :: l, a, hd, h => by
    rw [List.foldl_cons]
    by_cases ha : a.val.isSome = true
    · exact fold_dfn l _ (contribute_dfn a e' ha)
    · have hal : a.loc = none := by
        rw [hd] at ha; simpa using ha
      rcases List.mem_cons.1 h with rfl | h
      · apply fold_dfn
        unfold contribute
        obtain ⟨v, hv⟩ := Option.isSome_iff_exists.1 he
        rw [hv]
        simp only [hk, Bool.false_eq_true, if_false, hal]
        exact extend_isSome _ _ _
      · refine fold_first e he hk l _ ?_ h
        unfold contribute
        cases ovrAt chain e'.1 e'.2.2 with
        | none => exact hd
        | some v =>
          dsimp only
          cases (e'.2.1.kind == .replace) with
          | true => exact hd
          | false => simp [hal, extend_isSome]

theorem mem_pairsFrom {e : Nat × Ov × Nat} {l l' : List (Ov × Nat)} (h : ∀ x ∈ l, x ∈ l') :
    ∀ n i, e ∈ pairsFrom i n l → e ∈ pairsFrom i n l'
  | 0, _, he => by simp [pairsFrom] at he
  | n + 1, i, he => by
    simp only [pairsFrom, List.mem_append, List.mem_map] at he ⊢
    rcases he with ⟨x, hx, rfl⟩ | he
    · exact .inl ⟨x, h x hx, rfl⟩
    · exact .inr (mem_pairsFrom h n _ he)

/-- That the code does not dereference a null pointer: there are no `%` overrides, or
the value that the prefixes/suffixes are to be added to belongs to a project. -/
def NoNull (sub : Nat → Nat → Bool) (chain : List (Sc α)) (ovs : List Ov)
    (orig : Option (Orig α)) : Prop :=
  (∀ o ∈ ovs, o.vis ≠ .project) ∨
  ((stem sub chain ovs orig).loc.isSome = true → (stem sub chain ovs orig).proj ≠ none)

/-- **C32 (partial).** The value is what Spec `overridden` says: the stem, with the
applicable prefixes and suffixes. For scope lookups so is the location. Missing:
lookups on behalf of a target if there are `/` overrides, and the situations in which
the code dereferences a null pointer; see the witnesses below. -/
theorem lookup_overridden_partial {sub : Nat → Nat → Bool} {chain : List (Sc α)}
    {ovs : List Ov} {orig : Option (Orig α)} {target rule : Bool} (hp : ProjOk chain)
    (hl : Located chain target rule orig)
    (hs : target = false ∨ ∀ o ∈ ovs, o.vis ≠ .scope)
    (hn : NoNull sub chain ovs orig) :
    ∃ r, lookupOverride sub chain ovs orig target rule = some r ∧
      r.val = (overridden sub chain ovs orig).val ∧
      (target = false →
        r.loc = (overridden sub chain ovs orig).loc ∧
        r.depth = (overridden sub chain ovs orig).loc.map (·.pos + 1)) := by
  rw [lookupOverride_eq hp hl]
  have hbase : ∀ (strict : Bool), strict = !target → strict = true ∧
      baseDepth target rule = 0 ∨
      strict = false ∧ ∀ o ∈ ovs, o.vis ≠ .scope := by
    intro strict h
    cases target with
    | false => exact .inl ⟨h, rfl⟩
    | true =>
      rcases hs with h' | h'
      · exact absurd h' (by decide)
      · exact .inr ⟨h, h'⟩
  -- The stem.
  have hdepth : ∀ g, orig = some g → target = false → g.depth = g.loc.pos + 1 := by
    intro g hg ht
    subst hg ht
    obtain ⟨i, h1, h2⟩ := hl.2
    rw [h1, h2]; rfl
  have hrep : ∀ e, replacement sub chain ovs orig = some e →
      ∃ v, ovrAt chain e.1 e.2.2 = some v := by
    intro e he
    rw [replacement_eq] at he
    have := List.find?_some he
    unfold replaces at this
    simp only [Bool.and_eq_true] at this
    exact Option.isSome_iff_exists.1 this.1.2
  generalize baseDepth target rule = base at hbase ⊢
  -- The third pass.
  have h3 : ∀ (sm : Option (Stem α)), sm = stemOf sub chain ovs orig base →
      ∃ st', pass3 sub ovs.zipIdx (stemOvr sm) (stemDepth sm) 0 base (startSt sm) chain =
          some st' ∧
        Rel (!target) (overridden sub chain ovs orig) st' := by
    intro sm hsm
    have hsafe : Safe chain ovs 0 (stem sub chain ovs orig) := by
      rcases hn with h | h
      · exact .inl h
      · exact .inr fun hh => .inl (h hh)
    unfold overridden
    rw [pairs_eq]
    cases hr : replacement sub chain ovs orig with
    | some e =>
      obtain ⟨i, o, j⟩ := e
      unfold stemOf at hsm
      rw [hr] at hsm
      subst hsm
      obtain ⟨v, hv⟩ := hrep _ hr
      simp only at hv
      have hrel : Rel (!target) (stem sub chain ovs orig)
          ⟨v, some (.plain i), projAt chain i, base + i + 1⟩ := by
        unfold stem
        rw [hr]
        refine ⟨by simp [hv], by simp [hv], rfl, fun _ => rfl, fun h => ⟨rfl, ?_⟩⟩
        rintro l hl'
        cases hl'
        rcases hbase _ rfl with ⟨_, h0⟩ | ⟨h', _⟩
        · simp only [Loc.pos]; omega
        · rw [h] at h'; exact absurd h' (by decide)
      have := pass3_eq (sub := sub) (ovs := ovs) (strict := !target) (base := base)
        (some (i, o, j)) (some j) (base + i + 1) (.inr ⟨i, o, j, rfl, rfl, rfl⟩)
        (hbase _ rfl) chain [] _ _ hp hsafe hrel
      simp only [List.nil_append, List.length_nil, Nat.add_zero] at this
      simp only [ovrStem, stemOvr, stemDepth, startSt, hv, Option.getD_some]
      exact this
    | none =>
      unfold stemOf at hsm
      rw [hr] at hsm
      cases hor : orig with
      | none =>
        rw [hor] at hsm
        subst hsm
        have hrel : Rel (!target) (stem sub chain ovs orig) ⟨none, none, none, 0⟩ := by
          unfold stem
          rw [hr, hor]
          exact ⟨rfl, rfl, rfl, fun h => absurd h (by simp), fun _ => ⟨rfl, fun l h => by simp at h⟩⟩
        have := pass3_eq (sub := sub) (ovs := ovs) (strict := !target) (base := base)
          none none 0 (.inl ⟨rfl, rfl⟩) (hbase _ rfl) chain [] _ _ hp hsafe hrel
        simp only [List.nil_append, List.length_nil, Nat.add_zero] at this
        rw [hor] at this
        exact this
      | some g =>
        rw [hor] at hsm
        subst hsm
        have hrel : Rel (!target) (stem sub chain ovs orig)
            ⟨g.val, some g.loc, projAt chain g.loc.pos, g.depth⟩ := by
          unfold stem
          rw [hr, hor]
          refine ⟨rfl, rfl, rfl, fun _ => rfl, fun h => ⟨rfl, ?_⟩⟩
          rintro l hl'
          cases hl'
          exact hdepth g hor (by simpa using h)
        have := pass3_eq (sub := sub) (ovs := ovs) (strict := !target) (base := base)
          none none g.depth (.inl ⟨rfl, rfl⟩) (hbase _ rfl) chain [] _ _ hp hsafe hrel
        simp only [List.nil_append, List.length_nil, Nat.add_zero] at this
        rw [hor] at this
        exact this
  cases hany : (pairsFrom 0 chain.length ovs.zipIdx.reverse).any (counts sub chain orig) with
  | true =>
    obtain ⟨st', h4, h5⟩ := h3 _ rfl
    rw [if_pos rfl]
    unfold finish
    rw [h4]
    simp only [Option.bind_eq_bind, Option.bind_some]
    refine ⟨_, rfl, ?_, ?_⟩
    · -- The value is defined.
      have hsome : (overridden sub chain ovs orig).val.isSome = true := by
        unfold overridden
        cases hr : replacement sub chain ovs orig with
        | some e =>
          apply fold_dfn
          obtain ⟨v, hv⟩ := hrep _ hr
          unfold stem
          rw [hr]
          simp [hv]
        | none =>
          cases hor : orig with
          | some g =>
            apply fold_dfn
            unfold stem
            rw [hor] at hr
            rw [hr]; rfl
          | none =>
            rw [hor] at hr hany
            obtain ⟨e, he, hc⟩ := List.any_eq_true.1 hany
            unfold counts at hc
            simp only [Bool.and_eq_true] at hc
            have hk : (e.2.1.kind == .replace) = false := by
              rw [replacement_eq, List.find?_eq_none] at hr
              have := hr e he
              unfold replaces at this
              simp only [hc.1, hc.2, Bool.and_true, Bool.not_eq_true] at this
              exact this
            refine fold_first e hc.1 hk _ _ ?_ ?_
            · unfold stem; rw [hr]; rfl
            · rw [pairs_eq]
              refine List.mem_filter.2 ⟨mem_pairsFrom (fun x hx => List.mem_reverse.1 hx) _ _ he, rfl⟩
      obtain ⟨x, hx⟩ := Option.isSome_iff_exists.1 hsome
      rw [hx, h5.val, hx]; rfl
    · intro ht
      obtain ⟨h6, h7⟩ := h5.loc (by simp [ht])
      refine ⟨h6, ?_⟩
      have hls : (overridden sub chain ovs orig).loc.isSome = true := by
        rw [← h5.dfn]
        -- As above.
        unfold overridden
        cases hr : replacement sub chain ovs orig with
        | some e =>
          apply fold_dfn
          obtain ⟨v, hv⟩ := hrep _ hr
          unfold stem
          rw [hr]
          simp [hv]
        | none =>
          cases hor : orig with
          | some g =>
            apply fold_dfn
            unfold stem
            rw [hor] at hr
            rw [hr]; rfl
          | none =>
            rw [hor] at hr hany
            obtain ⟨e, he, hc⟩ := List.any_eq_true.1 hany
            unfold counts at hc
            simp only [Bool.and_eq_true] at hc
            have hk : (e.2.1.kind == .replace) = false := by
              rw [replacement_eq, List.find?_eq_none] at hr
              have := hr e he
              unfold replaces at this
              simp only [hc.1, hc.2, Bool.and_true, Bool.not_eq_true] at this
              exact this
            refine fold_first e hc.1 hk _ _ ?_ ?_
            · unfold stem; rw [hr]; rfl
            · rw [pairs_eq]
              refine List.mem_filter.2 ⟨mem_pairsFrom (fun x hx => List.mem_reverse.1 hx) _ _ he, rfl⟩
      obtain ⟨l, hl'⟩ := Option.isSome_iff_exists.1 hls
      rw [hl', h7 l hl']; rfl
  | false =>
    rw [if_neg (by decide)]
    refine ⟨_, rfl, ?_⟩
    -- Nothing is done.
    have hnone : ∀ e ∈ pairsFrom 0 chain.length ovs.zipIdx.reverse,
        counts sub chain orig e = false := by
      intro e he
      cases hc : counts sub chain orig e with
      | false => rfl
      | true =>
        have := List.any_eq_true.2 ⟨e, he, hc⟩
        rw [hany] at this
        exact absurd this (by decide)
    have hr : replacement sub chain ovs orig = none := by
      rw [replacement_eq, List.find?_eq_none]
      intro e he
      have := hnone e he
      unfold counts at this
      unfold replaces
      rw [Bool.and_assoc, this]; simp
    have hfold : ∀ (l : List (Nat × Ov × Nat)),
        (∀ e ∈ l, counts sub chain orig e = false) →
        l.foldl (contribute sub chain) (stem sub chain ovs orig) = stem sub chain ovs orig := by
      intro l
      induction l with
      | nil => intro _; rfl
      | cons e l ih =>
        intro h
        rw [List.foldl_cons]
        have : contribute sub chain (stem sub chain ovs orig) e = stem sub chain ovs orig := by
          have hc := h e (by simp)
          unfold counts cond at hc
          unfold contribute stem
          rw [hr]
          cases hov : ovrAt chain e.1 e.2.2 with
          | none => rfl
          | some v =>
            rw [hov] at hc
            dsimp only
            cases hor : orig with
            | none => rw [hor] at hc; simp at hc
            | some g =>
              rw [hor] at hc
              simp only [Option.isSome_some, Bool.true_and, Bool.or_eq_false_iff] at hc
              simp [hc.2]
        rw [this]
        exact ih (fun e he => h e (by simp [he]))
    have hov : overridden sub chain ovs orig = stem sub chain ovs orig := by
      unfold overridden
      apply hfold
      intro e he
      apply hnone
      have := (List.mem_filter.1 he).1
      rw [pairs_eq] at this
      exact mem_pairsFrom (fun x hx => List.mem_reverse.2 hx) _ _ this
    rw [hov]
    unfold stem unchangedInfo
    rw [hr]
    cases horig : orig with
    | none => exact ⟨rfl, fun _ => ⟨rfl, rfl⟩⟩
    | some g =>
      refine ⟨rfl, fun ht => ⟨rfl, ?_⟩⟩
      simp [hdepth g horig ht]

/-! ## The common case: everything in one scope -/

/-- What the user expects of `b x=1 x+=2 x=+0`: go through the command line from left
to right, replacing or extending the value; `v` are the values given. -/
def commandLine (v : Nat → Val α) (x : Option (Val α)) (l : List (Ov × Nat)) : Option (Val α) :=
  l.foldl (fun x e => if e.1.kind == .replace then some (v e.2) else extend e.1.kind x (v e.2)) x

/-- The same with replacements ignored. -/
def extendAll (v : Nat → Val α) (x : Option (Val α)) (l : List (Ov × Nat)) : Option (Val α) :=
  l.foldl (fun x e => if e.1.kind == .replace then x else extend e.1.kind x (v e.2)) x

theorem commandLine_eq (v : Nat → Val α) :
    ∀ (l : List Ov) (k : Nat) (x : Option (Val α)),
      commandLine v x (l.zipIdx k) =
        match (l.zipIdx k).reverse.find? (fun e => e.1.kind == .replace) with
        | none => extendAll v x (l.zipIdx k)
        | some e => extendAll v (some (v e.2)) ((l.zipIdx k).filter (fun e' => !decide (e'.2 ≤ e.2)))
  | [], _, _ => rfl
  | o :: l, k, x => by
    rw [List.zipIdx_cons]
    have ih := commandLine_eq v l (k + 1)
      (if o.kind == .replace then some (v k) else extend o.kind x (v k))
    have e1 : commandLine v x ((o, k) :: l.zipIdx (k + 1)) =
        commandLine v (if o.kind == .replace then some (v k) else extend o.kind x (v k))
          (l.zipIdx (k + 1)) := rfl
    rw [e1, ih, List.reverse_cons, List.find?_append]
    cases hf : (l.zipIdx (k + 1)).reverse.find? (fun e => e.1.kind == .replace) with
    | some e =>
      simp only [Option.some_or]
      have hle : k ≤ e.2 := by
        have hm := List.mem_of_find?_eq_some hf
        obtain ⟨o', j⟩ := e
        have := List.le_snd_of_mem_zipIdx (List.mem_reverse.1 hm)
        simp only at this ⊢
        omega
      rw [List.filter_cons]
      simp [hle]
    | none =>
      simp only [Option.none_or]
      cases ho : (o.kind == .replace) with
      | true =>
        simp only [List.find?_cons, ho, if_true]
        rw [List.filter_cons]
        have hfil : (l.zipIdx (k + 1)).filter (fun e' => !decide (e'.2 ≤ k)) = l.zipIdx (k + 1) := by
          rw [List.filter_eq_self]
          rintro ⟨o', j⟩ h
          have := List.le_snd_of_mem_zipIdx h
          simp only [Bool.not_eq_eq_eq_not, Bool.not_true, decide_eq_false_iff_not]
          simp only at this
          omega
        simp [hfil]
      | false =>
        simp only [List.find?_cons, ho, List.find?_nil, Bool.false_eq_true, if_false]
        show _ = extendAll v (if o.kind == .replace then x else extend o.kind x (v k)) _
        rw [if_neg (by simp [ho])]

theorem fold_one_scope {sub : Nat → Nat → Bool} {chain : List (Sc α)} {k : Nat}
    (hk : ∀ i j, i ≠ k → ovrAt chain i j = none) (l : List (Ov × Nat))
    (p : Nat × Ov × Nat → Bool) :
    ∀ (n i : Nat) (a : Acc α),
      ((pairsFrom i n l).filter p).foldl (contribute sub chain) a =
        if i ≤ k ∧ k < i + n
        then ((l.map (fun e => (k, e))).filter p).foldl (contribute sub chain) a else a
  | 0, i, a => by rw [if_neg (by omega)]; rfl
  | n + 1, i, a => by
    simp only [pairsFrom, List.filter_append, List.foldl_append]
    rw [fold_one_scope hk l p n (i + 1)]
    by_cases hi : i = k
    · subst hi
      rw [if_neg (by omega), if_pos (by omega)]
    · have hno : ∀ (m : List (Nat × Ov × Nat)) (a : Acc α), (∀ e ∈ m, e.1 = i) →
          m.foldl (contribute sub chain) a = a := by
        intro m
        induction m with
        | nil => intro _ _; rfl
        | cons e m ih =>
          intro a h
          rw [List.foldl_cons]
          have : contribute sub chain a e = a := by
            unfold contribute
            rw [hk e.1 e.2.2 (by rw [h e (by simp)]; exact hi)]
          rw [this]
          exact ih a (fun e he => h e (by simp [he]))
      rw [hno _ a (by
        intro e he
        have := (List.mem_filter.1 he).1
        obtain ⟨x, _, rfl⟩ := List.mem_map.1 this
        rfl)]
      by_cases h : i ≤ k ∧ k < i + (n + 1)
      · rw [if_pos h, if_pos (by omega)]
      · rw [if_neg h, if_neg (by omega)]

theorem find_one_scope {chain : List (Sc α)} {k : Nat}
    (hk : ∀ i j, i ≠ k → ovrAt chain i j = none) (l : List (Ov × Nat))
    (p : Nat × Ov × Nat → Bool) (hp : ∀ e, p e = true → (ovrAt chain e.1 e.2.2).isSome = true) :
    ∀ (n i : Nat),
      (pairsFrom i n l).find? p =
        if i ≤ k ∧ k < i + n then (l.map (fun e => (k, e))).find? p else none
  | 0, i => by rw [if_neg (by omega)]; rfl
  | n + 1, i => by
    simp only [pairsFrom, List.find?_append]
    rw [find_one_scope hk l p hp n (i + 1)]
    by_cases hi : i = k
    · subst hi
      rw [if_neg (by omega), if_pos (by omega)]
      simp
    · have : (l.map (fun e => (i, e))).find? p = none := by
        rw [List.find?_eq_none]
        intro e he h
        obtain ⟨x, _, rfl⟩ := List.mem_map.1 he
        have := hp _ h
        rw [hk _ _ hi] at this
        exact absurd this (by simp)
      rw [this]
      by_cases h : i ≤ k ∧ k < i + (n + 1)
      · rw [if_pos h, if_pos (by omega)]; rfl
      · rw [if_neg h, if_neg (by omega)]; rfl

theorem fold_extend {sub : Nat → Nat → Bool} {chain : List (Sc α)} {k : Nat} {v : Nat → Val α} :
    ∀ (l : List (Ov × Nat)) (a : Acc α), (∀ e ∈ l, e.1.vis = .global) →
      (∀ e ∈ l, ovrAt chain k e.2 = some (v e.2)) →
      ((l.map (fun e => (k, e))).foldl (contribute sub chain) a).val = extendAll v a.val l
  | [], _, _, _ => rfl
  | e :: l, a, hg, hv => by
    rw [List.map_cons, List.foldl_cons,
      fold_extend l _ (fun e he => hg e (by simp [he])) (fun e he => hv e (by simp [he]))]
    have : (contribute sub chain a (k, e)).val =
        if e.1.kind == .replace then a.val else extend e.1.kind a.val (v e.2) := by
      unfold contribute
      simp only [hv e (by simp)]
      cases (e.1.kind == .replace) with
      | true => rfl
      | false =>
        simp only [Bool.false_eq_true, if_false]
        cases a.loc with
        | none => rfl
        | some loc =>
          have : reaches sub chain e.1 k loc a.proj = true := by
            unfold reaches; rw [hg e (by simp)]
          simp [this]
    rw [this]
    rfl

/-- **C32.** If all the overrides of a variable are of the ordinary kind (`x=v`, `x+=v`,
`x=+v`, or all of them `!`) and have thus been entered into the same scope, then
whatever the original value and wherever it comes from (including from a target), the
result is that of going through the command line from left to right. In particular,
the last replacement wins and `!x=v` gives `v` everywhere. -/
theorem command_line_order {sub : Nat → Nat → Bool} {chain : List (Sc α)} {ovs : List Ov}
    {orig : Option (Orig α)} {target rule : Bool} (hp : ProjOk chain)
    (hl : Located chain target rule orig) {k : Nat} (hk : k < chain.length) {v : Nat → Val α}
    (hglobal : ∀ o ∈ ovs, o.vis = .global)
    (hother : ∀ i j, i ≠ k → ovrAt chain i j = none)
    (hset : ∀ j, j < ovs.length → ovrAt chain k j = some (v j)) :
    ∃ r, lookupOverride sub chain ovs orig target rule = some r ∧
      r.val = commandLine v (orig.map (·.val)) ovs.zipIdx := by
  obtain ⟨r, h1, h2, _⟩ := lookup_overridden_partial (sub := sub) (ovs := ovs) (rule := rule)
    hp hl (.inr fun o ho => by rw [hglobal o ho]; decide)
    (.inl fun o ho => by rw [hglobal o ho]; decide)
  refine ⟨r, h1, h2.trans ?_⟩
  have hset' : ∀ e ∈ ovs.zipIdx, ovrAt chain k e.2 = some (v e.2) := by
    rintro ⟨o, j⟩ he
    have := List.snd_lt_of_mem_zipIdx he
    exact hset j (by simpa using this)
  have hvis : ∀ e ∈ ovs.zipIdx, e.1.vis = .global := by
    rintro ⟨o, j⟩ he
    exact hglobal o (List.fst_mem_of_mem_zipIdx he)
  have hrep : replacement sub chain ovs orig =
      (ovs.zipIdx.reverse.find? (fun e => e.1.kind == .replace)).map (fun e => (k, e)) := by
    rw [replacement_eq, find_one_scope hother _ _ (by
      intro e he
      unfold replaces at he
      simp only [Bool.and_eq_true] at he
      exact he.1.2), if_pos (by omega), find_map_pair]
    have : ∀ (m : List (Ov × Nat)), (∀ e ∈ m, e ∈ ovs.zipIdx) →
        m.find? (fun o => replaces sub chain orig (k, o)) =
          m.find? (fun e => e.1.kind == .replace) := by
      intro m
      induction m with
      | nil => intro _; rfl
      | cons e m ih =>
        intro h
        simp only [List.find?_cons]
        have he := h e (by simp)
        have hrp : replaces sub chain orig (k, e) = (e.1.kind == .replace) := by
          unfold replaces
          simp only [hset' e he, Option.isSome_some, Bool.and_true]
          have : cond sub chain orig k e.1 = true := by
            unfold cond
            cases orig with
            | none => rfl
            | some g => simp [reaches, hvis e he]
          rw [this, Bool.and_true]
        rw [hrp, ih (fun e he => h e (by simp [he]))]
    rw [this _ (fun e he => List.mem_reverse.1 he)]
  unfold overridden
  rw [pairs_eq, fold_one_scope hother, if_pos (by omega), filter_map_pair,
    fold_extend (v := v) _ _ (fun e he => hvis e (List.mem_filter.1 he).1)
      (fun e he => hset' e (List.mem_filter.1 he).1), commandLine_eq]
  unfold stem
  rw [hrep]
  cases hf : ovs.zipIdx.reverse.find? (fun e => e.1.kind == .replace) with
  | none =>
    simp only [Option.map_none]
    have : ovs.zipIdx.filter (fun o => !superseded none (k, o)) = ovs.zipIdx := by
      rw [List.filter_eq_self]; intro _ _; rfl
    rw [this]
    cases orig <;> rfl
  | some e =>
    simp only [Option.map_some]
    have hm := List.mem_reverse.1 (List.mem_of_find?_eq_some hf)
    rw [hset' e hm]
    congr 1
    apply List.filter_congr
    intro x _
    simp [superseded]

/-! ## A single replacement -/

/-- Whether an original is spared from an override in scope `k`: it is in scope `k` or
inside of it and in a subproject (for `%x`) or in another scope (for `/x`). -/
def Spared (sub : Nat → Nat → Bool) (chain : List (Sc α)) (vis : OVis) (k : Nat) (g : Orig α) :
    Prop :=
  g.loc.pos ≤ k ∧
  (vis = .project ∧ (∃ p q, projAt chain k = some p ∧
      projAt chain g.loc.pos = some q ∧ sub p q = true) ∨
   vis = .scope ∧ g.loc ≠ .plain k)

/-- **C32 (partial, as `lookup_overridden_partial`).** A single `x=v` override that has
been entered into scope `k`: it replaces the original unless that is in scope `k` or
inside of it and is not reached: it is in a subproject (for `%x`) or in another scope
(for `/x`). -/
theorem single_replacement_partial {sub : Nat → Nat → Bool} {chain : List (Sc α)} {vis : OVis}
    {orig : Option (Orig α)} {target rule : Bool} (hp : ProjOk chain)
    (hl : Located chain target rule orig) {k : Nat} (hk : k < chain.length) {v : Val α}
    (hs : target = false ∨ vis ≠ .scope)
    (hn : NoNull sub chain [⟨vis, .replace⟩] orig)
    (hother : ∀ i j, i ≠ k → ovrAt chain i j = none) (hset : ovrAt chain k 0 = some v) :
    ∃ r, lookupOverride sub chain [⟨vis, .replace⟩] orig target rule = some r ∧
      (∀ g, orig = some g → Spared sub chain vis k g → r.val = some g.val) ∧
      ((∀ g, orig = some g → ¬ Spared sub chain vis k g) → r.val = some v) := by
  obtain ⟨r, h1, h2, _⟩ := lookup_overridden_partial (sub := sub) (rule := rule)
    hp hl (by
      rcases hs with h | h
      · exact .inl h
      · exact .inr (by simpa using h)) hn
  refine ⟨r, h1, ?_⟩
  rw [h2]
  have hst : overridden sub chain [⟨vis, .replace⟩] orig =
      stem sub chain [⟨vis, .replace⟩] orig := by
    unfold overridden
    have : ∀ (m : List (Nat × Ov × Nat)) (a : Acc α), (∀ e ∈ m, e.2.1.kind = .replace) →
        m.foldl (contribute sub chain) a = a := by
      intro m
      induction m with
      | nil => intro _ _; rfl
      | cons e m ih =>
        intro a h
        rw [List.foldl_cons]
        have : contribute sub chain a e = a := by
          unfold contribute
          rw [h e (by simp)]
          cases ovrAt chain e.1 e.2.2 <;> rfl
        rw [this]
        exact ih a (fun e he => h e (by simp [he]))
    apply this
    intro e he
    have := (List.mem_filter.1 he).1
    unfold pairs at this
    simp only [List.zipIdx_cons, List.zipIdx_nil, List.map_cons, List.map_nil,
      List.mem_flatMap, List.mem_singleton] at this
    obtain ⟨_, _, rfl⟩ := this
    rfl
  rw [hst]
  unfold stem
  have hrep : replacement sub chain [⟨vis, .replace⟩] orig =
      if cond sub chain orig k ⟨vis, .replace⟩ then some (k, ⟨vis, .replace⟩, 0) else none := by
    rw [replacement_eq, find_one_scope hother _ _ (by
      intro e he
      unfold replaces at he
      simp only [Bool.and_eq_true] at he
      exact he.1.2), if_pos (by omega), find_map_pair]
    simp only [List.zipIdx_cons, List.zipIdx_nil, List.reverse_cons, List.reverse_nil,
      List.nil_append, List.find?_cons, List.find?_nil]
    have : replaces sub chain orig (k, ⟨vis, .replace⟩, 0) =
        cond sub chain orig k ⟨vis, .replace⟩ := by
      unfold replaces
      simp [hset]
    rw [this]
    cases cond sub chain orig k ⟨vis, .replace⟩ <;> rfl
  rw [hrep]
  cases orig with
  | none =>
    refine ⟨fun g h => absurd h (by simp), fun _ => ?_⟩
    simp [cond, hset]
  | some g =>
    have hc : cond sub chain (some g) k ⟨vis, .replace⟩ = true ↔ ¬ Spared sub chain vis k g := by
      unfold cond reaches Spared
      cases vis with
      | global => simp
      | scope =>
        simp only [Bool.or_eq_true, decide_eq_true_eq, beq_iff_eq]
        by_cases h : g.loc = .plain k
        · simp [h]
        · simp [h]
      | project =>
        simp only [Bool.or_eq_true, decide_eq_true_eq]
        cases h1 : projAt chain k with
        | none => simp
        | some p =>
          cases h2 : projAt chain g.loc.pos with
          | none => simp
          | some q =>
            cases h3 : sub p q with
            | true => simp [h3]
            | false => simp [h3]
    constructor
    · rintro g' hg' hsp
      cases hg'
      rw [if_neg fun h => hc.1 h hsp]
    · intro h
      rw [if_pos (hc.2 (h g rfl))]
      exact hset

/-! ## Witnesses -/

/-- A scope without overrides. -/
def noOvr : Nat → Option (Val Nat) := fun _ => none

/-- A directory, the root scope of project 1, that of project 0 (of which 1 is a
subproject), and the global scope. Overrides number 0 and 1 have been entered into
the root scope of project 0. -/
def exChain : List (Sc Nat) :=
  [⟨noOvr, some 1⟩, ⟨noOvr, some 1⟩,
   ⟨fun j => if j = 0 then some (some [10]) else if j = 1 then some (some [11]) else none, some 0⟩,
   ⟨noOvr, none⟩]

/-- Project 1 is a subproject of project 0. -/
def exSub : Nat → Nat → Bool := fun p q => p == 0 && q == 1

theorem exChain_ok : ProjOk exChain := by
  intro i j hij h
  have key : ∀ n, projAt exChain n = none ↔ 3 ≤ n := by
    intro n
    match n with
    | 0 => simp [projAt, exChain]
    | 1 => simp [projAt, exChain]
    | 2 => simp [projAt, exChain]
    | n + 3 => cases n <;> simp [projAt, exChain]
  rw [key] at h ⊢
  omega

/-- `b x=10 x+=11` with the original in the directory. -/
example : lookupOverride exSub exChain [⟨.global, .replace⟩, ⟨.global, .suffix⟩]
    (some ⟨some [7], .plain 0, 1⟩) false false =
    some ⟨some (some [10, 11]), some (.plain 2), some 3, false⟩ := by decide

/-- `b x=+10 x+=11`. -/
example : lookupOverride exSub exChain [⟨.global, .prefix⟩, ⟨.global, .suffix⟩]
    (some ⟨some [7], .plain 0, 1⟩) false false =
    some ⟨some (some [10, 7, 11]), some (.plain 0), some 1, true⟩ := by decide

/-- `b %x=10 %x+=11`: the original is in a subproject. -/
example : lookupOverride exSub exChain [⟨.project, .replace⟩, ⟨.project, .suffix⟩]
    (some ⟨some [7], .plain 0, 1⟩) false false =
    some ⟨some (some [7]), some (.plain 0), some 1, true⟩ := by decide

/-- The same but with the original in the outer project. -/
example : lookupOverride exSub exChain [⟨.project, .replace⟩, ⟨.project, .suffix⟩]
    (some ⟨some [7], .plain 2, 3⟩) false false =
    some ⟨some (some [10, 11]), some (.plain 2), some 3, false⟩ := by decide

example : Located exChain false false (some (⟨some [7], .plain 2, 3⟩ : Orig Nat)) := by
  unfold Located; exact ⟨by decide, 2, rfl, rfl⟩

example : Located exChain true false (some (⟨some [7], .target, 1⟩ : Orig Nat)) := by
  unfold Located; exact ⟨by decide, .inl ⟨rfl, rfl⟩⟩

example : NoNull exSub exChain [⟨.project, .replace⟩, ⟨.project, .suffix⟩]
    (some (⟨some [7], .plain 0, 1⟩ : Orig Nat)) := by
  right; intro _; decide

example : lookupOverride exSub exChain [⟨.global, .replace⟩, ⟨.global, .suffix⟩]
    (some ⟨some [7], .target, 1⟩) true false =
    some ⟨some (some [10, 11]), some (.plain 2), some 5, false⟩ := by decide

/-- In `exChain` all the overrides are in scope 2. -/
example : ∀ i j, i ≠ 2 → ovrAt exChain i j = none := by
  intro i j hi
  match i with
  | 0 => rfl
  | 1 => rfl
  | 2 => exact absurd rfl hi
  | 3 => rfl
  | n + 4 => simp [ovrAt, exChain]

/-- The code dereferences a null pointer: `b '!x=1' '%x+=2'`, a variable that is not
set by any buildfile. -/
theorem null_dereference :
    ∃ (chain : List (Sc Nat)), ProjOk chain ∧
      lookupOverride exSub chain [⟨.global, .replace⟩, ⟨.project, .suffix⟩] none false false =
        none := by
  refine ⟨[⟨fun j => if j = 1 then some (some [2]) else none, some 0⟩,
           ⟨fun j => if j = 0 then some (some [1]) else none, none⟩], ?_, by decide⟩
  intro i j hij h
  match i, j with
  | 0, _ => simp [projAt] at h
  | 1, 0 => omega
  | i + 1, 1 => rfl
  | i + 1, j + 2 => simp [projAt]
  | i + 2, 0 => omega

/-- The scopes of the following witness: a directory and the root scope of its project,
into which `b x+=1 /x+=2` enters its overrides. -/
def leakChain : List (Sc Nat) :=
  [⟨noOvr, some 0⟩,
   ⟨fun j => if j = 0 then some (some [1]) else if j = 1 then some (some [2]) else none, some 0⟩]

/-- `b x+=1 /x+=2` with `x = 7` in a subdirectory. The second override is only for the
values set in the root scope. Looking `x` up in the directory accordingly gives `7 1`,
but looking it up for a target in this directory gives `7 1 2`: depths of the original
(which count three places in each scope) and of overrides (which count one) are
compared. -/
theorem scope_override_leaks :
    (lookupOverride exSub leakChain [⟨.global, .suffix⟩, ⟨.scope, .suffix⟩]
      (some ⟨some [7], .plain 0, 1⟩) false false).map (·.val) = some (some (some [7, 1])) ∧
    (lookupOverride exSub leakChain [⟨.global, .suffix⟩, ⟨.scope, .suffix⟩]
      (some ⟨some [7], .plain 0, 5⟩) true false).map (·.val) = some (some (some [7, 1, 2])) ∧
    Located leakChain true false (some (⟨some [7], .plain 0, 5⟩ : Orig Nat)) ∧
    (overridden exSub leakChain [⟨.global, .suffix⟩, ⟨.scope, .suffix⟩]
      (some ⟨some [7], .plain 0, 5⟩)).val = some (some [7, 1]) := by
  refine ⟨by decide, by decide, ⟨by decide, ?_⟩, by decide⟩
  exact .inr ⟨by simp, rfl⟩

/-- `scope::lookup` on behalf of a target key (libbuild2/scope.hxx:179-187, used in
libbuild2/cc/compile-rule.cxx) passes a target type/pattern-specific original but says
that this is not a target lookup. The original is then not found to belong to any scope
and is lost: with `b x+=1` we get `1` rather than `7 1`. -/
theorem pattern_original_lost :
    (lookupOverride exSub leakChain [⟨.global, .suffix⟩]
      (some ⟨some [7], .pattern 0, 1⟩) false false).map (·.val) = some (some (some [1])) := by
  decide

end Verif.Override
