import Verif.Lookup.Lemmas

/-!
# C31: variable lookup finds the innermost visible value

`lookup_spec` says that looking up a variable returns the value of the first
place (Spec `places`) where one has been set, with the prepends/appends applied
(Spec `denote`). `visible_iff` spells out which scopes offer places, `lookup_noninterference`
that nothing outside them has any effect, and the rest is about the limit, the
depth and the target-specific layers on top.
-/

namespace Verif.Lookup

variable {α : Type}

/-! ## The specification says what visibility means -/

/-- Scope number `i` is in the visible part of the chain iff: for the global
visibility, always; for scope visibility, it is the scope itself; for project
(and target) visibility, no scope inside of it is a project root. -/
theorem visible_iff (v : Vis) (chain : List (Scope α)) (i : Nat) :
    i < (visible v chain).length ↔
      i < chain.length ∧
      (match v with
       | .prereq => False
       | .scope  => i = 0
       | .global => True
       | _       => ∀ j s, j < i → chain[j]? = some s → s.root = false) := by
  induction chain generalizing i with
  | nil => rw [visible_nil]; simp
  | cons s l ih =>
    by_cases hv : v = .prereq
    · subst hv; simp [visible]
    · rw [visible_cons v s l hv]
      have hpt : (∀ j x, j < i → (s :: l)[j]? = some x → x.root = false) ↔
          i = 0 ∨ (s.root = false ∧ ∀ j x, j < i - 1 → l[j]? = some x → x.root = false) := by
        constructor
        · intro h
          by_cases hi : i = 0
          · exact .inl hi
          · refine .inr ⟨h 0 s (by omega) rfl, fun j x hj hx => h (j + 1) x (by omega) (by simpa using hx)⟩
        · rintro (rfl | ⟨h0, h⟩) j x hj hx
          · omega
          · cases j with
            | zero => simp at hx; exact hx ▸ h0
            | succ j => exact h j x (by omega) (by simpa using hx)
      cases v with
      | prereq => exact absurd rfl hv
      | scope => simp [goesOn]; omega
      | global =>
        have h1 := ih (i - 1)
        simp [goesOn] at h1 ⊢
        omega
      | project =>
        simp only [hpt]
        cases hr : s.root with
        | true => simp [goesOn, hr]; omega
        | false =>
          have h1 := ih (i - 1)
          simp only [goesOn, hr, Bool.not_false, if_true, List.length_cons] at h1 ⊢
          by_cases hi : i = 0
          · subst hi; simp
          · have e : i < (visible Vis.project l).length + 1 ↔
                i - 1 < (visible Vis.project l).length := by omega
            rw [e, h1]
            constructor
            · rintro ⟨a, b⟩; exact ⟨by omega, .inr ⟨by simp, b⟩⟩
            · rintro ⟨a, b | ⟨_, b⟩⟩
              · exact absurd b hi
              · exact ⟨by omega, b⟩
      | target =>
        simp only [hpt]
        cases hr : s.root with
        | true => simp [goesOn, hr]; omega
        | false =>
          have h1 := ih (i - 1)
          simp only [goesOn, hr, Bool.not_false, if_true, List.length_cons] at h1 ⊢
          by_cases hi : i = 0
          · subst hi; simp
          · have e : i < (visible Vis.target l).length + 1 ↔
                i - 1 < (visible Vis.target l).length := by omega
            rw [e, h1]
            constructor
            · rintro ⟨a, b⟩; exact ⟨by omega, .inr ⟨by simp, b⟩⟩
            · rintro ⟨a, b | ⟨_, b⟩⟩
              · exact absurd b hi
              · exact ⟨by omega, b⟩

/-! ## Scope lookup -/

theorem denote_nil (chain : List (Scope α)) : denote chain [] = none := by rw [denote]

/-- **C31.** The value comes from the first place, in the documented order, in
which one is set, and it is the value of that place combined with those after it
as documented. In particular there is no value iff nothing is set in any of the
visible places. -/
theorem lookup_spec (v : Vis) {ks : List Who} (hk : Keys ks) (chain : List (Scope α)) :
    (lookupScope v .none ks chain).1.map (·.place) =
      (places v ks chain).find? (fun p => (setAt chain p).isSome) ∧
    (lookupScope v .none ks chain).1.map (·.val) = denote chain (places v ks chain) := by
  unfold lookupScope
  by_cases hv : v = .prereq
  · subst hv
    rw [if_pos (by decide)]
    unfold places
    rw [visible_prereq]
    refine ⟨rfl, ?_⟩
    show none = denote chain []
    rw [denote_nil]
  · rw [if_neg (by simpa using hv)]
    have h := (loop_place hv (limit := .none) hk chain []).1
    constructor
    · simpa [limited, places] using h
    · rw [loop_value v hk chain 0 0, value_denote hv chain [] ks hk.sorted]
      rfl

/-- A value that is assigned (rather than prepended/appended) is returned as is. -/
theorem lookup_assigned (v : Vis) {ks : List Who} (hk : Keys ks) (chain : List (Scope α))
    (r : Res α) (hr : (lookupScope v .none ks chain).1 = some r) (x : Val α)
    (hx : setAt chain r.place = some ⟨.assign, x⟩) : r.val = x := by
  obtain ⟨h1, h2⟩ := lookup_spec v hk chain
  rw [hr] at h1 h2
  simp only [Option.map_some] at h1 h2
  have h1' := h1.symm
  have key : ∀ ps : List Place,
      ps.find? (fun p => (setAt chain p).isSome) = some r.place →
      denote chain ps = some x := by
    intro ps
    induction ps with
    | nil => intro h; simp at h
    | cons p ps ih =>
      intro h
      rw [denote]
      rw [List.find?_cons] at h
      cases hp : setAt chain p with
      | none => rw [hp] at h; exact ih h
      | some t =>
        rw [hp] at h
        simp only [Option.isSome_some, Option.some.injEq] at h
        rw [h, hx] at hp
        cases hp
        rfl
  rw [key _ h1'] at h2
  exact Option.some.inj h2

/-- A plain value that has been set in the innermost scope, even to NULL, hides
everything outside of it (in the absence of type/pattern-specific values). -/
theorem plain_hides (v : Vis) (hv : v ≠ .prereq) (hv' : v ≠ .target) (s : Scope α)
    (l : List (Scope α)) (x : Val α) (hs : s.plain = some x) :
    (lookupScope v .none [] (s :: l)).1 = some ⟨x, ⟨0, none⟩⟩ := by
  simp [lookupScope, loop, specificIn, plainOf, hv, hv', hs]

/-- **C31.** Nothing outside the visible scopes has any effect: if two scope
chains have the same visible part then every lookup gives the same result. -/
theorem lookup_noninterference (v : Vis) (limit : Limit) (ks : List Who)
    (chain chain' : List (Scope α)) (h : visible v chain = visible v chain') :
    lookupScope v limit ks chain = lookupScope v limit ks chain' := by
  unfold lookupScope
  by_cases hv : v = .prereq
  · subst hv; rfl
  · rw [if_neg (by simpa using hv), if_neg (by simpa using hv),
      loop_visible v hv limit ks chain, loop_visible v hv limit ks chain', h]

/-- With a limit only the type/pattern-specific places (if the limit is the target
types) are considered for where the value comes from. -/
theorem lookup_limit (v : Vis) (limit : Limit) {ks : List Who} (hk : Keys ks)
    (chain : List (Scope α)) :
    (lookupScope v limit ks chain).1.map (·.place) =
      (limited limit (places v ks chain)).find? (fun p => (setAt chain p).isSome) := by
  unfold lookupScope
  by_cases hv : v = .prereq
  · subst hv
    have : limited limit (places Vis.prereq ks chain) = [] := by
      unfold limited places; rw [visible_prereq]; split <;> rfl
    rw [this]; rfl
  · rw [if_neg (by simpa using hv)]
    simpa [places] using (loop_place hv (limit := limit) hk chain []).1

/-- The depth is that of the place (`depthOf`), so that comparing depths compares
the order in which the places are tried. -/
theorem lookup_depth (v : Vis) (hv : v ≠ .prereq) (limit : Limit) {ks : List Who}
    (hk : Keys ks) (chain : List (Scope α)) :
    (lookupScope v limit ks chain).2 =
      depthRes ks (lookupScope v limit ks chain).1 := by
  unfold lookupScope
  rw [if_neg (by simpa using hv)]
  simpa using (loop_place hv (limit := limit) hk chain []).2

/-! Witnesses. Three scopes: a directory, the project root, and the global scope.
The directory appends `3` for the group, the root appends `2` for the target and
assigns `1`; the global scope has a plain `0`. -/

/-- A directory scope. -/
def exDir : Scope Nat :=
  { specific := fun w => if w = .group then some ⟨.append, some [3]⟩ else none
    plain := none, root := false }

/-- A project root scope. -/
def exRoot : Scope Nat :=
  { specific := fun w =>
      match w with
      | .target => some ⟨.append, some [2]⟩
      | .group => some ⟨.prepend, some [7]⟩
      | .group2 => none
    plain := some (some [1]), root := true }

/-- The global scope. -/
def exGlobal : Scope Nat :=
  { specific := fun _ => none, plain := some (some [0]), root := false }

example : lookupScope .global .none [.target, .group] [exDir, exRoot, exGlobal] =
    (some ⟨some [7, 1, 3], ⟨0, some .group⟩⟩, .d 2) := by decide

example : (lookupScope .project .none [.target] [exDir, exRoot, exGlobal]) =
    (some ⟨some [1, 2], ⟨1, some .target⟩⟩, .d 4) := by decide

example : (lookupScope .global .none [] [exDir, exGlobal]) =
    (some ⟨some [0], ⟨1, none⟩⟩, .d 2) := by decide

example : (lookupScope .scope .none [] [exDir, exRoot]) = (none, .max) := by decide

example : visible .project [exDir, exRoot, exGlobal] =
    visible .project [exDir, exRoot, exDir] := rfl

example : Keys [.target, .group] := .inr (.inr (.inl rfl))

example : places .project [.target] [exDir, exRoot, exGlobal] =
    [⟨0, some .target⟩, ⟨0, none⟩, ⟨1, some .target⟩, ⟨1, none⟩] := by decide

/-! ## Target and rule-specific values -/

/-- A (non-NULL) rule-specific value hides everything else, a target-specific one
everything but that, a group-specific one everything but these, and otherwise the
value is that of the scope lookup on behalf of the target and its group. -/
theorem lookup_layers (v : Vis) (limit : Limit) (hl : limit ≠ .target)
    (rule : Option (Val α)) (t : Tgt α) (chain : List (Scope α)) :
    (lookupRule v limit rule t chain).1.map (·.val) =
      ([rule, t.own, t.group.join].find? truthy).getD
        ((lookupScope v limit (if t.group.isSome then [.target, .group] else [.target])
          chain).1.map (·.val)) := by
  obtain ⟨own, group⟩ := t
  have key : (lookupTarget v limit ⟨own, group⟩ chain).1.map (·.val) =
      ([own, group.join].find? truthy).getD
        ((lookupScope v limit (if group.isSome then [.target, .group] else [.target])
          chain).1.map (·.val)) := by
    rcases own with _ | _ | o <;> rcases group with _ | _ | _ | g <;>
      simp [lookupTarget, delegate, hl, truthy, TRes.val, Tgt.keys, List.find?_cons,
        Function.comp_def]
  rcases rule with _ | _ | x
  · simp only [lookupRule, List.find?_cons, truthy] at key ⊢; exact key
  · simp only [lookupRule, List.find?_cons, truthy] at key ⊢; exact key
  · simp [lookupRule, TRes.val, List.find?_cons, truthy]

/-- Unlike in a scope (`plain_hides`), setting a target-specific (or group- or
rule-specific) variable to NULL has no effect on the lookup: it is the same as not
setting it at all. -/
theorem target_null_transparent (v : Vis) (limit : Limit) (hl : limit ≠ .target)
    (g : Option (Option (Val α))) (chain : List (Scope α)) :
    lookupTarget v limit ⟨some none, g⟩ chain = lookupTarget v limit ⟨none, g⟩ chain := by
  rcases g with _ | _ | _ | g <;> simp [lookupTarget, delegate, hl, Tgt.keys]

/-- Where a target lookup ends up: with a value from a scope being NULL the depth
is not offset, and thus the same as if it were a target-specific value. This is
an inconsistency in the code: the depth 1 means "target-specific" to
`scope::lookup_override_info`. -/
theorem null_depth_not_offset :
    ∃ (chain : List (Scope Nat)) (t : Tgt Nat),
      lookupTarget .global .none t chain = (some (.scope ⟨none, ⟨0, some .target⟩⟩), .d 1) :=
  ⟨[{ specific := fun _ => some ⟨.assign, none⟩, plain := none, root := true }],
   ⟨none, none⟩, by decide⟩

/-- The depth for where the value of a target lookup came from: the target and the
group are before the scopes. -/
def depthT (ks : List Who) : TRes α → Depth
  | .rule _   => .d 0
  | .target _ => .d 1
  | .group _  => .d 2
  | .scope s  => .d (2 + depthOf ks s.place)

/-- For non-NULL values the depth does identify where the value came from. -/
theorem target_depth (v : Vis) (hv : v ≠ .prereq) (limit : Limit) (hl : limit ≠ .target)
    (t : Tgt α) (chain : List (Scope α)) (r : TRes α) (d : Depth)
    (h : lookupTarget v limit t chain = (some r, d)) (hn : r.val ≠ none) :
    d = depthT t.keys r := by
  obtain ⟨own, group⟩ := t
  have hd : ∀ (own : Option (Val α)), delegate v limit ⟨own, group⟩ chain = (some r, d) →
      d = depthT (Tgt.keys ⟨own, group⟩) r := by
    intro own h
    have hk : Keys (Tgt.keys ⟨own, group⟩) := by
      cases group with
      | none => exact .inr (.inl rfl)
      | some _ => exact .inr (.inr (.inl rfl))
    have := lookup_depth v hv limit hk chain
    unfold delegate at h
    rw [if_pos (by simpa using hl)] at h
    dsimp only at h
    cases hs : lookupScope v limit (Tgt.keys ⟨own, group⟩) chain with
    | mk a b =>
      rw [hs] at h this
      cases a with
      | none => simp at h
      | some s =>
        simp only [Option.map_some, Prod.mk.injEq, Option.some.injEq] at h
        obtain ⟨rfl, rfl⟩ := h
        simp only [TRes.val] at hn
        dsimp only at this ⊢
        rw [this]
        cases hx : s.val with
        | none => exact absurd hx hn
        | some y => rfl
  rcases own with _ | _ | o
  · rcases group with _ | _ | _ | g
    · exact hd none h
    · exact hd none h
    · exact hd none h
    · simp only [lookupTarget, Prod.mk.injEq, Option.some.injEq] at h
      obtain ⟨rfl, rfl⟩ := h; rfl
  · rcases group with _ | _ | _ | g
    · exact hd (some none) h
    · exact hd (some none) h
    · exact hd (some none) h
    · simp only [lookupTarget, Prod.mk.injEq, Option.some.injEq] at h
      obtain ⟨rfl, rfl⟩ := h; rfl
  · simp only [lookupTarget, Prod.mk.injEq, Option.some.injEq] at h
    obtain ⟨rfl, rfl⟩ := h; rfl

/-- The depth for where the value of a rule lookup came from: rule-specific variables
are before the target. -/
def depthR (ks : List Who) : TRes α → Depth
  | .rule _   => .d 1
  | .target _ => .d 2
  | .group _  => .d 3
  | .scope s  => .d (3 + depthOf ks s.place)

/-- The same for lookups on behalf of a rule. -/
theorem rule_depth (v : Vis) (hv : v ≠ .prereq) (limit : Limit) (hl : limit ≠ .target)
    (rule : Option (Val α)) (t : Tgt α) (chain : List (Scope α)) (r : TRes α) (d : Depth)
    (h : lookupRule v limit rule t chain = (some r, d)) (hn : r.val ≠ none) :
    d = depthR t.keys r := by
  have hrest : ∀ (h : ((lookupTarget v limit t chain).1,
      offset 1 ((lookupTarget v limit t chain).1.map (·.val)) (lookupTarget v limit t chain).2) =
        (some r, d)), d = depthR t.keys r := by
    intro h
    simp only [Prod.mk.injEq] at h
    obtain ⟨h1, h2⟩ := h
    have hd := target_depth v hv limit hl t chain r (lookupTarget v limit t chain).2
      (by rw [← h1]) hn
    rw [hd, h1] at h2
    have hnr : ∀ x, r ≠ .rule x := by
      rintro x rfl
      unfold lookupTarget delegate at h1
      rw [if_pos (by simpa using hl)] at h1
      obtain ⟨own, group⟩ := t
      rcases own with _ | _ | o <;> rcases group with _ | _ | _ | g <;> simp at h1
    obtain ⟨x, hx⟩ : ∃ x, r.val = some x := by
      cases hx : r.val with
      | none => exact absurd hx hn
      | some x => exact ⟨x, rfl⟩
    simp only [Option.map_some, hx] at h2
    rw [← h2]
    cases r with
    | rule x => exact absurd rfl (hnr x)
    | target x => rfl
    | group x => rfl
    | scope s => simp only [depthT, depthR, offset]; congr 1; omega
  rcases rule with _ | _ | x
  · exact hrest h
  · exact hrest h
  · simp only [lookupRule, Prod.mk.injEq, Option.some.injEq] at h
    obtain ⟨rfl, rfl⟩ := h; rfl

example : lookupRule .global .none none ⟨none, some (some (some [9]))⟩ [exDir, exRoot] =
    (some (.group (some [9])), .d 3) := by decide

example : lookupRule .global .none (some none) ⟨some none, some none⟩ [exDir, exRoot] =
    (some (.scope ⟨some [7, 1, 3], ⟨0, some .group⟩⟩), .d 5) := by decide

example : lookupTarget .project .targetType ⟨none, none⟩ [exDir, exRoot] =
    (some (.scope ⟨some [1, 2], ⟨1, some .target⟩⟩), .d 6) := by decide

end Verif.Lookup
