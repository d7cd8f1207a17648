import Verif.VarPattern.Lemmas

/-!
# Variable patterns: properties (C34)

The state after any sequence of successful insertions of variables and patterns
(`Run init ops s`, whatever shapes the tree of patterns takes): which pattern is
applied to a name and what attributes variables have.
-/

namespace Verif.VarPattern

/-! ## Matching -/

/-- `match_pattern` implements the documented meaning of a pattern. -/
theorem matches_iff (p : Pattern) (n : List Char) : p.matches n = true ↔ Matches p n :=
  matches_iff' p n

/-- A pattern of the given text, without attributes. -/
def pat (s : String) : Except Err Pattern := parse s.toList none none none true

/-- An unspecified pattern. -/
def nopat : Pattern := ⟨[], [], false, true, none, none, none⟩

/-- The pattern with the given text. -/
def pt (s : String) (t : Option (Option Nat) := none) (v : Option Vis := none)
    (must : Bool := true) : Pattern :=
  match parse s.toList t none v must with
  | .ok p => p
  | .error _ => nopat

example : pt "config.import.**" = ⟨"config.import.".toList, [], true, true, none, none, none⟩ := rfl
example : pt "**.build.loaded" = ⟨[], ".build.loaded".toList, true, true, none, none, none⟩ := rfl
example : pt "a.*.b" = ⟨"a.".toList, ".b".toList, false, true, none, none, none⟩ := rfl
example : pat "config" = .error .assert := rfl
example : pat "config*" = .error .assert := rfl
example : pat ".*" = .error .assert := rfl
example : pat "*x" = .error .assert := rfl
example : pat "*." = .error .assert := rfl
example : Matches (pt "a.*.b") "a.xy.b".toList := ⟨"xy".toList, by decide, by decide, by decide⟩
example : (pt "a.*.b").matches "a.x.y.b".toList = false := rfl
example : (pt "a.**.b").matches "a.x.y.b".toList = true := rfl
example : (pt "a.**.b").matches "a..b".toList = false := rfl
example : (pt "a.**.b").matches "a.b".toList = false := rfl

/-- The text of a pattern is parsed to its prefix and suffix: it is the prefix,
one or two stars and the suffix. A pattern other than `*` and `**` is in the
documented form. -/
theorem parse_spec {s : List Char} {t o v must} {p : Pattern}
    (h : parse s t o v must = .ok p) :
    s = p.pre ++ (if p.multi then ['*', '*'] else ['*']) ++ p.suf ∧
    '*' ∉ p.pre ∧
    p.type = t ∧ p.ovr = o ∧ p.vis = v ∧ p.must = must ∧
    (p.pre ≠ [] ∨ p.suf ≠ [] → Qualified p) := by
  unfold parse at h
  simp only at h
  split at h
  · cases h
  rename_i h1
  split at h
  · cases h
  rename_i h2
  split at h
  · cases h
  rename_i h3
  cases h
  simp only
  generalize hw : s.findIdx (· == '*') = w at *
  have hle : w ≤ s.length := hw ▸ List.findIdx_le_length
  have hlt : w < s.length := by simp at h1; omega
  have hstar : s[w] = '*' := by
    subst hw
    have := List.findIdx_getElem (w := hlt) (p := (· == '*')) (xs := s)
    simpa using this
  have hnot : '*' ∉ s.take w := by
    intro hm
    obtain ⟨i, hi, e⟩ := List.getElem_of_mem hm
    have hiw : i < w := by simp at hi; omega
    have := List.not_of_lt_findIdx (p := (· == '*')) (xs := s) (i := i) (hw ▸ hiw)
    simp at e
    simp [e] at this
  have hsplit : s = s.take w ++ '*' :: s.drop (w + 1) := by
    calc s = s.take w ++ s.drop w := (List.take_append_drop _ _).symm
      _ = _ := by rw [List.drop_eq_getElem_cons hlt, hstar]
  refine ⟨?_, hnot, trivial, trivial, trivial, trivial, ?_⟩
  · cases hm : (s[w + 1]? == some '*')
    · simp only [Bool.false_eq_true, if_false, stars]
      simpa using hsplit
    · simp only [if_true, stars]
      have hm' : s[w + 1]? = some '*' := by simpa using hm
      obtain ⟨h5, h6⟩ := List.getElem?_eq_some_iff.mp hm'
      have : s.drop (w + 1) = '*' :: s.drop (w + 2) := by
        rw [List.drop_eq_getElem_cons h5, h6]
      rw [this] at hsplit
      simpa using hsplit
  · intro hne
    refine ⟨hne, ?_, ?_⟩
    · intro hp
      have hw0 : w ≠ 0 := by
        intro e; rw [e] at hp; simp at hp
      simp [hw0] at h2
      obtain ⟨h5, h6⟩ := List.getElem?_eq_some_iff.mp h2.1
      refine ⟨s.take (w - 1), ?_⟩
      have : s.take (w - 1 + 1) = s.take (w - 1) ++ [s[w - 1]] :=
        (List.take_append_getElem h5).symm
      rw [show w - 1 + 1 = w by omega] at this
      show s.take w = _
      rw [this, h6]
    · intro hs
      show ∃ l, List.drop _ s = _
      cases hd : List.drop (w + stars (s[w + 1]? == some '*')) s with
      | nil => exact absurd hd hs
      | cons c l =>
        rw [hd] at h3
        simp at h3
        exact ⟨l, by rw [h3.1]⟩

example : ∃ p, parse "a.**.b".toList none none none true = .ok p ∧ p.multi = true :=
  ⟨_, rfl, rfl⟩

/-! ## The choice -/

/-- A variable is given the attributes of a pattern only if it matches it, and no
longer one does. This is so for all sets of patterns. -/
theorem longest {ops : List Op} {s : State} (h : Run init ops s) (n : List Char) :
    match find s.tree.toList n with
    | some p => p ∈ s.hist ∧ Matches p n ∧
        ∀ q ∈ s.hist, Matches q n → q.pre.length + q.suf.length ≤ p.pre.length + p.suf.length
    | none => '.' ∈ n → ∀ q ∈ s.hist, ¬ Matches q n := by
  have hi := inv_run h
  unfold find
  by_cases hd : n.contains '.' = true
  · simp only [hd, if_true]
    show match last s.tree.toList n with | some p => _ | none => _
    cases hl : last s.tree.toList n with
    | none =>
      intro _ q hq
      have := last_none.mp hl q ((hi.perm q).mpr hq)
      rw [← matches_iff', this]
      simp
    | some p =>
      have h1 := last_some hl
      refine ⟨(hi.perm p).mp h1.1, (matches_iff' _ _).mp h1.2, ?_⟩
      intro q hq hqm
      have hq' := (hi.perm q).mpr hq
      rw [← matches_iff'] at hqm
      -- p is the last matching
      have hl2 : s.tree.toList.reverse.find? (·.matches n) = some p := hl
      rw [List.find?_eq_some_iff_append] at hl2
      obtain ⟨_, as, bs, e, hno⟩ := hl2
      have e2 : s.tree.toList = bs.reverse ++ [p] ++ as.reverse := by
        have := congrArg List.reverse e
        simpa using this
      have hlen := hi.len
      rw [e2] at hq' hlen
      simp only [List.append_assoc, List.mem_append, List.mem_reverse, List.mem_singleton] at hq'
      rcases hq' with hq' | rfl | hq'
      · rw [List.pairwise_append, List.pairwise_append] at hlen
        exact hlen.1.2.2 q (by simpa using hq') p (by simp)
      · exact Nat.le_refl _
      · have := hno q hq'
        simp [hqm] at this
  · simp only [hd]
    intro hm
    simp at hd
    exact absurd hm hd

/-- The full claim, for sets of patterns that do not have a `*`/`**` pair with the
same prefix and suffix together with a different pattern of the same length: the
pattern applied is the most specific in the documented order, with ties resolved
in favour of the one inserted last. -/
theorem most_specific_partial {ops : List Op} {s : State} (h : Run init ops s)
    (hs : Separated s.hist) {n : List Char} (hn : '.' ∈ n) (p : Pattern) :
    find s.tree.toList n = some p ↔ Best s.hist n p := by
  have hi := inv_run h
  have hb := bestOf_best hs n
  have he : find s.tree.toList n = bestOf n s.hist none := by
    rw [← hi.best hs n]
    unfold find
    rw [if_pos (by simpa using hn)]
    rfl
  rw [he]
  cases hbo : bestOf n s.hist none with
  | none =>
    rw [hbo] at hb
    constructor
    · intro h; cases h
    · rintro ⟨a, b, e, hm, _, _⟩
      exact absurd hm (hb p (by rw [e]; simp))
  | some q =>
    rw [hbo] at hb
    constructor
    · intro h; cases h; exact hb
    · intro h; rw [best_unique' hb h]

/-- The documented choice is unique. -/
theorem best_unique {h : List Pattern} {n : List Char} {p q : Pattern}
    (hp : Best h n p) (hq : Best h n q) : p = q :=
  best_unique' hp hq

/-- A tree of one element. -/
abbrev one (p : Pattern) : Tree := .node .leaf p .leaf

/-- The patterns entered by the constructor of `context`
(libbuild2/context.cxx:630-697), all but their types, visibility and so on. -/
def builtin : List Pattern :=
  [pt "config.**" none (some .global) false,
   pt "config.**.build.configured" (some (some 1)) (some .project),
   pt "config.import.*" (some (some 2)) (some .global),
   pt "config.import.**" (some (some 3)) (some .global),
   pt "**.build.booted" (some (some 1)) (some .project),
   pt "**.build.loaded" (some (some 1)) (some .project),
   pt "**.build.configured" (some (some 1)) (some .project)]

instance (p q : Pattern) : Decidable (MoreSpecific p q) :=
  inferInstanceAs (Decidable (_ ∨ _))

instance (h : List Pattern) : Decidable (Separated h) :=
  inferInstanceAs (Decidable (∀ p ∈ h, ∀ q ∈ h, _ → _ → _ → ∀ r ∈ h, _ → _))

/-- The hypothesis is met by the patterns entered by the build system itself. -/
theorem builtin_separated : Separated builtin := by decide

/-- The relation used to order the set of patterns is not an order, as the
container requires: `a.**` is less than `a.*`, but `b.*` is equivalent to both. -/
theorem not_weak_order :
    ∃ x y z : Pattern, lt x z = true ∧ lt x y = false ∧ lt y x = false ∧
      lt y z = false ∧ lt z y = false :=
  ⟨pt "a.**", pt "b.*", pt "a.*", rfl, rfl, rfl, rfl, rfl⟩

/-- The full claim is false of the code: after `a.*`, `b.*`, `c.*` and `a.**` are
inserted (the tree is balanced after the third insertion), `a.**` is applied to
`a.x` although `a.*` is more specific. -/
theorem less_specific_wins :
    ∃ ops s p, Run init ops s ∧ find s.tree.toList "a.x".toList = some p ∧
      ∃ q ∈ s.hist, Matches q "a.x".toList ∧ MoreSpecific q p :=
  ⟨[.pattern (pt "a.*") false, .pattern (pt "b.*") false,
    .pattern (pt "c.*") false, .pattern (pt "a.**") false],
   ⟨[pt "a.*", pt "b.*", pt "c.*", pt "a.**"],
    .node (one (pt "a.*")) (pt "b.*") (.node .leaf (pt "c.*") (one (pt "a.**"))), []⟩,
   pt "a.**",
   .snoc (ops := [_, _, _])
     (t := ⟨[pt "a.*", pt "b.*", pt "c.*"],
            .node (one (pt "a.*")) (pt "b.*") (one (pt "c.*")), []⟩)
     (.snoc (ops := [_, _])
       (t := ⟨[pt "a.*", pt "b.*"], .node .leaf (pt "a.*") (one (pt "b.*")), []⟩)
       (.snoc (ops := [_]) (t := ⟨[pt "a.*"], one (pt "a.*"), []⟩)
         (.snoc (ops := []) .nil (.pattern rfl rfl))
         (.pattern rfl rfl))
       (.pattern rfl rfl))
     (.pattern rfl rfl),
   rfl, pt "a.*", by decide, ⟨"x".toList, rfl, by decide, by decide⟩, by decide⟩

/-- The documented order itself does not always determine a choice: of `a.*`,
`**.b` and `a.**`, inserted in this order, each has another one that is to be
tried before it. -/
theorem documented_order_is_cyclic :
    let h := [pt "a.*", pt "**.b", pt "a.**"]
    (∀ p ∈ h, Matches p "a.b".toList) ∧ ∀ p, ¬ Best h "a.b".toList p := by
  intro h
  have h1 : Matches (pt "a.*") "a.b".toList := ⟨"b".toList, rfl, by decide, by decide⟩
  have h2 : Matches (pt "**.b") "a.b".toList := ⟨"a".toList, rfl, by decide, by decide⟩
  have h3 : Matches (pt "a.**") "a.b".toList := ⟨"b".toList, rfl, by decide, by decide⟩
  refine ⟨?_, ?_⟩
  · intro p hp
    simp only [h, List.mem_cons, List.not_mem_nil, or_false] at hp
    rcases hp with rfl | rfl | rfl <;> assumption
  · rintro p ⟨a, b, e, _, ha, hb⟩
    match a, e with
    | [], e =>
      simp only [h, List.nil_append, List.cons.injEq] at e
      obtain ⟨rfl, rfl⟩ := e
      exact absurd (hb _ (by simp) h2) (by decide)
    | [_], e =>
      simp only [h, List.cons_append, List.nil_append, List.cons.injEq] at e
      obtain ⟨_, rfl, rfl⟩ := e
      exact absurd (hb _ (by simp) h3) (by decide)
    | [_, _], e =>
      simp only [h, List.cons_append, List.nil_append, List.cons.injEq] at e
      obtain ⟨rfl, _, rfl, _⟩ := e
      exact absurd (by decide : MoreSpecific (pt "a.*") (pt "a.**")) (ha _ (by simp) h1)
    | _ :: _ :: _ :: _, e =>
      simp [h] at e

/-! ## The attributes -/

/-- One of the calls for which the attributes are determined by the patterns
alone: a variable is inserted without a type and visibility, a pattern is
inserted retrospectively, or an override is entered. -/
def Plain : Op → Prop
  | .var _ t v _ pat => t = none ∧ v = none ∧ pat = true
  | .pattern p retro => retro = true ∧ Qualified p
  | .override _ => True

/-- The attributes given by `q` are also given, perhaps differently, by `p`. -/
def Covers (p q : Pattern) : Prop :=
  (p.type.join = none → q.type.join = none) ∧
  (p.vis = none → q.vis.getD .project = .project)

/-- More specific patterns are inserted first ("so if you use this functionality,
watch out for the insertion order") or, if not, they give all the attributes that
the less specific ones have given. -/
def Compatible (h : List Pattern) : Prop :=
  ∀ a p b, h = a ++ p :: b → ∀ q ∈ a, ∀ n, Matches q n → Matches p n →
    MoreSpecific q p ∨ Covers p q

theorem compatible_sub {a b : List Pattern} (h : Compatible (a ++ b)) : Compatible a := by
  intro x p y e q hq n h1 h2
  exact h x p (y ++ b) (by rw [e]; simp) q hq n h1 h2

/-- The invariant of the next theorem. -/
theorem attrs_step {s t : State} {op : Op} (hst : Step s op t) (hinv : Inv s)
    (hp : Plain op) (hq : ∀ p ∈ s.hist, Qualified p) (hs : Separated t.hist)
    (hc : Compatible t.hist)
    (ih : ∀ v ∈ s.vars, (v.type, v.vis) = attrsOf (last s.tree.toList v.name)) :
    ∀ v ∈ t.vars, (v.type, v.vis) = attrsOf (last t.tree.toList v.name) := by
  cases hst with
  | override =>
    intro v hv
    simp at hv
    obtain ⟨w, hw, e⟩ := hv
    have := ih w hw
    split at e <;> (subst e; exact this)
  | @var vs n t' v' o pat' e =>
    obtain ⟨rfl, rfl, rfl⟩ := hp
    have hfind : find s.tree.toList n = last s.tree.toList n := by
      unfold find
      split
      · rfl
      · rename_i hd
        symm
        rw [last_none]
        intro p hpm
        rw [Bool.eq_false_iff]
        intro hm
        exact hd (qualified_dot (hq p ((hinv.perm p).mp hpm)) ((matches_iff' _ _).mp hm))
    unfold insertVar at e
    simp only [if_true, hfind] at e
    split at e
    · cases e
    rename_i m hm
    have hm' : m.1 = (attrsOf (last s.tree.toList n)).1 ∧
        m.2.1.getD .project = (attrsOf (last s.tree.toList n)).2 ∧
        (∀ x, m.2.1 = some x → x = (attrsOf (last s.tree.toList n)).2) := by
      cases hl : last s.tree.toList n with
      | none => rw [hl] at hm; simp only [mergeOpt] at hm; cases hm; simp [attrsOf]
      | some p =>
        rw [hl] at hm
        simp only [mergeOpt, merge] at hm
        split at hm
        · rename_i t1 v1 o1 ht hv _
          cases hm
          have e1 : t1 = p.type.join := by
            unfold mergeType at ht
            cases hpt : p.type <;> rw [hpt] at ht <;> simp at ht <;> simp [← ht]
          have e2 : v1 = p.vis := by
            unfold mergeVis at hv
            cases hpv : p.vis <;> rw [hpv] at hv <;> simp at hv <;> simp [← hv]
          simp only [attrsOf, Pattern.attrs, e1, e2]
          refine ⟨trivial, trivial, ?_⟩
          intro x hx; rw [hx]; rfl
        · cases hm
    split at e
    · cases e
      intro v hv
      simp at hv
      rcases hv with hv | rfl
      · exact ih v hv
      · simp only [hm'.1, hm'.2.1]
    · rename_i var hvar
      have hvm := List.mem_of_find?_eq_some hvar
      have hvn : var.name = n := by simpa using List.find?_some hvar
      have hva := ih var hvm
      rw [hvn] at hva
      split at e
      · cases e
      rename_i m2 hm2
      have hm2' : (m2.1 = none ∨ m2.1 = var.type) ∧ (∀ x, m2.2.1 = some x → x = var.vis) := by
        cases hl : last s.tree.toList n with
        | none =>
          rw [hl] at hm2 hm' hva
          simp only [remerge] at hm2
          cases hm2
          rw [← hva] at hm'
          exact ⟨.inr hm'.1, hm'.2.2⟩
        | some p =>
          rw [hl] at hm2 hm' hva
          simp only [remerge] at hm2
          split at hm2
          · cases hm2
            rw [← hva] at hm'
            exact ⟨.inr hm'.1, hm'.2.2⟩
          · rename_i hmust
            simp only [merge] at hm2
            split at hm2
            · rename_i t1 v1 o1 ht hv _
              cases hm2
              constructor
              · right
                simp only [attrsOf, Pattern.attrs, Prod.mk.injEq] at hva
                unfold mergeType at ht
                cases hpt : p.type with
                | none => rw [hpt] at ht; simp at ht; exact ht.symm
                | some x =>
                  rw [hpt] at ht hva
                  simp [hmust] at ht
                  split at ht
                  · rename_i hnone
                    cases ht; simp at hva; rw [hva.1]
                  · cases ht; rfl
              · intro x hx
                unfold mergeVis at hv
                cases hpv : p.vis with
                | none => rw [hpv] at hv; simp at hv; rw [← hv] at hx; simpa using hx.symm
                | some y =>
                  rw [hpv] at hv
                  simp [hmust] at hv
                  rw [← hv] at hx; simpa using hx.symm
            · cases hm2
      split at e
      · cases e
      rename_i w hw
      have hu := update_attrs hw
      cases e
      intro v hv
      simp only [replace, List.mem_map] at hv
      obtain ⟨y, hy, ey⟩ := hv
      split at ey
      · subst ey
        rw [hu.1, hvn, ← hva, hu.2.1, hu.2.2]
        congr 1
        · rcases hm2'.1 with h1 | h1 <;> rw [h1] <;> simp
        · cases h2 : m2.2.1 with
          | none => rfl
          | some x => exact hm2'.2 x h2
      · subst ey; exact ih y hy
  | @pattern p retro tree vs e er =>
    obtain ⟨rfl, hqp⟩ := hp
    simp only [if_true] at er
    have hcat := insertAt_toList p s.tree
    have hlt := insertAt_lt hs p (by simp) s.tree
      (fun y hy => by have := (hinv.perm y).mp hy; simp [this]) (hinv.ord (separated_sub hs))
    intro v hv
    obtain ⟨w, hw, e1⟩ := retroAll_mem er hv
    have hwa := ih w hw
    show _ = attrsOf (last tree.toList v.name)
    have hlast : ∀ n, last tree.toList n =
        (last (s.tree.insertAt p).2 n).or
          ((if p.matches n then some p else none).or (last (s.tree.insertAt p).1 n)) := by
      intro n
      rw [e, last_append, last_cons]
      cases last (s.tree.insertAt p).2 n <;> simp
    have hlast0 : ∀ n, last s.tree.toList n =
        (last (s.tree.insertAt p).2 n).or (last (s.tree.insertAt p).1 n) := by
      intro n
      rw [← hcat, last_append]
    unfold retroOne at e1
    split at e1
    · rename_i hmt
      split at e1
      · rename_i hany
        cases e1
        rw [hlast, hwa, hlast0]
        cases hl : last (s.tree.insertAt p).2 v.name with
        | some q => rfl
        | none =>
          have := last_none.mp hl
          simp at hany
          obtain ⟨q, hq1, hq2⟩ := hany
          rw [this q hq1] at hq2; cases hq2
      · rename_i hany
        have hu := update_attrs e1
        rw [hlast, hu.1, hu.2.1, hu.2.2]
        have hnone : last (s.tree.insertAt p).2 w.name = none := by
          rw [last_none]
          intro q hq'
          simp at hany
          exact hany q hq'
        rw [hnone, if_pos hmt]
        rw [hlast0, hnone] at hwa
        simp only [Option.none_or, Option.some_or] at hwa ⊢
        simp only [attrsOf, Pattern.attrs]
        cases hla : last (s.tree.insertAt p).1 w.name with
        | none =>
          rw [hla] at hwa
          simp only [attrsOf, Prod.mk.injEq] at hwa
          rw [hwa.1, hwa.2]; simp
        | some q =>
          rw [hla] at hwa
          have hq2 := last_some hla
          have hqh : q ∈ s.hist := (hinv.perm q).mp (by rw [← hcat]; simp [hq2.1])
          have hcov := (hc s.hist p [] rfl q hqh w.name ((matches_iff' _ _).mp hq2.2)
            ((matches_iff' _ _).mp hmt)).resolve_left
              (fun hms => hlt.1 q hq2.1 ((lt_iff _ _).mpr hms))
          simp only [attrsOf, Pattern.attrs, Prod.mk.injEq] at hwa
          congr 1
          · cases hpt : p.type.join with
            | some x => rfl
            | none => rw [hwa.1, hcov.1 hpt]; rfl
          · cases hpv : p.vis with
            | some x => rfl
            | none => simp only [Option.getD_none]; rw [hwa.2, hcov.2 hpv]
    · rename_i hmt
      cases e1
      rw [hlast, hwa, hlast0]
      simp [hmt]

/-- Whenever the variables and the patterns are inserted, the type and visibility
of every variable are those of the most specific pattern it matches, or none and
project if there is none. -/
theorem attributes_partial {ops : List Op} {s : State} (h : Run init ops s)
    (hp : ∀ op ∈ ops, Plain op) (hs : Separated s.hist) (hc : Compatible s.hist)
    (v : Var) (hv : v ∈ s.vars) :
    (∀ p, Best s.hist v.name p → (v.type, v.vis) = p.attrs) ∧
    ((∀ p ∈ s.hist, ¬ Matches p v.name) → (v.type, v.vis) = (none, .project)) := by
  have key : (∀ p ∈ s.hist, Qualified p) ∧
      ∀ v ∈ s.vars, (v.type, v.vis) = attrsOf (last s.tree.toList v.name) := by
    clear hv v
    induction h with
    | nil => simp [init]
    | @snoc t u ops op hr hst ih =>
      have hsub : ∃ l, u.hist = t.hist ++ l := by
        cases hst with
        | var _ => exact ⟨[], by simp⟩
        | pattern _ _ => exact ⟨_, rfl⟩
        | override => exact ⟨[], by simp⟩
      obtain ⟨l, hl⟩ := hsub
      have ih' := ih (fun o ho => hp o (by simp [ho]))
        (separated_sub (hl ▸ hs)) (compatible_sub (hl ▸ hc))
      have hpo := hp op (by simp)
      refine ⟨?_, attrs_step hst (inv_run hr) hpo ih'.1 hs hc ih'.2⟩
      cases hst with
      | var _ => exact ih'.1
      | override => exact ih'.1
      | pattern _ _ =>
        intro q hq
        simp at hq
        rcases hq with hq | rfl
        · exact ih'.1 q hq
        · exact hpo.2
  have hi := inv_run h
  have hb := bestOf_best hs v.name
  have ha := key.2 v hv
  rw [hi.best hs] at ha
  constructor
  · intro p hbp
    rw [ha]
    cases hbo : bestOf v.name s.hist none with
    | none =>
      rw [hbo] at hb
      obtain ⟨a, b, e, hm, _, _⟩ := hbp
      exact absurd hm (hb p (by rw [e]; simp))
    | some q =>
      rw [hbo] at hb
      rw [best_unique' hbp hb]; rfl
  · intro hno
    rw [ha]
    cases hbo : bestOf v.name s.hist none with
    | none => rfl
    | some q =>
      rw [hbo] at hb
      obtain ⟨a, b, e, hm, _, _⟩ := hb
      exact absurd hm (hno q (by rw [e]; simp))

/-- So it does not matter when the variables are inserted: after any two histories
with the same patterns, a variable has the same attributes. -/
theorem order_irrelevant_partial {ops ops' : List Op} {s s' : State}
    (h : Run init ops s) (h' : Run init ops' s')
    (hp : ∀ op ∈ ops, Plain op) (hp' : ∀ op ∈ ops', Plain op) (he : s.hist = s'.hist)
    (hs : Separated s.hist) (hc : Compatible s.hist)
    (v v' : Var) (hv : v ∈ s.vars) (hv' : v' ∈ s'.vars) (hn : v.name = v'.name) :
    v.type = v'.type ∧ v.vis = v'.vis := by
  have a := attributes_partial h hp hs hc v hv
  have b := attributes_partial h' hp' (he ▸ hs) (he ▸ hc) v' hv'
  rw [← he, ← hn] at b
  have hb := bestOf_best hs v.name
  cases hbo : bestOf v.name s.hist none with
  | none =>
    rw [hbo] at hb
    have := (a.2 hb).trans (b.2 hb).symm
    exact Prod.mk.inj this
  | some q =>
    rw [hbo] at hb
    exact Prod.mk.inj ((a.1 q hb).trans (b.1 q hb).symm)

/-- Two histories that meet the hypotheses: the variable is inserted before both
patterns, and between them. -/
example :
    let p := pt "c.i.*" (some (some 2)) (some .scope)
    let q := pt "c.**" none (some .scope)
    let x := "c.i.x".toList
    (∃ s, Run init [.var x none none none true, .pattern q true, .pattern p true] s ∧
      s.vars = [⟨x, some 2, .scope, false⟩]) ∧
    (∃ s, Run init [.pattern q true, .var x none none none true, .pattern p true] s ∧
      s.vars = [⟨x, some 2, .scope, false⟩]) ∧
    Separated [q, p] ∧ Compatible [q, p] := by
  refine ⟨⟨⟨[_, _], .node .leaf _ (one _), _⟩,
      .snoc (ops := [_, _])
        (.snoc (ops := [_]) (.snoc (ops := []) .nil (.var rfl))
          (.pattern (tree := one _) rfl rfl)) (.pattern rfl rfl), rfl⟩,
    ⟨⟨[_, _], .node .leaf _ (one _), _⟩,
      .snoc (ops := [_, _])
        (.snoc (ops := [_]) (.snoc (ops := []) .nil (.pattern (tree := one _) rfl rfl))
          (.var rfl)) (.pattern rfl rfl), rfl⟩, by decide, ?_⟩
  intro a p b e q hq n _ _
  match a, e with
  | [], _ => cases hq
  | [_], e =>
    simp only [List.cons_append, List.nil_append, List.cons.injEq] at e
    obtain ⟨rfl, rfl, _⟩ := e
    simp at hq
    subst hq
    exact .inr ⟨by decide, by decide⟩
  | _ :: _ :: _, e => simp at e

/-- A hypothesis on the order is necessary: if the less specific `c.**` is
inserted first, then a variable that exists gets its type even though the more
specific `c.i.*` (which does not give a type) is the one to be used, and one that
is inserted later does not. -/
theorem entry_order_matters :
    let p := pt "c.i.*" none (some .scope)
    let q := pt "c.**" (some (some 2)) none
    let x := "c.i.x".toList
    (∃ s, Run init [.var x none none none true, .pattern q true, .pattern p true] s ∧
      s.vars = [⟨x, some 2, .scope, false⟩]) ∧
    (∃ s, Run init [.pattern q true, .pattern p true, .var x none none none true] s ∧
      s.vars = [⟨x, none, .scope, false⟩]) :=
  ⟨⟨⟨[_, _], .node .leaf _ (one _), _⟩,
      .snoc (ops := [_, _])
        (.snoc (ops := [_]) (.snoc (ops := []) .nil (.var rfl))
          (.pattern (tree := one _) rfl rfl)) (.pattern rfl rfl), rfl⟩,
    ⟨⟨[_, _], .node .leaf _ (one _), _⟩,
      .snoc (ops := [_, _])
        (.snoc (ops := [_]) (.snoc (ops := []) .nil (.pattern (tree := one _) rfl rfl))
          (.pattern rfl rfl)) (.var rfl), rfl⟩⟩

/-- `**` is said not to match unqualified variables, but when applied
retrospectively it does. -/
theorem unqualified_retro :
    let p := pt "**" (some (some 2)) none
    let x := "x".toList
    (∃ s, Run init [.var x none none none true, .pattern p true] s ∧
      s.vars = [⟨x, some 2, .project, false⟩]) ∧
    (∃ s, Run init [.pattern p true, .var x none none none true] s ∧
      s.vars = [⟨x, none, .project, false⟩]) :=
  ⟨⟨⟨[_], one _, _⟩,
      .snoc (ops := [_]) (.snoc (ops := []) .nil (.var rfl)) (.pattern rfl rfl), rfl⟩,
    ⟨⟨[_], one _, _⟩,
      .snoc (ops := [_]) (.snoc (ops := []) .nil (.pattern (tree := one _) rfl rfl))
        (.var rfl), rfl⟩⟩

/-- Explicit attributes of a new variable. If the pattern requires a match, then
the type must be the same and the visibility can only be restricted by the
pattern; if it does not, then they take precedence; in both cases those that are
not given come from the pattern. -/
theorem explicit_attributes {ps : List Pattern} {vs ws : List Var} {n : List Char}
    {t : Option Nat} {v : Option Vis} {o : Option Bool} {p : Pattern}
    (hnew : ∀ x ∈ vs, x.name ≠ n) (hf : find ps n = some p)
    (h : insertVar ps vs n t v o true = .ok ws) :
    ∃ x, ws = vs ++ [x] ∧ x.name = n ∧
      (t = none → x.type = p.type.join) ∧
      (t ≠ none → x.type = t ∧ (p.must = true → ∀ y, p.type = some y → y = t)) ∧
      (v = none → x.vis = p.vis.getD .project) ∧
      (∀ y, v = some y → p.must = false ∨ p.vis = none → x.vis = y) ∧
      (∀ y z, v = some y → p.must = true → p.vis = some z → x.vis = z ∧ y.rank ≤ z.rank) := by
  have hvs : vs.find? (·.name == n) = none := by
    rw [List.find?_eq_none]
    intro x hx
    simpa using hnew x hx
  unfold insertVar at h
  simp only [if_true, hf, hvs, mergeOpt, merge] at h
  split at h
  · cases h
  rename_i m hm
  cases h
  refine ⟨_, rfl, rfl, ?_⟩
  split at hm
  · rename_i t1 v1 o1 ht hv _
    cases hm
    simp only
    unfold mergeType at ht
    unfold mergeVis at hv
    refine ⟨?_, ?_, ?_, ?_, ?_⟩
    · rintro rfl
      cases hpt : p.type <;> rw [hpt] at ht <;> simp at ht <;> simp [← ht]
    · intro hne
      cases hpt : p.type with
      | none => rw [hpt] at ht; simp at ht; simp [← ht]
      | some y =>
        rw [hpt] at ht
        simp [hne] at ht
        split at ht
        · rename_i hmust
          split at ht
          · rename_i e; cases ht; simp [e]
          · cases ht
        · rename_i hmust
          cases ht
          simp [hmust]
    · rintro rfl
      cases hpv : p.vis <;> rw [hpv] at hv <;> simp at hv <;> simp [← hv]
    · rintro y rfl hor
      cases hpv : p.vis with
      | none => rw [hpv] at hv; simp at hv; simp [← hv]
      | some z =>
        rw [hpv] at hv hor
        simp at hor
        simp [hor] at hv
        simp [← hv]
    · rintro y z rfl hmust hpv
      rw [hpv] at hv
      simp [hmust] at hv
      split at hv
      · rename_i hr; cases hv; exact ⟨rfl, by omega⟩
      · split at hv
        · rename_i e; cases hv; rw [e]; exact ⟨rfl, Nat.le_refl _⟩
        · cases hv
  · cases hm

example : insertVar [pt "a.*" (some (some 1)) (some .scope)] [] "a.x".toList (some 1)
    (some .project) none true = .ok [⟨"a.x".toList, some 1, .scope, false⟩] := rfl
example : insertVar [pt "a.*" (some (some 1)) (some .scope)] [] "a.x".toList (some 2)
    none none true = .error .assert := rfl
example : insertVar [pt "a.*" (some (some 1)) (some .scope) false] [] "a.x".toList (some 2)
    (some .project) none true = .ok [⟨"a.x".toList, some 2, .project, false⟩] := rfl

/-- A variable that has been overridden on the command line can only be inserted
if it is overridable according to the call or, if the pattern has a say, to the
pattern. -/
theorem not_overridable {ps : List Pattern} {vs ws : List Var} {n : List Char}
    {t : Option Nat} {v : Option Vis} {o : Option Bool} {x : Var}
    (hx : vs.find? (·.name == n) = some x) (ho : x.overridden = true)
    (h : insertVar ps vs n t v o true = .ok ws) :
    (o = some true ∧ ∀ p, find ps n = some p → p.must = true → p.ovr ≠ some false) ∨
    (o = none ∧ ∃ p, find ps n = some p ∧ (p.ovr = some true ∨ p.must = false)) := by
  unfold insertVar at h
  simp only [if_true, hx] at h
  split at h
  · cases h
  rename_i m hm
  split at h
  · cases h
  rename_i m2 hm2
  have hov : m2.2.2 = some true := by
    split at h
    · cases h
    · rename_i w hw
      unfold update at hw
      split at hw
      · cases hw
      · rename_i hno
        rw [ho] at hno
        cases h3 : m2.2.2 with
        | none => rw [h3] at hno; simp at hno
        | some b => rw [h3] at hno; cases b <;> simp at hno; rfl
  clear h
  cases hf : find ps n with
  | none =>
    rw [hf] at hm hm2
    simp only [mergeOpt, remerge] at hm hm2
    cases hm; cases hm2
    left
    exact ⟨hov, by simp⟩
  | some p =>
    rw [hf] at hm hm2
    simp only [mergeOpt, remerge] at hm hm2
    cases hmust : p.must with
    | true =>
      simp only [hmust, if_true] at hm2
      cases hm2
      simp only [merge] at hm
      split at hm
      · rename_i t1 v1 o1 _ _ h3
        cases hm
        simp only at hov
        subst hov
        unfold mergeOvr at h3
        cases hpo : p.ovr with
        | none =>
          rw [hpo] at h3; simp at h3
          left; refine ⟨h3, ?_⟩
          intro q hq _; cases hq; rw [hpo]; simp
        | some po =>
          rw [hpo] at h3
          cases o with
          | none =>
            simp at h3
            right; exact ⟨rfl, p, rfl, .inl (by rw [hpo, h3])⟩
          | some o =>
            simp [hmust] at h3
            cases o with
            | true =>
              simp at h3
              left; refine ⟨rfl, ?_⟩
              intro q hq _; cases hq; rw [hpo, h3]; simp
            | false =>
              simp at h3
              split at h3 <;> simp at h3
      · cases hm
    | false =>
      simp only [hmust, Bool.false_eq_true, if_false] at hm2
      simp only [merge] at hm2
      cases o with
      | none => right; exact ⟨rfl, p, rfl, .inr hmust⟩
      | some o =>
        split at hm2
        · rename_i t1 v1 o1 _ _ h3
          cases hm2
          simp only at hov
          subst hov
          left
          refine ⟨?_, ?_⟩
          · unfold mergeOvr at h3
            cases hpo : p.ovr <;> rw [hpo] at h3 <;> simp [hmust] at h3 <;> simp [h3]
          · intro q hq hqm; cases hq; rw [hmust] at hqm; cases hqm
        · cases hm2

example : insertVar [] [⟨"a.x".toList, none, .project, true⟩] "a.x".toList none none none true =
    .error .notOverridable := rfl
example : insertVar [{pt "a.*" with ovr := some true}] [⟨"a.x".toList, none, .project, true⟩]
    "a.x".toList none none none true = .ok [⟨"a.x".toList, none, .project, true⟩] := rfl

end Verif.VarPattern
