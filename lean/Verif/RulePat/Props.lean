import Verif.RulePat.Lemmas

/-!
# Ad hoc pattern rules: properties (C65)

When a rule is for a declaration (`Applies`) is in Spec.lean.
-/

namespace Verif.RulePat

/-- An element as written. -/
def MElem.spec (e : MElem) : Elem := ⟨e.type, e.pat.map fun q => (alts q.1, q.2.2)⟩

/-- A rule as written. -/
def MPattern.spec (p : MPattern) : Pattern :=
  ⟨p.self.spec, p.members.map MElem.spec, p.prqs.map MElem.spec⟩

/-- Flag `i` is the same in all the regular expressions. -/
def MPattern.Flag (p : MPattern) (i : Bool) : Prop := ∀ q ∈ p.pats, q.2.1 = i

/-- There are no alternatives (`|`) other than in groups. -/
def MPattern.Grouped (p : MPattern) : Prop := ∀ q ∈ p.pats, ∃ r, q.1 = [r]

/-! ## Helpers -/

/-- The expressions of some elements. -/
def res (es : List MElem) : List Re := es.filterMap fun e => e.pat.map fun q => alts q.1

theorem picks_iff (isA : IsA) (ts : List Thing) (find : Nat → Option Thing)
    (hf : ∀ t, find t = firstOf isA ts t) (es : List MElem) : ∀ rs ns,
    Picks isA ts (es.map MElem.spec) rs ns ↔ collect find es = some ns ∧ rs = res es := by
  induction es with
  | nil =>
    intro rs ns
    constructor
    · intro h; cases h; exact ⟨rfl, rfl⟩
    · rintro ⟨h, rfl⟩; cases h; exact .nil
  | cons x es ih =>
    intro rs ns
    simp only [List.map_cons, collect, res, List.filterMap_cons]
    cases hp : x.pat with
    | none =>
      simp only [Option.map_none]
      constructor
      · intro h
        cases h with
        | skip h1 h2 => exact (ih _ _).1 h2
        | pick h1 h2 h3 => simp [MElem.spec, hp] at h1
      · intro h; exact .skip (by simp [MElem.spec, hp]) ((ih _ _).2 h)
    | some q =>
      obtain ⟨a, i, b⟩ := q
      simp only [Option.map_some]
      constructor
      · intro h
        cases h with
        | skip h1 h2 => simp [MElem.spec, hp] at h1
        | pick h1 h2 h3 =>
          simp only [MElem.spec, hp, Option.map_some, Option.some.injEq, Prod.mk.injEq] at h1
          obtain ⟨rfl, rfl⟩ := h1
          obtain ⟨h4, rfl⟩ := (ih _ _).1 h3
          rw [hf, show firstOf isA ts x.type = _ from h2]
          simp only [h4, Option.map_some]
          exact ⟨trivial, rfl⟩
      · rintro ⟨h1, rfl⟩
        cases h2 : find x.type with
        | none => simp [h2] at h1
        | some t =>
          simp only [h2] at h1
          obtain ⟨ns', h3, rfl⟩ := Option.map_eq_some_iff.1 h1
          exact .pick (e := x.spec) (by simp [MElem.spec, hp]) (by rw [← hf]; exact h2)
            ((ih _ _).2 ⟨h3, rfl⟩)

theorem findMember_eq (isA : IsA) (ts : List Thing) (t : Nat) :
    findMember isA ts t = firstOf isA ts t := by
  induction ts with
  | nil => rfl
  | cons x ts ih =>
    simp only [findMember, firstOf, List.find?_cons] at ih ⊢
    cases isA x.type t <;> simp [ih]

theorem findPrereq_eq (isA : IsA) (ts : List (Thing × Bool)) (t : Nat) :
    findPrereq isA ts t = firstOf isA ((ts.filter (·.2)).map (·.1)) t := by
  induction ts with
  | nil => rfl
  | cons x ts ih =>
    simp only [findPrereq, firstOf] at ih ⊢
    cases h : x.2 with
    | false => simp [h, ih]
    | true => cases h1 : isA x.1.type t <;> simp [h, h1, ih]

theorem collect_first (find : Nat → Option Thing) (es : List MElem) (ns : List Str)
    (h : collect find es = some ns) :
    (collect find (es.filter (·.pat.isSome) |>.take 1)).isSome = true := by
  induction es generalizing ns with
  | nil => rfl
  | cons x es ih =>
    simp only [collect] at h
    cases hp : x.pat with
    | none => simp only [hp] at h; simpa [hp] using ih ns h
    | some q =>
      simp only [hp] at h
      cases hf : find x.type with
      | none => simp [hf] at h
      | some t => simp [hp, collect, hf]

theorem collect_slash (find : Nat → Option Thing) (es : List MElem) :
    ∀ ns, (∀ t x, find t = some x → ∀ b, 47 ∉ x.name b) → collect find es = some ns →
      ∀ n ∈ ns, 47 ∉ n := by
  induction es with
  | nil => intro ns _ h; cases h; simp
  | cons x es ih =>
    intro ns hs h
    simp only [collect] at h
    cases hp : x.pat with
    | none => simp only [hp] at h; exact ih ns hs h
    | some q =>
      simp only [hp] at h
      cases hf : find x.type with
      | none => simp [hf] at h
      | some t =>
        simp only [hf] at h
        obtain ⟨ns', h3, rfl⟩ := Option.map_eq_some_iff.1 h
        intro n hn
        rcases List.mem_cons.1 hn with rfl | hn
        · exact hs _ _ hf _
        · exact ih ns' hs h3 n hn

theorem collect_len (find : Nat → Option Thing) (es : List MElem) :
    ∀ ns, collect find es = some ns → (res es).length = ns.length := by
  induction es with
  | nil => intro ns h; cases h; rfl
  | cons x es ih =>
    intro ns h
    simp only [collect] at h
    cases hp : x.pat with
    | none => simp only [hp] at h; simpa [res, hp] using ih ns h
    | some q =>
      simp only [hp] at h
      cases hf : find x.type with
      | none => simp [hf] at h
      | some t =>
        simp only [hf] at h
        obtain ⟨ns', h3, rfl⟩ := Option.map_eq_some_iff.1 h
        simpa [res, hp] using ih ns' h3

theorem joined_single (rs : List Re) : ∀ k, rs ≠ [] →
    joined k (rs.map fun r => [r]) = [joinRe (through k rs)] := by
  induction rs with
  | nil => intro k h; exact absurd rfl h
  | cons r rs ih =>
    intro k _
    cases rs with
    | nil => rfl
    | cons r2 rs =>
      have h := ih (k + r.groups) (by simp)
      simp only [List.map_cons] at h ⊢
      rw [joined]
      · simp only [groupsOf, Nat.add_zero, h]
        rfl
      · simp

theorem through_len (rs : List Re) : ∀ k, (through k rs).length = rs.length := by
  induction rs with
  | nil => intro k; rfl
  | cons r rs ih => intro k; simp [through, ih]

theorem pats_single (qs : List (List Re × Bool × Bool)) (h : ∀ q ∈ qs, ∃ r, q.1 = [r]) :
    qs.map (·.1) = (qs.map fun q => alts q.1).map fun r => [r] := by
  induction qs with
  | nil => rfl
  | cons q qs ih =>
    obtain ⟨r, hr⟩ := h q (by simp)
    simp only [List.map_cons, ih fun x hx => h x (by simp [hx]), hr, alts]

theorem pats_res (p : MPattern) {q : List Re × Bool × Bool} (hq : p.self.pat = some q) :
    p.pats.map (fun q => alts q.1) = alts q.1 :: (res p.members ++ res p.prqs) := by
  simp only [MPattern.pats, List.filterMap_cons, hq, List.map_cons, List.filterMap_append,
    List.map_append, List.map_filterMap, res]

theorem compile_grouped (p : MPattern) (i : Bool) (hi : p.Flag i) (hg : p.Grouped)
    {q : List Re × Bool × Bool} (hq : p.self.pat = some q) :
    compile p =
      some (joinRe (through 0 (alts q.1 :: (res p.members ++ res p.prqs))), i) := by
  have hp : p.pats = q :: (p.members ++ p.prqs).filterMap (·.pat) := by
    simp [MPattern.pats, hq]
  have hqi : q.2.1 = i := hi q (by rw [hp]; simp)
  unfold compile
  rw [hp]
  obtain ⟨a, i', x⟩ := q
  simp only at hqi
  subst hqi
  simp only
  rw [if_pos]
  · rw [← hp, pats_single p.pats hg, joined_single _ _ (by simp [hp]), pats_res p hq]
    rfl
  · rw [List.all_eq_true]
    intro y hy
    simp [hi y (by rw [hp]; exact List.mem_cons_of_mem _ hy)]

/-- What a rule comes down to. -/
theorem match_eq (lower : Nat → Nat) (hl : SlashFixed lower) (isA : IsA) (p : MPattern)
    (i : Bool) (hi : p.Flag i) (hg : p.Grouped) (d : Decl) (hd : d.Slashless)
    {q : List Re × Bool × Bool} (hq : p.self.pat = some q) {ms ps : List Str}
    (hm : collect (findMember isA d.members) p.members = some ms)
    (hp : collect (findPrereq isA d.prqs) p.prqs = some ps) :
    matchRule lower isA p d =
      (each (if i then lower else id)
        (through 0 (alts q.1 :: (res p.members ++ res p.prqs)))
        (d.self.name q.2.2 :: (ms ++ ps)) fun _ => none).head? := by
  have h1 := collect_first _ _ _ hp
  rw [← full_join]
  · obtain ⟨a, i', x⟩ := q
    simp only [matchRule, compile_grouped p i hi hg hq, hq]
    cases hc : collect (findPrereq isA d.prqs) (p.prqs.filter (·.pat.isSome) |>.take 1) with
    | none => rw [hc] at h1; cases h1
    | some y => simp only [hm, hp]
  · cases i with
    | true => exact hl
    | false => intro c; rfl
  · rw [through_len]
    simp [collect_len _ _ _ hm, collect_len _ _ _ hp]
  · intro h
    have := congrArg List.length h
    rw [through_len] at this
    simp at this
  · intro n hn
    simp only [List.mem_cons, List.mem_append] at hn
    rcases hn with rfl | hn | hn
    · exact hd.1 _
    · refine collect_slash _ _ _ ?_ hm n hn
      intro t x hx b
      rw [findMember_eq] at hx
      exact hd.2.1 x (List.mem_of_find?_eq_some hx) b
    · refine collect_slash _ _ _ ?_ hp n hn
      intro t x hx b
      rw [findPrereq_eq] at hx
      have := List.mem_of_find?_eq_some hx
      simp only [List.mem_map, List.mem_filter] at this
      obtain ⟨y, ⟨hy, _⟩, rfl⟩ := this
      exact hd.2.2 y hy b

theorem applies_iff (fold : Nat → Nat) (isA : IsA) (p : MPattern) (d : Decl) (e : Env) :
    Applies fold isA p.spec d e ↔ ∃ q ms ps, p.self.pat = some q ∧
      collect (findMember isA d.members) p.members = some ms ∧
      collect (findPrereq isA d.prqs) p.prqs = some ps ∧
      e ∈ each fold (through 0 (alts q.1 :: (res p.members ++ res p.prqs)))
        (d.self.name q.2.2 :: (ms ++ ps)) fun _ => none := by
  constructor
  · rintro ⟨r, x, rs, ns, rs', ns', h1, h2, h3, h4⟩
    obtain ⟨h5, rfl⟩ := (picks_iff isA _ _ (findMember_eq isA d.members) _ _ _).1 h2
    obtain ⟨h6, rfl⟩ := (picks_iff isA _ _ (findPrereq_eq isA d.prqs) _ _ _).1 h3
    cases hq : p.self.pat with
    | none => simp [MPattern.spec, MElem.spec, hq] at h1
    | some q =>
      simp only [MPattern.spec, MElem.spec, hq, Option.map_some, Option.some.injEq,
        Prod.mk.injEq] at h1
      obtain ⟨rfl, rfl⟩ := h1
      exact ⟨q, ns, ns', rfl, h5, h6, (each_iff _ _ _ _ _).2 h4⟩
  · rintro ⟨q, ms, ps, h1, h2, h3, h4⟩
    exact ⟨alts q.1, q.2.2, _, ms, _, ps, by simp [MPattern.spec, MElem.spec, h1],
      (picks_iff isA _ _ (findMember_eq isA d.members) _ _ _).2 ⟨h2, rfl⟩,
      (picks_iff isA _ _ (findPrereq_eq isA d.prqs) _ _ _).2 ⟨h3, rfl⟩,
      (each_iff _ _ _ _ _).1 h4⟩

theorem match_collect {lower : Nat → Nat} {isA : IsA} {p : MPattern} {d : Decl} {e : Env}
    (h : matchRule lower isA p d = some e) : ∃ q ms ps, p.self.pat = some q ∧
      collect (findMember isA d.members) p.members = some ms ∧
      collect (findPrereq isA d.prqs) p.prqs = some ps := by
  unfold matchRule at h
  split at h
  · rename_i a i' x r i h1 h2
    split at h
    · cases h
    · split at h
      · cases h
      · rename_i ms hm
        split at h
        · cases h
        · rename_i ps hp
          exact ⟨_, ms, ps, h1, hm, hp⟩
  · cases h

/-! ## Properties -/

/-- **C65** (partial): a rule matches exactly the declarations that it is for, provided
that there are no alternatives other than in groups: see `alternatives_misread`. Slashes
are not possible in names. -/
theorem matches_iff_partial (lower : Nat → Nat) (hl : ∀ c, lower c = 47 ↔ c = 47) (isA : IsA)
    (p : MPattern) (i : Bool) (hi : p.Flag i) (hg : p.Grouped) (d : Decl) (hd : d.Slashless) :
    (matchRule lower isA p d).isSome = true ↔
      ∃ e, Applies (if i then lower else id) isA p.spec d e := by
  constructor
  · intro h
    obtain ⟨e, he⟩ := Option.isSome_iff_exists.1 h
    obtain ⟨q, ms, ps, h1, h2, h3⟩ := match_collect he
    rw [match_eq lower hl isA p i hi hg d hd h1 h2 h3] at he
    exact ⟨e, (applies_iff _ isA p d e).2
      ⟨q, ms, ps, h1, h2, h3, List.mem_of_head? he⟩⟩
  · rintro ⟨e, he⟩
    obtain ⟨q, ms, ps, h1, h2, h3, h4⟩ := (applies_iff _ isA p d e).1 he
    rw [match_eq lower hl isA p i hi hg d hd h1 h2 h3]
    cases hx : each (if i then lower else id)
        (through 0 (alts q.1 :: (res p.members ++ res p.prqs)))
        (d.self.name q.2.2 :: (ms ++ ps)) fun _ => none with
    | nil => rw [hx] at h4; cases h4
    | cons a l => rfl

/-- **C65** (partial): what has been captured is what the rule is for the declaration
with. -/
theorem captured_partial (lower : Nat → Nat) (hl : ∀ c, lower c = 47 ↔ c = 47) (isA : IsA)
    (p : MPattern) (i : Bool) (hi : p.Flag i) (hg : p.Grouped) (d : Decl) (hd : d.Slashless)
    (e : Env) (h : matchRule lower isA p d = some e) :
    Applies (if i then lower else id) isA p.spec d e := by
  obtain ⟨q, ms, ps, h1, h2, h3⟩ := match_collect h
  rw [match_eq lower hl isA p i hi hg d hd h1 h2 h3] at h
  exact (applies_iff _ isA p d e).2 ⟨q, ms, ps, h1, h2, h3, List.mem_of_head? h⟩

/-- **C65** (partial): of several possibilities, captured is what matching the names one by
one, and backtracking, finds first: that the names are put together does not matter. -/
theorem preferred_partial (lower : Nat → Nat) (hl : ∀ c, lower c = 47 ↔ c = 47)
    (rs : List Re) (ns : List Str) (icase : Bool) (e : Env) (hlen : rs.length = ns.length)
    (hrs : rs ≠ []) (hns : ∀ n ∈ ns, 47 ∉ n) :
    full (if icase then lower else id) (alts (joined 0 (rs.map fun r => [r]))) e
        (signature ns) =
      each (if icase then lower else id) (through 0 rs) ns e := by
  rw [joined_single rs 0 hrs]
  refine full_join _ ?_ _ ns e (by rw [through_len]; exact hlen) ?_ hns
  · cases icase with
    | true => exact hl
    | false => intro c; rfl
  · intro h
    have := congrArg List.length h
    rw [through_len] at this
    exact hrs (List.length_eq_zero_iff.1 this)

/-- **C65**: the engine that the names are given to finds exactly what matches. -/
theorem engine_exact (fold : Nat → Nat) (r : Re) (e : Env) (s : Str) (e' : Env) :
    e' ∈ full fold r e s ↔ Sat fold r e s e' :=
  full_iff fold r e s e'

/-- **C65**: rules with inconsistent flags are rejected. -/
theorem flags_rejected (p : MPattern) (hp : p.self.pat ≠ none) :
    compile p = none ↔ ∃ q ∈ p.pats, ∃ q' ∈ p.pats, q.2.1 ≠ q'.2.1 := by
  cases hq : p.self.pat with
  | none => exact absurd hq hp
  | some q =>
    have hps : p.pats = q :: (p.members ++ p.prqs).filterMap (·.pat) := by
      simp [MPattern.pats, hq]
    unfold compile
    rw [hps]
    obtain ⟨a, i, x⟩ := q
    simp only
    constructor
    · intro h
      split at h
      · cases h
      · rename_i hc
        simp only [Bool.not_eq_true, List.all_eq_false] at hc
        obtain ⟨y, hy, hne⟩ := hc
        exact ⟨y, List.mem_cons_of_mem _ hy, (a, i, x), by simp, by simpa using hne⟩
    · rintro ⟨y, hy, y', hy', hne⟩
      rw [if_neg]
      intro h
      rw [List.all_eq_true] at h
      have key : ∀ z ∈ (a, i, x) :: (p.members ++ p.prqs).filterMap (·.pat), z.2.1 = i := by
        intro z hz
        rcases List.mem_cons.1 hz with rfl | hz
        · rfl
        · simpa using h z hz
      exact hne ((key y hy).trans (key y' hy').symm)

/-! ## Not vacuous, and counterexamples -/

/-- Some character. -/
def any1 : Re := .chr fun _ => true

/-- `exe{~'/(.*)/'}: cxx{~'/\1/'}` with types 1 and 2. -/
def rule1 : MPattern :=
  ⟨⟨1, some ([.grp 1 (.star any1)], false, false)⟩, [],
    [⟨2, some ([.ref 1], false, false)⟩]⟩

/-- A target or prerequisite. -/
def thing (type : Nat) (name : Str) : Thing := ⟨type, fun _ => name⟩

/-- `exe{ab}: hxx{a} cxx{ab}`, and with `cxx{a}`. -/
def decl1 (n : Str) : Decl :=
  ⟨thing 1 [97, 98], [], [(thing 3 [97], true), (thing 2 n, true)]⟩

example : ((matchRule id (· == ·) rule1 (decl1 [97, 98])).bind fun e => e 1) = some [97, 98] := by
  decide

example : (matchRule id (· == ·) rule1 (decl1 [97])).isSome = false := by decide

/-- The hypotheses are met. -/
theorem rule1_ok : rule1.Flag false ∧ rule1.Grouped ∧ ∀ n, 47 ∉ n → (decl1 n).Slashless := by
  refine ⟨?_, ?_, ?_⟩
  · intro q hq
    simp only [MPattern.pats, rule1, List.nil_append, List.filterMap_cons, List.filterMap_nil,
      List.mem_cons, List.not_mem_nil, or_false] at hq
    rcases hq with rfl | rfl <;> rfl
  · intro q hq
    simp only [MPattern.pats, rule1, List.nil_append, List.filterMap_cons, List.filterMap_nil,
      List.mem_cons, List.not_mem_nil, or_false] at hq
    rcases hq with rfl | rfl
    · exact ⟨_, rfl⟩
    · exact ⟨_, rfl⟩
  · intro n hn
    refine ⟨fun b => ?_, fun t ht => (by cases ht), ?_⟩
    · show 47 ∉ [97, 98]; decide
    · intro t ht b
      simp only [decl1, List.mem_cons, List.not_mem_nil, or_false] at ht
      rcases ht with rfl | rfl
      · show 47 ∉ [97]; decide
      · exact hn

/-- So the rule is for the one declaration. -/
example : ∃ e, Applies id (· == ·) rule1.spec (decl1 [97, 98]) e :=
  (matches_iff_partial id (fun _ => Iff.rfl) (· == ·) rule1 false rule1_ok.1 rule1_ok.2.1
    (decl1 [97, 98]) (rule1_ok.2.2 _ (by decide))).1 (by decide)

/-- And not for the other one. -/
example : ¬ ∃ e, Applies id (· == ·) rule1.spec (decl1 [97]) e := fun h =>
  absurd ((matches_iff_partial id (fun _ => Iff.rfl) (· == ·) rule1 false rule1_ok.1 rule1_ok.2.1
    (decl1 [97]) (rule1_ok.2.2 _ (by decide))).2 h) (by decide)

/-- `exe{~'/a|b/'}: cxx{~'/c/'}` -/
def rule2 : MPattern :=
  ⟨⟨1, some ([.chr (· == 97), .chr (· == 98)], false, false)⟩, [],
    [⟨2, some ([.chr (· == 99)], false, false)⟩]⟩

/-- `exe{a}: cxx{c}` -/
def decl2 (n : Str) : Decl := ⟨thing 1 n, [], [(thing 2 [99], true)]⟩

/-- Finding: the texts of regular expressions are concatenated as they are, so for
`exe{~'/a|b/'}: cxx{~'/c/'}` the expression is `a|b/c`, which does not match `a/c`. The
rule is for `exe{a}: cxx{c}` nevertheless. -/
theorem alternatives_misread :
    matchRule id (· == ·) rule2 (decl2 [97]) = none ∧
      ∃ e, Applies id (· == ·) rule2.spec (decl2 [97]) e := by
  refine ⟨Option.isNone_iff_eq_none.1 (by decide), fun _ => none, ?_⟩
  refine ⟨_, _, _, _, _, _, rfl, .nil, .pick (t := thing 2 [99]) rfl rfl .nil, ?_⟩
  exact .cons (.left (.chr rfl)) (.cons (.chr rfl) .nil)

/-- And for `exe{b}: cxx{c}` it does. -/
example : (matchRule id (· == ·) rule2 (decl2 [98])).isSome = true := by decide

/-- `exe{~'/(.*)/'}: cxx{~'/\1a/' ~'/\1b/'}` -/
def rule3 : MPattern :=
  ⟨⟨1, some ([.grp 1 (.star any1)], false, false)⟩, [],
    [⟨2, some ([.seq (.ref 1) (.chr (· == 97))], false, false)⟩,
     ⟨2, some ([.seq (.ref 1) (.chr (· == 98))], false, false)⟩]⟩

theorem last_chr (r : Re) (e : Env) (c : Nat) (s : Str) (e' : Env)
    (h : Sat id (.seq r (.chr (· == c))) e s e') : ∃ (u : Str) (d : Nat), s = u ++ [d] ∧ d = c := by
  cases h with
  | seq h1 h2 =>
    cases h2 with
    | chr hc => exact ⟨_, _, rfl, by simpa using hc⟩

/-- Finding (documented in the code, not in the manual): only the first prerequisite of a
type is considered, so a rule with two different ones of the same type is not for any
declaration at all. -/
theorem same_type_never (d : Decl) (e : Env) : ¬ Applies id (· == ·) rule3.spec d e := by
  rintro ⟨r, x, rs, ns, rs', ns', h1, h2, h3, h4⟩
  cases h1
  cases h2
  cases h3 with
  | skip h _ => cases h
  | pick h5 h6 h7 =>
    cases h5
    cases h7 with
    | skip h _ => cases h
    | pick h8 h9 h10 =>
      cases h8
      cases h10
      cases h6.symm.trans h9
      cases h4 with
      | cons _ h4 =>
        cases h4 with
        | cons ha h4 =>
          cases h4 with
          | cons hb _ =>
            obtain ⟨s, c, h11, h12⟩ : ∃ (s : Str) (c : Nat), _ = s ++ [c] ∧ c = 97 :=
              last_chr _ _ 97 _ _ ha
            obtain ⟨s', c', h13, h14⟩ := last_chr _ _ 98 _ _ hb
            have := (List.append_inj' (h11.symm.trans h13) rfl).2
            simp only [List.cons.injEq, and_true] at this
            omega

end Verif.RulePat
