import Verif.VarPool.Pool

/-!
# Variable patterns: properties
-/

namespace Verif.VarPool

/-! ## Patterns -/

theorem findStar_iff (s a b : Name) :
    findStar s = some (a, b) ↔ s = a ++ '*' :: b ∧ '*' ∉ a := by
  induction s generalizing a with
  | nil => simp [findStar]
  | cons c cs ih =>
    unfold findStar
    by_cases h : c = '*'
    · subst h
      simp only [if_true, Option.some.injEq, Prod.mk.injEq]
      constructor
      · rintro ⟨rfl, rfl⟩
        simp
      · rintro ⟨e, hn⟩
        cases a with
        | nil => simpa using e
        | cons x a =>
          simp at e
          simp [← e.1] at hn
    · rw [if_neg h]
      cases hf : findStar cs with
      | none =>
        simp only [reduceCtorEq, false_iff]
        rintro ⟨e, hn⟩
        cases a with
        | nil => simp at e; exact h e.1
        | cons x a =>
          simp at e hn
          have := (ih a).2 ⟨e.2, hn.2⟩
          rw [hf] at this
          simp at this
      | some r =>
        obtain ⟨a', b'⟩ := r
        simp only [Option.some.injEq, Prod.mk.injEq]
        constructor
        · rintro ⟨rfl, rfl⟩
          obtain ⟨e, hn⟩ := (ih a').1 hf
          refine ⟨by rw [e]; rfl, ?_⟩
          simp only [List.mem_cons, not_or]
          exact ⟨fun e => h e.symm, hn⟩
        · rintro ⟨e, hn⟩
          cases a with
          | nil => simp at e; exact absurd e.1 h
          | cons x a =>
            simp at e hn
            have := (ih a).2 ⟨e.2, hn.2⟩
            rw [hf] at this
            simp at this
            exact ⟨by rw [e.1, this.1], this.2⟩

/-- **C76a.** Patterns are what is specified: an optional prefix that ends with a dot, `*` or
`**`, and an optional suffix that starts with a dot. -/
theorem parse_iff (s pfx sfx : Name) (multi : Bool) :
    parse s = some (pfx, sfx, multi) ↔
      s = pfx ++ (if multi then ['*', '*'] else ['*']) ++ sfx ∧ '*' ∉ pfx ∧
        (pfx = [] ∨ ∃ a, a ≠ [] ∧ pfx = a ++ ['.']) ∧
        (sfx = [] ∨ ∃ a, a ≠ [] ∧ sfx = '.' :: a) := by
  have hpre : ∀ pfx : Name, ¬ (pfx ≠ [] ∧ (pfx.getLast? ≠ some '.' ∨ pfx.length = 1)) ↔
      (pfx = [] ∨ ∃ a, a ≠ [] ∧ pfx = a ++ ['.']) := by
    intro pfx
    rcases List.eq_nil_or_concat pfx with rfl | ⟨a, x, rfl⟩
    · simp
    · simp only [List.concat_eq_append]
      constructor
      · intro h
        refine .inr ⟨a, ?_, ?_⟩
        · rintro rfl; simp at h
        · simp at h; simp [h.1]
      · rintro (e | ⟨b, hb, e⟩)
        · simp at e
        · obtain ⟨rfl, e⟩ := List.append_inj' e rfl
          simp at e
          simp [e, hb]
  have hsuf : ∀ sfx : Name, ¬ (sfx ≠ [] ∧ (sfx.head? ≠ some '.' ∨ sfx.length = 1)) ↔
      (sfx = [] ∨ ∃ a, a ≠ [] ∧ sfx = '.' :: a) := by
    intro sfx
    cases sfx with
    | nil => simp
    | cons x a =>
      constructor
      · intro h
        refine .inr ⟨a, ?_, ?_⟩
        · rintro rfl; simp at h
        · simp at h; simp [h.1]
      · rintro (e | ⟨b, hb, e⟩)
        · simp at e
        · simp at e
          obtain ⟨rfl, rfl⟩ := e
          simp [hb]
  unfold parse
  cases hf : findStar s with
  | none =>
    simp only [reduceCtorEq, false_iff]
    rintro ⟨e, hn, -, -⟩
    have : ∃ b, findStar s = some (pfx, b) := by
      cases multi
      · exact ⟨sfx, (findStar_iff _ _ _).2 ⟨by rw [e]; simp, hn⟩⟩
      · exact ⟨'*' :: sfx, (findStar_iff _ _ _).2 ⟨by rw [e]; simp, hn⟩⟩
    obtain ⟨b, hb⟩ := this
    rw [hf] at hb
    simp at hb
  | some r =>
    obtain ⟨a, b⟩ := r
    obtain ⟨hs, hn⟩ := (findStar_iff _ _ _).1 hf
    simp only
    constructor
    · intro h
      generalize hd : (if (b.head? == some '*') = true then b.drop 1 else b) = d at h
      by_cases h1 : a ≠ [] ∧ (a.getLast? ≠ some '.' ∨ a.length = 1)
      · rw [if_pos h1] at h
        simp at h
      · rw [if_neg h1] at h
        by_cases h2 : d ≠ [] ∧ (d.head? ≠ some '.' ∨ d.length = 1)
        · rw [if_pos h2] at h
          simp at h
        · rw [if_neg h2] at h
          simp only [Option.some.injEq, Prod.mk.injEq] at h
          obtain ⟨rfl, rfl, h4⟩ := h
          refine ⟨?_, hn, (hpre _).1 h1, (hsuf _).1 h2⟩
          rw [hs]
          rw [h4] at hd
          cases multi with
          | false => simp at hd; simp [hd]
          | true =>
            cases b with
            | nil => simp at h4
            | cons x b => simp at h4 hd; simp [h4, hd]
    · rintro ⟨e, hn', hp, hsx⟩
      have hab : findStar s = some (pfx, (if multi then '*' :: sfx else sfx)) := by
        rw [findStar_iff]
        refine ⟨?_, hn'⟩
        rw [e]
        cases multi <;> simp
      rw [hf] at hab
      simp only [Option.some.injEq, Prod.mk.injEq] at hab
      obtain ⟨rfl, hb⟩ := hab
      have hm : (b.head? == some '*') = multi := by
        cases multi with
        | true => simp at hb; simp [hb]
        | false =>
          simp at hb
          subst hb
          rcases hsx with rfl | ⟨c, -, rfl⟩ <;> simp
      have hd : (if (b.head? == some '*') = true then b.drop 1 else b) = sfx := by
        rw [hm]
        cases multi <;> simp [hb]
      rw [hd, hm, if_neg ((hpre _).2 hp), if_neg ((hsuf _).2 hsx)]

example : parse "config.**.develop".toList = some ("config.".toList, ".develop".toList, true) := by
  decide

/-- **C76b.** A name is matched by a pattern if and only if it is the prefix, a stem that is
not empty and, for `*`, has no dots, and the suffix. -/
theorem matches_iff (p : Pat) (n : Name) : matchPattern p n = true ↔ Matches p n :=
  matchPattern_iff p n

/-- **C76c.** The pattern that is used for a name is the preferred one: no pattern that
matches is more specific and, of those that are not comparable, it is the one that was
inserted last.  This is if there are no `*` and `**` with the same prefix and suffix and
another pattern of the same length. -/
theorem selected_partial {ov : Name → Bool} {os : List Op} {s : St} (h : Hist ov os s)
    (hr : Regular (patterns os)) {n : Name} (hq : Qualified n) :
    (∀ p, select s.pats n = some p ↔ Preferred (patterns os) n p) ∧
    (select s.pats n = none ↔ ∀ p ∈ patterns os, ¬ Matches p n) := by
  have hms := hist_ms h hr
  rw [select_eq hq]
  have hnone : last s.pats n = none ↔ ∀ p ∈ patterns os, ¬ Matches p n := by
    rw [last_none]
    exact ⟨fun h p hp => h p (hms.perm.mem_iff.2 hp), fun h p hp => h p (hms.perm.mem_iff.1 hp)⟩
  refine ⟨fun p => ⟨hms.last n p, fun hp => ?_⟩, hnone⟩
  cases hl : last s.pats n with
  | none =>
    obtain ⟨a, b, e, hm, -, -⟩ := hp
    exact absurd hm (hnone.1 hl p (by rw [e]; simp))
  | some q => rw [preferred_unique (hms.last n q hl) hp]

/-- There is one preferred pattern at most. -/
theorem one_preferred {ps : List Pat} {n : Name} {p q : Pat} (h : Preferred ps n p)
    (h' : Preferred ps n q) : p = q := preferred_unique h h'

/-! ## Variables -/

/-- **C76d.** A variable that is entered has the type and the visibility of the pattern that
is used for it, if the pattern has these, and the type that is specified; the visibility is
at least the one specified. -/
theorem entered_partial {ov : Name → Bool} {os : List Op} {s s' : St} (h : Hist ov os s)
    (hr : Regular (patterns os)) {n : Name} (hq : Qualified n) {p : Pat}
    (hp : Preferred (patterns os) n p) (hst : p.strict = true) {t v o}
    (hs : Step ov s (.insert n t v o) s') :
    ∃ var, lookup s'.pool n = some var ∧
      (∀ ty, p.type = some (some ty) → var.type = some ty) ∧
      (∀ ty, t = some ty → var.type = some ty) ∧
      (∀ g, p.vis = some g → var.vis = g) ∧ (∀ g, v = some g → g ≤ var.vis) := by
  cases hs with
  | insert hi =>
    obtain ⟨-, y, hy, h2⟩ := insert_inv hi
    rw [((selected_partial h hr hq).1 p).2 hp] at hy h2
    simp only [premerge] at hy
    obtain ⟨a, b, -⟩ := merge_inv hy
    obtain ⟨a1, a2, a3⟩ := mergeType_strict hst a
    obtain ⟨b1, b2, b3⟩ := mergeVis_strict hst b
    rcases h2 with ⟨-, hl'⟩ | ⟨var, z, var', hl, hz, hu, hl'⟩
    · refine ⟨_, hl', a1, a2, ?_, ?_⟩
      · intro g e; simp [b1 g e]
      · intro g e
        obtain ⟨g', e1, e2⟩ := b2 g e
        simp [e1, e2]
    · simp [remerge, hst] at hz
      subst hz
      obtain ⟨-, u2, -, u4, -⟩ := update_inv hu
      refine ⟨_, hl', ?_, ?_, ?_, ?_⟩
      · intro ty e; exact (u2 ty (a1 ty e)).1
      · intro ty e; exact (u2 ty (a2 ty e)).1
      · intro g e; exact (u4 g (b1 g e)).1
      · intro g e
        obtain ⟨g', e1, e2⟩ := b2 g e
        rw [(u4 g' e1).1]
        exact e2

/-- A new variable for which there is no pattern has what is specified and is otherwise
untyped and of project visibility. -/
theorem entered_plain {ov : Name → Bool} {os : List Op} {s s' : St} (h : Hist ov os s) {n : Name}
    (hq : Qualified n → ∀ p ∈ patterns os, ¬ Matches p n) (hr : Regular (patterns os))
    (hn : lookup s.pool n = none) {t v o} (hs : Step ov s (.insert n t v o) s') :
    lookup s'.pool n = some ⟨t, v.getD 1⟩ := by
  cases hs with
  | insert hi =>
    obtain ⟨-, y, hy, h2⟩ := insert_inv hi
    have hsel : select s.pats n = none := by
      by_cases e : Qualified n
      · exact (selected_partial h hr e).2.2 (hq e)
      · unfold select
        rw [if_neg]
        unfold Qualified at e
        simpa using e
    rw [hsel] at hy
    simp [premerge] at hy
    subst hy
    rcases h2 with ⟨-, hl'⟩ | ⟨var, z, var', hl, -⟩
    · exact hl'
    · rw [hn] at hl; simp at hl

/-- With a pattern that individual insertions need not match, the pattern is only used for
what is not specified for a new variable. -/
theorem entered_fallback {ov : Name → Bool} {os : List Op} {s s' : St} (h : Hist ov os s)
    (hr : Regular (patterns os)) {n : Name} (hq : Qualified n) {p : Pat}
    (hp : Preferred (patterns os) n p) (hst : p.strict = false)
    (hn : lookup s.pool n = none) {t v o} (hs : Step ov s (.insert n t v o) s') :
    lookup s'.pool n = some ⟨t.or (p.type.getD none), (v.or p.vis).getD 1⟩ := by
  cases hs with
  | insert hi =>
    obtain ⟨-, y, hy, h2⟩ := insert_inv hi
    rw [((selected_partial h hr hq).1 p).2 hp] at hy
    simp only [premerge] at hy
    obtain ⟨a, b, -⟩ := merge_inv hy
    have ha : y.type = t.or (p.type.getD none) := by
      unfold mergeType at a
      cases hpt : p.type with
      | none => simp only [hpt] at a; simp at a; simp [a]
      | some u => cases t <;> simp [hpt, hst] at a <;> simp [← a]
    have hb : y.vis = v.or p.vis := by
      unfold mergeVis at b
      cases hpt : p.vis with
      | none => simp only [hpt] at b; simp at b; simp [b]
      | some u => cases v <;> simp [hpt, hst] at b <;> simp [← b]
    rcases h2 with ⟨-, hl'⟩ | ⟨var, z, var', hl, -⟩
    · rw [hl', ha, hb]
    · rw [hn] at hl; simp at hl

/-- Further operations. -/
inductive Run (ov : Name → Bool) : St → List Op → St → Prop
  | nil {s} : Run ov s [] s
  | cons {s op s' os s''} (t : Step ov s op s') (h : Run ov s' os s'') :
      Run ov s (op :: os) s''

/-- **C76e.** Variables are not removed, the type of a variable never changes once there is
one, and its visibility only gets more restricted. -/
theorem kept {ov : Name → Bool} {s s' : St} {os : List Op} (h : Run ov s os s') {n : Name}
    {var : Var} (hv : lookup s.pool n = some var) :
    ∃ var', lookup s'.pool n = some var' ∧
      (∀ ty, var.type = some ty → var'.type = some ty) ∧ var.vis ≤ var'.vis := by
  induction h generalizing var with
  | nil => exact ⟨var, hv, fun _ e => e, Nat.le_refl _⟩
  | cons t _ ih =>
    obtain ⟨var1, h1, h2, h3⟩ := step_kept t hv
    obtain ⟨var2, h4, h5, h6⟩ := ih h1
    exact ⟨var2, h4, fun ty e => h5 ty (h2 ty e), Nat.le_trans h3 h6⟩

/-- **C76f.** A variable with overrides that is entered is overridable: so specified if
there is no pattern, and according to the pattern otherwise. -/
theorem overridden_partial {ov : Name → Bool} {os : List Op} {s s' : St} (h : Hist ov os s)
    (hr : Regular (patterns os)) {n : Name} (hq : Qualified n) (ho : ov n = true)
    (hx : lookup s.pool n ≠ none) {t v o} (hs : Step ov s (.insert n t v o) s') :
    ((∀ p ∈ patterns os, ¬ Matches p n) → o = some true) ∧
    ∀ p, Preferred (patterns os) n p → p.strict = true →
      p.ovr = some true ∨ p.ovr = none ∧ o = some true := by
  cases hs with
  | insert hi =>
    obtain ⟨-, y, hy, h2⟩ := insert_inv hi
    rcases h2 with ⟨e, -⟩ | ⟨var, z, var', hl, hz, hu, -⟩
    · exact absurd e hx
    · have hzo : z.ovr = some true := by
        obtain ⟨-, -, -, -, hn⟩ := update_inv hu
        rw [ho] at hn
        cases hz : z.ovr with
        | none => simp [hz] at hn
        | some b => cases b <;> simp [hz] at hn ⊢
      constructor
      · intro hno
        rw [(selected_partial h hr hq).2.2 hno] at hy hz
        simp [premerge] at hy
        subst hy
        simp [remerge] at hz
        subst hz
        exact hzo
      · intro p hp hst
        rw [((selected_partial h hr hq).1 p).2 hp] at hy hz
        simp [remerge, hst] at hz
        subst hz
        simp only [premerge] at hy
        obtain ⟨-, -, c⟩ := merge_inv hy
        obtain ⟨c1, c2⟩ := mergeOvr_strict hst c
        cases hpo : p.ovr with
        | none => exact .inr ⟨rfl, by rw [c2 hpo] at hzo; exact hzo⟩
        | some b =>
          have := c1 b hpo
          rw [hzo] at this
          exact .inl (by simp at this; rw [← this])

/-! ## Order -/

theorem hist_inv {ov : Name → Bool} {os : List Op} {s : St} (h : Hist ov os s) {n : Name}
    (ht : Tidy os n) : Inv os s n := by
  induction h with
  | nil => intro t v o; simp
  | step h t ih =>
    have htp := tidy_prefix ht
    exact inv_step ht (hist_ms h htp.regular) (ih htp) t

/-- **C76g.** What a variable ends up with: the type that is specified for it, by whoever
specifies one, and the most restricted of the visibilities. -/
theorem specified_partial {ov : Name → Bool} {os : List Op} {s : St} (h : Hist ov os s)
    {n : Name} (ht : Tidy os n) {var : Var} (hv : lookup s.pool n = some var) :
    (∀ ty, var.type = some ty ↔ GivenType os n ty) ∧
    (∀ g, GivenVis os n g → g ≤ var.vis) ∧
    (GivenVis os n var.vis ∨ (∀ g, ¬ GivenVis os n g) ∧ var.vis = 1) := by
  have hi := hist_inv h ht
  unfold Inv at hi
  rw [hv] at hi
  exact ⟨fun ty => ⟨hi.type ty, hi.given ty⟩, hi.le, hi.vis⟩

/-- **C76h.** The order in which variables are entered and patterns are inserted does not
matter. -/
theorem any_order_partial {ov : Name → Bool} {os os' : List Op} {s s' : St}
    (h : Hist ov os s) (h' : Hist ov os' s') (hp : os.Perm os') {n : Name} (ht : Tidy os n)
    (ht' : Tidy os' n) {var var' : Var} (hv : lookup s.pool n = some var)
    (hv' : lookup s'.pool n = some var') : var = var' := by
  obtain ⟨a1, a2, a3⟩ := specified_partial h ht hv
  obtain ⟨b1, b2, b3⟩ := specified_partial h' ht' hv'
  have heff : ∀ p, InEffect os n p ↔ InEffect os' n p := by
    intro p; unfold InEffect; simp only [hp.mem_iff]
  have gt : ∀ ty, GivenType os n ty ↔ GivenType os' n ty := by
    intro ty; unfold GivenType; simp only [hp.mem_iff, heff]
  have gv : ∀ g, GivenVis os n g ↔ GivenVis os' n g := by
    intro ty; unfold GivenVis; simp only [hp.mem_iff, heff]
  have e1 : var.type = var'.type := by
    have : ∀ ty, var.type = some ty ↔ var'.type = some ty := fun ty =>
      (a1 ty).trans ((gt ty).trans (b1 ty).symm)
    cases hx : var.type with
    | none =>
      cases hy : var'.type with
      | none => rfl
      | some ty =>
        have := (this ty).2 hy
        rw [hx] at this; simp at this
    | some ty => exact ((this ty).1 hx).symm
  have e2 : var.vis = var'.vis := by
    rcases a3 with a3 | ⟨a3, a4⟩
    · rcases b3 with b3 | ⟨b3, b4⟩
      · have := a2 _ ((gv _).2 b3)
        have := b2 _ ((gv _).1 a3)
        omega
      · exact absurd ((gv _).1 a3) (b3 _)
    · rcases b3 with b3 | ⟨b3, b4⟩
      · exact absurd ((gv _).2 b3) (a3 _)
      · omega
  cases var; cases var'; simp_all

/-! ## The built-in patterns -/

/-- Some types. -/
def tyBool : Ty := 1
def tyAbsDirPath : Ty := 2
def tyPath : Ty := 3

/-- The built-in patterns in the order in which they are inserted, `libbuild2/context.cxx`
630, 678, 687-688, 695-697. -/
def builtin : List (Pat × Bool) :=
  [(⟨"config.".toList, [], true, false, none, some 0, some true⟩, true),
   (⟨"config.".toList, ".build.configured".toList, true, true, some (some tyBool), some 1,
     some false⟩, false),
   (⟨"config.import.".toList, [], false, true, some (some tyAbsDirPath), some 0, some true⟩,
     true),
   (⟨"config.import.".toList, [], true, true, some (some tyPath), some 0, some true⟩, true),
   (⟨[], ".build.booted".toList, true, true, some (some tyBool), some 1, some false⟩, false),
   (⟨[], ".build.loaded".toList, true, true, some (some tyBool), some 1, some false⟩, false),
   (⟨[], ".build.configured".toList, true, true, some (some tyBool), some 1, some false⟩,
     false)]

/-- The order of the multiset is as intended for these. -/
theorem builtin_regular : Regular (builtin.map (·.1)) := by
  unfold Regular Same Pat.size
  decide

/-- **C76i.** With the built-in patterns, `config.import.<project>` is an absolute directory
that can be overridden, globally. -/
theorem import_project {ov : Name → Bool} {os : List Op} {s s' : St} (h : Hist ov os s)
    (hb : patterns os = builtin.map (·.1)) {x : Name} (hx : x ≠ []) (hd : '.' ∉ x) {t v o}
    (hs : Step ov s (.insert ("config.import.".toList ++ x) t v o) s') :
    ∃ var, lookup s'.pool ("config.import.".toList ++ x) = some var ∧
      var.type = some tyAbsDirPath ∧ var.vis = 0 := by
  have hc : ("config.import.".toList ++ x).count '.' = 2 := by
    rw [List.count_append, List.count_eq_zero.2 hd]
    decide
  have hp : Preferred (patterns os) ("config.import.".toList ++ x)
      ⟨"config.import.".toList, [], false, true, some (some tyAbsDirPath), some 0, some true⟩ := by
    rw [hb]
    refine ⟨(builtin.map (·.1)).take 2, (builtin.map (·.1)).drop 3, by decide,
      ⟨x, hx, by simp, .inr hd⟩, ?_, ?_⟩
    · intro q hq hm
      have : q ∈ [(⟨"config.".toList, [], true, false, none, some 0, some true⟩ : Pat),
         ⟨"config.".toList, ".build.configured".toList, true, true, some (some tyBool), some 1,
           some false⟩] := hq
      simp only [List.mem_cons, List.not_mem_nil, or_false] at this
      rcases this with rfl | rfl
      · unfold MoreSpecific Same Pat.size
        decide
      · exfalso
        obtain ⟨s, -, e, -⟩ := hm
        have := congrArg (List.count '.') e
        rw [hc] at this
        simp only [List.count_append] at this
        rw [show List.count '.' "config.".toList = 1 by decide,
          show List.count '.' ".build.configured".toList = 2 by decide] at this
        omega
    · intro q hq hm
      have : q ∈ [(⟨"config.import.".toList, [], true, true, some (some tyPath), some 0,
          some true⟩ : Pat),
         ⟨[], ".build.booted".toList, true, true, some (some tyBool), some 1, some false⟩,
         ⟨[], ".build.loaded".toList, true, true, some (some tyBool), some 1, some false⟩,
         ⟨[], ".build.configured".toList, true, true, some (some tyBool), some 1, some false⟩] :=
        hq
      simp only [List.mem_cons, List.not_mem_nil, or_false] at this
      rcases this with rfl | rfl | rfl | rfl
      · unfold MoreSpecific Same Pat.size
        decide
      · unfold MoreSpecific Same Pat.size
        decide
      · unfold MoreSpecific Same Pat.size
        decide
      · exfalso
        obtain ⟨s, -, e, -⟩ := hm
        simp only [List.nil_append] at e
        have h1 := congrArg (List.count '.') e
        rw [hc, List.count_append,
          show List.count '.' ".build.configured".toList = 2 by decide] at h1
        have hs0 : '.' ∉ s := List.count_eq_zero.1 (by omega)
        have h2 := congrArg (List.dropWhile (fun c => c != '.')) e
        have e1 : List.dropWhile (fun c => c != '.') ("config.import.".toList ++ x) =
            ".import.".toList ++ x := rfl
        have e2 : List.dropWhile (fun c => c != '.') (s ++ ".build.configured".toList) =
            ".build.configured".toList := by
          rw [List.dropWhile_append_of_pos]
          · rfl
          · intro c hc'
            simp
            exact fun e => hs0 (e ▸ hc')
        rw [e1, e2] at h2
        have h3 := congrArg (fun l => l[1]?) h2
        have h4 : (".import.".toList ++ x)[1]? = some 'i' := rfl
        have h5 : (".build.configured".toList)[1]? = some 'b' := by decide
        simp only [h4, h5] at h3
        simp at h3
  have hq : Qualified ("config.import.".toList ++ x) := by
    unfold Qualified
    simp
  obtain ⟨var, hl, h1, -, h2, -⟩ :=
    entered_partial h (by rw [hb]; exact builtin_regular) hq hp rfl hs
  exact ⟨var, hl, h1 _ rfl, h2 _ rfl⟩

/-- A tree with the patterns. -/
def Tree.ofList : List Pat → Tree
  | [] => .nil
  | x :: xs => .node .nil x (ofList xs)

theorem Tree.ofList_list (l : List Pat) : (Tree.ofList l).list = l := by
  induction l with
  | nil => rfl
  | cons x l ih => simp [Tree.ofList, Tree.list, ih]

theorem patterns_map (l : List (Pat × Bool)) :
    patterns (l.map (fun e => .pattern e.1 e.2)) = l.map (·.1) := by
  induction l with
  | nil => rfl
  | cons e l ih => simp [patterns, ih]

theorem hist_patterns {ov : Name → Bool} (l : List (Pat × Bool)) {os : List Op} {s : St}
    (h : Hist ov os s) (hs : s.pool = []) :
    ∃ s', Hist ov (os ++ l.map (fun e => .pattern e.1 e.2)) s' ∧ s'.pool = [] := by
  induction l generalizing os s with
  | nil => exact ⟨s, by simpa using h, hs⟩
  | cons e l ih =>
    have := ih (h.step (.pattern (p := e.1) (r := e.2) (m := []) (.ofList s.pats)
      (Tree.ofList_list _) (by rw [hs]; cases e.2 <;> rfl))) rfl
    simpa using this

/-- The built-in patterns can be inserted, and `config.import.libx` entered. -/
example : ∃ os s s', Hist (fun _ => false) os s ∧ patterns os = builtin.map (·.1) ∧
    Step (fun _ => false) s (.insert ("config.import.".toList ++ "libx".toList) none none none)
      s' := by
  obtain ⟨s, h, hp⟩ := hist_patterns (ov := fun _ => false) builtin .nil rfl
  have hpat : patterns (builtin.map (fun e => .pattern e.1 e.2)) = builtin.map (·.1) :=
    patterns_map _
  have hsel := selected_partial h (by rw [List.nil_append, hpat]; exact builtin_regular)
    (n := "config.import.".toList ++ "libx".toList) (by unfold Qualified; decide)
  rw [List.nil_append, hpat] at hsel
  cases hx : insert (fun _ => false) s.pats s.pool ("config.import.".toList ++ "libx".toList)
      ⟨none, none, none⟩ with
  | ok m => exact ⟨_, s, _, h, by rw [List.nil_append, hpat], .insert hx⟩
  | error e =>
    exfalso
    simp only [insert, hp] at hx
    cases hy : select s.pats ("config.import.".toList ++ "libx".toList) with
    | none => rw [hy] at hx; simp [premerge, bind, Except.bind, lookup] at hx
    | some p =>
      rw [hy] at hx
      have hm : ∃ y, premerge (some p) ⟨none, none, none⟩ = .ok y := by
        simp only [premerge, merge, mergeType, mergeVis, mergeOvr]
        cases p.type <;> cases p.vis <;> cases p.ovr <;> exact ⟨_, rfl⟩
      obtain ⟨y, hy⟩ := hm
      rw [hy] at hx
      simp [bind, Except.bind, lookup] at hx

/-! ## What does not hold, and examples -/

instance : DecidableEq (Except Err Pool)
  | .ok a, .ok b => decidable_of_iff (a = b) (by simp)
  | .error a, .error b => decidable_of_iff (a = b) (by simp)
  | .ok _, .error _ => .isFalse (by simp)
  | .error _, .ok _ => .isFalse (by simp)

/-- A strict pattern with a type. -/
def pat (pfx : String) (multi : Bool) (ty : Ty) : Pat :=
  ⟨pfx.toList, [], multi, true, some (some ty), none, none⟩

/-- The order of patterns is not a strict weak order: with `a.*`, `b.*` and `c.*` in the
multiset (the second at the root after it has been balanced), `a.**` gets behind `a.*` and is
used although `a.*` is more specific. -/
theorem wildcard_preferred : ∃ s, Hist (fun _ => false)
    [.pattern (pat "a." false 1) false, .pattern (pat "b." false 2) false,
     .pattern (pat "c." false 3) false, .pattern (pat "a." true 4) false,
     .insert "a.x".toList none none none] s ∧
    lookup s.pool "a.x".toList = some ⟨some 4, 1⟩ ∧
    Matches (pat "a." false 1) "a.x".toList ∧
    MoreSpecific (pat "a." false 1) (pat "a." true 4) := by
  have h0 : Hist (fun _ => false) _ _ := .nil
  have h1 := h0.step (.pattern (p := pat "a." false 1) (r := false) .nil rfl rfl)
  have h2 := h1.step (.pattern (p := pat "b." false 2) (r := false)
    (.node .nil (pat "a." false 1) .nil) rfl rfl)
  have h3 := h2.step (.pattern (p := pat "c." false 3) (r := false)
    (.node .nil (pat "a." false 1) (.node .nil (pat "b." false 2) .nil)) rfl rfl)
  have h4 := h3.step (.pattern (p := pat "a." true 4) (r := false)
    (.node (.node .nil (pat "a." false 1) .nil) (pat "b." false 2)
      (.node .nil (pat "c." false 3) .nil)) rfl rfl)
  have h5 := h4.step (.insert (n := "a.x".toList) (t := none) (v := none) (o := none)
    (m := [("a.x".toList, ⟨some 4, 1⟩)]) (by decide +kernel))
  refine ⟨_, h5, by decide +kernel, ⟨['x'], by simp, rfl, .inr (by decide)⟩, .inr ?_⟩
  exact ⟨⟨rfl, rfl⟩, rfl, rfl⟩

/-- What is documented is not always meaningful: of `a.*.b`, `a.x.*` and `a.**.b`, inserted
in this order, each is preferred to another one for `a.x.b`, so none is preferred to all. -/
theorem preferred_cyclic : ¬ ∃ p, Preferred
    [⟨"a.".toList, ".b".toList, false, true, none, none, none⟩,
     ⟨"a.x.".toList, [], false, true, none, none, none⟩,
     ⟨"a.".toList, ".b".toList, true, true, none, none, none⟩] "a.x.b".toList p := by
  rintro ⟨p, a, b, e, hm, ha, hb⟩
  have m1 : Matches ⟨"a.".toList, ".b".toList, false, true, none, none, none⟩ "a.x.b".toList :=
    ⟨['x'], by simp, rfl, .inr (by decide)⟩
  have m2 : Matches ⟨"a.x.".toList, [], false, true, none, none, none⟩ "a.x.b".toList :=
    ⟨['b'], by simp, rfl, .inr (by decide)⟩
  match a with
  | [] =>
    simp at e
    obtain ⟨rfl, rfl⟩ := e
    have := hb ⟨"a.x.".toList, [], false, true, none, none, none⟩ (by simp) m2
    revert this
    unfold MoreSpecific Same Pat.size
    decide
  | [x] =>
    simp at e
    obtain ⟨rfl, rfl, rfl⟩ := e
    have := hb ⟨"a.".toList, ".b".toList, true, true, none, none, none⟩ (by simp)
      ⟨['x'], by simp, rfl, .inl rfl⟩
    revert this
    unfold MoreSpecific Same Pat.size
    decide
  | [x, y] =>
    simp at e
    obtain ⟨rfl, rfl, rfl, rfl⟩ := e
    exact ha _ (List.mem_cons_self ..) m1 (.inr ⟨⟨rfl, rfl⟩, rfl, rfl⟩)
  | x :: y :: z :: w => simp at e

/-- A buildfile can restrict the visibility of a variable with a strict pattern, after which
entering the variable again (here `config.import.x`) fails an assertion. -/
theorem attribute_asserts : ∃ s,
    Hist (fun _ => false)
      [.pattern ⟨"config.import.".toList, [], false, true, some (some tyAbsDirPath), some 0,
        some true⟩ true, .insert "config.import.x".toList none none none,
       .attrs "config.import.x".toList none (some 2) none] s ∧
    insert (fun _ => false) s.pats s.pool "config.import.x".toList ⟨none, none, none⟩ =
      .error .assertion := by
  have h0 : Hist (fun _ => false) _ _ := .nil
  have h1 := h0.step (.pattern (p := ⟨"config.import.".toList, [], false, true,
    some (some tyAbsDirPath), some 0, some true⟩) (r := true) .nil rfl rfl)
  have h2 := h1.step (.insert (n := "config.import.x".toList) (t := none) (v := none) (o := none)
    (m := [("config.import.x".toList, ⟨some tyAbsDirPath, 0⟩)]) (by decide +kernel))
  have h3 := h2.step (.attrs (n := "config.import.x".toList) (t := none) (v := some 2) (o := none)
    (m := [("config.import.x".toList, ⟨some tyAbsDirPath, 2⟩)]) (by decide +kernel))
  exact ⟨_, h3, by decide +kernel⟩

/-- A pattern `**` applies to existing variables without a dot but not to new ones. -/
theorem unqualified_applied :
    (∃ s, Hist (fun _ => false) [.insert "test".toList none none none,
      .pattern (pat "" true 1) true] s ∧
      lookup s.pool "test".toList = some ⟨some 1, 1⟩) ∧
    ∃ s, Hist (fun _ => false) [.pattern (pat "" true 1) true,
      .insert "test".toList none none none] s ∧
      lookup s.pool "test".toList = some ⟨none, 1⟩ := by
  constructor
  · have h0 : Hist (fun _ => false) _ _ := .nil
    have h1 := h0.step (.insert (n := "test".toList) (t := none) (v := none) (o := none)
      (m := [("test".toList, ⟨none, 1⟩)]) (by decide +kernel))
    have h2 := h1.step (.pattern (p := pat "" true 1) (r := true)
      (m := [("test".toList, ⟨some 1, 1⟩)]) .nil rfl (by decide +kernel))
    exact ⟨_, h2, by decide +kernel⟩
  · have h0 : Hist (fun _ => false) _ _ := .nil
    have h1 := h0.step (.pattern (p := pat "" true 1) (r := true) .nil rfl rfl)
    have h2 := h1.step (.insert (n := "test".toList) (t := none) (v := none) (o := none)
      (m := [("test".toList, ⟨none, 1⟩)]) (by decide +kernel))
    exact ⟨_, h2, by decide +kernel⟩

/-- If the less specific pattern is inserted first, then applying the more specific one to a
variable that has been entered fails an assertion. -/
theorem general_first : ∃ s, Hist (fun _ => false)
    [.pattern (pat "a." true 1) true, .insert "a.x".toList none none none] s ∧
    retro (fun _ => false) (pat "a." false 2) [] s.pool = .error .assertion := by
  have h0 : Hist (fun _ => false) _ _ := .nil
  have h1 := h0.step (.pattern (p := pat "a." true 1) (r := true) .nil rfl rfl)
  have h2 := h1.step (.insert (n := "a.x".toList) (t := none) (v := none) (o := none)
    (m := [("a.x".toList, ⟨some 1, 1⟩)]) (by decide +kernel))
  exact ⟨_, h2, by decide +kernel⟩

/-- Operations for which the order does not matter, in two orders. -/
example : ∃ s s', Hist (fun _ => false)
      [.insert "a.x".toList none (some 2) none, .pattern (pat "a." false 1) true,
       .pattern (pat "a." true 2) true] s ∧
    Hist (fun _ => false)
      [.pattern (pat "a." false 1) true, .pattern (pat "a." true 2) true,
       .insert "a.x".toList none (some 2) none] s' ∧
    Tidy [.insert "a.x".toList none (some 2) none, .pattern (pat "a." false 1) true,
       .pattern (pat "a." true 2) true] "a.x".toList ∧
    lookup s.pool "a.x".toList = some ⟨some 1, 2⟩ ∧
    lookup s'.pool "a.x".toList = some ⟨some 1, 2⟩ := by
  have h0 : Hist (fun _ => false) _ _ := .nil
  have h1 := h0.step (.insert (n := "a.x".toList) (t := none) (v := some 2) (o := none)
    (m := [("a.x".toList, ⟨none, 2⟩)]) (by decide +kernel))
  have h2 := h1.step (.pattern (p := pat "a." false 1) (r := true)
    (m := [("a.x".toList, ⟨some 1, 2⟩)]) .nil rfl (by decide +kernel))
  have h3 := h2.step (.pattern (p := pat "a." true 2) (r := true)
    (m := [("a.x".toList, ⟨some 1, 2⟩)]) (.node .nil (pat "a." false 1) .nil) rfl
    (by decide +kernel))
  have g1 := h0.step (.pattern (p := pat "a." false 1) (r := true) .nil rfl rfl)
  have g2 := g1.step (.pattern (p := pat "a." true 2) (r := true)
    (.node .nil (pat "a." false 1) .nil) rfl rfl)
  have g3 := g2.step (.insert (n := "a.x".toList) (t := none) (v := some 2) (o := none)
    (m := [("a.x".toList, ⟨some 1, 2⟩)]) (by decide +kernel))
  refine ⟨_, _, h3, g3, ⟨by unfold Qualified; decide, ?_, ?_, ?_⟩, by decide +kernel,
    by decide +kernel⟩
  · unfold Regular Same Pat.size
    decide
  · simp only [patterns, List.pairwise_cons, List.mem_singleton, List.not_mem_nil]
    refine ⟨?_, by simp⟩
    rintro q rfl - -
    exact .inr ⟨⟨rfl, rfl⟩, rfl, rfl⟩
  · intro p r hp _
    simp only [List.mem_cons, Op.pattern.injEq, reduceCtorEq, false_or, List.not_mem_nil,
      or_false] at hp
    rcases hp with ⟨rfl, rfl⟩ | ⟨rfl, rfl⟩ <;> exact ⟨rfl, rfl⟩

end Verif.VarPool
