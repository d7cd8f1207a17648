import Verif.RuleMatch.Lemmas

/-!
# Rule matching: properties (C42)
-/

namespace Verif.RuleMatch

/-! ## Rule maps -/

/-- A registration. -/
structure Reg where
  mo : Nat
  o : Nat
  tt : Nat
  entry : Entry

/-- The map after registering these, in this order. -/
def registerAll (lt : Name → Name → Bool) : RuleMap → List Reg → RuleMap
  | m, [] => m
  | m, r :: rs => registerAll lt (insertRule lt r.mo r.o r.tt r.entry m).1 rs

/-- The two registrations are for the same meta-operation, operation, type and name. -/
def Reg.Clash (r s : Reg) : Prop :=
  r.mo = s.mo ∧ r.o = s.o ∧ r.tt = s.tt ∧ r.entry.cand.name = s.entry.cand.name

theorem init_empty (mo o tt : Nat) : entries RuleMap.init mo o tt = [] := by
  rw [entries_eq]
  by_cases h : performId = mo
  · simp [RuleMap.init, h, opEntries, typeEntries]
  · simp [RuleMap.init, List.find?_cons, show (performId == mo) = false by simpa using h,
      opEntries, typeEntries]

theorem registerAll_append (lt : Name → Name → Bool) (m : RuleMap) (rs ss : List Reg) :
    registerAll lt m (rs ++ ss) = registerAll lt (registerAll lt m rs) ss := by
  induction rs generalizing m with
  | nil => rfl
  | cons r rs ih => exact ih _

theorem registerAll_mem (lt : Name → Name → Bool) (m : RuleMap) (rs : List Reg)
    (mo o tt : Nat) (e : Entry) :
    e ∈ entries (registerAll lt m rs) mo o tt ↔
      e ∈ entries m mo o tt ∨
      ∃ pre post, rs = pre ++ ⟨mo, o, tt, e⟩ :: post ∧
        (∀ s ∈ pre, ¬ s.Clash ⟨mo, o, tt, e⟩) ∧
        (∀ y ∈ entries m mo o tt, y.cand.name ≠ e.cand.name) := by
  induction rs generalizing m with
  | nil => simp [registerAll]
  | cons r rs ih =>
    rw [registerAll, ih]
    have hg := (insertRule_get lt r.mo mo r.o o r.tt tt r.entry m).1
    rw [hg]
    by_cases hk : mo = r.mo ∧ o = r.o ∧ tt = r.tt
    · obtain ⟨rfl, rfl, rfl⟩ := hk
      rw [if_pos ⟨rfl, rfl, rfl⟩]
      simp only [emplace_mem]
      constructor
      · rintro ((h | ⟨rfl, h⟩) | ⟨pre, post, rfl, h1, h2⟩)
        · exact .inl h
        · exact .inr ⟨[], rs, rfl, by simp, h⟩
        · refine .inr ⟨r :: pre, post, rfl, ?_, fun y hy => h2 y (.inl hy)⟩
          rintro s hs hc
          rcases List.mem_cons.mp hs with rfl | hs
          · by_cases hall : ∀ y ∈ entries m s.mo s.o s.tt, y.cand.name ≠ s.entry.cand.name
            · exact h2 s.entry (.inr ⟨rfl, hall⟩) hc.2.2.2
            · simp only [ne_eq, Classical.not_forall, Decidable.not_not] at hall
              obtain ⟨y, hy, hyn⟩ := hall
              exact h2 y (.inl hy) (hyn.trans hc.2.2.2)
          · exact h1 s hs hc
      · rintro (h | ⟨pre, post, hsp, h1, h2⟩)
        · exact .inl (.inl h)
        · cases pre with
          | nil =>
            simp only [List.nil_append, List.cons.injEq] at hsp
            obtain ⟨hr, rfl⟩ := hsp
            left; right
            have : r.entry = e := by rw [hr]
            exact ⟨this.symm, fun y hy => by rw [this]; exact h2 y hy⟩
          | cons p pre =>
            simp only [List.cons_append, List.cons.injEq] at hsp
            obtain ⟨rfl, rfl⟩ := hsp
            right
            refine ⟨pre, post, rfl, fun s hs => h1 s (List.mem_cons_of_mem _ hs), ?_⟩
            rintro y (hy | ⟨rfl, _⟩)
            · exact h2 y hy
            · intro hn
              exact h1 r List.mem_cons_self ⟨rfl, rfl, rfl, hn⟩
    · rw [if_neg hk]
      constructor
      · rintro (h | ⟨pre, post, rfl, h1, h2⟩)
        · exact .inl h
        · refine .inr ⟨r :: pre, post, rfl, ?_, h2⟩
          rintro s hs hc
          rcases List.mem_cons.mp hs with rfl | hs
          · exact hk ⟨hc.1.symm, hc.2.1.symm, hc.2.2.1.symm⟩
          · exact h1 s hs hc
      · rintro (h | ⟨pre, post, hsp, h1, h2⟩)
        · exact .inl h
        · cases pre with
          | nil =>
            simp only [List.nil_append, List.cons.injEq] at hsp
            obtain ⟨hr, _⟩ := hsp
            exact absurd (by rw [hr]; exact ⟨rfl, rfl, rfl⟩) hk
          | cons p pre =>
            simp only [List.cons_append, List.cons.injEq] at hsp
            obtain ⟨rfl, rfl⟩ := hsp
            exact .inr ⟨pre, post, rfl, fun s hs => h1 s (List.mem_cons_of_mem _ hs), h2⟩

/-- What is found in a scope for a meta-operation, operation and type after any sequence of
registrations: for each name the first rule that was registered, whatever else was
registered before, in between and after. -/
theorem registered_first (lt : Name → Name → Bool) (rs : List Reg) (mo o tt : Nat) (e : Entry) :
    e ∈ entries (registerAll lt RuleMap.init rs) mo o tt ↔
      ∃ pre post, rs = pre ++ ⟨mo, o, tt, e⟩ :: post ∧ ∀ s ∈ pre, ¬ s.Clash ⟨mo, o, tt, e⟩ := by
  rw [registerAll_mem, init_empty]
  simp

/-- A registration says it is a duplicate if and only if there was one for the same
meta-operation, operation, type and name before. -/
theorem register_duplicate (lt : Name → Name → Bool) (rs : List Reg) (r : Reg) :
    (insertRule lt r.mo r.o r.tt r.entry (registerAll lt RuleMap.init rs)).2 = false ↔
      ∃ s ∈ rs, s.Clash r := by
  rw [(insertRule_get lt r.mo r.mo r.o r.o r.tt r.tt r.entry _).2, ← Bool.not_eq_true,
    emplace_new]
  simp only [ne_eq, Classical.not_forall, Decidable.not_not]
  constructor
  · rintro ⟨y, hy, hn⟩
    obtain ⟨pre, post, rfl, -⟩ := (registered_first lt rs _ _ _ y).mp hy
    exact ⟨_, List.mem_append_right _ List.mem_cons_self, rfl, rfl, rfl, hn⟩
  · intro h
    -- The first one.
    have : ∀ (rs : List Reg), (∃ s ∈ rs, s.Clash r) →
        ∃ pre s post, rs = pre ++ s :: post ∧ s.Clash r ∧ ∀ x ∈ pre, ¬ x.Clash r := by
      intro rs
      induction rs with
      | nil => rintro ⟨s, hs, _⟩; cases hs
      | cons a rs ih =>
        rintro ⟨s, hs, hc⟩
        by_cases ha : a.Clash r
        · exact ⟨[], a, rs, rfl, ha, by simp⟩
        · rcases List.mem_cons.mp hs with rfl | hs
          · exact absurd hc ha
          · obtain ⟨pre, s', post, rfl, h1, h2⟩ := ih ⟨s, hs, hc⟩
            refine ⟨a :: pre, s', post, rfl, h1, ?_⟩
            intro x hx
            rcases List.mem_cons.mp hx with rfl | hx
            · exact ha
            · exact h2 x hx
    obtain ⟨pre, s, post, rfl, h1, h2⟩ := this rs h
    refine ⟨s.entry, ?_, h1.2.2.2⟩
    rw [registered_first]
    refine ⟨pre, post, ?_, ?_⟩
    · rw [← h1.1, ← h1.2.1, ← h1.2.2.1]
    · intro x hx hc
      exact h2 x hx ⟨hc.1, hc.2.1, hc.2.2.1, hc.2.2.2.trans h1.2.2.2⟩

theorem registerAll_unique (lt : Name → Name → Bool) (m : RuleMap) (rs : List Reg)
    (h : ∀ mo o tt, Unique (entries m mo o tt)) (mo o tt : Nat) :
    Unique (entries (registerAll lt m rs) mo o tt) := by
  induction rs generalizing m with
  | nil => exact h mo o tt
  | cons r rs ih =>
    refine ih _ ?_
    intro mo' o' tt'
    rw [(insertRule_get lt r.mo mo' r.o o' r.tt tt' r.entry m).1]
    split
    · exact emplace_unique lt _ _ (h _ _ _)
    · exact h _ _ _

/-- No two rules found for the same meta-operation, operation and type have the same
name. -/
theorem registered_unique (lt : Name → Name → Bool) (rs : List Reg) (mo o tt : Nat) :
    ((entries (registerAll lt RuleMap.init rs) mo o tt).map (·.cand.name)).Nodup :=
  registerAll_unique lt _ rs (fun mo o tt => by rw [init_empty]; simp [Unique]) mo o tt

/-! ## The search -/

/-- What is registered is matched as is, except that an ad hoc pattern's entry for any operation
stands for the first of the pattern's rules that can reverse this one, if any. -/
theorem resolve_spec (mo o tt oi : Nat) (e : Entry) (c : Cand) :
    resolve mo o tt oi e = some c ↔
      ((oi ≠ 0 ∨ e.fallback = none) ∧ c = e.cand) ∨
      (oi = 0 ∧ ∃ pre r post, e.fallback = some (pre ++ r :: post) ∧ r.cand = c ∧
        r.reverse mo o tt = true ∧ ∀ x ∈ pre, x.reverse mo o tt = false) := by
  unfold resolve
  by_cases h : oi = 0
  · rw [if_pos h]
    cases hf : e.fallback with
    | none =>
      simp only [h, Option.some.injEq]
      constructor
      · intro e; exact .inl ⟨.inr trivial, e.symm⟩
      · rintro (⟨_, e⟩ | ⟨_, _, _, _, e, _⟩)
        · exact e.symm
        · cases e
    | some rs =>
      simp only [h, ne_eq, not_true_eq_false, reduceCtorEq, or_self, false_and, true_and, false_or,
        Option.some.injEq, Option.map_eq_some_iff]
      constructor
      · rintro ⟨r, h1, h2⟩
        obtain ⟨h3, pre, post, rfl, h4⟩ := List.find?_eq_some_iff_append.mp h1
        exact ⟨pre, r, post, rfl, h2, h3, fun x hx => by simpa using h4 x hx⟩
      · rintro ⟨pre, r, post, rfl, h2, h3, h4⟩
        refine ⟨r, List.find?_eq_some_iff_append.mpr ⟨h3, pre, post, rfl, ?_⟩, h2⟩
        intro x hx; simp [h4 x hx]
  · rw [if_neg h]
    constructor
    · intro e; exact .inl ⟨.inl h, (Option.some.inj e).symm⟩
    · rintro (⟨_, e⟩ | ⟨e, _⟩)
      · rw [e]
      · exact absurd e h

/-- The rule registered as `e` in scope number `p.scope` (of those searched) for type number
`p.type` and for the operation itself or for any matches as `c`. -/
def Hit (v : Env) (ss : List RuleMap) (types : List Nat) (p : Pos) (e : Entry) (c : Cand) : Prop :=
  ∃ s tt oi, ss[p.scope]? = some s ∧ types[p.type]? = some tt ∧ v.o ≠ 0 ∧
    ((p.wild = 0 ∧ oi = v.o) ∨ (p.wild = 1 ∧ oi = 0)) ∧
    e ∈ entries s v.mo oi tt ∧
    v.hint <+: e.cand.name ∧
    resolve v.mo v.o tt oi e = some c ∧
    (v.locked = true ∨ c.adhoc = true) ∧
    v.m c.obj v.hint (oi = 0) = true

theorem mem_filterHint (h : Name) (es : List Entry) (e : Entry) :
    e ∈ filterHint h es ↔ e ∈ es ∧ h <+: e.cand.name := by
  unfold filterHint
  split
  · rename_i h0; subst h0; simp
  · rw [List.mem_filter, List.isPrefixOf_iff_prefix]

theorem opsOf_get (o i oi : Nat) : (opsOf o)[i]? = some oi ↔
    o ≠ 0 ∧ ((i = 0 ∧ oi = o) ∨ (i = 1 ∧ oi = 0)) := by
  unfold opsOf
  by_cases h : o = 0
  · simp [h]
  · rw [if_neg h]
    match i with
    | 0 => simp [h, eq_comm]
    | 1 => simp [h, eq_comm]
    | i + 2 => simp

/-- The rules that match at a position. -/
def hitsAt (v : Env) (s : RuleMap) (tt oi : Nat) : List Entry :=
  (filterHint v.hint (entries s v.mo oi tt)).filter (alsoMatches v tt oi)

theorem alsoMatches_iff (v : Env) (tt oi : Nat) (e : Entry) :
    alsoMatches v tt oi e = true ↔ ∃ c, resolve v.mo v.o tt oi e = some c ∧
      (v.locked = true ∨ c.adhoc = true) ∧ v.m c.obj v.hint (oi = 0) = true := by
  unfold alsoMatches
  cases resolve v.mo v.o tt oi e with
  | none => simp
  | some c =>
    simp only [Option.some.injEq, exists_eq_left']
    cases hl : v.locked <;> cases ha : c.adhoc <;> simp

theorem hit_iff (v : Env) (ss : List RuleMap) (types : List Nat) (p : Pos) (e : Entry) :
    (∃ c, Hit v ss types p e c) ↔ ∃ s tt oi, ss[p.scope]? = some s ∧ types[p.type]? = some tt ∧
      (opsOf v.o)[p.wild]? = some oi ∧ e ∈ hitsAt v s tt oi := by
  constructor
  · rintro ⟨c, s, tt, oi, h1, h2, h3, h4, h5, h6, h7, h8, h9⟩
    refine ⟨s, tt, oi, h1, h2, (opsOf_get _ _ _).mpr ⟨h3, h4⟩, ?_⟩
    exact List.mem_filter.mpr ⟨(mem_filterHint _ _ _).mpr ⟨h5, h6⟩,
      (alsoMatches_iff _ _ _ _).mpr ⟨c, h7, h8, h9⟩⟩
  · rintro ⟨s, tt, oi, h1, h2, h3, h4⟩
    obtain ⟨h4, h5⟩ := List.mem_filter.mp h4
    obtain ⟨c, h7, h8, h9⟩ := (alsoMatches_iff _ _ _ _).mp h5
    obtain ⟨h10, h11⟩ := (opsOf_get _ _ _).mp h3
    obtain ⟨h12, h13⟩ := (mem_filterHint _ _ _).mp h4
    exact ⟨c, s, tt, oi, h1, h2, h10, h11, h12, h13, h7, h8, h9⟩

/-- The rule to skip, if any, does not match. -/
def SkipFree (v : Env) (ss : List RuleMap) (types : List Nat) : Prop :=
  ∀ p e c, Hit v ss types p e c → some c.obj ≠ v.skip

/-- The search visits the positions in order of preference and the first one where anything
matches is what counts. -/
theorem search_first (v : Env) (ss : List RuleMap) (types : List Nat)
    (hs : SkipFree v ss types) :
    (searchTypes v ss types = .none ∧ ∀ p e c, ¬ Hit v ss types p e c) ∨
    ∃ (p : Pos) (s : RuleMap) (tt oi : Nat), ss[p.scope]? = some s ∧ types[p.type]? = some tt ∧
      (opsOf v.o)[p.wild]? = some oi ∧ hitsAt v s tt oi ≠ [] ∧
      searchTypes v ss types = classify v.mo v.o tt oi (hitsAt v s tt oi) ∧
      ∀ q e c, Hit v ss types q e c → p.le q := by
  -- The three levels.
  have scanEq : ∀ (i k l : Nat) (s : RuleMap) (tt oi : Nat), ss[k]? = some s →
      types[i]? = some tt → (opsOf v.o)[l]? = some oi →
      scan v tt oi (filterHint v.hint (entries s v.mo oi tt)) =
        classify v.mo v.o tt oi (hitsAt v s tt oi) := by
    intro i k l s tt oi h1 h2 h3
    refine scan_spec v tt oi _ ?_
    intro e he c hr ha
    obtain ⟨c', hc'⟩ := (hit_iff v ss types ⟨i, k, l⟩ e).mpr
      ⟨s, tt, oi, h1, h2, h3, List.mem_filter.mpr ⟨he, ha⟩⟩
    have hcc : c' = c := by
      obtain ⟨s', tt', oi', g1, g2, g3, g4, _, _, g7, _⟩ := hc'
      have e2 : tt' = tt := by rw [h2] at g2; exact (Option.some.inj g2).symm
      have e3 : oi' = oi := by
        have := (opsOf_get v.o l oi').mpr ⟨g3, g4⟩
        rw [h3] at this; exact (Option.some.inj this).symm
      subst e2 e3
      rw [hr] at g7; exact (Option.some.inj g7).symm
    rw [← hcc]
    exact hs _ _ _ hc'
  have cn : ∀ (s : RuleMap) (tt oi : Nat),
      classify v.mo v.o tt oi (hitsAt v s tt oi) = .none ↔ hitsAt v s tt oi = [] :=
    fun s tt oi => classify_none
  have ops := fun (tt : Nat) (s : RuleMap) =>
    first_spec (fun oi => scan v tt oi (filterHint v.hint (entries s v.mo oi tt)))
      (searchOps v tt s) rfl (fun _ _ => rfl) (opsOf v.o)
  have scs := fun (tt : Nat) =>
    first_spec (fun s => searchOps v tt s (opsOf v.o)) (searchScopes v tt) rfl
      (fun _ _ => rfl) ss
  have tys := first_spec (fun tt => searchScopes v tt ss) (searchTypes v ss) rfl
      (fun _ _ => rfl) types
  have opsNone : ∀ (i k : Nat) (s : RuleMap) (tt : Nat), ss[k]? = some s → types[i]? = some tt →
      (searchOps v tt s (opsOf v.o) = .none ↔
        ∀ (l oi : Nat), (opsOf v.o)[l]? = some oi → hitsAt v s tt oi = []) := by
    intro i k s tt h1 h2
    constructor
    · intro h l oi h3
      rcases ops tt s with ⟨_, g⟩ | ⟨_, _, _, g1, g2, _⟩
      · have := g l oi h3
        rw [scanEq i k l s tt oi h1 h2 h3, cn] at this
        exact this
      · exact absurd (g1.trans h) g2
    · intro h
      rcases ops tt s with ⟨g, _⟩ | ⟨l, oi, g0, g1, g2, _⟩
      · exact g
      · exfalso
        apply g2
        rw [scanEq i k l s tt oi h1 h2 g0, cn]
        exact h l oi g0
  have scsNone : ∀ (i tt : Nat), types[i]? = some tt →
      (searchScopes v tt ss = .none ↔ ∀ (k : Nat) (s : RuleMap), ss[k]? = some s →
        searchOps v tt s (opsOf v.o) = .none) := by
    intro i tt h2
    constructor
    · intro h k s h1
      rcases scs tt with ⟨_, g⟩ | ⟨_, _, _, g1, g2, _⟩
      · exact g k s h1
      · exact absurd (g1.trans h) g2
    · intro h
      rcases scs tt with ⟨g, _⟩ | ⟨k, s, g0, g1, g2, _⟩
      · exact g
      · exact absurd (h k s g0) g2
  -- A hit means that the levels are not none.
  have hitOut : ∀ q e c, Hit v ss types q e c → ∃ s tt oi, ss[q.scope]? = some s ∧
      types[q.type]? = some tt ∧ (opsOf v.o)[q.wild]? = some oi ∧ hitsAt v s tt oi ≠ [] := by
    intro q e c h
    obtain ⟨s, tt, oi, h1, h2, h3, h4⟩ := (hit_iff v ss types q e).mp ⟨c, h⟩
    exact ⟨s, tt, oi, h1, h2, h3, List.ne_nil_of_mem h4⟩
  rcases tys with ⟨t1, t2⟩ | ⟨i, tt, t0, t1, t2, t3⟩
  · left
    refine ⟨t1, ?_⟩
    intro q e c h
    obtain ⟨s, tt, oi, h1, h2, h3, h4⟩ := hitOut q e c h
    have := (scsNone q.type tt h2).mp (t2 _ _ h2) q.scope s h1
    exact h4 ((opsNone q.type q.scope s tt h1 h2).mp this q.wild oi h3)
  · right
    rcases scs tt with ⟨s1, _⟩ | ⟨k, s, s0, s1, s2, s3⟩
    · exact absurd s1 t2
    · rcases ops tt s with ⟨o1, _⟩ | ⟨l, oi, o0, o1, o2, o3⟩
      · exact absurd o1 s2
      · have hsc := scanEq i k l s tt oi s0 t0 o0
        refine ⟨⟨i, k, l⟩, s, tt, oi, s0, t0, o0, ?_, ?_, ?_⟩
        · intro hn
          rw [hsc, ne_eq, cn] at o2
          exact o2 hn
        · rw [← t1, ← s1, ← o1, hsc]
        · intro q e c h
          obtain ⟨s', tt', oi', h1, h2, h3, h4⟩ := hitOut q e c h
          have hne : searchOps v tt' s' (opsOf v.o) ≠ .none := by
            intro hn
            exact h4 ((opsNone q.type q.scope s' tt' h1 h2).mp hn q.wild oi' h3)
          have hne' : searchScopes v tt' ss ≠ .none := by
            intro hn
            exact hne ((scsNone q.type tt' h2).mp hn q.scope s' h1)
          have le1 := t3 q.type tt' h2 hne'
          unfold Pos.le
          simp only
          by_cases e1 : i = q.type
          · right
            refine ⟨e1, ?_⟩
            have : tt' = tt := by
              rw [← e1, t0] at h2; exact (Option.some.inj h2).symm
            subst this
            have le2 := s3 q.scope s' h1 hne
            by_cases e2 : k = q.scope
            · right
              refine ⟨e2, ?_⟩
              have : s' = s := by
                rw [← e2, s0] at h1; exact (Option.some.inj h1).symm
              subst this
              refine o3 q.wild oi' h3 ?_
              rw [scanEq q.type q.scope q.wild s' tt' oi' h1 h2 h3]
              intro hn
              exact h4 ((cn _ _ _).mp hn)
            · left; omega
          · left; omega

theorem hitsAt_hit {v : Env} {ss : List RuleMap} {types : List Nat} {p : Pos} {s : RuleMap}
    {tt oi : Nat} (h1 : ss[p.scope]? = some s) (h2 : types[p.type]? = some tt)
    (h3 : (opsOf v.o)[p.wild]? = some oi) {e : Entry} {c : Cand} :
    Hit v ss types p e c ↔ e ∈ hitsAt v s tt oi ∧ resolve v.mo v.o tt oi e = some c := by
  constructor
  · rintro ⟨s', tt', oi', g1, g2, g3, g4, g5, g6, g7, g8, g9⟩
    have e1 : s' = s := by rw [h1] at g1; exact (Option.some.inj g1).symm
    have e2 : tt' = tt := by rw [h2] at g2; exact (Option.some.inj g2).symm
    have e3 : oi' = oi := by
      have := (opsOf_get v.o p.wild oi').mpr ⟨g3, g4⟩
      rw [h3] at this; exact (Option.some.inj this).symm
    subst e1 e2 e3
    exact ⟨List.mem_filter.mpr ⟨(mem_filterHint _ _ _).mpr ⟨g5, g6⟩,
      (alsoMatches_iff _ _ _ _).mpr ⟨c, g7, g8, g9⟩⟩, g7⟩
  · rintro ⟨g1, g2⟩
    obtain ⟨g4, g5⟩ := List.mem_filter.mp g1
    obtain ⟨c', h7, h8, h9⟩ := (alsoMatches_iff _ _ _ _).mp g5
    rw [g2] at h7
    obtain rfl := Option.some.inj h7
    obtain ⟨h10, h11⟩ := (opsOf_get _ _ _).mp h3
    obtain ⟨h12, h13⟩ := (mem_filterHint _ _ _).mp g4
    exact ⟨s, tt, oi, h1, h2, h10, h11, h12, h13, g2, h8, h9⟩

/-- The preferred position among those where a rule matches. -/
def Best (v : Env) (ss : List RuleMap) (types : List Nat) (p : Pos) : Prop :=
  (∃ e c, Hit v ss types p e c) ∧ ∀ q e c, Hit v ss types q e c → p.le q

/-- All the entries of every map searched have distinct names (see `registered_unique`). -/
def AllUnique (ss : List RuleMap) : Prop :=
  ∀ s ∈ ss, ∀ mo o tt, ((entries s mo o tt).map (·.cand.name)).Nodup

/-- Nothing is found if and only if no rule matches. -/
theorem search_none (v : Env) (ss : List RuleMap) (types : List Nat)
    (hs : SkipFree v ss types) :
    searchTypes v ss types = .none ↔ ∀ p e c, ¬ Hit v ss types p e c := by
  rcases search_first v ss types hs with ⟨h1, h2⟩ | ⟨p, s, tt, oi, h1, h2, h3, h4, h5, h6⟩
  · exact ⟨fun _ => h2, fun _ => h1⟩
  · constructor
    · intro h
      exact absurd (classify_none.mp (h5.symm.trans h)) h4
    · intro h
      obtain ⟨e, l, he⟩ := List.exists_cons_of_ne_nil h4
      have hm : e ∈ hitsAt v s tt oi := by rw [he]; exact List.mem_cons_self
      obtain ⟨c, hc⟩ := (hit_iff v ss types p e).mpr ⟨s, tt, oi, h1, h2, h3, hm⟩
      exact absurd hc (h p e c)

theorem best_same {v : Env} {ss : List RuleMap} {types : List Nat} {p q : Pos}
    (hp : Best v ss types p) (hq : Best v ss types q) : p = q := by
  obtain ⟨⟨e, c, h1⟩, h2⟩ := hp
  obtain ⟨⟨e', c', h1'⟩, h2'⟩ := hq
  have a := h2 q e' c' h1'
  have b := h2' p e c h1
  unfold Pos.le at a b
  cases p; cases q
  simp only [Pos.mk.injEq] at *
  omega

/-- A rule is found if and only if it matches in the preferred position and is the only one
registered there that does. -/
theorem search_matched (v : Env) (ss : List RuleMap) (types : List Nat)
    (hs : SkipFree v ss types) (hu : AllUnique ss) (c : Cand) :
    searchTypes v ss types = .matched c ↔
      ∃ p e, Best v ss types p ∧ Hit v ss types p e c ∧
        ∀ e' c', Hit v ss types p e' c' → e' = e := by
  rcases search_first v ss types hs with ⟨h1, h2⟩ | ⟨p, s, tt, oi, h1, h2, h3, h4, h5, h6⟩
  · rw [h1]
    constructor
    · intro h; cases h
    · rintro ⟨p, e, _, h, _⟩; exact absurd h (h2 p e c)
  · obtain ⟨e, l, he⟩ := List.exists_cons_of_ne_nil h4
    have hm : e ∈ hitsAt v s tt oi := by rw [he]; exact List.mem_cons_self
    obtain ⟨c0, hc0⟩ := (hit_iff v ss types p e).mpr ⟨s, tt, oi, h1, h2, h3, hm⟩
    have hb : Best v ss types p := ⟨⟨e, c0, hc0⟩, h6⟩
    have hr0 := ((hitsAt_hit h1 h2 h3).mp hc0).2
    cases l with
    | nil =>
      have hcl : searchTypes v ss types = .matched c0 := by
        rw [h5, he, classify, hr0]
      rw [hcl]
      constructor
      · intro h
        obtain rfl := Outcome.matched.inj h
        refine ⟨p, e, hb, hc0, ?_⟩
        intro e' c' h'
        have := ((hitsAt_hit h1 h2 h3).mp h').1
        rw [he] at this
        exact List.mem_singleton.mp this
      · rintro ⟨q, e', hq, h', _⟩
        obtain rfl := best_same hb hq
        have h'' := (hitsAt_hit h1 h2 h3).mp h'
        rw [he] at h''
        have : e' = e := List.mem_singleton.mp h''.1
        subst this
        rw [hr0] at h''
        rw [Option.some.inj h''.2]
    | cons e2 l =>
      have hcl : searchTypes v ss types = .ambiguous := by
        rw [h5, he, classify]
      rw [hcl]
      constructor
      · intro h; cases h
      · rintro ⟨q, e', hq, _, hun⟩
        exfalso
        obtain rfl := best_same hb hq
        have hm2 : e2 ∈ hitsAt v s tt oi := by rw [he]; simp
        obtain ⟨c2, hc2⟩ := (hit_iff v ss types p e2).mpr ⟨s, tt, oi, h1, h2, h3, hm2⟩
        have e1' := hun _ _ hc0
        have e2' := hun _ _ hc2
        have : e = e2 := e1'.trans e2'.symm
        subst this
        -- Names are unique.
        have hnd := hu s (List.mem_of_getElem? h1) v.mo oi tt
        have hnd' : (hitsAt v s tt oi).Nodup := by
          have h0 : (entries s v.mo oi tt).Nodup := by
            refine List.Pairwise.of_map (fun e : Entry => e.cand.name) ?_ hnd
            intro a b hab hab'
            exact hab (by rw [hab'])
          unfold hitsAt filterHint
          split
          · exact h0.filter _
          · exact (h0.filter _).filter _
        rw [he] at hnd'
        simp at hnd'

/-- It is ambiguous if and only if two rules registered in the preferred position match. -/
theorem search_ambiguous (v : Env) (ss : List RuleMap) (types : List Nat)
    (hs : SkipFree v ss types) (hu : AllUnique ss) :
    searchTypes v ss types = .ambiguous ↔
      ∃ p e c e' c', Best v ss types p ∧ Hit v ss types p e c ∧ Hit v ss types p e' c' ∧
        e ≠ e' := by
  have hn := search_none v ss types hs
  have hm := search_matched v ss types hs hu
  constructor
  · intro h
    rcases search_first v ss types hs with ⟨h1, h2⟩ | ⟨p, s, tt, oi, h1, h2, h3, h4, h5, h6⟩
    · rw [h1] at h; cases h
    · obtain ⟨e, l, he⟩ := List.exists_cons_of_ne_nil h4
      have hme : e ∈ hitsAt v s tt oi := by rw [he]; exact List.mem_cons_self
      obtain ⟨c0, hc0⟩ := (hit_iff v ss types p e).mpr ⟨s, tt, oi, h1, h2, h3, hme⟩
      have hb : Best v ss types p := ⟨⟨e, c0, hc0⟩, h6⟩
      apply Classical.byContradiction
      intro hno
      have : searchTypes v ss types = .matched c0 := by
        refine (hm c0).mpr ⟨p, e, hb, hc0, ?_⟩
        intro e' c' h'
        apply Classical.byContradiction
        intro hne
        exact hno ⟨p, e', c', e, c0, hb, h', hc0, hne⟩
      rw [h] at this; cases this
  · rintro ⟨p, e, c, e', c', hb, h1, h2, hne⟩
    cases hr : searchTypes v ss types with
    | none => exact absurd h1 (hn.mp hr p e c)
    | matched c0 =>
      obtain ⟨q, e0, hq, _, hun⟩ := (hm c0).mp hr
      obtain rfl := best_same hb hq
      exact absurd ((hun _ _ h1).trans (hun _ _ h2).symm) hne
    | ambiguous => rfl

/-! ## Everything together -/

/-- The scopes that were searched: from the base scope outwards up to and including the first
root scope and then the global scope. -/
theorem walk_spec (pre post : List Scope) (r g : Scope) (hp : ∀ s ∈ pre, s.root = false)
    (hr : r.root = true) :
    walk (pre ++ r :: (post ++ [g])) = pre.map (·.rules) ++ [r.rules, g.rules] := by
  induction pre with
  | nil => simp [walk, hr]
  | cons s pre ih =>
    rw [List.cons_append, walk, hp s List.mem_cons_self]
    simp only [Bool.false_eq_true, if_false, List.map_cons, List.cons_append, List.cons.injEq,
      true_and]
    exact ih (fun x hx => hp x (List.mem_cons_of_mem _ hx))

/-- Without a project all the scopes are searched. -/
theorem walk_spec_noroot (ss : List Scope) (h : ∀ s ∈ ss, s.root = false) :
    walk ss = ss.map (·.rules) := by
  induction ss with
  | nil => rfl
  | cons s ss ih =>
    rw [walk, h s List.mem_cons_self]
    simp only [Bool.false_eq_true, if_false, List.map_cons, List.cons.injEq, true_and]
    exact ih (fun x hx => h x (List.mem_cons_of_mem _ hx))

/-- With the retry only the root scope and the global scope are. -/
theorem walk_retry (pre post : List Scope) (r g : Scope) (hp : ∀ s ∈ pre, s.root = false)
    (hr : r.root = true) :
    walk (fromRoot (pre ++ r :: (post ++ [g]))) = [r.rules, g.rules] := by
  have : fromRoot (pre ++ r :: (post ++ [g])) = r :: (post ++ [g]) := by
    induction pre with
    | nil => simp [fromRoot, hr]
    | cons s pre ih =>
      rw [List.cons_append, fromRoot, hp s List.mem_cons_self]
      simp only [Bool.false_eq_true, if_false]
      exact ih (fun x hx => hp x (List.mem_cons_of_mem _ hx))
  rw [this]
  exact walk_spec [] post r g (by simp) hr

/-- For perform the hint is binding: a rule that is found is registered under a name that has
the hint as a prefix and it matched with this hint, and nothing is found if no such rule
matches. -/
theorem hint_binding (o : Nat) (hint : Name) (locked : Bool) (m : Matches) (types : List Nat)
    (scopes : List Scope) (hu : AllUnique (walk scopes)) (c : Cand)
    (h : searchRules performId o hint locked none m types scopes = .matched c) :
    ∃ p e, Hit ⟨performId, o, hint, locked, none, m⟩ (walk scopes) types p e c ∧
      hint <+: e.cand.name ∧
      Best ⟨performId, o, hint, locked, none, m⟩ (walk scopes) types p := by
  unfold searchRules at h
  rw [if_pos (.inl rfl)] at h
  have h' : searchTypes ⟨performId, o, hint, locked, none, m⟩ (walk scopes) types = .matched c := by
    cases hr : searchTypes ⟨performId, o, hint, locked, none, m⟩ (walk scopes) types with
    | none => rw [hr] at h; cases h
    | matched c' => rw [hr] at h; exact h
    | ambiguous => rw [hr] at h; cases h
  obtain ⟨p, e, hb, hh, _⟩ := (search_matched _ _ _ (fun _ _ _ _ => by simp) hu c).mp h'
  refine ⟨p, e, hh, ?_, hb⟩
  obtain ⟨_, _, _, _, _, _, _, _, hp, _⟩ := hh
  exact hp

/-- For other meta-operations the hint is dropped, and only rules in the root and global scopes
are considered, if and only if nothing matches with it. -/
theorem hint_retry (mo o : Nat) (hint : Name) (locked : Bool) (m : Matches) (types : List Nat)
    (scopes : List Scope) (hmo : mo ≠ performId) (hh : hint ≠ []) :
    searchRules mo o hint locked none m types scopes =
      if searchTypes ⟨mo, o, hint, locked, none, m⟩ (walk scopes) types = .none then
        searchTypes ⟨mo, o, [], locked, none, m⟩ (walk (fromRoot scopes)) types
      else searchTypes ⟨mo, o, hint, locked, none, m⟩ (walk scopes) types := by
  unfold searchRules
  rw [if_neg (fun h => h.elim hmo hh)]
  split
  · rename_i h; rw [h, Outcome.orElse_none]
  · rename_i h; rw [Outcome.orElse_some h]

theorem filter_same {p : Entry → Bool} {l l' : List Entry} (hl : l.Nodup) (hl' : l'.Nodup)
    (h : ∀ e, e ∈ l ↔ e ∈ l') (mo o tt oi : Nat) :
    classify mo o tt oi (l.filter p) = classify mo o tt oi (l'.filter p) := by
  have hm : ∀ e, e ∈ l.filter p ↔ e ∈ l'.filter p := by
    intro e; rw [List.mem_filter, List.mem_filter, h]
  have n1 := hl.filter p
  have n2 := hl'.filter p
  generalize l.filter p = a at *
  generalize l'.filter p = b at *
  match a, b with
  | [], [] => rfl
  | [], y :: _ => exact absurd ((hm y).mpr List.mem_cons_self) (by simp)
  | x :: _, [] => exact absurd ((hm x).mp List.mem_cons_self) (by simp)
  | [x], [y] =>
    have := (hm x).mp List.mem_cons_self
    rw [List.mem_singleton.mp this]
  | [x], y :: z :: _ =>
    have e1 := List.mem_singleton.mp ((hm y).mpr List.mem_cons_self)
    have e2 := List.mem_singleton.mp ((hm z).mpr (by simp))
    rw [e1, e2] at n2; simp at n2
  | x :: z :: _, [y] =>
    have e1 := List.mem_singleton.mp ((hm x).mp List.mem_cons_self)
    have e2 := List.mem_singleton.mp ((hm z).mp (by simp))
    rw [e1, e2] at n1; simp at n1
  | _ :: _ :: _, _ :: _ :: _ => rfl

/-- Two lists of scopes with the same rules in some order. -/
def SameRules (s s' : RuleMap) : Prop :=
  ∀ mo o tt, (∀ e, e ∈ entries s mo o tt ↔ e ∈ entries s' mo o tt) ∧
    (entries s mo o tt).Nodup ∧ (entries s' mo o tt).Nodup

theorem scan_same (v : Env) (hv : v.skip = none) (tt oi : Nat) {s s' : RuleMap}
    (h : SameRules s s') :
    scan v tt oi (filterHint v.hint (entries s v.mo oi tt)) =
      scan v tt oi (filterHint v.hint (entries s' v.mo oi tt)) := by
  obtain ⟨h1, h2, h3⟩ := h v.mo oi tt
  have hn : ∀ es, NotSkipped v tt oi es := by
    intro es e _ c _ _; rw [hv]; simp
  rw [scan_spec v tt oi _ (hn _), scan_spec v tt oi _ (hn _)]
  refine filter_same ?_ ?_ ?_ _ _ _ _
  · unfold filterHint; split
    · exact h2
    · exact h2.filter _
  · unfold filterHint; split
    · exact h3
    · exact h3.filter _
  · intro e; rw [mem_filterHint, mem_filterHint, h1]

theorem searchOps_same (v : Env) (hv : v.skip = none) (tt : Nat) {s s' : RuleMap}
    (h : SameRules s s') (ois : List Nat) : searchOps v tt s ois = searchOps v tt s' ois := by
  induction ois with
  | nil => rfl
  | cons oi ois ih => rw [searchOps, searchOps, scan_same v hv tt oi h, ih]

theorem searchScopes_same (v : Env) (hv : v.skip = none) (tt : Nat) (s s' : RuleMap)
    (h : SameRules s s') (pre post : List RuleMap) :
    searchScopes v tt (pre ++ s :: post) = searchScopes v tt (pre ++ s' :: post) := by
  induction pre with
  | nil => rw [List.nil_append, List.nil_append, searchScopes, searchScopes,
      searchOps_same v hv tt h]
  | cons a pre ih => rw [List.cons_append, List.cons_append, searchScopes, searchScopes, ih]

theorem registered_mem (lt : Name → Name → Bool) (rs : List Reg)
    (hnc : rs.Pairwise (fun a b => ¬ a.Clash b)) (mo o tt : Nat) (e : Entry) :
    e ∈ entries (registerAll lt RuleMap.init rs) mo o tt ↔ (⟨mo, o, tt, e⟩ : Reg) ∈ rs := by
  rw [registered_first]
  constructor
  · rintro ⟨pre, post, rfl, _⟩; simp
  · intro h
    obtain ⟨pre, post, rfl⟩ := List.append_of_mem h
    refine ⟨pre, post, rfl, ?_⟩
    intro s hs
    rw [List.pairwise_append] at hnc
    exact hnc.2.2 s hs _ List.mem_cons_self

theorem nodup_of_names {es : List Entry} (h : (es.map (·.cand.name)).Nodup) : es.Nodup := by
  refine List.Pairwise.of_map (fun e : Entry => e.cand.name) ?_ h
  intro a b hab hab'
  exact hab (by rw [hab'])

/-- The order in which rules are registered in a scope and the order in which the map keeps them
make no difference to what is found (provided there are no duplicates). -/
theorem order_irrelevant (lt lt' : Name → Name → Bool) (rs rs' : List Reg) (hp : rs.Perm rs')
    (hnc : rs.Pairwise (fun a b => ¬ a.Clash b)) (v : Env) (hv : v.skip = none)
    (types : List Nat) (pre post : List RuleMap) :
    searchTypes v (pre ++ registerAll lt RuleMap.init rs :: post) types =
      searchTypes v (pre ++ registerAll lt' RuleMap.init rs' :: post) types := by
  have hnc' : rs'.Pairwise (fun a b => ¬ a.Clash b) := by
    refine hp.pairwise hnc ?_
    rintro a b hab ⟨h1, h2, h3, h4⟩
    exact hab ⟨h1.symm, h2.symm, h3.symm, h4.symm⟩
  have hsame : SameRules (registerAll lt RuleMap.init rs) (registerAll lt' RuleMap.init rs') := by
    intro mo o tt
    refine ⟨?_, nodup_of_names (registered_unique lt rs mo o tt),
      nodup_of_names (registered_unique lt' rs' mo o tt)⟩
    intro e
    rw [registered_mem lt rs hnc, registered_mem lt' rs' hnc']
    exact hp.mem_iff
  induction types with
  | nil => rfl
  | cons tt tts ih => rw [searchTypes, searchTypes, searchScopes_same v hv tt _ _ hsame, ih]

/-! ## Recipes -/

/-- Find something with the first match of a predicate. -/
theorem find_first {α : Type} {p : α → Bool} {l : List α} {a : α} (h : l.find? p = some a) :
    a ∈ l ∧ p a = true := ⟨List.mem_of_find?_eq_some h, List.find?_some h⟩

/-- A recipe for this very action that matches is used, whatever rules there are. (There is at
most one recipe for any action.) -/
theorem recipe_wins (mo o : Nat) (locked : Bool) (i : Info) (r : Recipe) (hr : r ∈ i.recipes)
    (ha : (mo, o) ∈ r.actions)
    (h1 : ∀ r' ∈ i.recipes, (mo, o) ∈ r'.actions → r'.cand = r.cand)
    (hm : i.m r.cand.obj [] false = true) (skip : Option Nat) :
    matchInfo mo o locked skip i = .matched r.cand := by
  have hne : i.recipes.isEmpty = false := by
    cases h : i.recipes with
    | nil => rw [h] at hr; cases hr
    | cons a l => rfl
  have hf : ∃ r', i.recipes.find? (fun r => r.actions.contains (mo, o)) = some r' := by
    cases h : i.recipes.find? (fun r => r.actions.contains (mo, o)) with
    | none =>
      have := List.find?_eq_none.mp h r hr
      simp only [List.contains_iff_mem] at this
      exact absurd ha this
    | some r' => exact ⟨r', rfl⟩
  obtain ⟨r', hr'⟩ := hf
  have hp := find_first hr'
  have he := h1 r' hp.1 (by simpa using hp.2)
  have : matchRecipe i.m (i.types.headD 0) i.recipes mo o = some r.cand := by
    simp only [matchRecipe, findMatch, hr', he, hm]
    simp
  unfold matchInfo
  simp only [hne, Bool.false_eq_true, if_false, this]

/-- A recipe for this very action that does not match leaves it to the rules: neither the
reverse of some other recipe nor, for configure and dist, the recipe for perform is used. -/
theorem recipe_found_not_matching (mo o : Nat) (locked : Bool) (i : Info) (r : Recipe)
    (hr : r ∈ i.recipes) (ha : (mo, o) ∈ r.actions)
    (h1 : ∀ r' ∈ i.recipes, (mo, o) ∈ r'.actions → r'.cand = r.cand)
    (hm : i.m r.cand.obj [] false = false) (skip : Option Nat) :
    matchInfo mo o locked skip i =
      searchRules mo o (i.hint o) locked skip i.m i.types i.scopes := by
  have hf : ∃ r', i.recipes.find? (fun r => r.actions.contains (mo, o)) = some r' := by
    cases h : i.recipes.find? (fun r => r.actions.contains (mo, o)) with
    | none =>
      have := List.find?_eq_none.mp h r hr
      simp only [List.contains_iff_mem] at this
      exact absurd ha this
    | some r' => exact ⟨r', rfl⟩
  obtain ⟨r', hr'⟩ := hf
  have hp := find_first hr'
  have he := h1 r' hp.1 (by simpa using hp.2)
  have : matchRecipe i.m (i.types.headD 0) i.recipes mo o = none := by
    simp only [matchRecipe, findMatch, hr', he, hm]
    simp
  unfold matchInfo
  simp only [this]
  split
  · rename_i h; split at h <;> cases h
  · rfl

/-- Without a recipe for the action and without one that can reverse it the recipe for perform is
used for configure and dist and only for these. -/
theorem recipe_perform_fallback (m : Matches) (tt : Nat) (rs : List Recipe) (mo o : Nat)
    (hn : ∀ r ∈ rs, (mo, o) ∉ r.actions ∧ r.reverse mo o tt = false)
    (r : Recipe) (hr : r ∈ rs) (ha : (performId, o) ∈ r.actions)
    (h1 : ∀ r' ∈ rs, (performId, o) ∈ r'.actions → r'.cand = r.cand)
    (hm : m r.cand.obj [] false = true) :
    matchRecipe m tt rs mo o = if mo = configureId ∨ mo = distId then some r.cand else none := by
  have f1 : rs.find? (fun r => r.actions.contains (mo, o)) = none := by
    rw [List.find?_eq_none]
    intro x hx
    simpa using (hn x hx).1
  have f2 : rs.find? (fun r => r.reverse mo o tt) = none := by
    rw [List.find?_eq_none]
    intro x hx
    simp [(hn x hx).2]
  have hf : ∃ r', rs.find? (fun r => r.actions.contains (performId, o)) = some r' := by
    cases h : rs.find? (fun r => r.actions.contains (performId, o)) with
    | none =>
      have := List.find?_eq_none.mp h r hr
      simp only [List.contains_iff_mem] at this
      exact absurd ha this
    | some r' => exact ⟨r', rfl⟩
  obtain ⟨r', hr'⟩ := hf
  have hp := find_first hr'
  have he := h1 r' hp.1 (by simpa using hp.2)
  simp only [matchRecipe, findMatch, f1, f2, hr', he, hm]
  by_cases hc : mo = configureId ∨ mo = distId
  · rw [if_pos hc]
    have : (mo == configureId || mo == distId) = true := by simpa using hc
    simp [this]
  · rw [if_neg hc]
    have : (mo == configureId || mo == distId) = false := by simpa using hc
    simp [this]

/-- Without a recipe for the action the (first) one that can reverse it is used provided it
matches as a fallback. -/
theorem recipe_reverse (m : Matches) (tt : Nat) (pre post : List Recipe) (r : Recipe) (mo o : Nat)
    (hn : ∀ x ∈ pre ++ r :: post, (mo, o) ∉ x.actions)
    (hp : ∀ x ∈ pre, x.reverse mo o tt = false) (hr : r.reverse mo o tt = true) :
    matchRecipe m tt (pre ++ r :: post) mo o =
      if m r.cand.obj [] true = true then some r.cand else none := by
  have f1 : (pre ++ r :: post).find? (fun r => r.actions.contains (mo, o)) = none := by
    rw [List.find?_eq_none]
    intro x hx
    simpa using hn x hx
  have f2 : (pre ++ r :: post).find? (fun r => r.reverse mo o tt) = some r := by
    rw [List.find?_append, List.find?_eq_none.mpr (fun x hx => by simp [hp x hx])]
    simp [hr]
  simp only [matchRecipe, findMatch, f1, f2]
  simp

/-- Without recipes it is up to the rules. -/
theorem no_recipes (mo o : Nat) (locked : Bool) (skip : Option Nat) (i : Info)
    (h : i.recipes = []) :
    matchInfo mo o locked skip i =
      searchRules mo o (i.hint o) locked skip i.m i.types i.scopes := by
  unfold matchInfo
  simp [h]

/-! ## Hints -/

/-- The hint applies: to the target's type or, without a type, to the target itself. -/
def Hint.Applies (types : List Nat) (ut : Bool) (h : Hint) : Prop :=
  match h.type with
  | none => ut = true
  | some tt => tt ∈ types

theorem applies_iff (types : List Nat) (ut : Bool) (v : Hint) :
    (!hintApplies types ut v.type) = true ↔ ¬ v.Applies types ut := by
  unfold Hint.Applies hintApplies
  cases v.type with
  | none => simp
  | some tt => simp

theorem findHintLoop_exact (types : List Nat) (o : Nat) (ut : Bool) (hs : List Hint)
    (f : Option Name) (pre post : List Hint) (h : Hint) (hsp : hs = pre ++ h :: post)
    (ha : h.Applies types ut) (ho : h.op = o)
    (hp : ∀ x ∈ pre, ¬ (x.Applies types ut ∧ x.op = o)) :
    findHintLoop types o ut hs f = h.hint := by
  subst hsp
  induction pre generalizing f with
  | nil =>
    rw [List.nil_append, findHintLoop, if_neg (by rw [applies_iff]; exact fun h => h ha),
      if_pos ho]
  | cons x pre ih =>
    have ih' := fun f => ih f (fun y hy => hp y (List.mem_cons_of_mem _ hy))
    rw [List.cons_append, findHintLoop]
    split
    · exact ih' _
    · rename_i hx
      rw [applies_iff, Classical.not_not] at hx
      rw [if_neg (fun e => hp x List.mem_cons_self ⟨hx, e⟩)]
      split <;> exact ih' _

theorem findHintLoop_default (types : List Nat) (o : Nat) (ut : Bool) (hs : List Hint)
    (f : Option Name) (hn : ∀ x ∈ hs, ¬ (x.Applies types ut ∧ x.op = o)) :
    (f ≠ none ∨ (o ≠ updateId ∧ o ≠ cleanId) ∨
      (∀ x ∈ hs, ¬ (x.Applies types ut ∧ x.op = defaultId)) →
      findHintLoop types o ut hs f = f.getD []) ∧
    (f = none → (o = updateId ∨ o = cleanId) → ∀ pre h post, hs = pre ++ h :: post →
      h.Applies types ut → h.op = defaultId →
      (∀ x ∈ pre, ¬ (x.Applies types ut ∧ x.op = defaultId)) →
      findHintLoop types o ut hs f = h.hint) := by
  induction hs generalizing f with
  | nil =>
    refine ⟨fun _ => rfl, ?_⟩
    intro _ _ pre h post hsp
    cases pre <;> simp at hsp
  | cons v vs ih =>
    have ih' := fun f => ih f (fun y hy => hn y (List.mem_cons_of_mem _ hy))
    rw [findHintLoop]
    by_cases ha : v.Applies types ut
    · rw [if_neg (by rw [applies_iff]; exact fun h => h ha),
        if_neg (fun e => hn v List.mem_cons_self ⟨ha, e⟩)]
      by_cases hd : (f.isNone && v.op == defaultId && (o == updateId || o == cleanId)) = true
      · rw [if_pos hd]
        simp only [Bool.and_eq_true, Option.isNone_iff_eq_none, beq_iff_eq, Bool.or_eq_true] at hd
        obtain ⟨⟨hd1, hd2⟩, hd3⟩ := hd
        refine ⟨?_, ?_⟩
        · rintro (h | h | h)
          · exact absurd hd1 h
          · rcases hd3 with h3 | h3
            · exact absurd h3 h.1
            · exact absurd h3 h.2
          · exact absurd ⟨ha, hd2⟩ (h v List.mem_cons_self)
        · intro _ _ pre h post hsp g1 g2 g3
          rw [(ih' (some v.hint)).1 (.inl (by simp))]
          cases pre with
          | nil =>
            simp only [List.nil_append, List.cons.injEq] at hsp
            rw [hsp.1]; rfl
          | cons y pre =>
            simp only [List.cons_append, List.cons.injEq] at hsp
            exact absurd ⟨hsp.1 ▸ ha, hsp.1 ▸ hd2⟩ (g3 y List.mem_cons_self)
      · rw [if_neg hd]
        refine ⟨?_, ?_⟩
        · intro h
          refine (ih' f).1 ?_
          rcases h with h | h | h
          · exact .inl h
          · exact .inr (.inl h)
          · exact .inr (.inr (fun x hx => h x (List.mem_cons_of_mem _ hx)))
        · intro hf ho pre h post hsp g1 g2 g3
          cases pre with
          | nil =>
            simp only [List.nil_append, List.cons.injEq] at hsp
            exfalso
            apply hd
            rw [hf, hsp.1, g2]
            rcases ho with rfl | rfl <;> rfl
          | cons y pre =>
            simp only [List.cons_append, List.cons.injEq] at hsp
            exact (ih' f).2 hf ho pre h post hsp.2 g1 g2
              (fun x hx => g3 x (List.mem_cons_of_mem _ hx))
    · rw [if_pos (by rw [applies_iff]; exact ha)]
      refine ⟨?_, ?_⟩
      · intro h
        refine (ih' f).1 ?_
        rcases h with h | h | h
        · exact .inl h
        · exact .inr (.inl h)
        · exact .inr (.inr (fun x hx => h x (List.mem_cons_of_mem _ hx)))
      · intro hf ho pre h post hsp g1 g2 g3
        cases pre with
        | nil =>
          simp only [List.nil_append, List.cons.injEq] at hsp
          exact absurd (hsp.1 ▸ g1) ha
        | cons y pre =>
          simp only [List.cons_append, List.cons.injEq] at hsp
          exact (ih' f).2 hf ho pre h post hsp.2 g1 g2
            (fun x hx => g3 x (List.mem_cons_of_mem _ hx))

/-- The hint for the operation itself (the first one) if there is one. -/
theorem hint_exact (types : List Nat) (o : Nat) (ut : Bool) (pre post : List Hint) (h : Hint)
    (ha : h.Applies types ut) (ho : h.op = o)
    (hp : ∀ x ∈ pre, ¬ (x.Applies types ut ∧ x.op = o)) :
    findHints (pre ++ h :: post) types o ut = h.hint :=
  findHintLoop_exact types o ut _ none pre post h rfl ha ho hp

/-- Otherwise the hint for the default operation (the first one) if there is one and the
operation is update or clean. -/
theorem hint_default (types : List Nat) (o : Nat) (ut : Bool) (pre post : List Hint) (h : Hint)
    (hn : ∀ x ∈ pre ++ h :: post, ¬ (x.Applies types ut ∧ x.op = o))
    (hu : o = updateId ∨ o = cleanId) (ha : h.Applies types ut) (ho : h.op = defaultId)
    (hp : ∀ x ∈ pre, ¬ (x.Applies types ut ∧ x.op = defaultId)) :
    findHints (pre ++ h :: post) types o ut = h.hint :=
  (findHintLoop_default types o ut _ none hn).2 rfl hu pre h post rfl ha ho hp

/-- Otherwise none. -/
theorem hint_none (types : List Nat) (o : Nat) (ut : Bool) (hs : List Hint)
    (hn : ∀ x ∈ hs, ¬ (x.Applies types ut ∧ x.op = o))
    (hd : (o ≠ updateId ∧ o ≠ cleanId) ∨
      ∀ x ∈ hs, ¬ (x.Applies types ut ∧ x.op = defaultId)) :
    findHints hs types o ut = [] :=
  (findHintLoop_default types o ut _ none hn).1 (.inr hd)

/-- Specifying a hint for the same type and operation again replaces it, and this is the only
change. -/
theorem hint_replaced (h : Hint) (hs : List Hint) (x : Hint)
    (hu : (hs.map (fun y => (y.op, y.type))).Nodup) :
    x ∈ insertHint h hs ↔ x = h ∨ (x ∈ hs ∧ (x.op, x.type) ≠ (h.op, h.type)) := by
  induction hs with
  | nil => simp [insertHint]
  | cons y hs ih =>
    rw [List.map_cons, List.nodup_cons] at hu
    rw [insertHint]
    by_cases hk : y.op = h.op ∧ y.type = h.type
    · rw [if_pos hk]
      simp only [List.mem_cons]
      constructor
      · rintro (rfl | hx)
        · exact .inl rfl
        · right
          refine ⟨.inr hx, ?_⟩
          intro he
          apply hu.1
          rw [show (y.op, y.type) = (x.op, x.type) by rw [he, hk.1, hk.2]]
          exact List.mem_map.mpr ⟨x, hx, rfl⟩
      · rintro (rfl | ⟨rfl | hx, hne⟩)
        · exact .inl rfl
        · exact absurd (by rw [hk.1, hk.2]) hne
        · exact .inr hx
    · rw [if_neg hk]
      simp only [List.mem_cons, ih hu.2]
      constructor
      · rintro (rfl | rfl | ⟨hx, hne⟩)
        · exact .inr ⟨.inl rfl, fun he => hk (by simpa using he)⟩
        · exact .inl rfl
        · exact .inr ⟨.inr hx, hne⟩
      · rintro (rfl | ⟨rfl | hx, hne⟩)
        · exact .inr (.inl rfl)
        · exact .inl rfl
        · exact .inr (.inr ⟨hx, hne⟩)

/-- The keys stay unique. -/
theorem hints_unique (h : Hint) (hs : List Hint)
    (hu : (hs.map (fun y => (y.op, y.type))).Nodup) :
    ((insertHint h hs).map (fun y => (y.op, y.type))).Nodup := by
  induction hs with
  | nil => simp [insertHint]
  | cons y hs ih =>
    have hu' := hu
    rw [List.map_cons, List.nodup_cons] at hu
    rw [insertHint]
    by_cases hk : y.op = h.op ∧ y.type = h.type
    · rw [if_pos hk, List.map_cons, ← hk.1, ← hk.2]
      exact hu'
    · rw [if_neg hk, List.map_cons, List.nodup_cons]
      refine ⟨?_, ih hu.2⟩
      intro hm
      obtain ⟨x, hx, he⟩ := List.mem_map.mp hm
      rcases (hint_replaced h hs x hu.2).mp hx with rfl | ⟨hx, _⟩
      · simp only [Prod.mk.injEq] at he
        exact hk ⟨he.1.symm, he.2.symm⟩
      · exact hu.1 (List.mem_map.mpr ⟨x, hx, he⟩)

/-- The target's own hint goes before that of its group. -/
theorem hint_own_first (types : List Nat) (mh : Bool) (hs : List Hint)
    (g : Option (Bool × List Hint)) (o : Nat) (h : findHints hs types o (!mh) ≠ []) :
    findHint types mh hs g o = findHints hs types o (!mh) := by
  have hne : hs.isEmpty = false := by
    cases hs with
    | nil => exact absurd rfl h
    | cons a l => rfl
  unfold findHint
  simp [hne, h]

/-- And without it, that of the group is used: those with a type and, if the group's type says
so, those without. -/
theorem hint_of_group (types : List Nat) (mh gmh : Bool) (hs ghs : List Hint) (o : Nat)
    (h : findHints hs types o (!mh) = []) :
    findHint types mh hs (some (gmh, ghs)) o = findHints ghs types o gmh := by
  unfold findHint
  cases hs with
  | nil =>
    cases ghs with
    | nil => rfl
    | cons a l => simp
  | cons b k =>
    cases ghs with
    | nil => simp [h]; rfl
    | cons a l => simp [h]

/-! ## Groups -/

/-- A member of a group with dynamic members that is already matched has the rule of the
group. -/
theorem matched_group_rule (mo o : Nat) (locked : Bool) (skip : Option Nat) (i : Info)
    (explicit : Bool) (c : Cand) (g : Target) :
    matchRule mo o locked skip (.member i true explicit (some c) g) = .matched c := by
  simp [matchRule]

/-- A rule that a target that is not locked matches is an ad hoc one, as is a recipe. -/
theorem search_adhoc (v : Env) (hl : v.locked = false) (ss : List RuleMap) (types : List Nat)
    (c : Cand) (h : searchTypes v ss types = .matched c) : c.adhoc = true := by
  have sc : ∀ tt oi es, scan v tt oi es = .matched c → c.adhoc = true := by
    intro tt oi es
    induction es with
    | nil => intro h; cases h
    | cons e es ih =>
      rw [scan]
      cases resolve v.mo v.o tt oi e with
      | none => exact ih
      | some c' =>
        simp only
        split
        · exact ih
        · rename_i hc
          split
          · exact ih
          · split
            · exact ih
            · split
              · intro h; cases h
              · intro h
                obtain rfl := Outcome.matched.inj h
                simpa [hl] using hc
  have orE : ∀ (r : Outcome) (f : Unit → Outcome), r.orElse f = .matched c →
      r = .matched c ∨ f () = .matched c := by
    intro r f h
    cases r with
    | none => exact .inr h
    | matched c' => exact .inl h
    | ambiguous => exact .inl h
  have ops : ∀ tt s ois, searchOps v tt s ois = .matched c → c.adhoc = true := by
    intro tt s ois
    induction ois with
    | nil => intro h; cases h
    | cons oi ois ih =>
      intro h
      rcases orE _ _ h with h | h
      · exact sc _ _ _ h
      · exact ih h
  have scs : ∀ tt ss, searchScopes v tt ss = .matched c → c.adhoc = true := by
    intro tt ss
    induction ss with
    | nil => intro h; cases h
    | cons s ss ih =>
      intro h
      rcases orE _ _ h with h | h
      · exact ops _ _ _ h
      · exact ih h
  induction types with
  | nil => cases h
  | cons tt tts ih =>
    rcases orE _ _ h with h | h
    · exact scs _ _ h
    · exact ih h

theorem matchInfo_adhoc (mo o : Nat) (skip : Option Nat) (i : Info) (c : Cand)
    (hr : ∀ r ∈ i.recipes, r.cand.adhoc = true)
    (h : matchInfo mo o false skip i = .matched c) : c.adhoc = true := by
  have fm : ∀ m tt ca c', (findMatch m tt i.recipes ca).1 = some c' → c'.adhoc = true := by
    intro m tt ca c' h
    unfold findMatch at h
    split at h
    · rename_i r hf
      simp only at h
      split at h
      · rw [← Option.some.inj h]; exact hr r (find_first hf).1
      · cases h
    · split at h
      · rename_i r hf
        simp only at h
        split at h
        · rw [← Option.some.inj h]; exact hr r (find_first hf).1
        · cases h
      · cases h
  unfold matchInfo at h
  split at h
  · rename_i c' hc
    rw [← Outcome.matched.inj h]
    split at hc
    · cases hc
    · unfold matchRecipe at hc
      simp only at hc
      split at hc
      · exact fm _ _ _ _ hc
      · exact fm _ _ _ _ hc
  · unfold searchRules at h
    cases hs : searchTypes ⟨mo, o, i.hint o, false, skip, i.m⟩ (walk i.scopes) i.types with
    | none =>
      rw [hs, Outcome.orElse_none] at h
      split at h
      · cases h
      · exact search_adhoc _ rfl _ _ _ h
    | matched c' =>
      rw [hs] at h
      obtain rfl := Outcome.matched.inj h
      exact search_adhoc _ rfl _ _ _ hs
    | ambiguous => rw [hs] at h; cases h

/-- If a group{} matches an ad hoc recipe or rule when tried without being locked, then every
member that is not matched through the group being already matched gets this same rule,
whatever its own recipes, rules and hints. -/
theorem group_rule_for_members (mo o : Nat) (locked : Bool) (i gi : Info) (c : Cand)
    (dyn : Bool) (h : matchInfo mo o false none gi = .matched c) :
    matchRule mo o locked none (.member i dyn true none (.plain gi)) = .matched c := by
  simp only [matchRule, ite_self, if_true, h]
  rfl

/-- And otherwise the member is on its own. -/
theorem group_nothing (mo o : Nat) (locked : Bool) (i gi : Info)
    (dyn : Bool) (h : matchInfo mo o false none gi = .none) :
    matchRule mo o locked none (.member i dyn true none (.plain gi)) =
      matchInfo mo o locked none i := by
  simp only [matchRule, ite_self, if_true, h]
  rfl

/-- The same search without the lock. -/
def Env.unlocked (v : Env) : Env := { v with locked := false }

theorem scan_unlocked (v : Env) (hl : v.locked = true) (tt oi : Nat) (es : List Entry) :
    (scan v tt oi es = .none → scan v.unlocked tt oi es = .none) ∧
    (∀ c, scan v tt oi es = .matched c → c.adhoc = true →
      scan v.unlocked tt oi es = .matched c) := by
  induction es with
  | nil => exact ⟨fun _ => rfl, fun c h => by cases h⟩
  | cons e es ih =>
    simp only [scan]
    have e1 : v.unlocked.mo = v.mo := rfl
    have e2 : v.unlocked.o = v.o := rfl
    have e3 : v.unlocked.skip = v.skip := rfl
    have e4 : v.unlocked.m = v.m := rfl
    have e5 : v.unlocked.hint = v.hint := rfl
    have e6 : v.unlocked.locked = false := rfl
    rw [e1, e2]
    cases hr : resolve v.mo v.o tt oi e with
    | none => exact ih
    | some c' =>
      simp only [hl, e3, e4, e5, e6, Bool.not_true, Bool.false_and, Bool.false_eq_true, if_false,
        Bool.not_false, Bool.true_and]
      by_cases hs : some c'.obj = v.skip
      · simp only [hs, if_true, ite_self]
        exact ih
      · simp only [hs, if_false]
        by_cases hm : v.m c'.obj v.hint (oi = 0) = true
        · simp only [hm, Bool.not_true, Bool.false_eq_true, if_false]
          refine ⟨?_, ?_⟩
          · intro h; split at h <;> cases h
          · intro c h hc
            split at h
            · cases h
            · rename_i hany
              obtain rfl := Outcome.matched.inj h
              simp only [hc, Bool.not_true, Bool.false_eq_true, if_false]
              rw [if_neg]
              intro hany'
              apply hany
              obtain ⟨x, hx, hx'⟩ := List.any_eq_true.mp hany'
              refine List.any_eq_true.mpr ⟨x, hx, ?_⟩
              rw [alsoMatches_iff] at hx' ⊢
              obtain ⟨c2, g1, g2, g3⟩ := hx'
              exact ⟨c2, g1, .inl hl, g3⟩
        · have hmf : v.m c'.obj v.hint (oi = 0) = false := by simpa using hm
          simp only [hmf, Bool.not_false, if_true, ite_self]
          exact ih

theorem unlocked_chain {r r' : Outcome} {f f' : Unit → Outcome}
    (h : (r = .none → r' = .none) ∧
      (∀ c : Cand, r = .matched c → c.adhoc = true → r' = .matched c))
    (h' : (f () = .none → f' () = .none) ∧
      (∀ c : Cand, f () = .matched c → c.adhoc = true → f' () = .matched c)) :
    (r.orElse f = .none → r'.orElse f' = .none) ∧
    (∀ c : Cand, r.orElse f = .matched c → c.adhoc = true → r'.orElse f' = .matched c) := by
  cases r with
  | none =>
    rw [h.1 rfl]
    exact h'
  | matched c0 =>
    refine ⟨fun h => (by cases h), ?_⟩
    intro c hc ha
    have := h.2 c hc ha
    rw [this]; rfl
  | ambiguous => exact ⟨fun h => (by cases h), fun c h => (by cases h)⟩

theorem search_unlocked (v : Env) (hl : v.locked = true) (ss : List RuleMap) (types : List Nat) :
    (searchTypes v ss types = .none → searchTypes v.unlocked ss types = .none) ∧
    (∀ c : Cand, searchTypes v ss types = .matched c → c.adhoc = true →
      searchTypes v.unlocked ss types = .matched c) := by
  have ops : ∀ tt s ois, (searchOps v tt s ois = .none → searchOps v.unlocked tt s ois = .none) ∧
      (∀ c : Cand, searchOps v tt s ois = .matched c → c.adhoc = true →
        searchOps v.unlocked tt s ois = .matched c) := by
    intro tt s ois
    induction ois with
    | nil => exact ⟨fun _ => rfl, fun c h => by cases h⟩
    | cons oi ois ih => exact unlocked_chain (scan_unlocked v hl tt oi _) ih
  have scs : ∀ tt ss, (searchScopes v tt ss = .none → searchScopes v.unlocked tt ss = .none) ∧
      (∀ c : Cand, searchScopes v tt ss = .matched c → c.adhoc = true →
        searchScopes v.unlocked tt ss = .matched c) := by
    intro tt ss
    induction ss with
    | nil => exact ⟨fun _ => rfl, fun c h => by cases h⟩
    | cons s ss ih => exact unlocked_chain (ops tt s _) ih
  induction types with
  | nil => exact ⟨fun _ => rfl, fun c h => by cases h⟩
  | cons tt tts ih => exact unlocked_chain (scs tt ss) ih

/-- If a group{} is matched by an ad hoc recipe or rule, then every member that is matched
before it gets this same recipe or rule, whatever its own recipes, rules and hints. -/
theorem group_adhoc_same (mo o : Nat) (locked : Bool) (i gi : Info) (dyn : Bool) (c : Cand)
    (hc : c.adhoc = true) (h : matchRule mo o true none (.plain gi) = .matched c) :
    matchRule mo o locked none (.member i dyn true none (.plain gi)) = .matched c := by
  refine group_rule_for_members mo o locked i gi c dyn ?_
  unfold matchRule matchInfo at h
  unfold matchInfo
  split at h
  · exact h
  · unfold searchRules at h ⊢
    have s1 := search_unlocked ⟨mo, o, gi.hint o, true, none, gi.m⟩ rfl (walk gi.scopes) gi.types
    have s2 := search_unlocked ⟨mo, o, [], true, none, gi.m⟩ rfl (walk (fromRoot gi.scopes))
      gi.types
    refine (unlocked_chain s1 ?_).2 c h hc
    split
    · exact ⟨fun _ => rfl, fun c h => by cases h⟩
    · exact s2

/-! ## Examples and witnesses -/

section Examples

/-- An alphabetical order for names with one component. -/
def exLt (a b : Name) : Bool := a.headD 0 < b.headD 0

/-- Types: 1 (derived) and 0 (base). -/
def exTypes : List Nat := [1, 0]

/-- Rule number `n` under its name. -/
def exRule (n : Nat) (adhoc : Bool) : Entry := ⟨⟨[n], n, adhoc⟩, none⟩

/-- Update for type `tt`. -/
def exReg (tt : Nat) (e : Entry) : Reg := ⟨performId, updateId, tt, e⟩

/-- All the rules match. -/
def exAll : Matches := fun _ _ _ => true

/-- The base type in the inner scope and the derived one in the outer scope: the type takes
precedence. -/
example : searchRules performId updateId [] true none exAll exTypes
    [⟨registerAll exLt RuleMap.init [exReg 0 (exRule 5 false)], false⟩,
     ⟨registerAll exLt RuleMap.init [exReg 1 (exRule 6 false)], true⟩,
     ⟨RuleMap.init, false⟩] = .matched ⟨[6], 6, false⟩ := by decide

/-- The inner scope and the outer scope: the inner one. -/
example : searchRules performId updateId [] true none exAll exTypes
    [⟨registerAll exLt RuleMap.init [exReg 1 (exRule 5 false)], false⟩,
     ⟨registerAll exLt RuleMap.init [exReg 1 (exRule 6 false)], true⟩,
     ⟨RuleMap.init, false⟩] = .matched ⟨[5], 5, false⟩ := by decide

/-- The operation and any operation. -/
example : searchRules performId updateId [] true none exAll exTypes
    [⟨registerAll exLt RuleMap.init
       [⟨performId, 0, 1, exRule 5 false⟩, exReg 1 (exRule 6 false)], true⟩,
     ⟨RuleMap.init, false⟩] = .matched ⟨[6], 6, false⟩ := by decide

/-- Two rules in the same place and with a hint. -/
example : searchRules performId updateId [] true none exAll exTypes
    [⟨registerAll exLt RuleMap.init [exReg 1 (exRule 6 false), exReg 1 (exRule 5 false)], true⟩,
     ⟨RuleMap.init, false⟩] = .ambiguous ∧
  searchRules performId updateId [6] true none exAll exTypes
    [⟨registerAll exLt RuleMap.init [exReg 1 (exRule 6 false), exReg 1 (exRule 5 false)], true⟩,
     ⟨RuleMap.init, false⟩] = .matched ⟨[6], 6, false⟩ := by decide

/-- The retry for dist: the hint is for a rule in the project while the rule for dist is in
the global scope. For perform there is no retry. -/
example : searchRules distId updateId [7] true none exAll exTypes
    [⟨RuleMap.init, true⟩,
     ⟨registerAll exLt RuleMap.init [⟨distId, 0, 0, exRule 5 false⟩], false⟩]
      = .matched ⟨[5], 5, false⟩ ∧
  searchRules performId updateId [7] true none exAll exTypes
    [⟨RuleMap.init, true⟩,
     ⟨registerAll exLt RuleMap.init [⟨performId, 0, 0, exRule 5 false⟩], false⟩]
      = .none := by decide

/-- Rules in scopes between the project and the global scope are not considered. -/
example : searchRules performId updateId [] true none exAll exTypes
    [⟨RuleMap.init, true⟩,
     ⟨registerAll exLt RuleMap.init [exReg 1 (exRule 5 false)], false⟩,
     ⟨RuleMap.init, false⟩] = .none := by decide

/-- The hypotheses of `search_matched`, `search_ambiguous` and `order_irrelevant`. -/
example : AllUnique [registerAll exLt RuleMap.init
    [exReg 1 (exRule 6 false), exReg 1 (exRule 5 false)]] := by
  intro s hs mo o tt
  rw [List.mem_singleton.mp hs]
  exact registered_unique _ _ _ _ _

example : [exReg 1 (exRule 6 false), exReg 1 (exRule 5 false)].Pairwise
    (fun a b => ¬ a.Clash b) := by
  simp [Reg.Clash, exReg, exRule]

example : SkipFree ⟨performId, updateId, [], true, none, exAll⟩
    [registerAll exLt RuleMap.init [exReg 1 (exRule 6 false)]] exTypes := by
  intro p e c _ h; cases h

/-- Hints: for update, for the default operation and for a type. -/
example : findHints [⟨none, defaultId, [1]⟩, ⟨none, cleanId, [2]⟩, ⟨some 9, updateId, [3]⟩]
      exTypes updateId true = [1] ∧
  findHints [⟨none, defaultId, [1]⟩, ⟨none, cleanId, [2]⟩, ⟨some 9, updateId, [3]⟩]
      exTypes cleanId true = [2] ∧
  findHints [⟨none, defaultId, [1]⟩, ⟨none, cleanId, [2]⟩, ⟨some 0, updateId, [3]⟩]
      exTypes updateId true = [3] ∧
  findHints [⟨none, defaultId, [1]⟩] exTypes 4 true = [] := by decide

/-- Recipes: the example for update and the reverse of it. -/
def exRecipe : Recipe := ⟨⟨[9], 9, true⟩, [(performId, updateId)], fun _ o _ => o == cleanId⟩

example : matchRecipe exAll 1 [exRecipe] performId updateId = some ⟨[9], 9, true⟩ ∧
  matchRecipe exAll 1 [exRecipe] performId cleanId = some ⟨[9], 9, true⟩ ∧
  matchRecipe exAll 1 [exRecipe] distId updateId = some ⟨[9], 9, true⟩ ∧
  matchRecipe exAll 1 [exRecipe] performId 4 = none := by decide

/-- A group with an ad hoc rule (for the base type) and another rule (for the derived one) and
a member without any. -/
def exGroup : Info :=
  ⟨exTypes, [⟨registerAll exLt RuleMap.init [exReg 0 (exRule 5 true), exReg 1 (exRule 6 false)],
    true⟩, ⟨RuleMap.init, false⟩], [], fun _ => [], exAll⟩

def exMember : Info := ⟨exTypes, [⟨RuleMap.init, true⟩, ⟨RuleMap.init, false⟩], [], fun _ => [],
  exAll⟩

/-- A group with just the ad hoc rule. -/
def exGroup' : Info :=
  ⟨exTypes, [⟨registerAll exLt RuleMap.init [exReg 0 (exRule 5 true)],
    true⟩, ⟨RuleMap.init, false⟩], [], fun _ => [], exAll⟩

example : matchRule performId updateId true none (.plain exGroup') = .matched ⟨[5], 5, true⟩ := by
  decide

/-- The group is matched with the rule that is not ad hoc and yet the member that is matched
first gets the ad hoc rule: a member can have a rule that is not that of the group. -/
theorem member_before_group_differs :
    matchRule performId updateId true none (.plain exGroup) = .matched ⟨[6], 6, false⟩ ∧
    matchRule performId updateId true none (.member exMember true true none (.plain exGroup)) =
      .matched ⟨[5], 5, true⟩ := by decide

/-- While if it is matched after the group, then it has the rule of the group. -/
theorem member_after_group_same :
    matchRule performId updateId true none
      (.member exMember true true (some ⟨[6], 6, false⟩) (.plain exGroup)) =
      .matched ⟨[6], 6, false⟩ := by decide

/-- The rule to skip is not skipped when looking for ambiguities: delegating from a rule whose
name is after that of the other rule fails and before it does not. -/
theorem skip_ambiguous :
    searchRules performId updateId [] true (some 6) exAll exTypes
      [⟨registerAll exLt RuleMap.init [exReg 1 (exRule 5 false), exReg 1 (exRule 6 false)], true⟩,
       ⟨RuleMap.init, false⟩] = .ambiguous ∧
    searchRules performId updateId [] true (some 5) exAll exTypes
      [⟨registerAll exLt RuleMap.init [exReg 1 (exRule 5 false), exReg 1 (exRule 6 false)], true⟩,
       ⟨RuleMap.init, false⟩] = .matched ⟨[6], 6, false⟩ := by decide

end Examples

end Verif.RuleMatch
