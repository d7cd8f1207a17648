import Verif.Cleanup.Lemmas
/-!
# Cleaning up after scripts: histories
-/

namespace Verif.Cleanup

theorem at_iff {fs : FS} (hn : (fs.map (·.1)).Nodup) (p : Path) (k : Kind) :
    fs.at p = some k ↔ (p, k) ∈ fs :=
  ⟨at_mem, mem_at_eq hn⟩

theorem concat_of_ne_nil {p : Path} (h : p ≠ []) : ∃ q a, p = q ++ [a] := by
  rcases List.eq_nil_or_concat p with h' | ⟨q, a, h'⟩
  · exact absurd h' h
  · exact ⟨q, a, by rw [h', List.concat_eq_append]⟩

/-- Everything above is a directory. -/
theorem valid_above {fs : FS} (hv : fs.Valid) {p q : Path} {k : Kind} (h : fs.at q = some k)
    (hp : p ≠ []) (hb : Below q p) : fs.at p = some .dir := by
  obtain ⟨⟨r, rfl⟩, hne⟩ := hb
  have hr : r ≠ [] := by
    rintro rfl
    exact hne (List.append_nil p)
  clear hne
  generalize hl : r.length = n
  induction n generalizing r k with
  | zero => exact absurd (List.length_eq_zero_iff.mp hl) hr
  | succ n ih =>
    obtain ⟨r', a, rfl⟩ := concat_of_ne_nil hr
    rw [← List.append_assoc] at h
    rcases hv.2 _ _ _ h with h' | h'
    · exact absurd (List.append_eq_nil_iff.mp h').1 hp
    · by_cases hr' : r' = []
      · subst hr'
        rw [List.append_nil] at h'
        exact h'
      · refine ih r' h' hr' ?_
        rw [List.length_append] at hl
        simp at hl
        exact hl

theorem absent_below {fs : FS} (hv : fs.Valid) {p q : Path} (h : fs.at p = none) (hp : p ≠ [])
    (hq : p <+: q) : fs.at q = none := by
  by_cases he : q = p
  · rw [he]; exact h
  · cases hk : fs.at q with
    | none => rfl
    | some k =>
      rw [valid_above hv hk hp ⟨hq, he⟩] at h
      cases h

theorem hasParent_iff {fs : FS} {q : Path} {a : String} (h : hasParent fs (q ++ [a]) = true) :
    q = [] ∨ fs.at q = some .dir := by
  unfold hasParent at h
  rw [Bool.or_eq_true] at h
  rcases h with h | h
  · left
    simpa using h
  · right
    simpa using h

/-- Creating something. -/
theorem valid_append {fs : FS} (hv : fs.Valid) {p : Path} {k : Kind} (hn : fs.at p = none)
    (hp : hasParent fs p = true) : FS.Valid (fs ++ [(p, k)]) := by
  constructor
  · rw [List.map_append, List.nodup_append]
    refine ⟨hv.1, by simp, ?_⟩
    intro x hx y hy
    simp at hy
    rintro rfl
    rw [hy] at hx
    exact (at_none_iff _ _).mp hn hx
  · intro q a k' h
    have up : fs.at q = some .dir → FS.at (fs ++ [(p, k)]) q = some .dir := by
      intro h
      rw [at_append, h]
      simp
    rw [at_append] at h
    by_cases hq : fs.at (q ++ [a]) = none
    · rw [if_pos hq, at_cons, at_nil] at h
      by_cases hpq : p = q ++ [a]
      · rw [hpq] at hp
        rcases hasParent_iff hp with h' | h'
        · exact Or.inl h'
        · exact Or.inr (up h')
      · rw [if_neg hpq] at h
        cases h
    · rw [if_neg hq] at h
      rcases hv.2 _ _ _ h with h' | h'
      · exact Or.inl h'
      · exact Or.inr (up h')

/-! ## Renaming -/

/-- Where a path goes. -/
def go (source dest p : Path) : Path :=
  if sub p source then dest ++ p.drop source.length else p

theorem go_sub {source dest p : Path} (h : source <+: p) :
    ∃ r, p = source ++ r ∧ go source dest p = dest ++ r := by
  obtain ⟨r, rfl⟩ := h
  refine ⟨r, rfl, ?_⟩
  unfold go
  rw [if_pos ((sub_iff _ _).mpr (List.prefix_append _ _)), List.drop_left]

theorem go_other {source dest p : Path} (h : ¬ source <+: p) : go source dest p = p := by
  unfold go
  rw [if_neg (fun h' => h ((sub_iff _ _).mp h'))]

/-- The renamed entries. -/
def renamed (fs : FS) (source dest : Path) : FS :=
  (fs.filter fun e => e.1 ≠ dest).map fun e =>
    if sub e.1 source then (dest ++ e.1.drop source.length, e.2) else e

theorem renamed_eq (fs : FS) (source dest : Path) : renamed fs source dest =
    (fs.filter fun e => e.1 ≠ dest).map fun e => (go source dest e.1, e.2) := by
  unfold renamed
  apply List.map_congr_left
  intro e _
  unfold go
  split <;> rfl

/-- No entry is under the destination, except perhaps for itself. -/
def Free (fs : FS) (dest : Path) : Prop := ∀ q, Below q dest → fs.at q = none

theorem renamed_nodup {fs : FS} (hv : fs.Valid) {source dest : Path} (hf : Free fs dest) :
    ((renamed fs source dest).map (·.1)).Nodup := by
  rw [renamed_eq, List.map_map]
  have h1 : ((fs.filter fun e => decide (e.1 ≠ dest)).map (·.1)).Nodup :=
    hv.1.sublist (List.filter_sublist.map _)
  have : ((fs.filter fun e => decide (e.1 ≠ dest)).map
      ((fun x => x.1) ∘ fun e => (go source dest e.1, e.2))) =
      ((fs.filter fun e => decide (e.1 ≠ dest)).map (·.1)).map (go source dest) := by
    rw [List.map_map]; rfl
  rw [this]
  unfold List.Nodup at *
  rw [List.pairwise_map]
  refine List.Pairwise.imp_of_mem ?_ h1
  intro a b ha hb hab hg
  have hno : ∀ x, x ∈ ((fs.filter fun e => decide (e.1 ≠ dest)).map (·.1)) → ¬ dest <+: x := by
    intro x hx hd
    obtain ⟨e, he, rfl⟩ := List.mem_map.mp hx
    rw [List.mem_filter] at he
    have hne : e.1 ≠ dest := by simpa using he.2
    exact mem_at (k := e.2) he.1 (hf e.1 ⟨hd, hne⟩)
  by_cases h1 : source <+: a
  · obtain ⟨r, rfl, hr⟩ := go_sub (dest := dest) h1
    rw [hr] at hg
    by_cases h2 : source <+: b
    · obtain ⟨r', rfl, hr'⟩ := go_sub (dest := dest) h2
      rw [hr'] at hg
      rw [List.append_cancel_left hg] at hab
      exact hab rfl
    · rw [go_other h2] at hg
      exact hno b hb ⟨r, hg⟩
  · rw [go_other h1] at hg
    by_cases h2 : source <+: b
    · obtain ⟨r', rfl, hr'⟩ := go_sub (dest := dest) h2
      rw [hr'] at hg
      exact hno a ha ⟨r', hg.symm⟩
    · rw [go_other h2] at hg
      exact hab hg

theorem renamed_at {fs : FS} (hv : fs.Valid) {source dest : Path} (hf : Free fs dest)
    (h1 : ¬ source <+: dest) (h2 : ¬ dest <+: source) :
    (∀ r, FS.at (renamed fs source dest) (dest ++ r) = fs.at (source ++ r)) ∧
    (∀ q, source <+: q → FS.at (renamed fs source dest) q = none) ∧
    (∀ q, ¬ source <+: q → ¬ dest <+: q →
      FS.at (renamed fs source dest) q = fs.at q) := by
  have hm : ∀ q k, FS.at (renamed fs source dest) q = some k ↔
      ∃ p, fs.at p = some k ∧ p ≠ dest ∧ go source dest p = q := by
    intro q k
    rw [at_iff (renamed_nodup hv hf), renamed_eq, List.mem_map]
    constructor
    · rintro ⟨⟨p, k'⟩, he, hq⟩
      rw [List.mem_filter] at he
      injection hq with hq hk
      simp only at hk hq
      subst hk
      exact ⟨p, (at_iff hv.1 _ _).mpr he.1, by simpa using he.2, hq⟩
    · rintro ⟨p, hp, hd, rfl⟩
      exact ⟨(p, k), List.mem_filter.mpr ⟨at_mem hp, by simpa using hd⟩, rfl⟩
  have incomp : ∀ r r', source ++ r ≠ dest ++ r' := by
    intro r r' h
    rcases Nat.le_total source.length dest.length with hl | hl
    · exact h1 (List.prefix_of_prefix_length_le ⟨r, h⟩ (List.prefix_append _ _) hl)
    · exact h2 (List.prefix_of_prefix_length_le ⟨r', h.symm⟩ (List.prefix_append _ _) hl)
  refine ⟨fun r => ?_, fun q hq => ?_, fun q hq hd => ?_⟩
  · apply Option.ext
    intro k
    rw [hm]
    constructor
    · rintro ⟨p, hp, hne, hg⟩
      by_cases hs : source <+: p
      · obtain ⟨r', rfl, hr'⟩ := go_sub (dest := dest) hs
        rw [hr'] at hg
        rw [List.append_cancel_left hg] at hp
        exact hp
      · rw [go_other hs] at hg
        rw [hf p ⟨⟨r, hg.symm⟩, hne⟩] at hp
        cases hp
    · intro h
      refine ⟨source ++ r, h, ?_, ?_⟩
      · intro h'
        exact incomp r [] (by rw [h', List.append_nil])
      · obtain ⟨r', h', hg⟩ := go_sub (dest := dest) (List.prefix_append source r)
        rw [hg, List.append_cancel_left h']
  · cases hk : FS.at (renamed fs source dest) q with
    | none => rfl
    | some k =>
      obtain ⟨p, hp, hne, hg⟩ := (hm _ _).mp hk
      obtain ⟨r, rfl⟩ := hq
      by_cases hs : source <+: p
      · obtain ⟨r', rfl, hr'⟩ := go_sub (dest := dest) hs
        rw [hr'] at hg
        exact absurd hg.symm (incomp _ _)
      · rw [go_other hs] at hg
        exact absurd ⟨r, hg.symm⟩ hs
  · apply Option.ext
    intro k
    rw [hm]
    constructor
    · rintro ⟨p, hp, hne, hg⟩
      by_cases hs : source <+: p
      · obtain ⟨r', rfl, hr'⟩ := go_sub (dest := dest) hs
        rw [hr'] at hg
        exact absurd ⟨r', hg⟩ hd
      · rw [go_other hs] at hg
        rw [← hg]
        exact hp
    · intro h
      refine ⟨q, h, ?_, go_other hq⟩
      rintro rfl
      exact hd (List.prefix_refl _)

theorem renamed_valid {fs : FS} (hv : fs.Valid) {source dest : Path} (hf : Free fs dest)
    (h1 : ¬ source <+: dest) (h2 : ¬ dest <+: source) (hp : hasParent fs dest = true)
    (hs : source ≠ []) : FS.Valid (renamed fs source dest) := by
  obtain ⟨a1, a2, a3⟩ := renamed_at hv hf h1 h2
  refine ⟨renamed_nodup hv hf, fun q a k h => ?_⟩
  by_cases hdq : dest <+: q ++ [a]
  · obtain ⟨r, hr⟩ := hdq
    rcases List.eq_nil_or_concat r with hn | ⟨r', b, hc⟩
    · -- The destination itself.
      subst hn
      rw [List.append_nil] at hr
      rw [hr] at hp
      rcases hasParent_iff hp with h' | h'
      · exact Or.inl h'
      · right
        rw [a3 q]
        · exact h'
        · intro hsq
          apply h1
          rw [hr]
          exact hsq.trans (List.prefix_append _ _)
        · intro hdq
          have := hdq.length_le
          rw [hr] at this
          simp at this
          omega
    · rw [List.concat_eq_append] at hc
      subst hc
      rw [← List.append_assoc] at hr
      obtain ⟨hr2, hb⟩ := List.append_inj' hr rfl
      injection hb with hb
      subst hb
      subst hr2
      rw [List.append_assoc, a1, ← List.append_assoc] at h
      right
      rw [a1]
      rcases hv.2 _ _ _ h with h' | h'
      · exact absurd (List.append_eq_nil_iff.mp h').1 hs
      · exact h'
  · by_cases hsq : source <+: q ++ [a]
    · rw [a2 _ hsq] at h
      cases h
    · rw [a3 _ hsq hdq] at h
      rcases hv.2 _ _ _ h with h' | h'
      · exact Or.inl h'
      · right
        rw [a3]
        · exact h'
        · exact fun h => hsq (h.trans (List.prefix_append _ _))
        · exact fun h => hdq (h.trans (List.prefix_append _ _))

/-! ## Tidy histories -/

/-- What a script that cleans up after itself does: it creates new entries with
builtins and redirects, does not turn cleanups off, writes only to files that
it has created or with builtins, and moves only what it has created, not over
directories unless what is moved is empty. -/
def Tidy (env : Env) (s : St) : Op → Prop
  | .register c => c.type ≠ .never ∧ ∃ d ∈ s.cs, d.path = c.path
  | .redirect p => inside env p = true ∧ p.any env.wild = false ∧
    (s.fs.at p = none ∨ ∃ d ∈ s.cs, d.path = p)
  | .create p _ cleanup => cleanup = true ∧ inside env p = true ∧ p.any env.wild = false
  | .move source dest cleanup _ => cleanup = true ∧ inside env dest = true ∧
    dest.any env.wild = false ∧ (∃ d ∈ s.cs, d.path = source) ∧
    (s.fs.at dest = some .dir → ∀ q, Below q source → s.fs.at q = none)
  | .remove .. => False
  | .program _ => False

/-- What holds all along. -/
structure Inv (env : Env) (fs0 : FS) (s : St) : Prop where
  valid : s.fs.Valid
  entries : ∀ c ∈ s.cs, c.type ≠ .never ∧ c.path.any env.wild = false ∧
    inside env c.path = true ∧ s.fs.at c.path = some c.kind ∧ fs0.at c.path = none ∧ c.path ≠ []
  others : ∀ q, (∀ c ∈ s.cs, c.path ≠ q) → s.fs.at q = fs0.at q
  nodup : (s.cs.map (·.path)).Nodup
  order : s.cs.Pairwise fun c d => ¬ Below c.path d.path

theorem inv_init {env : Env} {fs : FS} (hv : fs.Valid) : Inv env fs ⟨fs, []⟩ :=
  ⟨hv, fun c h => (by cases h), fun _ _ => rfl, by simp, List.Pairwise.nil⟩

/-- A new entry. -/
theorem inv_new {env : Env} {fs0 : FS} {s : St} (h : Inv env fs0 s) {p : Path} {k : Kind}
    (hi : inside env p = true) (hw : p.any env.wild = false) (hn : s.fs.at p = none)
    (hp : p ≠ []) (hh : hasParent s.fs p = true) (b : Bool) (hb : b = decide (k = .dir)) :
    Inv env fs0 ⟨s.fs ++ [(p, k)], register env s.cs ⟨.always, p, b⟩ true⟩ := by
  have hnr : ∀ c ∈ s.cs, c.path ≠ p := by
    rintro c hc rfl
    rw [(h.entries c hc).2.2.2.1] at hn
    cases hn
  have hreg : register env s.cs ⟨.always, p, b⟩ true = s.cs ++ [⟨.always, p, b⟩] := by
    unfold register
    have h1 : ¬ ((s.cs.any fun x => decide (x.path = p)) = true) := by
      rw [List.any_eq_true]
      rintro ⟨c, hc, he⟩
      exact hnr c hc (by simpa using he)
    simp only [hi]
    rw [if_neg (by simp), if_neg h1]
  rw [hreg]
  have hat : ∀ q, FS.at (s.fs ++ [(p, k)]) q = if q = p then some k else s.fs.at q := by
    intro q
    rw [at_append, at_cons, at_nil]
    by_cases hq : q = p
    · subst hq; simp [hn]
    · have hq' : ¬ p = q := fun h => hq h.symm
      simp only [hq, hq', if_false]
      split
      · next h => exact h.symm
      · rfl
  have hf0 : fs0.at p = none := by rw [← h.others p hnr]; exact hn
  refine ⟨valid_append h.valid hn hh, ?_, ?_, ?_, ?_⟩
  · intro c hc
    rcases List.mem_append.mp hc with hc | hc
    · obtain ⟨e1, e2, e3, e4, e5, e6⟩ := h.entries c hc
      refine ⟨e1, e2, e3, ?_, e5, e6⟩
      rw [hat, if_neg (hnr c hc)]
      exact e4
    · rw [List.mem_singleton] at hc
      subst hc
      refine ⟨by simp, hw, hi, ?_, hf0, hp⟩
      rw [hat, if_pos rfl]
      subst hb
      unfold Entry.kind
      cases k <;> simp
  · intro q hq
    simp only at hq
    rw [hat, if_neg]
    · exact h.others q fun c hc => hq c (List.mem_append_left _ hc)
    · rintro rfl
      exact hq _ (List.mem_append_right _ List.mem_cons_self) rfl
  · simp only [List.map_append, List.map_cons, List.map_nil]
    rw [List.nodup_append]
    refine ⟨h.nodup, by simp, ?_⟩
    intro x hx y hy
    obtain ⟨c, hc, rfl⟩ := List.mem_map.mp hx
    rw [List.mem_singleton] at hy
    subst hy
    exact hnr c hc
  · rw [List.pairwise_append]
    refine ⟨h.order, by simp, ?_⟩
    intro c hc d hd hb
    rw [List.mem_singleton] at hd
    subst hd
    rw [valid_above h.valid (h.entries c hc).2.2.2.1 hp hb] at hn
    cases hn

/-- The same again. -/
theorem inv_again {env : Env} {fs0 : FS} {s : St} (h : Inv env fs0 s) {p : Path}
    (hr : ∃ d ∈ s.cs, d.path = p) (b : Bool) :
    Inv env fs0 ⟨s.fs, register env s.cs ⟨.always, p, b⟩ true⟩ := by
  obtain ⟨d, hd, rfl⟩ := hr
  have : register env s.cs ⟨.always, d.path, b⟩ true = s.cs := by
    unfold register
    split
    · rfl
    · rw [if_pos (List.any_eq_true.mpr ⟨d, hd, by simp⟩), if_pos rfl]
  rw [this]
  exact h

/-- Only how. -/
theorem inv_type {env : Env} {fs0 : FS} {s : St} (h : Inv env fs0 s) {c : Entry}
    (hn : c.type ≠ .never) (hr : ∃ d ∈ s.cs, d.path = c.path) :
    Inv env fs0 ⟨s.fs, register env s.cs c false⟩ := by
  have he : register env s.cs c false =
      s.cs.map fun x => if x.path = c.path then { x with type := c.type } else x := by
    obtain ⟨d, hd, hp⟩ := hr
    unfold register
    rw [if_neg (by simp), if_pos (List.any_eq_true.mpr ⟨d, hd, by simp [hp]⟩), if_neg (by simp)]
  rw [he]
  have hp : ∀ x : Entry, (if x.path = c.path then { x with type := c.type } else x).path =
      x.path := by
    intro x
    split <;> rfl
  have hk : ∀ x : Entry, (if x.path = c.path then { x with type := c.type } else x).kind =
      x.kind := by
    intro x
    split <;> rfl
  refine ⟨h.valid, ?_, ?_, ?_, ?_⟩
  · intro y hy
    obtain ⟨x, hx, rfl⟩ := List.mem_map.mp hy
    obtain ⟨e1, e2, e3, e4, e5, e6⟩ := h.entries x hx
    rw [hp, hk]
    refine ⟨?_, e2, e3, e4, e5, e6⟩
    split
    · exact hn
    · exact e1
  · intro q hq
    refine h.others q fun x hx => ?_
    have := hq _ (List.mem_map.mpr ⟨x, hx, rfl⟩)
    rw [hp] at this
    exact this
  · simp only [List.map_map]
    have : (s.cs.map ((fun x => x.path) ∘ fun x =>
        if x.path = c.path then { x with type := c.type } else x)) = s.cs.map (·.path) := by
      apply List.map_congr_left
      intro x _
      exact hp x
    rw [this]
    exact h.nodup
  · rw [List.pairwise_map]
    refine h.order.imp ?_
    intro a b hab
    rw [hp, hp]
    exact hab

theorem below_append (d p r : Path) : Below (d ++ p) (d ++ r) ↔ Below p r := by
  unfold Below
  rw [List.prefix_append_right_inj]
  constructor
  · rintro ⟨h1, h2⟩
    exact ⟨h1, fun h => h2 (by rw [h])⟩
  · rintro ⟨h1, h2⟩
    exact ⟨h1, fun h => h2 (List.append_cancel_left h)⟩

/-- A move to where there is nothing. -/
theorem inv_move {env : Env} {fs0 : FS} (hv0 : fs0.Valid) {s : St} (h : Inv env fs0 s)
    {source dest : Path} (hi : inside env dest = true)
    (hisub : ∀ r, inside env dest = true → inside env (dest ++ r) = true)
    (hw : dest.any env.wild = false) (hr : ∃ d ∈ s.cs, d.path = source)
    (hn : s.fs.at dest = none) (h1 : ¬ source <+: dest) (h2 : ¬ dest <+: source)
    (hp : hasParent s.fs dest = true) (hd : dest ≠ []) :
    Inv env fs0 ⟨renamed s.fs source dest, moved s.cs source dest true⟩ := by
  obtain ⟨c0, hc0, hs0⟩ := hr
  obtain ⟨-, -, -, f4, f5, f6⟩ := h.entries c0 hc0
  rw [hs0] at f4 f5 f6
  have hfree : Free s.fs dest := fun q hq => absent_below h.valid hn hd hq.1
  obtain ⟨a1, a2, a3⟩ := renamed_at h.valid hfree h1 h2
  have hnd : ∀ c ∈ s.cs, ¬ dest <+: c.path := by
    intro c hc hx
    have := absent_below h.valid hn hd hx
    rw [(h.entries c hc).2.2.2.1] at this
    cases this
  have hd0 : fs0.at dest = none := by
    rw [← h.others dest fun c hc he => hnd c hc (by rw [he]; exact List.prefix_refl _)]
    exact hn
  -- What is registered now.
  have hmem : ∀ c, c ∈ moved s.cs source dest true ↔
      (c ∈ s.cs ∧ ¬ source <+: c.path) ∨
      (∃ x ∈ s.cs, ∃ r, x.path = source ++ r ∧ c = { x with path := dest ++ r }) := by
    intro c
    unfold moved
    rw [if_pos rfl, List.mem_append, List.mem_filter, List.mem_map]
    constructor
    · rintro (⟨hc, hx⟩ | ⟨x, hx, rfl⟩)
      · left
        refine ⟨hc, fun hx' => ?_⟩
        rw [(sub_iff _ _).mpr hx'] at hx
        cases hx
      · right
        rw [List.mem_filter] at hx
        obtain ⟨r, hr⟩ := (sub_iff _ _).mp hx.2
        exact ⟨x, hx.1, r, hr.symm, by rw [← hr, List.drop_left]⟩
    · rintro (⟨hc, hx⟩ | ⟨x, hx, r, hr, rfl⟩)
      · left
        refine ⟨hc, ?_⟩
        cases hb : sub c.path source with
        | false => rfl
        | true => exact absurd ((sub_iff _ _).mp hb) hx
      · right
        refine ⟨x, List.mem_filter.mpr ⟨hx, (sub_iff _ _).mpr ⟨r, hr.symm⟩⟩, ?_⟩
        rw [hr, List.drop_left]
  refine ⟨renamed_valid h.valid hfree h1 h2 hp f6, ?_, ?_, ?_, ?_⟩
  · intro c hc
    rcases (hmem c).mp hc with ⟨hc, hx⟩ | ⟨x, hx, r, hr, rfl⟩
    · obtain ⟨e1, e2, e3, e4, e5, e6⟩ := h.entries c hc
      refine ⟨e1, e2, e3, ?_, e5, e6⟩
      rw [a3 _ hx (hnd c hc)]
      exact e4
    · obtain ⟨e1, e2, e3, e4, e5, e6⟩ := h.entries x hx
      refine ⟨e1, ?_, hisub r hi, ?_, ?_, ?_⟩
      · simp only
        rw [hr] at e2
        rw [List.any_append] at e2 ⊢
        rw [hw]
        exact (Bool.or_eq_false_iff.mp e2).2
      · simp only
        rw [a1, ← hr]
        exact e4
      · exact absent_below hv0 hd0 hd (List.prefix_append _ _)
      · simp only
        intro hx
        exact hd (List.append_eq_nil_iff.mp hx).1
  · intro q hq
    simp only at hq ⊢
    by_cases hdq : dest <+: q
    · obtain ⟨r, rfl⟩ := hdq
      rw [a1, absent_below hv0 hd0 hd (List.prefix_append _ _)]
      rw [h.others]
      · exact absent_below hv0 f5 f6 (List.prefix_append _ _)
      · intro c hc he
        exact hq _ ((hmem _).mpr (Or.inr ⟨c, hc, r, he, rfl⟩)) rfl
    · by_cases hsq : source <+: q
      · rw [a2 _ hsq, absent_below hv0 f5 f6 hsq]
      · rw [a3 _ hsq hdq]
        refine h.others q fun c hc he => ?_
        exact hq c ((hmem c).mpr (Or.inl ⟨hc, by rw [he]; exact hsq⟩)) he
  · simp only [moved, if_true, List.map_append, List.map_map]
    rw [List.nodup_append]
    refine ⟨h.nodup.sublist (List.filter_sublist.map _), ?_, ?_⟩
    · have hns : ((s.cs.filter fun c : Entry => sub c.path source).map (·.path)).Nodup :=
        h.nodup.sublist (List.filter_sublist.map _)
      unfold List.Nodup at hns ⊢
      rw [List.pairwise_map] at hns ⊢
      refine List.Pairwise.imp_of_mem ?_ hns
      intro a b ha hb hab he
      rw [List.mem_filter, sub_iff] at ha hb
      obtain ⟨ra, hra⟩ := ha.2
      obtain ⟨rb, hrb⟩ := hb.2
      simp only [Function.comp] at he
      rw [← hra, ← hrb, List.drop_left, List.drop_left] at he
      apply hab
      rw [← hra, ← hrb, List.append_cancel_left he]
    · intro x hx y hy he
      obtain ⟨c, hc, rfl⟩ := List.mem_map.mp hx
      obtain ⟨d, hd', rfl⟩ := List.mem_map.mp hy
      rw [List.mem_filter] at hc
      exact hnd c hc.1 ⟨_, he.symm⟩
  · simp only [moved, if_true]
    rw [List.pairwise_append]
    refine ⟨h.order.sublist List.filter_sublist, ?_, ?_⟩
    · rw [List.pairwise_map]
      refine List.Pairwise.imp_of_mem ?_ (h.order.sublist
        (List.filter_sublist (p := fun c : Entry => sub c.path source)))
      intro a b ha hb hab
      rw [List.mem_filter, sub_iff] at ha hb
      obtain ⟨ra, hra⟩ := ha.2
      obtain ⟨rb, hrb⟩ := hb.2
      rw [← hra, ← hrb, below_append] at hab
      simp only
      rw [← hra, ← hrb, List.drop_left, List.drop_left, below_append]
      exact hab
    · intro c hc d hd' hb
      rw [List.mem_filter] at hc
      obtain ⟨x, hx, rfl⟩ := List.mem_map.mp hd'
      exact hnd c hc.1 ((List.prefix_append _ _).trans hb.1)

/-- A move over something. -/
theorem inv_over {env : Env} {fs0 : FS} (hv0 : fs0.Valid) {s : St} (h : Inv env fs0 s)
    {source dest : Path} {k : Kind} (hr : ∃ d ∈ s.cs, d.path = source)
    (hn : s.fs.at dest = some k) (hk : s.fs.at source = some k)
    (h1 : ¬ source <+: dest) (h2 : ¬ dest <+: source)
    (hp : hasParent s.fs dest = true) (_ : dest ≠ [])
    (he : ∀ q, Below q source → s.fs.at q = none) (hf : Free s.fs dest) :
    Inv env fs0 ⟨renamed s.fs source dest, moved s.cs source dest false⟩ := by
  obtain ⟨c0, hc0, hs0⟩ := hr
  obtain ⟨-, -, -, f4, f5, f6⟩ := h.entries c0 hc0
  rw [hs0] at f4 f5 f6
  obtain ⟨a1, a2, a3⟩ := renamed_at h.valid hf h1 h2
  -- Only the source is missing.
  have hat : ∀ q, FS.at (renamed s.fs source dest) q = if source <+: q then none else s.fs.at q := by
    intro q
    by_cases hsq : source <+: q
    · rw [if_pos hsq, a2 q hsq]
    · rw [if_neg hsq]
      by_cases hdq : dest <+: q
      · obtain ⟨r, rfl⟩ := hdq
        rw [a1]
        by_cases hr : r = []
        · subst hr
          rw [List.append_nil, List.append_nil, hn, hk]
        · have b1 : Below (source ++ r) source :=
            ⟨List.prefix_append _ _, fun h => hr (by simpa using h)⟩
          have b2 : Below (dest ++ r) dest :=
            ⟨List.prefix_append _ _, fun h => hr (by simpa using h)⟩
          rw [he _ b1, hf _ b2]
      · exact a3 q hsq hdq
  have hmem : ∀ c, c ∈ moved s.cs source dest false ↔ c ∈ s.cs ∧ ¬ source <+: c.path := by
    intro c
    unfold moved
    rw [if_neg (by simp), List.append_nil, List.mem_filter]
    constructor
    · rintro ⟨hc, hx⟩
      refine ⟨hc, fun hx' => ?_⟩
      rw [(sub_iff _ _).mpr hx'] at hx
      cases hx
    · rintro ⟨hc, hx⟩
      refine ⟨hc, ?_⟩
      cases hb : sub c.path source with
      | false => rfl
      | true => exact absurd ((sub_iff _ _).mp hb) hx
  refine ⟨renamed_valid h.valid hf h1 h2 hp f6, ?_, ?_, ?_, ?_⟩
  · intro c hc
    obtain ⟨hc, hx⟩ := (hmem c).mp hc
    obtain ⟨e1, e2, e3, e4, e5, e6⟩ := h.entries c hc
    refine ⟨e1, e2, e3, ?_, e5, e6⟩
    rw [hat, if_neg hx]
    exact e4
  · intro q hq
    simp only at hq ⊢
    rw [hat]
    by_cases hsq : source <+: q
    · rw [if_pos hsq, absent_below hv0 f5 f6 hsq]
    · rw [if_neg hsq]
      refine h.others q fun c hc hx => hq c ((hmem c).mpr ⟨hc, ?_⟩) hx
      rw [hx]
      exact hsq
  · simp only [moved, Bool.false_eq_true, if_false, List.append_nil]
    exact h.nodup.sublist (List.filter_sublist.map _)
  · simp only [moved, Bool.false_eq_true, if_false, List.append_nil]
    exact h.order.sublist List.filter_sublist

theorem inside_append {env : Env} {p r : Path} (h : inside env p = true) :
    inside env (p ++ r) = true := by
  unfold inside at h ⊢
  split at h
  · rfl
  · rw [sub_iff] at h ⊢
    exact h.trans (List.prefix_append _ _)

theorem run_tidy {env : Env} {fs0 : FS} (hv0 : fs0.Valid) {s s' : St} (h : Inv env fs0 s) (o : Op)
    (ht : Tidy env s o) (hr : run env s o = some s') : Inv env fs0 s' := by
  cases o with
  | register c =>
    rw [run] at hr
    cases hx : explicit env s.cs c with
    | none => rw [hx] at hr; cases hr
    | some cs =>
      rw [hx] at hr
      injection hr with hr
      subst hr
      unfold explicit at hx
      simp only at hx
      rw [Option.ite_none_right_eq_some] at hx
      obtain ⟨-, hx⟩ := hx
      injection hx with hx
      subst hx
      exact inv_type h ht.1 ht.2
  | redirect p =>
    obtain ⟨t1, t2, t3⟩ := ht
    rw [run] at hr
    cases ha : s.fs.at p with
    | none =>
      rw [ha] at hr
      simp only at hr
      split at hr
      · next hc =>
        injection hr with hr
        subst hr
        rw [Bool.and_eq_true] at hc
        exact inv_new h t1 t2 ha (by simpa using hc.1) hc.2 false rfl
      · cases hr
    | some k =>
      rw [ha] at hr
      cases k with
      | dir => cases hr
      | file =>
        injection hr with hr
        subst hr
        rcases t3 with t3 | t3
        · rw [t3] at ha; cases ha
        · exact inv_again h t3 false
  | create p k cleanup =>
    obtain ⟨rfl, t1, t2⟩ := ht
    rw [run] at hr
    cases ha : s.fs.at p with
    | none =>
      rw [ha] at hr
      simp only at hr
      split at hr
      · next hc =>
        injection hr with hr
        subst hr
        rw [Bool.and_eq_true] at hc
        exact inv_new h t1 t2 ha (by simpa using hc.1) hc.2 _ rfl
      · cases hr
    | some k' =>
      rw [ha] at hr
      cases k' with
      | dir => cases hr
      | file =>
        simp only at hr
        split at hr
        · injection hr with hr
          subst hr
          exact h
        · cases hr
  | move source dest cleanup force =>
    obtain ⟨rfl, t1, t2, t3, t4⟩ := ht
    rw [run] at hr
    split at hr
    · cases hr
    · simp only at hr
      cases hx : rename s.fs source dest with
      | none => rw [hx] at hr; cases hr
      | some fs =>
        rw [hx] at hr
        injection hr with hr
        subst hr
        unfold rename at hx
        split at hx
        · cases hx
        · next hg =>
          simp only [Bool.or_eq_true, decide_eq_true_eq, not_or, Bool.not_eq_true,
            Bool.not_eq_false'] at hg
          obtain ⟨⟨⟨⟨g1, g2⟩, g3⟩, g4⟩, g5⟩ := hg
          have i1 : ¬ source <+: dest := fun h => by rw [(sub_iff _ _).mpr h] at g3; cases g3
          have i2 : ¬ dest <+: source := fun h => by rw [(sub_iff _ _).mpr h] at g4; cases g4
          have i3 : hasParent s.fs dest = true := by simpa using g5
          simp only [t1, Bool.and_true, if_true] at hx ⊢
          change (match s.fs.at source, s.fs.at dest with
            | none, _ => none
            | some _, none => some (renamed s.fs source dest)
            | some .file, some .file => some (renamed s.fs source dest)
            | some .dir, some .dir => if s.fs.any fun e => Below e.1 dest then none
              else some (renamed s.fs source dest)
            | _, _ => none) = some fs at hx
          cases hsrc : s.fs.at source with
          | none => rw [hsrc] at hx; cases hx
          | some k =>
            cases hdst : s.fs.at dest with
            | none =>
              rw [hsrc, hdst] at hx
              have hx' : renamed s.fs source dest = fs := by
                cases k <;> (injection hx)
              subst hx'
              simp only [decide_true]
              exact inv_move hv0 h t1 (fun r _ => inside_append t1) t2 t3 hdst i1 i2 i3 g2
            | some k' =>
              rw [hsrc, hdst] at hx
              have hmv : (decide ((some k' : Option Kind) = none)) = false := by simp
              rw [hmv]
              cases k with
              | file =>
                cases k' with
                | dir => cases hx
                | file =>
                  injection hx with hx
                  subst hx
                  have nob : ∀ p, s.fs.at p = some .file → p ≠ [] →
                      ∀ q, Below q p → s.fs.at q = none := by
                    intro p hp hne q hq
                    cases hk : s.fs.at q with
                    | none => rfl
                    | some k =>
                      rw [valid_above h.valid hk hne hq] at hp
                      cases hp
                  exact inv_over hv0 h t3 hdst hsrc i1 i2 i3 g2 (nob _ hsrc g1) (nob _ hdst g2)
              | dir =>
                cases k' with
                | file => cases hx
                | dir =>
                  simp only at hx
                  split at hx
                  · cases hx
                  · next hb =>
                    injection hx with hx
                    subst hx
                    refine inv_over hv0 h t3 hdst hsrc i1 i2 i3 g2 (t4 hdst) ?_
                    intro q hq
                    cases hk : s.fs.at q with
                    | none => rfl
                    | some k =>
                      exact absurd ((below_any _ _).mpr ⟨q, hq, by rw [hk]; simp⟩) hb
  | remove p r f => exact ht.elim
  | program fs => exact ht.elim

/-- All of them are. -/
def AllTidy (env : Env) : St → List Op → Prop
  | _, [] => True
  | s, o :: os => Tidy env s o ∧ ∀ s', run env s o = some s' → AllTidy env s' os

theorem runAll_tidy {env : Env} {fs0 : FS} (hv0 : fs0.Valid) {s s' : St} {os : List Op}
    (h : Inv env fs0 s) (ht : AllTidy env s os) (hr : runAll env s os = some s') :
    Inv env fs0 s' := by
  induction os generalizing s with
  | nil =>
    injection hr with hr
    subst hr
    exact h
  | cons o os ih =>
    unfold runAll at hr
    cases hx : run env s o with
    | none => rw [hx] at hr; cases hr
    | some s1 =>
      rw [hx] at hr
      exact ih (run_tidy hv0 h o ht.1 hx) (ht.2 s1 hx) hr

end Verif.Cleanup
