import Verif.VarCache.Ovr

/-!
# Cached variable values: properties
-/

namespace Verif.VarCache

open Verif.Lookup (Val Kind)
open Verif.Override (Ov OVis OKind)

variable {α : Type}

/-! ## Sequences of assignments and lookups -/

theorem keyed_of {os : Origin → Prop} (h : SameGroups os) :
    ∃ tl : Nat → List Nat, ∀ o, os o → Keyed tl o.keys := by
  refine ⟨fun k => open Classical in
    if hk : ∃ r, ∃ o, os o ∧ (k :: r) <:+ o.keys then hk.choose else [], ?_⟩
  intro o ho k r hr
  have hk : ∃ r, ∃ o, os o ∧ (k :: r) <:+ o.keys := ⟨r, o, ho, hr⟩
  simp only [dif_pos hk]
  obtain ⟨o', ho', hr'⟩ := hk.choose_spec
  exact h o' o k _ r ho' ho hr' hr

theorem base_of {os : Origin → Prop} (h : OneBase os) :
    ∃ base : Nat → Nat, ∀ o, os o → ∀ t ∈ o.own, o.base = base t := by
  refine ⟨fun t => open Classical in
    if ht : ∃ o, os o ∧ t ∈ o.own then ht.choose.base else 0, ?_⟩
  intro o ho t ht
  have hk : ∃ o, os o ∧ t ∈ o.own := ⟨o, ho, ht⟩
  simp only [dif_pos hk]
  exact h o _ t ho hk.choose_spec.1 ht hk.choose_spec.2

/-- The invariant, if there are no overrides. -/
def GoodP (w : World α) (tl : Nat → List Nat) (kind : Vars → Kind) (st : State α) : Prop :=
  (∃ L, Inv w st.maps st.pc tl L) ∧ ∀ m c, st.maps m = some c → c.kind = kind m

theorem lookup_plain {w : World α} (hw : w.ovs = []) (st : State α) (o : Origin) :
    lookup w st o = (original w st.maps o st.pc).map fun x =>
      (x.1.map (fun r => (r.store, r.val)), { st with pc := x.2 }) := by
  unfold lookup
  cases original w st.maps o st.pc with
  | none => rfl
  | some x => simp only [if_pos hw]; rfl

theorem look_ok {w : World α} (ht : w.Tree) (hw : w.ovs = []) {tl : Nat → List Nat}
    {kind : Vars → Kind} {st : State α} (hg : GoodP w tl kind st) {o : Origin}
    (hk : Keyed tl o.keys) :
    ∃ r pc', lookup w st o = some (r.map (fun x => (x.store, x.val)), { st with pc := pc' }) ∧
      GoodP w tl kind { st with pc := pc' } ∧ Keeps w st.maps tl st.pc pc' ∧
      Found w st.maps tl pc' (w.chain o.base) (fun _ => o.keys) r (freshOriginal w st.maps o) := by
  obtain ⟨⟨L, hi⟩, hm⟩ := hg
  obtain ⟨r, pc', L', h1, h2, h3, h4⟩ := original_ok ht hk hi
  refine ⟨r, pc', ?_, ⟨⟨L', h2⟩, hm⟩, h3, h4⟩
  rw [lookup_plain hw, h1]; rfl

theorem run_ok {w : World α} (ht : w.Tree) (hw : w.ovs = []) {tl : Nat → List Nat}
    {kind : Vars → Kind} : ∀ (ops : List (Op α)),
    (∀ o, .look o ∈ ops → Keyed tl o.keys) → (∀ m k v, .set m k v ∈ ops → k = kind m) →
    ∀ st, GoodP w tl kind st → ∃ st', run w st ops = some st' ∧ GoodP w tl kind st' := by
  intro ops
  induction ops with
  | nil => intro _ _ st hg; exact ⟨st, rfl, hg⟩
  | cons op ops ih =>
    intro hl hs st hg
    have ih' := ih (fun o ho => hl o (List.mem_cons_of_mem _ ho))
      (fun m k v h => hs m k v (List.mem_cons_of_mem _ h))
    cases op with
    | set m k v =>
      have hk := hs m k v (List.mem_cons_self ..)
      obtain ⟨⟨L, hi⟩, hm⟩ := hg
      obtain ⟨L', hi'⟩ := set_inv hi (m := m) (k := k) (v := v)
        (fun c hc => (hm m c hc).trans hk.symm)
      refine ih' { st with maps := st.maps.set m k v } ⟨⟨L', hi'⟩, ?_⟩
      intro m' c hc
      simp only [Maps.set] at hc
      split at hc
      · rename_i heq; subst heq; cases hc; exact hk
      · exact hm m' c hc
    | look o =>
      obtain ⟨r, pc', h1, h2, _⟩ := look_ok ht hw hg (hl o (List.mem_cons_self ..))
      simp only [run, step, h1, Option.map_some]
      exact ih' _ h2

theorem init_good (w : World α) (maps : Maps α) (hm : ∀ m c, maps m = some c → 1 ≤ c.ver)
    (tl : Nat → List Nat) : ∃ L, Inv w maps (fun _ => none) tl L := by
  refine ⟨fun st n => match st with
    | .map m => (match maps m with | some c => c.val | none => none) | _ => none, ?_, ?_⟩
  · intro st x n h
    cases st with
    | map m =>
      simp only [content, Option.map_eq_some_iff] at h
      obtain ⟨c, hc, h⟩ := h
      cases h
      simp only [hc]
      exact ⟨trivial, hm m c hc⟩
    | pattern m k => simp [content] at h
    | override m => cases h
  · intro m k e h; cases h

/-- C63. Without overrides: whatever has been assigned and looked up before, a lookup
succeeds and yields the same as if nothing had been cached.

Missing: same-named targets with different groups, and values that are changed from
prepend/append to assigned. For these it does not hold: see `group_stale` and
`reassigned_stale`. -/
theorem current_partial {w : World α} (ht : w.Tree) (hw : w.ovs = []) {os : Origin → Prop}
    (hos : SameGroups os) {ops : List (Op α)} (hl : LooksFrom os ops) (hk : KindFixed ops)
    {o : Origin} (ho : os o) :
    ∃ st r st', run w .init ops = some st ∧ lookup w st o = some (r, st') ∧
      (lookup w ⟨st.maps, fun _ => none, fun _ => none⟩ o).map (·.1) = some r := by
  obtain ⟨tl, htl⟩ := keyed_of hos
  obtain ⟨kind, hkind⟩ := hk
  obtain ⟨L0, hi0⟩ := init_good w (fun _ => none) (fun _ _ h => by cases h) tl
  obtain ⟨st, h1, h2⟩ := run_ok ht hw ops (fun o h => htl o (hl o h)) hkind .init
    ⟨⟨L0, hi0⟩, fun _ _ h => by cases h⟩
  obtain ⟨r, pc', h3, _, _, h4⟩ := look_ok ht hw h2 (htl o ho)
  have hver : ∀ m c, st.maps m = some c → 1 ≤ c.ver := by
    intro m c hc
    obtain ⟨⟨L, hi⟩, _⟩ := h2
    exact (hi.led (.map m) c.val c.ver (by simp [content, hc])).2
  obtain ⟨L1, hi1⟩ := init_good w st.maps hver tl
  obtain ⟨r', pc1, h5, _, _, h6⟩ := look_ok ht hw (st := ⟨st.maps, fun _ => none, fun _ => none⟩)
    ⟨⟨L1, hi1⟩, h2.2⟩ (htl o ho)
  refine ⟨st, _, _, h1, h3, ?_⟩
  rw [h5]
  simp only [Option.map_some, Option.some.injEq]
  have hv := h4.val.trans h6.val.symm
  cases r with
  | none => cases r' with
    | none => rfl
    | some y => cases hv
  | some x => cases r' with
    | none => cases hv
    | some y =>
      simp only [Option.map_some, Option.some.injEq, Prod.mk.injEq] at hv
      have h7 := h4.sto x rfl
      have h8 := h6.sto y rfl
      rw [hv.1] at h7
      simp only [Option.map_some, Option.some.injEq, Prod.mk.injEq]
      exact ⟨Right.unique h8 h7, hv.2.symm⟩

theorem looks_kept {w : World α} (ht : w.Tree) (hw : w.ovs = []) {tl : Nat → List Nat}
    {kind : Vars → Kind} : ∀ (los : List Origin), (∀ o ∈ los, Keyed tl o.keys) →
    ∀ st, GoodP w tl kind st → ∃ st', run w st (los.map .look) = some st' ∧
      st'.maps = st.maps ∧ Keeps w st.maps tl st.pc st'.pc := by
  intro los
  induction los with
  | nil => intro _ st _; exact ⟨st, rfl, rfl, Keeps.refl _⟩
  | cons o los ih =>
    intro hl st hg
    obtain ⟨r, pc', h1, h2, h3, _⟩ := look_ok ht hw hg (hl o (List.mem_cons_self ..))
    obtain ⟨st', h4, h5, h6⟩ := ih (fun o h => hl o (List.mem_cons_of_mem _ h)) _ h2
    refine ⟨st', ?_, h5, h3.trans h6⟩
    simp only [List.map_cons, run, step, h1, Option.map_some, h4]

/-- C63. Without overrides: what a lookup returned stays as it is as long as nothing
is assigned, whatever else is looked up.

Missing: see `current_partial`. -/
theorem reference_kept_partial {w : World α} (ht : w.Tree) (hw : w.ovs = []) {os : Origin → Prop}
    (hos : SameGroups os) {ops : List (Op α)} (hl : LooksFrom os ops) (hk : KindFixed ops)
    {o : Origin} (ho : os o) {los : List Origin} (hlos : ∀ o ∈ los, os o)
    {st st' : State α} {s : Store} {x : Val α}
    (hr : run w .init ops = some st) (hlk : lookup w st o = some (some (s, x), st')) :
    st'.read s = some x ∧
    ∃ st'', run w st' (los.map .look) = some st'' ∧ st''.read s = some x := by
  obtain ⟨tl, htl⟩ := keyed_of hos
  obtain ⟨kind, hkind⟩ := hk
  obtain ⟨L0, hi0⟩ := init_good w (fun _ => none) (fun _ _ h => by cases h) tl
  obtain ⟨st1, h1, h2⟩ := run_ok ht hw ops (fun o h => htl o (hl o h)) hkind .init
    ⟨⟨L0, hi0⟩, fun _ _ h => by cases h⟩
  rw [hr] at h1; cases h1
  obtain ⟨r, pc', h3, h4, _, h5⟩ := look_ok ht hw h2 (htl o ho)
  rw [hlk] at h3
  simp only [Option.some.injEq, Prod.mk.injEq] at h3
  obtain ⟨h3, rfl⟩ := h3
  cases r with
  | none => cases h3
  | some y =>
    simp only [Option.map_some, Option.some.injEq, Prod.mk.injEq] at h3
    obtain ⟨rfl, rfl⟩ := h3
    obtain ⟨st'', h6, h7, h8⟩ := looks_kept ht hw los (fun o h => htl o (hlos o h)) _ h4
    have hc := h5.cur y rfl
    have hu := fun m k => h5.upd y m k rfl
    cases hs : y.store with
    | map m =>
      rw [hs] at hc
      simp only [content, Option.map_eq_some_iff] at hc
      obtain ⟨c, hc, hcc⟩ := hc
      injection hcc with hcc _
      have hm : st.maps m = some c := hc
      refine ⟨?_, st'', h6, ?_⟩
      · show (st.maps m).map (·.val) = _
        rw [hm, ← hcc]; rfl
      · show (st''.maps m).map (·.val) = _
        rw [h7]
        show (st.maps m).map (·.val) = _
        rw [hm, ← hcc]; rfl
    | pattern m k =>
      have hk := h8 m k (hu m k hs)
      rw [hs] at hc
      simp only [content, Option.map_eq_some_iff] at hc
      obtain ⟨e, he, hee⟩ := hc
      injection hee with hee _
      refine ⟨?_, st'', h6, ?_⟩
      · show (pc' (m, k)).map (·.val) = _
        rw [he, ← hee]; rfl
      · show (st''.pc (m, k)).map (·.val) = _
        rw [hk.1]
        show (pc' (m, k)).map (·.val) = _
        rw [he, ← hee]; rfl
    | override m => rw [hs] at hc; cases hc

/-! ## With overrides -/

theorem lookup_ovr {w : World α} (hw : w.ovs ≠ []) {st : State α} {o : Origin}
    {r : Option (Ref α)} {pc : PCache α} (h : original w st.maps o st.pc = some (r, pc)) :
    lookup w st o = (override w o r st.oc).map fun x => (x.1, ⟨st.maps, pc, x.2⟩) := by
  unfold lookup
  rw [h]
  simp only [if_neg hw]
  cases override w o r st.oc <;> rfl

theorem noAdd_set {maps : Maps α} (h : NoAdd maps) {m : Vars} {k : Kind} {v : Val α}
    (hk : ∀ s n, m = .pattern s n → k = .assign) : NoAdd (maps.set m k v) := by
  intro s n c hc
  simp only [Maps.set] at hc
  split at hc
  · rename_i heq; cases hc; exact hk s n heq.symm
  · exact h s n c hc

/-- The invariant, if there are overrides. -/
def GoodO (w : World α) (base : Nat → Nat) (st : State α) : Prop :=
  NoAdd st.maps ∧ ∃ L, OInv w st.maps base st.oc L

theorem olook_ok {w : World α} (ht : w.Tree) (hg : AllGlobal w) (hw : w.ovs ≠ [])
    {base : Nat → Nat} {st : State α} (hgo : GoodO w base st) {o : Origin}
    (hb : ∀ t ∈ o.own, o.base = base t) (hp : o.keys = [] → o.own = []) :
    ∃ r oc', (∀ pc, original w st.maps o pc = some (r, pc)) ∧
      (∀ x, r = some x → From st.maps o (w.chain o.base) x) ∧
      override w o r st.oc = some (freshOverride w o r, oc') ∧
      lookup w st o = some (freshOverride w o r, { st with oc := oc' }) ∧
      GoodO w base { st with oc := oc' } := by
  obtain ⟨hn, L, hi⟩ := hgo
  obtain ⟨r, h1, h2⟩ := original_assign (w := w) hn o
  obtain ⟨oc', h3, h4⟩ := override_ok ht hg hb hp h2 hi
  refine ⟨r, oc', h1, h2, h3, ?_, hn, L, h4⟩
  rw [lookup_ovr hw (h1 st.pc), h3]; rfl

theorem orun_ok {w : World α} (ht : w.Tree) (hg : AllGlobal w) (hw : w.ovs ≠ [])
    {base : Nat → Nat} : ∀ (ops : List (Op α)),
    (∀ o, .look o ∈ ops → (∀ t ∈ o.own, o.base = base t) ∧ (o.keys = [] → o.own = [])) →
    NoPatternAdd ops → ∀ st, GoodO w base st → ∃ st', run w st ops = some st' ∧ GoodO w base st' := by
  intro ops
  induction ops with
  | nil => intro _ _ st hgo; exact ⟨st, rfl, hgo⟩
  | cons op ops ih =>
    intro hl hs st hgo
    have ih' := ih (fun o ho => hl o (List.mem_cons_of_mem _ ho))
      (fun s n k v h => hs s n k v (List.mem_cons_of_mem _ h))
    cases op with
    | set m k v =>
      obtain ⟨hn, L, hi⟩ := hgo
      obtain ⟨L', hi'⟩ := set_oinv hi m k v
      refine ih' { st with maps := st.maps.set m k v } ⟨noAdd_set hn ?_, L', hi'⟩
      rintro s n rfl
      exact hs s n k v (List.mem_cons_self ..)
    | look o =>
      obtain ⟨hb, hp⟩ := hl o (List.mem_cons_self ..)
      obtain ⟨r, oc', _, _, _, h1, h2⟩ := olook_ok ht hg hw hgo hb hp
      simp only [run, step, h1, Option.map_some]
      exact ih' _ h2

theorem oinit_good (w : World α) (base : Nat → Nat) (maps : Maps α) :
    ∃ L, OInv w maps base (fun _ => none) L :=
  ⟨fun m _ => match maps m with | some c => c.val | none => none,
    fun m c hc => by simp only [hc], fun _ _ h => by cases h⟩

/-- C63. With overrides of global visibility: whatever has been assigned and looked up
before, a lookup succeeds and yields the same as if nothing had been cached.

Missing: pattern-specific prepend/append, groups with members in different
directories, and overrides of project or scope visibility. For these it does not hold:
see `overridden_pattern_stale`, `member_stale`, `project_stale` and `scope_stale`. -/
theorem overridden_current_partial {w : World α} (ht : w.Tree) (hw : w.ovs ≠ [])
    (hg : ∀ o ∈ w.ovs, o.vis = .global) {os : Origin → Prop} (hos : OneBase os)
    (hp : Proper os) {ops : List (Op α)} (hl : LooksFrom os ops) (hn : NoPatternAdd ops)
    {o : Origin} (ho : os o) :
    ∃ st r st', run w .init ops = some st ∧ lookup w st o = some (r, st') ∧
      (lookup w ⟨st.maps, fun _ => none, fun _ => none⟩ o).map (·.1) = some r := by
  obtain ⟨base, hb⟩ := base_of hos
  obtain ⟨st, h1, h2⟩ := orun_ok ht hg hw ops
    (fun o h => ⟨hb o (hl o h), hp o (hl o h)⟩) hn .init
    ⟨(fun _ _ _ h => by cases h), oinit_good w base _⟩
  obtain ⟨r, oc', h3, _, _, h4, _⟩ := olook_ok ht hg hw h2 (hb o ho) (hp o ho)
  obtain ⟨r', oc1, h5, _, _, h6, _⟩ := olook_ok ht hg hw
    (st := ⟨st.maps, fun _ => none, fun _ => none⟩)
    ⟨h2.1, oinit_good w base _⟩ (hb o ho) (hp o ho)
  have hrr := (h3 (fun _ => none)).symm.trans (h5 (fun _ => none))
  simp only [Option.some.injEq, Prod.mk.injEq, and_true] at hrr
  subst hrr
  exact ⟨st, _, _, h1, h4, by rw [h6]; rfl⟩

theorem olooks_kept {w : World α} (ht : w.Tree) (hg : AllGlobal w) (hw : w.ovs ≠ [])
    {base : Nat → Nat} : ∀ (los : List Origin),
    (∀ o ∈ los, (∀ t ∈ o.own, o.base = base t) ∧ (o.keys = [] → o.own = [])) →
    ∀ st, GoodO w base st → NoPat st.maps → ∃ st', run w st (los.map .look) = some st' ∧
      st'.maps = st.maps ∧ ∀ v, Settled w st.maps base st.oc v → st'.oc v = st.oc v := by
  intro los
  induction los with
  | nil => intro _ st _ _; exact ⟨st, rfl, rfl, fun _ _ => rfl⟩
  | cons o los ih =>
    intro hl st hgo hn
    obtain ⟨hb, hp⟩ := hl o (List.mem_cons_self ..)
    obtain ⟨r, oc', h0, hr, hov, h1, h2⟩ := olook_ok ht hg hw hgo hb hp
    have hk := (override_keeps ht hg hn hb hp (h0 st.pc) hr hov).1
    obtain ⟨st', h4, h5, h6⟩ := ih (fun o h => hl o (List.mem_cons_of_mem _ h)) _ h2 hn
    refine ⟨st', ?_, h5, ?_⟩
    · simp only [List.map_cons, run, step, h1, Option.map_some, h4]
    · intro v hv
      have hkv : oc' v = st.oc v := hk v hv
      have : Settled w st.maps base oc' v := by
        obtain ⟨e, he, h⟩ := hv
        exact ⟨e, hkv.trans he, h⟩
      exact (h6 v this).trans hkv

/-- C63. With overrides of global visibility: what a lookup returned stays as it is as
long as nothing is assigned, whatever else is looked up.

Missing: what is missing from `overridden_current_partial`, and pattern-specific values
in general: see `reference_lost`. -/
theorem overridden_reference_kept_partial {w : World α} (ht : w.Tree) (hw : w.ovs ≠ [])
    (hg : ∀ o ∈ w.ovs, o.vis = .global) {os : Origin → Prop} (hos : OneBase os)
    (hp : Proper os) {ops : List (Op α)} (hl : LooksFrom os ops) (hn : NoPattern ops)
    {o : Origin} (ho : os o) {los : List Origin} (hlos : ∀ o ∈ los, os o)
    {st st' : State α} {s : Store} {x : Val α}
    (hr : run w .init ops = some st) (hlk : lookup w st o = some (some (s, x), st')) :
    st'.read s = some x ∧
    ∃ st'', run w st' (los.map .look) = some st'' ∧ st''.read s = some x := by
  obtain ⟨base, hb⟩ := base_of hos
  obtain ⟨st1, h1, h2⟩ := orun_ok ht hg hw ops
    (fun o h => ⟨hb o (hl o h), hp o (hl o h)⟩) (fun s n k v h => absurd h (hn s n k v)) .init
    ⟨(fun _ _ _ h => by cases h), oinit_good w base _⟩
  rw [hr] at h1; cases h1
  have hnp : ∀ (ops : List (Op α)) (st st' : State α), NoPattern ops → NoPat st.maps →
      run w st ops = some st' → NoPat st'.maps := by
    intro ops
    induction ops with
    | nil => intro st st' _ h h'; cases h'; exact h
    | cons op ops ih =>
      intro st st' hno h h'
      have hno' : NoPattern ops := fun s n k v hm => hno s n k v (List.mem_cons_of_mem _ hm)
      cases op with
      | set m k v =>
        refine ih _ _ hno' ?_ h'
        intro s n
        simp only [Maps.set]
        split
        · rename_i heq
          exact absurd (heq ▸ List.mem_cons_self ..) (hno s n k v)
        · exact h s n
      | look o =>
        simp only [run, step] at h'
        cases hlk : lookup w st o with
        | none => rw [hlk] at h'; cases h'
        | some y =>
          rw [hlk] at h'
          refine ih _ _ hno' ?_ h'
          have : y.2.maps = st.maps := by
            unfold lookup at hlk
            split at hlk
            · cases hlk
            · split at hlk
              · cases hlk; rfl
              · split at hlk
                · cases hlk
                · cases hlk; rfl
          show NoPat y.2.maps
          rw [this]; exact h
  have hnp' := hnp ops .init st hn (fun _ _ => rfl) hr
  obtain ⟨r, oc', h3, h4, h5, h6, h7⟩ := olook_ok ht hg hw h2 (hb o ho) (hp o ho)
  rw [hlk] at h6
  simp only [Option.some.injEq, Prod.mk.injEq] at h6
  obtain ⟨h6, rfl⟩ := h6
  have hk := override_keeps ht hg hnp' (hb o ho) (hp o ho) (h3 st.pc) h4 h5
  obtain ⟨st'', h8, h9, h10⟩ := olooks_kept ht hg hw los
    (fun o h => ⟨hb o (hlos o h), hp o (hlos o h)⟩) _ h7 hnp'
  have hcase : (∃ v, s = .override v) ∨ ∃ m c, s = .map m ∧ st.maps m = some c ∧ c.val = x := by
    unfold freshOverride at h6
    split at h6
    · cases r with
      | none => cases h6
      | some y =>
        obtain ⟨c, g1, g2, g3, _⟩ := h4 y rfl
        simp only [Option.map_some, Option.some.injEq, Prod.mk.injEq] at h6
        exact .inr ⟨y.vars, c, h6.1.trans g2, g1, by rw [h6.2, g3]⟩
    · injection h6 with h6; injection h6 with h6 _
      exact .inl ⟨_, h6⟩
  rcases hcase with ⟨v, rfl⟩ | ⟨m, c, rfl, hc, rfl⟩
  · obtain ⟨hs, hv⟩ := hk.2 v x h6.symm
    refine ⟨hv, st'', h8, ?_⟩
    show (st''.oc v).map (·.val) = _
    rw [h10 v hs]; exact hv
  · refine ⟨?_, st'', h8, ?_⟩
    · show (st.maps m).map (·.val) = _
      rw [hc]; rfl
    · show (st''.maps m).map (·.val) = _
      rw [h9]
      show (st.maps m).map (·.val) = _
      rw [hc]; rfl

/-! ## Where it does not hold -/

/-- Scopes: 0 is the root, 1 and 2 are in it, 3 is in 1, 4 is in 3. Pattern 0 is for
all the targets; 1 for the target 10 and the group 20; 2 for the target 11 and the
group 21; 3 for the target 12; 4 for the groups. -/
def demo (ovs : List Ov) (ovr : Nat → Nat → Option (Val Nat)) : World Nat where
  chain | 1 => [1, 0] | 2 => [2, 0] | 3 => [3, 1, 0] | 4 => [4, 3, 1, 0] | s => [s]
  pats _ := [1, 2, 3, 4, 0]
  pm _ n k := match n with
    | 0 => true | 1 => k == 10 || k == 20 | 2 => k == 11 || k == 21 | 3 => k == 12
    | 4 => k == 20 || k == 21 | _ => false
  ovs := ovs
  ovr := ovr
  proj | 0 => some 0 | 2 => some 0 | _ => some 1
  sub a b := a == 0 && b == 1

theorem demo_tree (ovs : List Ov) (ovr : Nat → Nat → Option (Val Nat)) : (demo ovs ovr).Tree := by
  intro s
  match s with
  | 0 => exact .inl rfl
  | 1 => exact .inr ⟨0, rfl⟩
  | 2 => exact .inr ⟨0, rfl⟩
  | 3 => exact .inr ⟨1, rfl⟩
  | 4 => exact .inr ⟨3, rfl⟩
  | _ + 5 => exact .inl rfl

/-- No overrides. -/
def demo0 : World Nat := demo [] (fun _ _ => none)

/-- What a lookup yields after these operations, with what is cached and without. -/
def both (w : World Nat) (ops : List (Op Nat)) (o : Origin) :
    Option (Option (Option (Val Nat)) × Option (Option (Val Nat))) :=
  (run w .init ops).map fun st =>
    ((lookup w st o).map (fun r => r.1.map (·.2)),
     (lookup w ⟨st.maps, fun _ => none, fun _ => none⟩ o).map (fun r => r.1.map (·.2)))

/-- Two targets of the same type and name but with different groups: the values that
are appended to the value for the group are mixed up. -/
theorem group_stale :
    both demo0
      [.set (.pattern 0 1) .assign (some [1]), .set (.pattern 0 2) .assign (some [2]),
       .set (.pattern 1 4) .append (some [5]), .set (.pattern 3 3) .append (some [3]),
       .look ⟨[], [12, 20], 3, false⟩] ⟨[], [12, 21], 3, false⟩ =
      some (some (some (some [1, 5, 3])), some (some (some [2, 5, 3]))) := rfl

/-- A pattern-specific value that appends is changed to an assigned one: depending on
how often the cached value has been updated, the old value is used or an assertion
fails. -/
theorem reassigned_stale :
    both demo0
      [.set (.plain 0) .assign (some [1]), .set (.pattern 0 0) .append (some [5]),
       .set (.pattern 1 0) .append (some [3]), .look ⟨[], [10], 1, false⟩,
       .set (.plain 0) .assign (some [2]), .look ⟨[], [10], 1, false⟩,
       .set (.pattern 0 0) .assign (some [9])] ⟨[], [10], 1, false⟩ =
      some (some (some (some [2, 5, 3])), some (some (some [9, 3]))) ∧
    both demo0
      [.set (.plain 0) .assign (some [1]), .set (.pattern 0 0) .append (some [5]),
       .set (.pattern 1 0) .append (some [3]), .look ⟨[], [10], 1, false⟩,
       .set (.plain 0) .assign (some [2]), .look ⟨[], [10], 1, false⟩,
       .set (.plain 0) .assign (some [6]), .look ⟨[], [10], 1, false⟩,
       .set (.pattern 0 0) .assign (some [9])] ⟨[], [10], 1, false⟩ =
      some (none, some (some (some [9, 3]))) := ⟨rfl, rfl⟩

/-- `x+=4` on the command line: two targets for which there are different values that
`x += 3` for `*` appends to. The second gets the value of the first. -/
theorem overridden_pattern_stale :
    both (demo [⟨.global, .suffix⟩] (fun s _ => if s = 0 then some (some [4]) else none))
      [.set (.pattern 0 1) .assign (some [1]), .set (.pattern 0 2) .assign (some [2]),
       .set (.pattern 1 0) .append (some [3]),
       .look ⟨[], [10], 1, false⟩] ⟨[], [11], 1, false⟩ =
      some (some (some (some [1, 3, 4])), some (some (some [2, 3, 4]))) := rfl

/-- `x+=4` and `1/x+=6` on the command line: two members of a group, the one in
directory 1 and the other in 2. The second gets the value of the first. -/
theorem member_stale :
    both (demo [⟨.global, .suffix⟩, ⟨.global, .suffix⟩] (fun s j =>
        if s = 0 ∧ j = 0 then some (some [4])
        else if s = 1 ∧ j = 1 then some (some [6]) else none))
      [.set (.target 7) .assign (some [1]),
       .look ⟨[5, 7], [10, 20], 1, false⟩] ⟨[6, 7], [11, 20], 2, false⟩ =
      some (some (some (some [1, 6, 4])), some (some (some [1, 4]))) := rfl

/-- `x=1`, `%x=2` and `3/x+=3` on the command line: a value is assigned in a
subproject, to which `%x` does not apply. -/
theorem project_stale :
    both (demo [⟨.global, .replace⟩, ⟨.project, .replace⟩, ⟨.global, .suffix⟩] (fun s j =>
        if s = 0 ∧ j = 0 then some (some [1])
        else if s = 0 ∧ j = 1 then some (some [2])
        else if s = 3 ∧ j = 2 then some (some [3]) else none))
      [.look (.scope 3), .set (.plain 1) .assign (some [9])] (.scope 3) =
      some (some (some (some [2, 3])), some (some (some [1, 3]))) := rfl

/-- `x+=2` and `/x+=3` on the command line: which value is yielded depends on who is
the first to look it up. (That `/x` applies is due to how the depths are compared.) -/
theorem scope_stale :
    both (demo [⟨.global, .suffix⟩, ⟨.scope, .suffix⟩] (fun s j =>
        if s = 0 ∧ j = 0 then some (some [2])
        else if s = 0 ∧ j = 1 then some (some [3]) else none))
      [.set (.plain 3) .assign (some [1]), .look ⟨[], [10], 3, false⟩] ⟨[], [10], 4, false⟩ =
      some (some (some (some [1, 2])), some (some (some [1, 2, 3]))) := rfl

/-- `1/x+=4` on the command line: two targets with different pattern-specific values.
Both get the same reference, and what it refers to is changed with the second. -/
theorem reference_lost :
    ((run (demo [⟨.global, .suffix⟩] (fun s _ => if s = 1 then some (some [4]) else none)) .init
        [.set (.pattern 0 1) .assign (some [1]), .set (.pattern 0 2) .assign (some [2]),
         .look ⟨[], [10], 1, false⟩]).bind (·.read (.override (.plain 1)))) = some (some [1, 4]) ∧
    ((run (demo [⟨.global, .suffix⟩] (fun s _ => if s = 1 then some (some [4]) else none)) .init
        [.set (.pattern 0 1) .assign (some [1]), .set (.pattern 0 2) .assign (some [2]),
         .look ⟨[], [10], 1, false⟩, .look ⟨[], [11], 1, false⟩]).bind
          (·.read (.override (.plain 1)))) = some (some [2, 4]) := ⟨rfl, rfl⟩

/-! ## The hypotheses are met -/

/-- From the targets 10 (in group 20) and 11, and from scope 1. -/
def demoOs (o : Origin) : Prop :=
  o = ⟨[5, 7], [10, 20], 1, false⟩ ∨ o = ⟨[6], [11], 1, false⟩ ∨ o = .scope 1

theorem demo_groups : SameGroups demoOs := by
  rintro a b k r r' (rfl | rfl | rfl) (rfl | rfl | rfl) h1 h2 <;>
    simp [List.suffix_cons_iff, Origin.scope] at h1 h2 <;> grind

theorem demo_base : OneBase demoOs := by
  rintro a b t (rfl | rfl | rfl) (rfl | rfl | rfl) _ _ <;> rfl

theorem demo_proper : Proper demoOs := by
  rintro o (rfl | rfl | rfl) h <;> simp_all [Origin.scope]

/-- A value is changed between the lookups. -/
def demoOps : List (Op Nat) :=
  [.set (.pattern 0 0) .append (some [5]), .set (.pattern 1 0) .prepend (some [3]),
   .set (.plain 0) .assign (some [1]), .look ⟨[5, 7], [10, 20], 1, false⟩, .look (.scope 1),
   .set (.plain 0) .assign (some [2]), .look ⟨[6], [11], 1, false⟩]

example : LooksFrom demoOs demoOps := by
  intro o h; simp [demoOps] at h; rcases h with rfl | rfl | rfl <;> simp [demoOs]

example : KindFixed demoOps :=
  ⟨fun m => match m with | .pattern 0 _ => .append | .pattern _ _ => .prepend | _ => .assign, by
    intro m k v h; simp [demoOps] at h; rcases h with ⟨rfl, rfl, _⟩ | ⟨rfl, rfl, _⟩ | ⟨rfl, rfl, _⟩ | ⟨rfl, rfl, _⟩ <;> rfl⟩

example : both demo0 demoOps ⟨[5, 7], [10, 20], 1, false⟩ =
    some (some (some (some [3, 3, 2, 5])), some (some (some [3, 3, 2, 5]))) := rfl

/-- `1/x=+8` and `x+=4` on the command line. -/
def demo1 : World Nat :=
  demo [⟨.global, .prefix⟩, ⟨.global, .suffix⟩] (fun s j =>
    if s = 1 ∧ j = 0 then some (some [8]) else if s = 0 ∧ j = 1 then some (some [4]) else none)

example : demo1.ovs ≠ [] ∧ ∀ o ∈ demo1.ovs, o.vis = .global := by
  simp [demo1, demo]

/-- Values are changed and added between the lookups. -/
def demoOps1 : List (Op Nat) :=
  [.set (.plain 0) .assign (some [1]), .look ⟨[5, 7], [10, 20], 1, false⟩, .look (.scope 1),
   .set (.plain 0) .assign (some [2]), .look ⟨[6], [11], 1, false⟩,
   .set (.target 7) .assign (some [6]), .look ⟨[5, 7], [10, 20], 1, false⟩]

example : LooksFrom demoOs demoOps1 := by
  intro o h; simp [demoOps1] at h; rcases h with rfl | rfl | rfl | rfl <;> simp [demoOs]

example : NoPattern demoOps1 ∧ NoPatternAdd demoOps1 := by
  constructor
  · intro s n k v h; simp [demoOps1] at h
  · intro s n k v h; simp [demoOps1] at h

example : both demo1 demoOps1 ⟨[5, 7], [10, 20], 1, false⟩ =
    some (some (some (some [8, 6, 4])), some (some (some [8, 6, 4]))) := rfl

example : both demo1 demoOps1 ⟨[6], [11], 1, false⟩ =
    some (some (some (some [8, 2, 4])), some (some (some [8, 2, 4]))) := rfl

end Verif.VarCache
