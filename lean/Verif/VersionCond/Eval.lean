import Verif.VersionCond.Lemmas

/-!
# Version constraints of dependencies: value of conditions
-/

namespace Verif.VersionCond

/-- What the comparison with the upper endpoint amounts to. -/
def inMax (mao : Bool) (mav : SV) (v s : Nat) : Bool :=
  if mav.snapshot then
    decide (v < mav.version) ||
      (decide (v = mav.version) &&
        (if mao then decide (s < mav.snapshotSn) else decide (s ≤ mav.snapshotSn)))
  else if mao then decide (v < mav.version) else decide (v ≤ mav.version)

/-- What the comparison with the lower endpoint amounts to. -/
def inMin (mio : Bool) (miv : SV) (v s : Nat) : Bool :=
  if miv.snapshot then
    decide (v > miv.version) ||
      (decide (v = miv.version) &&
        (if mio then decide (s > miv.snapshotSn) else decide (s ≥ miv.snapshotSn)))
  else if mio then decide (v > miv.version) else decide (v ≥ miv.version)

/-- What the comparison with the only version amounts to. -/
def inEq (miv : SV) (v s : Nat) : Bool :=
  decide (v = miv.version) && (if miv.snapshot then decide (s = miv.snapshotSn) else true)

theorem truth_ne (b : Bool) : (truth b != 0) = b := by cases b <;> rfl

theorem truth_eq0 (b : Bool) : (truth b == 0) = !b := by cases b <;> rfl

variable (env : Env) (vm sm : List Char)

/-- The value of a macro. -/
def val (env : Env) (m : List Char) : Nat := (env m).getD 0

/-- The condition without the check for the snapshot macro. -/
def body (vm sm : List Char) (lo : Option SV) (lop : Bool) (hi : Option SV) (hop : Bool) :
    List Tok :=
  match lo, hi with
  | none, none => []
  | none, some mav => maxCmp vm sm hop mav false
  | some miv, none => minCmp vm sm lop miv false
  | some miv, some mav =>
    if miv = mav then
      cmp vm .eq miv.version ++ (if miv.snapshot then .and :: cmp sm .eq miv.snapshotSn else [])
    else minCmp vm sm lop miv true ++ [.and] ++ maxCmp vm sm hop mav true

/-- What the condition amounts to. -/
def holds (lo : Option SV) (lop : Bool) (hi : Option SV) (hop : Bool) (v s : Nat) : Bool :=
  match lo, hi with
  | none, none => false
  | none, some mav => inMax hop mav v s
  | some miv, none => inMin lop miv v s
  | some miv, some mav =>
    if miv = mav then inEq miv v s else inMin lop miv v s && inMax hop mav v s

set_option linter.unusedSimpArgs false in
set_option maxRecDepth 4000 in
theorem eval_body {lo hi : Option SV} (lop hop : Bool) (h : lo ≠ none ∨ hi ≠ none) :
    eval env (body vm sm lo lop hi hop) =
      some (truth (holds lo lop hi hop (val env vm) (val env sm))) := by
  cases lo with
  | none =>
    cases hi with
    | none => simp at h
    | some mav =>
      cases hs : mav.snapshot <;> cases hop <;>
      simp [body, holds, maxCmp, cmp, opening, closing, inMax, hs, eval, parse, Tok.compare,
        truth_ne, val] <;> rfl
  | some miv =>
    cases hi with
    | none =>
      cases hs : miv.snapshot <;> cases lop <;>
      simp [body, holds, minCmp, cmp, opening, closing, inMin, hs, eval, parse, Tok.compare,
        truth_ne, val] <;> rfl
    | some mav =>
      by_cases he : miv = mav
      · subst he
        cases hs : miv.snapshot <;>
        simp [body, holds, cmp, inEq, hs, eval, parse, Tok.compare, truth_ne, val] <;> rfl
      · cases hs : miv.snapshot <;> cases lop <;> cases hs' : mav.snapshot <;> cases hop <;>
        simp [body, holds, he, minCmp, maxCmp, cmp, opening, closing, inMin, inMax, hs, hs',
          eval, parse, Tok.compare, truth_ne, val] <;> rfl

set_option linter.unusedSimpArgs false in
set_option maxRecDepth 4000 in
theorem eval_not_body {lo hi : Option SV} (lop hop : Bool) (h : lo ≠ none ∨ hi ≠ none) :
    eval env ([.not, .lp] ++ body vm sm lo lop hi hop ++ [.rp]) =
      some (truth (!holds lo lop hi hop (val env vm) (val env sm))) := by
  cases lo with
  | none =>
    cases hi with
    | none => simp at h
    | some mav =>
      cases hs : mav.snapshot <;> cases hop <;>
      simp [body, holds, maxCmp, cmp, opening, closing, inMax, hs, eval, parse, Tok.compare,
        truth_ne, truth_eq0, val] <;> rfl
  | some miv =>
    cases hi with
    | none =>
      cases hs : miv.snapshot <;> cases lop <;>
      simp [body, holds, minCmp, cmp, opening, closing, inMin, hs, eval, parse, Tok.compare,
        truth_ne, truth_eq0, val] <;> rfl
    | some mav =>
      by_cases he : miv = mav
      · subst he
        cases hs : miv.snapshot <;>
        simp [body, holds, cmp, inEq, hs, eval, parse, Tok.compare, truth_ne, truth_eq0, val] <;> rfl
      · cases hs : miv.snapshot <;> cases lop <;> cases hs' : mav.snapshot <;> cases hop <;>
        simp [body, holds, he, minCmp, maxCmp, cmp, opening, closing, inMin, inMax, hs, hs',
          eval, parse, Tok.compare, truth_ne, truth_eq0, val] <;> rfl

/-- Both endpoints, or the only one is not a snapshot. -/
def Tight (lo hi : Option SV) : Prop :=
  (lo ≠ none ∧ hi ≠ none) ∨ (snapshotOf lo = false ∧ snapshotOf hi = false)

set_option linter.unusedSimpArgs false in
set_option maxRecDepth 4000 in
theorem eval_and_body {lo hi : Option SV} (lop hop : Bool) (h : lo ≠ none ∨ hi ≠ none)
    (ht : Tight lo hi) (x : List Char) :
    eval env ([.id x, .and] ++ body vm sm lo lop hi hop) =
      some (truth (val env x != 0 && holds lo lop hi hop (val env vm) (val env sm))) := by
  cases lo with
  | none =>
    cases hi with
    | none => simp at h
    | some mav =>
      have hs : mav.snapshot = false := by simpa [Tight, snapshotOf] using ht
      cases hop <;>
      simp [body, holds, maxCmp, cmp, opening, closing, inMax, hs, eval, parse, Tok.compare,
        truth_ne, val] <;> rfl
  | some miv =>
    cases hi with
    | none =>
      have hs : miv.snapshot = false := by simpa [Tight, snapshotOf] using ht
      cases lop <;>
      simp [body, holds, minCmp, cmp, opening, closing, inMin, hs, eval, parse, Tok.compare,
        truth_ne, val] <;> rfl
    | some mav =>
      by_cases he : miv = mav
      · subst he
        cases hs : miv.snapshot <;>
        simp [body, holds, cmp, inEq, hs, eval, parse, Tok.compare, truth_ne, val] <;> rfl
      · cases hs : miv.snapshot <;> cases lop <;> cases hs' : mav.snapshot <;> cases hop <;>
        simp [body, holds, he, minCmp, maxCmp, cmp, opening, closing, inMin, inMax, hs, hs',
          eval, parse, Tok.compare, truth_ne, val] <;> rfl

/-! ## Conditions and constraints -/

theorem cond_eq (c : SVC) :
    cond vm sm c =
      if sm.isEmpty && (snapshotOf c.minVersion || snapshotOf c.maxVersion) then none
      else if c.minVersion = none ∧ c.maxVersion = none then none
      else some (body vm sm c.minVersion c.minOpen c.maxVersion c.maxOpen) := by
  obtain ⟨lo, lop, hi, hop⟩ := c
  cases lo <;> cases hi <;> simp only [cond, body] <;> split <;> try simp
  split <;> rfl

theorem inMax_iff {b : Bound} {o : Bool} {d : Version} (hb : b.Ok) (hd : d.Ok)
    (he : ∀ x y z, b = .earliest x y z → o = true) (hr : ∀ v, b = .ver v → v.rev = 0)
    {s : Nat} (hs : (∃ v, b = .ver v ∧ v.snap ≠ 0) → s = d.snap) :
    inMax o (encode b) d.number s = true ↔ b.Above d ∨ (o = false ∧ b.At d) := by
  cases b with
  | ver v =>
    have h1 := before_iff hd hb
    have h2 := same_iff hd hb
    have h3 : v.snap = 0 → d.number = v.number → d.snap = 0 := fun h g => snap_zero hd hb g h
    have h4 := hr v rfl
    by_cases hz : v.snap = 0
    · have h5 := h3 hz
      cases o <;>
        simp only [inMax, encode, SV.snapshot, hz, Bound.Above, Bound.At, h1, h2, h4] <;>
        simp <;> omega
    · have h5 := hs ⟨v, rfl, hz⟩
      subst h5
      cases o <;>
        simp only [inMax, encode, SV.snapshot, Bound.Above, Bound.At, h1, h2, h4] <;>
        simp [hz] <;> omega
  | earliest x y z =>
    have ho := he x y z rfl
    subst ho
    simp only [Bound.Above, Bound.At, earliest_iff hd hb]
    simp [inMax, encode, SV.snapshot]
    exact decide_eq_true_iff

theorem inMin_iff {b : Bound} {o : Bool} {d : Version} (hb : b.Ok) (hd : d.Ok)
    (he : ∀ x y z, b = .earliest x y z → o = false) (hr : ∀ v, b = .ver v → v.rev = 0)
    {s : Nat} (hs : (∃ v, b = .ver v ∧ v.snap ≠ 0) → s = d.snap) :
    inMin o (encode b) d.number s = true ↔ b.Below d ∨ (o = false ∧ b.At d) := by
  cases b with
  | ver v =>
    have h1 := before_iff hb hd
    have h2 := same_iff hd hb
    have h3 : v.snap = 0 → d.number = v.number → d.snap = 0 := fun h g => snap_zero hd hb g h
    have h4 := hr v rfl
    by_cases hz : v.snap = 0
    · have h5 := h3 hz
      cases o <;>
        simp only [inMin, encode, SV.snapshot, hz, Bound.Below, Bound.At, h1, h2, h4] <;>
        simp <;> omega
    · have h5 := hs ⟨v, rfl, hz⟩
      subst h5
      cases o <;>
        simp only [inMin, encode, SV.snapshot, Bound.Below, Bound.At, h1, h2, h4] <;>
        simp [hz] <;> omega
  | earliest x y z =>
    have ho := he x y z rfl
    subst ho
    simp only [Bound.Below, Bound.At, earliest_iff hd hb]
    simp [inMin, encode, SV.snapshot]

theorem inEq_iff {v : Version} {d : Version} (hv : v.Ok) (hd : d.Ok)
    {s : Nat} (hs : v.snap ≠ 0 → s = d.snap) :
    inEq (encode (.ver v)) d.number s = true ↔ d.Same v := by
  have h2 := same_iff hd hv
  have h3 : v.snap = 0 → d.number = v.number → d.snap = 0 := fun h g => snap_zero hd hv g h
  by_cases hz : v.snap = 0
  · have h5 := h3 hz
    simp only [inEq, encode, SV.snapshot, hz, h2]
    simp
    omega
  · have h5 := hs hz
    subst h5
    simp only [inEq, encode, SV.snapshot, h2]
    simp [hz]
    exact and_congr decide_eq_true_iff decide_eq_true_iff

theorem before_asymm {v w : Version} (hv : v.Ok) (hw : w.Ok) (h : v.Before w) :
    ¬ w.Before v := by
  have h1 := (before_iff hv hw).1 h
  rw [before_iff hw hv]
  omega

theorem bound_inj {b b' : Bound} (hb : b.Ok) (hb' : b'.Ok) (h : encode b = encode b') :
    b = b' := by
  rcases encode_inj hb hb' h with ⟨v, w, rfl, rfl, ⟨h1, h2, h3, h4, h5⟩, h6⟩ | h
  · obtain ⟨a, b, c, s, n, r⟩ := v
    obtain ⟨a', b', c', s', n', r'⟩ := w
    simp only at h1 h2 h3 h4 h5 h6
    subst h1 h2 h3 h4 h5 h6
    rfl
  · exact h

/-- What the condition amounts to is that the version satisfies the constraint. -/
theorem holds_iff {c : Constraint} (hc : c.Ok) (hn : c.NoRevision) {d : Version} (hd : d.Ok)
    {s : Nat} (hs : c.Snapshot → s = d.snap) :
    holds (c.lo.map encode) c.loOpen (c.hi.map encode) c.hiOpen d.number s = true ↔
      c.Sat d := by
  obtain ⟨lo, lop, hi, hop⟩ := c
  cases lo with
  | none =>
    cases hi with
    | none => exact absurd hc.some (by simp)
    | some b =>
      have := inMax_iff (o := hop) (hc.hi b rfl) hd
        (fun x y z h => hc.hiEarliest x y z (by rw [h])) (fun v h => hn.2 v (by rw [h]))
        (s := s) (fun ⟨v, h, g⟩ => hs (.inr ⟨v, by rw [h], g⟩))
      simp only [holds, Option.map, this, Constraint.Sat]
      simp
  | some a =>
    have hlo := inMin_iff (o := lop) (hc.lo a rfl) hd
      (fun x y z h => hc.loEarliest x y z (by rw [h])) (fun v h => hn.1 v (by rw [h]))
      (s := s) (fun ⟨v, h, g⟩ => hs (.inl ⟨v, by rw [h], g⟩))
    cases hi with
    | none =>
      simp only [holds, Option.map, hlo, Constraint.Sat]
      simp
    | some b =>
      have hhi := inMax_iff (o := hop) (hc.hi b rfl) hd
        (fun x y z h => hc.hiEarliest x y z (by rw [h])) (fun v h => hn.2 v (by rw [h]))
        (s := s) (fun ⟨v, h, g⟩ => hs (.inr ⟨v, by rw [h], g⟩))
      simp only [holds, Option.map]
      by_cases he : encode a = encode b
      · rw [if_pos he]
        have hab := bound_inj (hc.lo a rfl) (hc.hi b rfl) he
        subst hab
        obtain ⟨h1, h2⟩ := hc.single (by simp) rfl
        simp only at h1 h2
        cases a with
        | earliest x y z => exact absurd (hc.hiEarliest x y z rfl) (by simp [h2])
        | ver v =>
          have hv : v.Ok := hc.lo _ rfl
          have hr := hn.1 v rfl
          rw [inEq_iff hv hd (fun g => hs (.inl ⟨v, rfl, g⟩))]
          simp only [Constraint.Sat, Option.some.injEq, forall_eq', Bound.Below, Bound.Above,
            Bound.At, h1, h2, hr]
          simp
          constructor
          · intro h
            exact ⟨.inr h, .inr h⟩
          · rintro ⟨h | h, h' | h'⟩
            · exact absurd h' (before_asymm hv hd h)
            · exact h'
            · exact h
            · exact h
      · rw [if_neg he, Bool.and_eq_true, hlo, hhi]
        simp [Constraint.Sat]

end Verif.VersionCond
