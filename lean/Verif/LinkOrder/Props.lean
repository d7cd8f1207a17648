import Verif.LinkOrder.Main

/-!
# Link order of libraries: properties

See `Spec.lean` for what the statements are about.
-/

namespace Verif.LinkOrder

variable {n : Nat} {p : Tsys} {g : Libs n} {tops : List (Fin n × Bool)}

/-- **C53**. The command line is what it should be: for each sequence of libraries everything that is
needed, directly or not, is passed, nothing else is, and everything is passed once (except for
libraries to be linked whole and for options that are not understood) and after everything that
depends on it.

Missing: libraries that are linked whole and that export options (see `whole_not_closed`). -/
theorem link_order_partial {ts : List (Top n)} {P : List Str} {cs : List Hashed} {s : St n}
    (hclean : ∀ i, Needed p g (Direct ts) (.lib i true) → ¬ (g i).exports)
    (h : link p g ts ⟨[], P, cs⟩ = .ok s) : ∃ args, s.args = P ++ args ∧ Command p g ts args := by
  have := link_spec ts.length ts P cs (Nat.le_refl _) hclean
  rw [h] at this
  exact this.1

/-- **C53**. A dependency cycle is diagnosed, and only that is. -/
theorem link_cycle_partial (ts : List (Top n)) (P : List Str) (cs : List Hashed)
    (hclean : ∀ i, Needed p g (Direct ts) (.lib i true) → ¬ (g i).exports) :
    link p g ts ⟨[], P, cs⟩ = .cycle ↔ Cyclic p g (Direct ts) := by
  have := link_spec ts.length ts P cs (Nat.le_refl _) hclean
  cases h : link p g ts ⟨[], P, cs⟩ with
  | cycle => rw [h] at this; exact ⟨fun _ => this, fun _ => rfl⟩
  | ub => rw [h] at this; exact absurd this id
  | deep => rw [h] at this; exact absurd this id
  | ok s =>
    rw [h] at this
    constructor
    · intro h; cases h
    · intro h; exact absurd h this.2

/-- **C53**. Otherwise linking goes ahead: no range that is not valid is hoisted and the recursion
ends. -/
theorem link_succeeds_partial (ts : List (Top n)) (P : List Str) (cs : List Hashed)
    (hclean : ∀ i, Needed p g (Direct ts) (.lib i true) → ¬ (g i).exports)
    (hacyclic : ¬ Cyclic p g (Direct ts)) : ∃ s, link p g ts ⟨[], P, cs⟩ = .ok s := by
  have := link_spec ts.length ts P cs (Nat.le_refl _) hclean
  cases h : link p g ts ⟨[], P, cs⟩ with
  | cycle => rw [h] at this; exact absurd this hacyclic
  | ub => rw [h] at this; exact absurd this id
  | deep => rw [h] at this; exact absurd this id
  | ok s => exact ⟨s, rfl⟩

/-- **C53**. The order holds for indirect dependencies as well, provided that what a library without
files depends on is without files. -/
theorem link_order_indirect {args : List Str}
    (hrec : ∀ i d, (g i).recBinless = true → Uses p g (g i) d → d.recBinless g = true)
    (h : Layout p g tops args) :
    ∃ order : List (Dep n × List Str), args = order.flatMap (·.2) ∧
      (∀ d, d ∈ order.map (·.1) ↔ Needed p g tops d) ∧
      ∀ i j w, Needed p g tops (.lib i w) → Leads p g i j → (g j).recBinless = false →
        ∃ w', After (order.map (·.1)) (.lib i w) (.lib j w') := by
  obtain ⟨order, h1, h2, -, -, h5⟩ := h
  refine ⟨order, h1, h2, ?_⟩
  intro i j w hn hl
  induction hl generalizing w with
  | @one i j w' hu =>
    intro hj
    refine ⟨w', h5 i w _ hn hu ?_ hj⟩
    cases hr : (g i).recBinless with
    | false => rfl
    | true =>
      have := hrec _ _ hr hu
      rw [Dep.recBinless, hj] at this
      cases this
  | @more i j k w' hu hl ih =>
    intro hk
    obtain ⟨w'', ha⟩ := ih w' (.step hn hu) hk
    have hj : (g j).recBinless = false := by
      have : ∀ a b, Leads p g a b → (g b).recBinless = false → (g a).recBinless = false := by
        intro a b hab
        induction hab with
        | @one a b w hu =>
          intro hb
          cases hr : (g a).recBinless with
          | false => rfl
          | true =>
            have := hrec _ _ hr hu
            rw [Dep.recBinless, hb] at this
            cases this
        | @more a b c w hu _ ih =>
          intro hc
          cases hr : (g a).recBinless with
          | false => rfl
          | true =>
            have := hrec _ _ hr hu
            rw [Dep.recBinless, ih hc] at this
            cases this
      exact this _ _ hl hk
    refine ⟨w'', after_trans (h5 i w _ hn hu ?_ hj) ha⟩
    cases hr : (g i).recBinless with
    | false => rfl
    | true =>
      have := hrec _ _ hr hu
      rw [Dep.recBinless, hj] at this
      cases this

/-! ## Examples -/

/-- A static library with the given path and what it depends on. -/
def toyLib (c : Char) (ds : List (Fin n × Bool)) : Lib n :=
  { static := true, util := false, lang := .x, binless := false, recBinless := false, path := [c],
    whole := false, prereqs := ds, cLibs := [], xLibs := [], cImpl := none, xImpl := none,
    cIntf := none, xIntf := none, cOpts := [], xOpts := [] }

/-- `a -> b -> d`, `c -> b`, and `d` is linked with `-l m` and is a utility library. -/
def toyLibs : Libs 4
  | 0 => toyLib 'a' [(1, false)]
  | 1 => toyLib 'b' [(3, false)]
  | 2 => { toyLib 'c' [] with
           static := false, xIntf := some [.lib 1, .word ['-', 'l'], .word ['m']], xOpts := [['o']] }
  | 3 => { toyLib 'd' [] with util := true, xLibs := [['-', 'l'], ['m']] }

/-- The libraries `a`, `c`, and `d`: the utility library `d` is left out since it is a part of `b`, and
`b` is moved past `c`. -/
example : ∃ s, link .other toyLibs [.obj ['x'], .lib 0 false, .lib 2 false] ⟨[], [['l']], []⟩ = .ok s ∧
    s.args = [['l'], ['x'], ['a'], ['o'], ['c'], ['b'], ['-', 'l'], ['m']] := ⟨_, rfl, by decide⟩

/-- The hypothesis of the theorems holds for it since nothing is linked whole. -/
example (i : Fin 4) : ¬ Needed .other toyLibs (Direct [.obj ['x'], .lib 0 false, .lib 2 false])
    (.lib i true) := by
  have key : ∀ d, Needed .other toyLibs [(0, false), (2, false)] d → ∀ i, d ≠ .lib i true := by
    intro d h
    induction h with
    | top h =>
      intro i h'
      cases h'
      simp at h
    | @step k w d _ hu _ =>
      intro i h'
      subst h'
      rw [← uses_iff] at hu
      revert hu
      match k with
      | 0 => intro hu; revert i; decide
      | 1 => intro hu; revert i; decide
      | 2 => intro hu; revert i; decide
      | 3 => intro hu; revert i; decide
  intro h
  exact key _ h i rfl

/-- A cycle. -/
example : Cyclic .other (fun i : Fin 2 => toyLib 'a' [(if i = 0 then 1 else 0, false)]) [(0, false)] :=
  ⟨0, false, .top (by simp), .more (j := 1) (w := false)
    ((uses_iff _ _ _ _).1 (by decide)) (.one (w := false) ((uses_iff _ _ _ _).1 (by decide)))⟩

/-! ## What does not hold -/

/-- Libraries `a` (which is exported explicitly), `b`, `c -> b`, `d -> a`. -/
def wholeLibs : Libs 4
  | 0 => { toyLib 'a' [] with xImpl := some [] }
  | 1 => toyLib 'b' []
  | 2 => toyLib 'c' [(1, false)]
  | 3 => toyLib 'd' [(0, false)]

/-- Not covered by the above: a library that is linked whole and that exports options leaves behind an
entry that is never closed. After something before it has been hoisted, this entry is no longer
recognised as such and a range that is not valid is rotated. -/
theorem whole_not_closed : link .other wholeLibs
    [.lib 1 false, .lib 0 true, .lib 2 false, .lib 3 false] ⟨[], [], []⟩ = .ub := rfl

/-- If nothing has been hoisted, then it is closed as a range that includes what has been added in
between, which is moved incorrectly thereafter: here `b` ends up before `c`, which depends on it. -/
theorem whole_order_wrong : ∃ s, link .other wholeLibs
    [.lib 0 true, .lib 1 false, .lib 0 false, .lib 2 false, .lib 3 false] ⟨[], [], []⟩ = .ok s ∧
    s.args = [['b'], ['d'], "-Wl,--whole-archive".toList, ['a'], "-Wl,--no-whole-archive".toList, ['a'],
      ['c']] := ⟨_, rfl, by decide⟩

/-- Libraries `a -> c` and `b`, which may also depend on `c`. -/
def hoistLibs (b : Bool) : Libs 3
  | 0 => toyLib 'a' [(2, false)]
  | 1 => toyLib 'b' (if b then [(2, false)] else [])
  | 2 => toyLib 'c' []

/-- Hoisting is not hashed: the command line changes but the hash, which is used to detect that, does
not. -/
theorem order_not_hashed : ∃ s s', link .other (hoistLibs false) [.lib 0 false, .lib 1 false] ⟨[], [], []⟩ = .ok s ∧
    link .other (hoistLibs true) [.lib 0 false, .lib 1 false] ⟨[], [], []⟩ = .ok s' ∧
    s.args = [['a'], ['c'], ['b']] ∧ s'.args = [['a'], ['b'], ['c']] ∧ s.cs = s'.cs :=
  ⟨_, _, rfl, rfl, by decide, by decide, by decide⟩

/-- A library `a` that has the utility library `u` as its part. -/
def utilLibs : Libs 2
  | 0 => toyLib 'a' [(1, false)]
  | 1 => { toyLib 'u' [] with util := true }

/-- A utility library that is both a part of another library and is needed directly is linked or not
depending on which is first. -/
theorem utility_lost : ∃ s s', link .other utilLibs [.lib 1 false, .lib 0 false] ⟨[], [], []⟩ = .ok s ∧
    link .other utilLibs [.lib 0 false, .lib 1 false] ⟨[], [], []⟩ = .ok s' ∧
    s.args = [['a'], ['u']] ∧ s'.args = [['a']] := ⟨_, _, rfl, rfl, by decide, by decide⟩

end Verif.LinkOrder
