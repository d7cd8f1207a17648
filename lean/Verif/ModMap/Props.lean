import Verif.ModMap.Closure

/-!
# Modules and their binary interfaces: properties

C67: an import is resolved to the module that is known by this name and, if there is none, to
the one the file of which has the best name. Such a guess is verified. The compiler is given
exactly the binary interfaces that the translation unit needs, directly or not.
-/

namespace Verif.ModMap

/-! ## Names of files -/

/-- No file is better than one that spells the name of the module, and only such a file is the
best. -/
theorem best_iff {F M : Str} (hF : F.length < 9998) (hM : M.length < 9998) (hne : M ≠ []) :
    (∀ G : Str, G.length < 9998 → score G M ≤ score F M) ↔ SpellsAll F M := by
  have hself : SpellsAll M M := by
    refine ⟨?_, ?_⟩
    · have : ∀ l : Str, Spells l l := by
        intro l
        induction l with
        | nil => exact .nil
        | cons c l ih => exact .char rfl ih
      exact this M
    · cases M with
      | nil => exact absurd rfl hne
      | cons c m => exact ⟨c, m, c, m, rfl, rfl, rfl⟩
  constructor
  · intro h
    have h1 := h M hM
    rw [(score_max hM hM hne).2 hself] at h1
    exact (score_max hF hM hne).1 (Nat.le_antisymm (score_le hF hM) h1)
  · intro h G hG
    rw [(score_max hF hM hne).2 h]
    exact score_le hG hM

/-- A file is considered at all exactly if its name, or the end of it, spells the end of the
name of the module. -/
theorem candidate_iff {F M : Str} (hF : F.length < 9998) (hM : M.length < 9998)
    (hu : M.head? ≠ some '_') : score F M ≠ 0 ↔ SpellsEnd F M := by
  rw [← hit_iff hu, ← score_pos hF hM]

/-- Of the files the ends of the names of which spell the name of the module, one is better if
this end is better separated from the rest or, if it is the same, if the rest is shorter. -/
theorem separation_preferred {f1 f2 g1 g2 M : Str} (hF : (f1 ++ f2).length < 9998)
    (hG : (g1 ++ g2).length < 9998) (hM : M.length < 9998) (hf : SpellsAll f2 M)
    (hg : SpellsAll g2 M)
    (h : separation g1 g2 < separation f1 f2 ∨
      (separation g1 g2 = separation f1 f2 ∧ f1.length < g1.length)) :
    score (g1 ++ g2) M < score (f1 ++ f2) M := by
  have hf0 : f2 ≠ [] := by obtain ⟨_, _, _, _, _, e, _⟩ := hf; rw [e]; exact nofun
  have hg0 : g2 ≠ [] := by obtain ⟨_, _, _, _, _, e, _⟩ := hg; rw [e]; exact nofun
  rw [score_all hF hM hf, score_all hG hM hg, strength_sep f1 f2 hf0, strength_sep g1 g2 hg0]
  rw [List.length_append] at hF hG
  have b1 : separation f1 f2 ≤ 3 := by
    unfold separation; (repeat' split) <;> omega
  have b2 : separation g1 g2 ≤ 3 := by
    unfold separation; (repeat' split) <;> omega
  generalize separation f1 f2 = a at *
  generalize separation g1 g2 = b at *
  have ha : a = 0 ∨ a = 1 ∨ a = 2 ∨ a = 3 := by omega
  have hb : b = 0 ∨ b = 1 ∨ b = 2 ∨ b = 3 := by omega
  rcases ha with rfl | rfl | rfl | rfl <;> rcases hb with rfl | rfl | rfl | rfl <;>
    first
      | omega
      | (simp only; omega)

/-- They are all better than the others. -/
theorem all_preferred {f1 f2 G M : Str} (hF : (f1 ++ f2).length < 9998)
    (hG : G.length < 9998) (hM : M.length < 9998) (hf : SpellsAll f2 M)
    (hg : ¬ ∃ g1 g2, G = g1 ++ g2 ∧ SpellsAll g2 M) : score G M < score (f1 ++ f2) M := by
  have hne : M ≠ [] := by obtain ⟨_, _, _, _, _, _, e, _⟩ := hf; rw [e]; exact nofun
  refine Nat.lt_of_lt_of_le (score_other hG hM hne hg) ?_
  rw [score_all hF hM hf, Nat.add_assoc]
  exact Nat.le_add_right _ _

/-! ## Resolution -/

/-- The imports of a unit are resolved if there is something to resolve each of them to, and to
just that. -/
theorem resolve_iff {w : World} {t : Nat} (ho : (w.unit t).Once) (hs : w.Short) :
    (∃ l, resolve w.std (w.unit t).pool (importsOf (w.unit t)) = .ok l ∧
      ∀ n b, (∃ i ∈ l, i.name = n ∧ i.target = some b) ↔
        (w.unit t).Imports n ∧ Chosen score w.std (w.unit t).pool n b) ↔
    ∀ n, (w.unit t).Imports n → ∃ b, Chosen score w.std (w.unit t).pool n b := by
  rcases unit_resolve t ho hs with ⟨h1, h2⟩ | ⟨⟨n, hn, hb⟩, h2⟩
  · refine ⟨fun _ => h1, fun _ => ⟨_, h2, fun n b => ?_⟩⟩
    constructor
    · rintro ⟨j, hj, rfl, hb⟩
      obtain ⟨i, hi, rfl⟩ := List.mem_map.1 hj
      rw [final_name]
      exact ⟨(imports_iff _ _).1 ⟨i, hi, rfl⟩, (unit_target hs h1 hi b).1 hb⟩
    · rintro ⟨hn, hb⟩
      obtain ⟨i, hi, rfl⟩ := (imports_iff _ _).2 hn
      exact ⟨_, List.mem_map_of_mem hi, final_name _ _ _, (unit_target hs h1 hi b).2 hb⟩
  · refine ⟨fun ⟨l, hl, _⟩ => ?_, fun h => absurd (h n hn) hb⟩
    rcases h2 with h2 | h2 <;> rw [h2] at hl <;> cases hl

/-- There is only one thing to resolve it to. -/
theorem chosen_once {std : List (Str × Nat)} {p : List Entry} {n : Str} {b b' : Nat}
    (h : Chosen score std p n b) (h' : Chosen score std p n b') : b = b' := chosen_unique h h'

/-- If something is not there, then it is diagnosed; no assertion fails. -/
theorem missing_diagnosed {w : World} {t k : Nat} (ho : (w.unit t).Once) (hs : w.Short) {n : Str}
    (hn : (w.unit t).Imports n) (hb : ¬ ∃ b, Chosen score w.std (w.unit t).pool n b) :
    modules w (k + 1) t = .error .std ∨ modules w (k + 1) t = .error .unresolved := by
  unfold modules
  rcases unit_resolve t ho hs with ⟨h1, _⟩ | ⟨_, h2 | h2⟩
  · exact absurd (h1 n hn) hb
  · exact Or.inl (by rw [h2])
  · exact Or.inr (by rw [h2])

/-! ## The map -/

/-- What the compiler is given. -/
theorem map_iff {w : World} (hs : w.Short) (hh : w.Honest) (hx : w.Extracted)
    (ho : ∀ t, (w.unit t).Once) (hu : w.Unique) {k t : Nat} {L : List (Str × Nat)}
    (h : modules w k t = .ok L) (n : Str) (b : Nat) :
    (n, b) ∈ L ↔ w.Needs t n ∧ w.IsFor b n := by
  obtain ⟨h1, _, _, h4⟩ := modules_spec hs hh hx ho k t L h
  constructor
  · intro hb
    exact ⟨(h1 n b hb).2, (h1 n b hb).1⟩
  · rintro ⟨hn, hb⟩
    obtain ⟨c, hc⟩ := h4 hu n hn
    rw [hu n b c hb (h1 n c hc).1]
    exact hc

/-- Even if there are several for the same module, nothing is there twice or under a wrong
name, and what is imported directly is as resolved. -/
theorem map_sound {w : World} (hs : w.Short) (hh : w.Honest) (hx : w.Extracted)
    (ho : ∀ t, (w.unit t).Once) {k t : Nat} {L : List (Str × Nat)}
    (h : modules w k t = .ok L) :
    (L.map (·.1)).Nodup ∧ (∀ n b, (n, b) ∈ L → w.IsFor b n ∧ w.Needs t n) ∧
    ∀ n, (w.unit t).Imports n →
      ∃ b, Chosen score w.std (w.unit t).pool n b ∧ (n, b) ∈ L := by
  obtain ⟨h1, h2, h3, _⟩ := modules_spec hs hh hx ho k t L h
  exact ⟨h3, h1, h2⟩

/-- If each import is resolved to what it should be, and modules do not import each other in a
cycle, then all is well. -/
theorem map_succeeds {w : World} (hs : w.Short) (ho : ∀ t, (w.unit t).Once)
    (rank : Nat → Nat)
    (hc : ∀ t n, (w.unit t).Imports n → ∃ b, Chosen score w.std (w.unit t).pool n b ∧
      w.IsFor b n ∧ rank b < rank t) (t : Nat) :
    ∃ L, ∀ k, rank t < k → modules w k t = .ok L := by
  obtain ⟨L, hL⟩ := modules_succeeds hs ho rank hc (rank t + 1) t (Nat.lt_succ_self _)
  refine ⟨L, fun k hk => ?_⟩
  obtain ⟨d, rfl⟩ : ∃ d, k = rank t + 1 + d := ⟨k - (rank t + 1), by omega⟩
  clear hk
  induction d with
  | zero => exact hL
  | succ d ih => exact modules_more ih

/-! ## Examples -/

instance : DecidableEq (Except Err (List (Str × Nat)))
  | .ok a, .ok b => if h : a = b then isTrue (by rw [h]) else isFalse (fun e => by cases e; exact h rfl)
  | .error a, .error b =>
    if h : a = b then isTrue (by rw [h]) else isFalse (fun e => by cases e; exact h rfl)
  | .ok _, .error _ => isFalse nofun
  | .error _, .ok _ => isFalse nofun

/-- The names from the comments in the code (5589-5605, 5783-5875). -/
example : score "foobar".toList "foo.bar".toList = 0 := by decide +kernel
example : SpellsAll "HelloCore".toList "hello.core".toList := by
  rw [← best_iff (by decide) (by decide) (by decide)]
  exact fun G hG => by
    have h : score "HelloCore".toList "hello.core".toList = matchMax "hello.core".toList := by
      decide +kernel
    rw [h]
    exact score_le hG (by decide)
example : score "hello/core".toList "hello.core".toList = 1099999 := by decide +kernel
example : score "hello_core".toList "hello.core".toList = 1099999 := by decide +kernel
example : score "src/hello-core".toList "hello.core".toList <
    score "hello-core".toList "hello.core".toList := by decide +kernel
example : score "core".toList "hello.core".toList <
    score "x/hello.core".toList "hello.core".toList := by decide +kernel
example : score "abstract-window".toList "window".toList <
    score "details/window".toList "window".toList := by decide +kernel
example : score "executors/SimpleIOExecutor".toList "async_simple:IOExecutor".toList <
    score "IOExecutor".toList "async_simple:IOExecutor".toList := by decide +kernel

/-- `separation_preferred`. -/
example : score ("abstract-".toList ++ "window".toList) "window".toList <
    score ("details/".toList ++ "window".toList) "window".toList := by
  have h : SpellsAll "window".toList "window".toList := by
    rw [← best_iff (by decide) (by decide) (by decide)]
    intro G hG
    have h : score "window".toList "window".toList = matchMax "window".toList := by
      decide +kernel
    rw [h]
    exact score_le hG (by decide)
  exact separation_preferred (by decide) (by decide) (by decide) h h
    (Or.inl (by decide +kernel))

/-- `app` imports `hello.core`, which imports `std` and `hello.base`; one of them is guessed. -/
def world : World where
  unit
    | 0 => ⟨none, false, [("hello.core".toList, false)],
        [.file "hello-base".toList 2, .file "hello-core".toList 1]⟩
    | 1 => ⟨some "hello.core".toList, false,
        [("std".toList, false), ("hello.base".toList, true)],
        [.file "base".toList 4, .known "hello.base".toList 2]⟩
    | 2 => ⟨some "hello.base".toList, false, [], []⟩
    | 3 => ⟨some "std".toList, false, [], []⟩
    | 4 => ⟨some "base".toList, false, [], []⟩
    | _ => ⟨none, false, [], []⟩
  std := [("std.compat".toList, 5), ("std".toList, 3)].drop 1

theorem world_modules : modules world 3 0 = .ok
    [("hello.core".toList, 1), ("std".toList, 3), ("hello.base".toList, 2)] := by
  decide +kernel

theorem world_unit (P : Unit → Prop) (h0 : P (world.unit 0)) (h1 : P (world.unit 1))
    (h2 : P (world.unit 2)) (h3 : P (world.unit 3)) (h4 : P (world.unit 4))
    (h5 : P ⟨none, false, [], []⟩) (t : Nat) : P (world.unit t) := by
  match t with
  | 0 => exact h0
  | 1 => exact h1
  | 2 => exact h2
  | 3 => exact h3
  | 4 => exact h4
  | n + 5 => exact h5

theorem world_once (t : Nat) : (world.unit t).Once := by
  refine world_unit Unit.Once ?_ ?_ ?_ ?_ ?_ ?_ t <;> exact ⟨by decide +kernel, nofun⟩

theorem world_short : world.Short := by
  intro t
  refine world_unit (fun u => (∀ f b, .file f b ∈ u.pool → f.length < 9998) ∧
    ∀ n, u.Imports n → n.length < 9998) ?_ ?_ ?_ ?_ ?_ ?_ t
  all_goals
    refine ⟨?_, ?_⟩
    · intro f b h
      simp [world] at h
      try (rcases h with ⟨rfl, _⟩ | ⟨rfl, _⟩ <;> decide)
      try (rcases h with ⟨rfl, _⟩; decide)
    · rintro n (⟨h, _⟩ | ⟨e, h⟩)
      · cases h
      · simp [world] at h
        try (rcases h with ⟨rfl, _⟩ | ⟨rfl, _⟩ <;> decide)
        try (rcases h with ⟨rfl, _⟩; decide)

theorem world_honest : world.Honest := by
  refine ⟨fun t => ?_, ?_⟩
  · refine world_unit (fun u => ∀ n b, .known n b ∈ u.pool → world.IsFor b n) ?_ ?_ ?_ ?_ ?_ ?_ t
    all_goals
      intro n b h
      simp [world] at h
      try (rcases h with ⟨rfl, rfl⟩; exact ⟨rfl, rfl⟩)
  · intro n b h
    simp [world] at h
    rcases h with ⟨rfl, rfl⟩
    exact ⟨rfl, rfl⟩

theorem world_extracted : world.Extracted := by
  intro t
  refine world_unit (fun u => ∀ f b, .file f b ∈ u.pool → ∃ n, world.IsFor b n) ?_ ?_ ?_ ?_ ?_ ?_ t
  all_goals
    intro n b h
    simp [world] at h
    try (rcases h with ⟨rfl, rfl⟩ | ⟨rfl, rfl⟩ <;> exact ⟨_, rfl, rfl⟩)
    try (rcases h with ⟨rfl, rfl⟩; exact ⟨_, rfl, rfl⟩)

theorem world_unique : world.Unique := by
  have h : ∀ b n, world.IsFor b n → (b = 1 ∧ n = "hello.core".toList) ∨
      (b = 2 ∧ n = "hello.base".toList) ∨ (b = 3 ∧ n = "std".toList) ∨
      (b = 4 ∧ n = "base".toList) := by
    intro b n h
    have h := h.2
    match b with
    | 0 => cases h
    | 1 => exact Or.inl ⟨rfl, (Option.some.inj h).symm⟩
    | 2 => exact Or.inr (Or.inl ⟨rfl, (Option.some.inj h).symm⟩)
    | 3 => exact Or.inr (Or.inr (Or.inl ⟨rfl, (Option.some.inj h).symm⟩))
    | 4 => exact Or.inr (Or.inr (Or.inr ⟨rfl, (Option.some.inj h).symm⟩))
    | n + 5 => cases h
  intro n b b' h1 h2
  have h1 := h b n h1
  have h2 := h b' n h2
  rcases h1 with ⟨rfl, rfl⟩ | ⟨rfl, rfl⟩ | ⟨rfl, rfl⟩ | ⟨rfl, rfl⟩ <;>
    rcases h2 with ⟨rfl, e⟩ | ⟨rfl, e⟩ | ⟨rfl, e⟩ | ⟨rfl, e⟩ <;>
    first
      | rfl
      | exact absurd e (by decide)

/-- `map_iff`. -/
example : world.Needs 0 "hello.base".toList :=
  ((map_iff world_short world_honest world_extracted world_once world_unique (k := 3) (t := 0)
    world_modules "hello.base".toList 2).1 (by simp)).1

/-! ## What does not hold -/

/-- A separator in the name of a file that happens to be a dot is not the same as the others:
`x.core` is not considered for `hello.core` while `x-core` is. -/
theorem dot_missed : score "x.core".toList "hello.core".toList = 0 ∧
    score "x-core".toList "hello.core".toList ≠ 0 := by decide +kernel

/-- An implementation unit that also has an explicit import of its own module fails an
assertion. -/
theorem own_import_asserts : modules
    { unit := fun t => if t = 0 then ⟨some ['m'], true, [(['m'], false)], [.known ['m'] 1]⟩
        else ⟨some ['m'], false, [], []⟩
      std := [] } 2 0 = .error .assert := rfl

/-- The name that has been specified explicitly is believed: what is given to the compiler for
`m` is the interface of `n`. -/
theorem wrong_name_believed : modules
    { unit := fun t => if t = 0 then ⟨none, false, [(['m'], false)], [.known ['m'] 1]⟩
        else ⟨some ['n'], false, [], []⟩
      std := [] } 2 0 = .ok [(['m'], 1)] := rfl

/-- While a guess is not. -/
theorem wrong_guess_diagnosed : modules
    { unit := fun t => if t = 0 then ⟨none, false, [(['m'], false)], [.file ['m'] 1]⟩
        else ⟨some ['n'], false, [], []⟩
      std := [] } 2 0 = .error .guess := by decide +kernel

/-- With two binary interfaces for `b`, what has been built with one is used with the other:
`a` (1) has been built with 2 and here 3 is used instead. -/
theorem other_interface_used : modules
    { unit := fun t =>
        if t = 0 then ⟨none, false, [(['a'], false), (['b'], false)],
          [.known ['a'] 1, .known ['b'] 3]⟩
        else if t = 1 then ⟨some ['a'], false, [(['b'], false)], [.known ['b'] 2]⟩
        else ⟨some ['b'], false, [], []⟩
      std := [] } 3 0 = .ok [(['a'], 1), (['b'], 3)] := rfl

/-- Modules that import each other are a cycle. -/
example : modules
    { unit := fun t => if t = 0 then ⟨some ['a'], false, [(['b'], false)], [.known ['b'] 1]⟩
        else ⟨some ['b'], false, [(['a'], false)], [.known ['a'] 0]⟩
      std := [] } 9 0 = .error .cycle := rfl

end Verif.ModMap
