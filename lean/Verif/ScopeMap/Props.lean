import Verif.ScopeMap.Step

/-! C30: nesting of scopes. -/

namespace Verif.ScopeMap

/-- The map after operations. -/
def run : List Op → Map → Except Bad Map
  | [], m => .ok m
  | .out d r :: ops, m =>
    match m.insertOut d r with
    | .error b => .error b
    | .ok m => run ops m
  | .src s d :: ops, m => run ops (m.insertSrc s d)

/-- The src directories associated with scopes, in order. -/
def srcsOf (ops : List Op) (d : Dir) : List Dir :=
  ops.filterMap (fun | .src s d' => if d' = d then some s else none | .out _ _ => none)

/-- The directory is known: it is the out directory of a scope or its src directory. -/
def Known (ops : List Op) (d : Dir) : Prop := Created ops d ∨ ∃ s, .src s d ∈ ops

/-- The scopes were created starting with the global scope. -/
def Starts (ops : List Op) : Prop := ∃ r rest, ops = .out [] r :: rest

structure Good (ops : List Op) (m : Map) : Prop where
  inv : Inv (Created ops) (Root ops) m
  known : ∀ d, d ∈ m.keys ↔ Known ops d
  srcs : ∀ d, d ∈ m.keys → (m.ent d).srcs = srcsOf ops d

theorem inv_congr {C C' R R' : Dir → Prop} {m : Map} (hC : ∀ b, C b ↔ C' b) (hR : ∀ b, R b ↔ R' b)
    (h : Inv C R m) : Inv C' R' m :=
  ⟨h.sorted, fun k => by rw [h.isScope, hC], fun k hk => h.keyed k ((hC k).2 hk), (hC _).1 h.global,
    fun k s hs => innermost_congr (fun b _ => by rw [hC]) (h.parent k s hs),
    fun k s hs => innermost_congr (fun b _ => hR b) (h.root k s hs),
    fun k hk => (hC k).1 (h.rootScope k ((hR k).2 hk))⟩

theorem srcsOf_nil_of_unknown {ops : List Op} {d : Dir} (h : ¬ Known ops d) : srcsOf ops d = [] := by
  apply List.filterMap_eq_nil_iff.2
  intro o ho
  cases o with
  | out => rfl
  | src s d' =>
    by_cases hd : d' = d
    · subst hd; exact absurd (Or.inr ⟨s, ho⟩) h
    · simp [hd]

theorem emplace_srcs {ops : List Op} {m : Map} (h : Good ops m) (k d : Dir) (hd : d ∈ (m.emplace k).keys) :
    ((m.emplace k).ent d).srcs = srcsOf ops d := by
  by_cases hdk : d = k
  · subst hdk
    by_cases hm : d ∈ m.keys
    · rw [emplace_ent_mem hm]; exact h.srcs d hm
    · rw [emplace_ent_not_mem hm, srcsOf_nil_of_unknown (fun hh => hm ((h.known d).2 hh))]
  · rw [emplace_ent_ne hdk]
    rcases (emplace_keys m k d).1 hd with hh | hh
    · exact absurd hh hdk
    · exact h.srcs d hh

theorem created_snoc {ops : List Op} {o : Op} {b : Dir} :
    Created (ops ++ [o]) b ↔ Created ops b ∨ ∃ r, o = .out b r := by
  unfold Created
  constructor
  · rintro ⟨r, h⟩
    rcases List.mem_append.1 h with h | h
    · exact Or.inl ⟨r, h⟩
    · exact Or.inr ⟨r, (List.mem_singleton.1 h).symm⟩
  · rintro (⟨r, h⟩ | ⟨r, rfl⟩)
    · exact ⟨r, List.mem_append_left _ h⟩
    · exact ⟨r, by simp⟩

theorem root_snoc {ops : List Op} {o : Op} {b : Dir} :
    Root (ops ++ [o]) b ↔ Root ops b ∨ o = .out b true := by
  unfold Root
  rw [List.mem_append, List.mem_singleton]
  exact or_congr Iff.rfl eq_comm

theorem known_snoc {ops : List Op} {o : Op} {b : Dir} :
    Known (ops ++ [o]) b ↔ Known ops b ∨ (∃ r, o = .out b r) ∨ ∃ s, o = .src s b := by
  unfold Known
  rw [created_snoc]
  constructor
  · rintro ((h | h) | ⟨s, h⟩)
    · exact Or.inl (Or.inl h)
    · exact Or.inr (Or.inl h)
    · rcases List.mem_append.1 h with h | h
      · exact Or.inl (Or.inr ⟨s, h⟩)
      · exact Or.inr (Or.inr ⟨s, (List.mem_singleton.1 h).symm⟩)
  · rintro ((h | ⟨s, h⟩) | h | ⟨s, rfl⟩)
    · exact Or.inl (Or.inl h)
    · exact Or.inr ⟨s, List.mem_append_left _ h⟩
    · exact Or.inl (Or.inr h)
    · exact Or.inr ⟨s, by simp⟩

theorem run_good : ∀ (rest ops : List Op) (m : Map), Good ops m →
    ∃ m', run rest m = .ok m' ∧ Good (ops ++ rest) m' := by
  intro rest
  induction rest with
  | nil => intro ops m h; exact ⟨m, rfl, by simpa using h⟩
  | cons o rest ih =>
    intro ops m h
    have hassoc : ops ++ o :: rest = (ops ++ [o]) ++ rest := by simp
    rw [hassoc]
    cases o with
    | out d r =>
      obtain ⟨m', e, hinv, hk, hs⟩ := insertOut_ok h.inv d r
      rw [run, e]
      apply ih
      refine ⟨inv_congr ?_ ?_ hinv, ?_, ?_⟩
      · intro b
        rw [created_snoc]
        refine or_congr Iff.rfl ⟨?_, ?_⟩
        · rintro rfl; exact ⟨r, rfl⟩
        · rintro ⟨r', e⟩; simp at e; exact e.1.symm
      · intro b
        rw [root_snoc]
        refine or_congr Iff.rfl ⟨?_, ?_⟩
        · rintro ⟨rfl, rfl⟩; rfl
        · intro e; simp at e; exact ⟨e.2, e.1.symm⟩
      · intro x
        rw [hk, emplace_keys, h.known, known_snoc]
        constructor
        · rintro (rfl | h')
          · exact Or.inr (Or.inl ⟨r, rfl⟩)
          · exact Or.inl h'
        · rintro (h' | ⟨r', e⟩ | ⟨s, e⟩)
          · exact Or.inr h'
          · simp at e; exact Or.inl e.1.symm
          · cases e
      · intro x hx
        rw [hk] at hx
        rw [hs, emplace_srcs h d x hx]
        simp [srcsOf]
    | src s d =>
      rw [run]
      apply ih
      have hkeys : (m.insertSrc s d).keys = (m.emplace d).keys := rfl
      refine ⟨inv_congr ?_ ?_ (insertSrc_inv h.inv s d), ?_, ?_⟩
      · intro b; rw [created_snoc]; simp
      · intro b; rw [root_snoc]; simp
      · intro x
        rw [hkeys, emplace_keys, h.known, known_snoc]
        constructor
        · rintro (rfl | h')
          · exact Or.inr (Or.inr ⟨s, rfl⟩)
          · exact Or.inl h'
        · rintro (h' | ⟨r', e⟩ | ⟨s', e⟩)
          · exact Or.inr h'
          · cases e
          · simp at e; exact Or.inl e.2.symm
      · intro x hx
        rw [hkeys] at hx
        have hs := emplace_srcs h d x hx
        unfold Map.insertSrc
        by_cases hxd : x = d
        · subst hxd
          simp [Map.set, hs, srcsOf]
        · simp [Map.set, hxd, hs, srcsOf, Ne.symm hxd]

theorem first_good (r : Bool) : ∃ m, Map.empty.insertOut [] r = .ok m ∧ Good [.out [] r] m := by
  refine ⟨⟨[[]], fun x => if x = [] then ⟨some ⟨none, if r then some [] else none⟩, []⟩ else {}⟩, ?_, ?_⟩
  · unfold Map.insertOut
    simp [Map.emplace, Map.empty, insertKey, Map.set]
    funext x
    by_cases hx : x = [] <;> simp [hx]
  · have hC : ∀ b, Created [.out [] r] b ↔ b = [] := by
      intro b; simp [Created]
    refine ⟨⟨by simp [Sorted], ?_, ?_, (hC []).2 rfl, ?_, ?_, ?_⟩, ?_, ?_⟩
    · intro k; rw [hC]; by_cases hk : k = [] <;> simp [hk]
    · intro k hk; rw [hC] at hk; simp [hk]
    · intro k s hs
      by_cases hk : k = []
      · subst hk
        simp at hs; subst hs
        rintro b ⟨hb, hne⟩
        exact absurd ((hC b).1 hb) hne
      · simp [hk] at hs
    · intro k s hs
      by_cases hk : k = []
      · subst hk
        simp at hs; subst hs
        cases r with
        | true => exact ⟨by simp [Root], List.prefix_rfl, fun b _ hb => hb⟩
        | false => intro b hb; simp [Root] at hb
      · simp [hk] at hs
    · intro k hk; exact ⟨true, hk⟩
    · intro d; simp [Known, Created]
    · intro d hd; simp at hd; subst hd; simp [srcsOf]

theorem starts_good {ops : List Op} (h : Starts ops) : ∃ m, run ops Map.empty = .ok m ∧ Good ops m := by
  obtain ⟨r, rest, rfl⟩ := h
  obtain ⟨m, e, hg⟩ := first_good r
  obtain ⟨m', e', hg'⟩ := run_good rest _ m hg
  exact ⟨m', by rw [run, e]; exact e', hg'⟩

/-- **C30.** Creating scopes for any directories in any order (the global scope first) succeeds. A
directory then has a scope exactly if one was created, the parent of a scope is the scope of the
innermost other enclosing directory that has one, and its project root is the innermost enclosing
directory (possibly itself) that was made a project root. -/
theorem nesting {ops : List Op} (h : Starts ops) : ∃ m, run ops Map.empty = .ok m ∧ ∀ d,
    ((m.ent d).out.isSome = true ↔ Created ops d) ∧
    ∀ s, (m.ent d).out = some s →
      Innermost (fun b => Created ops b ∧ b ≠ d) d s.parent ∧ Innermost (Root ops) d s.root := by
  obtain ⟨m, e, hg⟩ := starts_good h
  exact ⟨m, e, fun d => ⟨hg.inv.isScope d, fun s hs => ⟨hg.inv.parent d s hs, hg.inv.root d s hs⟩⟩⟩

/-- **C30.** Looking up the scope of a directory gives the innermost enclosing one. -/
theorem lookup_out {ops : List Op} (h : Starts ops) (d : Dir) : ∃ m a, run ops Map.empty = .ok m ∧
    m.findOut d = .ok a ∧ Innermost (Created ops) d (some a) := by
  obtain ⟨m, e, hg⟩ := starts_good h
  have hsup := innermost_congr (Q := Created ops) (fun b _ => by
    rw [hg.inv.isScope b]; exact ⟨fun hh => hh.2, fun hh => ⟨hg.inv.keyed b hh, hh⟩⟩)
    (sup_spec m (fun x => (m.ent x).out.isSome) d)
  unfold Map.findOut
  cases hs : m.supIf (fun x => (m.ent x).out.isSome) d d.length with
  | none => rw [hs] at hsup; exact absurd List.nil_prefix (hsup [] hg.inv.global)
  | some a => rw [hs] at hsup; exact ⟨m, a, e, by simp only [hs], hsup⟩

/-- **C30.** Looking up all the scopes of a directory gives those of the innermost enclosing directory
that is the out or a src directory of some scope: the scope whose out directory it is, then those whose
src directory it is in the order they were associated. The result is never empty. -/
theorem lookup_all {ops : List Op} (h : Starts ops) (d : Dir) (sno : Bool) :
    ∃ m a l, run ops Map.empty = .ok m ∧ m.find d sno = .ok l ∧ l ≠ [] ∧
      Innermost (Known ops) d (some a) ∧
      (Created ops a → l = some a :: (srcsOf ops a).map some) ∧
      (¬ Created ops a → l = (if sno then [] else [none]) ++ (srcsOf ops a).map some) := by
  obtain ⟨m, e, hg⟩ := starts_good h
  have hsup := innermost_congr (Q := Known ops) (fun b _ => by rw [← hg.known]; simp)
    (sup_spec m (fun _ => true) d)
  have hgl : Known ops [] := Or.inl hg.inv.global
  unfold Map.find
  cases hs : m.supIf (fun _ => true) d d.length with
  | none => rw [hs] at hsup; exact absurd List.nil_prefix (hsup [] hgl)
  | some a =>
    rw [hs] at hsup
    have hsr := hg.srcs a ((hg.known a).2 hsup.1)
    by_cases hc : Created ops a
    · have ho := (hg.inv.isScope a).2 hc
      refine ⟨m, a, some a :: (srcsOf ops a).map some, e, ?_, by simp, hsup, fun _ => rfl, fun hn => absurd hc hn⟩
      simp [hs, ho, hsr]
    · have ho : (m.ent a).out.isSome = false := by
        cases hoo : (m.ent a).out.isSome with
        | false => rfl
        | true => exact absurd ((hg.inv.isScope a).1 hoo) hc
      have hne : srcsOf ops a ≠ [] := by
        rcases hsup.1 with hh | ⟨s, hh⟩
        · exact absurd hh hc
        · intro hn
          have := List.filterMap_eq_nil_iff.1 hn _ hh
          simp at this
      refine ⟨m, a, (if sno then [] else [none]) ++ (srcsOf ops a).map some, e, ?_, ?_, hsup,
        fun hh => absurd hh hc, fun _ => rfl⟩
      · cases sno <;> simp [hs, ho, hsr, hne]
      · simp [hne]

/-- **C30.** The order does not matter: histories that create the same scopes and the same project
roots give the same parents and roots. -/
theorem order_irrelevant {ops1 ops2 : List Op} (h1 : Starts ops1) (h2 : Starts ops2)
    (hC : ∀ d, Created ops1 d ↔ Created ops2 d) (hR : ∀ d, Root ops1 d ↔ Root ops2 d) :
    ∃ m1 m2, run ops1 Map.empty = .ok m1 ∧ run ops2 Map.empty = .ok m2 ∧
      ∀ d, (m1.ent d).out = (m2.ent d).out := by
  obtain ⟨m1, e1, g1⟩ := starts_good h1
  obtain ⟨m2, e2, g2⟩ := starts_good h2
  refine ⟨m1, m2, e1, e2, fun d => ?_⟩
  by_cases hd : Created ops1 d
  · obtain ⟨s1, hs1⟩ := g1.inv.some hd
    obtain ⟨s2, hs2⟩ := g2.inv.some ((hC d).1 hd)
    have hp := innermost_unique (innermost_congr (fun b _ => by rw [hC]) (g1.inv.parent d s1 hs1))
      (g2.inv.parent d s2 hs2)
    have hr := innermost_unique (innermost_congr (fun b _ => hR b) (g1.inv.root d s1 hs1))
      (g2.inv.root d s2 hs2)
    rw [hs1, hs2]
    cases s1; cases s2
    simp at hp hr
    rw [hp, hr]
  · rw [g1.inv.none hd, g2.inv.none (fun hh => hd ((hC d).2 hh))]

/-! ## Concrete cases -/

/-- An inner directory first, then a project root above it, a nested project, and an upgrade. -/
def exOps : List Op :=
  [.out [] false, .out [1, 2, 3] false, .out [1] true, .out [1, 2, 4] false, .out [1, 2] false,
   .src [1, 2, 3] [7], .out [1, 2] true, .out [5] false]

example : Starts exOps := ⟨_, _, rfl⟩

example : ((run exOps Map.empty).toOption.map fun m => [[], [1], [1, 2], [1, 2, 3], [1, 2, 4], [5]].map fun d =>
    (m.ent d).out.map fun s => (s.parent, s.root)) =
    some [some (none, none), some (some [], some [1]), some (some [1], some [1, 2]),
      some (some [1, 2], some [1, 2]), some (some [1, 2], some [1, 2]), some (some [], none)] := by decide

example : ((run exOps Map.empty).toOption.bind fun m => (m.find [7, 8] true).toOption) =
    some [some [1, 2, 3]] := by decide

example : ((run exOps Map.empty).toOption.bind fun m => (m.findOut [7, 8]).toOption) = some [] := by decide

/-- That the global scope comes first is needed: the code assumes it, and otherwise the scope of the
empty directory becomes its own parent. -/
example : ((run [.src [1] [2], .out [] false] Map.empty).toOption.bind fun m => (m.ent []).out) =
    some ⟨some [], none⟩ := by decide

end Verif.ScopeMap
