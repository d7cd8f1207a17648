import Verif.PrefixMap.Lookup

/-!
# C73: headers that do not exist yet
-/

namespace Verif.PrefixMap

/-- What an included header that isn't found is mapped to is as specified. -/
theorem mapped_iff (decl new : Dir → String → Bool) (opts : List Opt) (d : Dir) (f : String)
    (D : Dir) : lookup decl new (build opts) d f = some D ↔ Mapped decl new opts d f D :=
  lookup_iff decl new opts d f D

/-- Specification: the compiler finds one. -/
theorem finds_unique {dirs : List Dir} {fs : Files} {r : Dir} {f : String} {D D' : Dir}
    (h : Finds dirs fs r f D) (h' : Finds dirs fs r f D') : D = D' := by
  obtain ⟨pre, post, h1, h2, h3⟩ := h
  obtain ⟨pre', post', h1', h2', h3'⟩ := h'
  rw [h1, List.append_eq_append_iff] at h1'
  rcases h1' with ⟨a, ha, hb⟩ | ⟨a, ha, hb⟩
  · rcases a with _ | ⟨x, a⟩
    · simp at hb; exact hb.1
    · simp at hb; exact absurd h2 (h3' D (by rw [ha, hb.1]; simp))
  · rcases a with _ | ⟨x, a⟩
    · simp at hb; exact hb.1.symm
    · simp at hb; exact absurd h2' (h3 D' (by rw [ha, hb.1]; simp))

/-- It is in one of the include directories of a project. -/
theorem mapped_included {decl new : Dir → String → Bool} {opts : List Opt} {d : Dir} {f : String}
    {D : Dir} (h : lookup decl new (build opts) d f = some D) :
    ∃ o ∈ opts, o.dir = D ∧ o.root <+: D := by
  have key : ∀ {P : Dir → Prop} {p n}, Closest P opts p D n → ∃ o ∈ opts, o.dir = D ∧ o.root <+: D := by
    rintro P p n ⟨pre, o, post, h1, h2, _, h4, _⟩
    refine ⟨o, by rw [h1]; simp, h2, ?_⟩
    cases h4 with
    | above h => rw [← h2]; exact h
    | elsewhere h => rw [← h2]; exact h
  cases (lookup_iff decl new opts d f D).mp h with
  | prefixed _ _ _ h => exact key h
  | prefixless _ h => exact key h

/-- Once this header has been generated, the compiler finds it, and not another one. -/
theorem mapped_found {decl new : Dir → String → Bool} {opts : List Opt} {d : Dir} {f : String}
    {D : Dir} (h : lookup decl new (build opts) d f = some D) {dirs : List Dir} {fs : Files}
    (hd : ∀ o ∈ opts, o.dir ∈ dirs) (hn : ∀ E ∈ dirs, ¬ fs (E ++ d) f) :
    Finds dirs (fs.add (D ++ d) f) d f D := by
  obtain ⟨o, ho, rfl, _⟩ := mapped_included h
  -- The first time that it is there
  have : ∀ l : List Dir, o.dir ∈ l → ∃ pre post, l = pre ++ o.dir :: post ∧ o.dir ∉ pre := by
    intro l
    induction l with
    | nil => intro h; cases h
    | cons x l ih =>
      intro h
      by_cases hx : x = o.dir
      · exact ⟨[], l, by rw [hx]; rfl, by simp⟩
      · obtain ⟨pre, post, h1, h2⟩ := ih (by simpa [Ne.symm hx] using h)
        exact ⟨x :: pre, post, by rw [h1]; rfl, by simp [h2, Ne.symm hx]⟩
  obtain ⟨pre, post, h1, h2⟩ := this dirs (hd o ho)
  refine ⟨pre, post, h1, .inr ⟨rfl, rfl⟩, ?_⟩
  rintro E hE (h3 | ⟨h3, _⟩)
  · exact hn E (by rw [h1]; simp [hE]) h3
  · exact h2 (List.append_cancel_right h3 ▸ hE)

/-- The path as it is written (with . and ..) refers to the file in this directory. -/
theorem relative_same {decl new : Dir → String → Bool} {m : Map} {path : List String} {D d : Dir}
    {f : String} (h : mapRelative decl new m path = some (D, d, f)) :
    lookup decl new m d f = some D ∧ walk D path = D ++ d ++ [f] ∧ ".." ∉ d ++ [f] := by
  have key : ∀ (path acc : List String), ".." ∉ path.foldl normStep acc →
      walk (D ++ acc.reverse) path = D ++ (path.foldl normStep acc).reverse ∧ ".." ∉ acc := by
    intro path
    induction path with
    | nil => intro acc h; exact ⟨rfl, h⟩
    | cons c path ih =>
      intro acc h
      rw [List.foldl_cons] at h ⊢
      obtain ⟨h1, h2⟩ := ih _ h
      have hw : walk (D ++ acc.reverse) (c :: path) = walk (if c = "." then D ++ acc.reverse
          else if c = ".." then (D ++ acc.reverse).dropLast else D ++ acc.reverse ++ [c]) path := rfl
      rw [hw]
      unfold normStep at h1 h2 ⊢
      by_cases hc : c = "."
      · simp only [hc, if_true] at h1 h2 ⊢; exact ⟨h1, h2⟩
      · simp only [hc, if_false] at h1 h2 ⊢
        by_cases hcc : c = ".."
        · simp only [hcc, if_true] at h1 h2 ⊢
          rcases acc with _ | ⟨x, acc⟩
          · simp at h2
          · by_cases hx : x = ".."
            · simp [hx] at h2
            · simp only [hx, if_false] at h1 h2 ⊢
              refine ⟨?_, by simp [Ne.symm hx, h2]⟩
              rw [← h1]
              congr 1
              rw [List.reverse_cons, ← List.append_assoc, List.dropLast_concat]
        · simp only [hcc, if_false] at h1 h2 ⊢
          refine ⟨?_, fun hm => h2 (List.mem_cons_of_mem _ hm)⟩
          rw [← h1]; simp
  unfold mapRelative at h
  split at h
  · cases h
  · rename_i f' rd hf
    split at h
    · cases h
    · rename_i hdd
      cases hl : lookup decl new m rd.reverse f' with
      | none => rw [hl] at h; cases h
      | some D' =>
        rw [hl] at h
        simp only [Option.map_some, Option.some.injEq, Prod.mk.injEq] at h
        obtain ⟨rfl, rfl, rfl⟩ := h
        have := key path [] (by rw [hf]; exact hdd)
        refine ⟨hl, ?_, by simpa [or_comm] using hdd⟩
        have h1 := this.1
        rw [hf] at h1
        simp only [List.reverse_nil, List.append_nil, List.reverse_cons] at h1
        rw [h1, List.append_assoc]

/-- For the include directories of one target, if a prefix leads somewhere, then their order does
not matter. -/
theorem any_order {decl new : Dir → String → Bool} {opts opts' : List Opt} {d : Dir} {f : String}
    (hp : opts.Perm opts') {t : Dir} (ht : ∀ o ∈ opts, o.target = t)
    (hl : ∃ q, q <+: d ∧ q ≠ [] ∧ ∃ o ∈ opts, ∃ n, Leads o q n) :
    lookup decl new (build opts) d f = lookup decl new (build opts') d f := by
  have one : ∀ {opts opts' : List Opt}, opts.Perm opts' → (∀ o ∈ opts, o.target = t) →
      (∃ q, q <+: d ∧ q ≠ [] ∧ ∃ o ∈ opts, ∃ n, Leads o q n) →
      ∀ D, Mapped decl new opts d f D → Mapped decl new opts' d f D := by
    intro opts opts' hp ht hl D h
    cases h with
    | prefixless h =>
      obtain ⟨q, h1, h2, o, ho, n, h3⟩ := hl
      exact absurd h3 (h q h1 h2 o ho n)
    | @prefixed p n h1 h2 h3 h4 h5 =>
      have hmem : ∀ o, o ∈ opts' → o ∈ opts := fun o ho => hp.mem_iff.mpr ho
      refine .prefixed (n := n) h1 h2 (fun q hq hlt o ho => h3 q hq hlt o (hmem o ho)) ?_ h5
      obtain ⟨pre, o, post, g1, g2, _, g4, g5, g6⟩ := h4
      have hmin : ∀ o' ∈ opts, ∀ n', Leads o' p n' → n ≤ n' := by
        intro o' ho' n' hl'
        rw [g1] at ho'
        rcases List.mem_append.mp ho' with h | h
        · exact Nat.le_of_lt (g5 o' h n' hl' trivial)
        · rcases List.mem_cons.mp h with rfl | h
          · have := (gives_iff _ _ _).mpr hl'
            rw [(gives_iff _ _ _).mpr g4] at this; cases this; exact Nat.le_refl _
          · exact g6 o' h n' hl' trivial
      have hbest := pick_closest (fun _ => true) p opts'
      have ho : o ∈ opts := by rw [g1]; simp
      cases hx : opts'.foldl (pick (fun _ => true) p) none with
      | none => have := hbest.2 hx o (hp.mem_iff.mp ho) n g4; cases this
      | some v =>
        have hc := closest_true.mp (hbest.1 v hx)
        obtain ⟨pre', o', post', k1, k2, _, k4, k5, k6⟩ := id hc
        have ho' : o' ∈ opts' := by rw [k1]; simp
        -- Both at the same distance
        have e1 : n ≤ v.prio := hmin o' (hmem o' ho') _ k4
        have e2 : v.prio ≤ n := by
          have ho2 := hp.mem_iff.mp ho
          rw [k1] at ho2
          rcases List.mem_append.mp ho2 with h | h
          · exact Nat.le_of_lt (k5 o h n g4 trivial)
          · rcases List.mem_cons.mp h with rfl | h
            · have := (gives_iff _ _ _).mpr g4
              rw [(gives_iff _ _ _).mpr k4] at this; cases this; exact Nat.le_refl _
            · exact k6 o h n g4 trivial
        have e3 : v.prio = n := by omega
        have e4 : v.dir = D := by
          have t1 := ht o ho
          have t2 := ht o' (hmem o' ho')
          rw [← k2, ← g2]
          generalize v.prio = vp at k4 e3
          subst e3
          cases k4 with
          | elsewhere _ _ h => exact absurd h h1
          | @above rest' _ r1 =>
            generalize hn : rest'.length = m at g4
            cases g4 with
            | elsewhere _ _ h => exact absurd h h1
            | @above rest _ r2 =>
              rw [t2] at r1; rw [t1] at r2
              have hlen : (o'.dir ++ p ++ rest').length = (o.dir ++ p ++ rest).length := by
                rw [← r1, ← r2]
              simp only [List.length_append] at hlen
              rw [r1, List.append_assoc, List.append_assoc] at r2
              exact (List.append_inj r2 (by omega)).1
        rw [e3, e4] at hc
        exact hc
  have hl' : ∃ q, q <+: d ∧ q ≠ [] ∧ ∃ o ∈ opts', ∃ n, Leads o q n := by
    obtain ⟨q, h1, h2, o, ho, n, h3⟩ := hl
    exact ⟨q, h1, h2, o, hp.mem_iff.mp ho, n, h3⟩
  have ht' : ∀ o ∈ opts', o.target = t := fun o ho => ht o (hp.mem_iff.mpr ho)
  have iff : ∀ D, lookup decl new (build opts) d f = some D ↔
      lookup decl new (build opts') d f = some D := by
    intro D
    rw [lookup_iff, lookup_iff]
    exact ⟨one hp ht hl D, one hp.symm ht' hl' D⟩
  cases h1 : lookup decl new (build opts) d f with
  | some D => exact ((iff D).mp h1).symm
  | none =>
    cases h2 : lookup decl new (build opts') d f with
    | none => rfl
    | some D => rw [(iff D).mpr h2] at h1; cases h1

/-- An existing header is remapped from an include directory to the one right before it, where it
is declared: to the same path in the latter, which is an output directory with the former in the
corresponding source directory. -/
theorem remap_pair {scopeOf : Dir → Option Base} {dirs : List (Option Dir)}
    {decl : Dir → String → Bool} {d d' : Dir} {f : String}
    (h : remap decl (buildSrcout scopeOf dirs) d f = some d') :
    ∃ O S r pre post, dirs = pre ++ some O :: some S :: post ∧ d = S ++ r ∧ d' = O ++ r ∧
      decl d' f = true ∧ ∃ b diff, scopeOf O = some b ∧ O = b.out ++ diff ∧ b.src <+: S ∧
        (diff = [] ∨ S = b.src ++ diff) := by
  unfold remap at h
  split at h
  · cases h
  · rename_i k o hs
    obtain ⟨h1, ⟨r, h2⟩, h3⟩ := supFind_spec _ _ _ rfl hs
    obtain ⟨⟨pre, post, h4⟩, h5⟩ := (next_inv scopeOf dirs).1 k o h1
    split at h
    · rename_i hd
      cases h
      change k ++ r = d at h2
      subst h2
      rw [List.drop_left] at hd ⊢
      exact ⟨o, k, r, pre, post, h4, rfl, rfl, hd, h5⟩
    · cases h

/-- If that is where the compiler has found it, then it finds the new one once it is generated. -/
theorem remap_found_partial {dirs pre post : List (Option Dir)} {O S : Dir}
    (h : dirs = pre ++ some O :: some S :: post) {fs : Files} {r : Dir} {f : String}
    (hn : (dirs.filterMap id).Nodup) (hf : Finds (dirs.filterMap id) fs r f S) :
    Finds (dirs.filterMap id) (fs.add (O ++ r) f) r f O := by
  have hd : dirs.filterMap id = pre.filterMap id ++ O :: S :: post.filterMap id := by
    rw [h]; simp
  rw [hd] at hn hf ⊢
  generalize pre.filterMap id = P at *
  generalize post.filterMap id = Q at *
  obtain ⟨pre', post', h1, h2, h3⟩ := hf
  have hpre : P ++ [O] = pre' := by
    have h1' : (P ++ [O]) ++ S :: Q = pre' ++ S :: post' := by simpa using h1
    have hn' : ((P ++ [O]) ++ S :: Q).Nodup := by simpa using hn
    rw [List.append_eq_append_iff] at h1'
    rcases h1' with ⟨a, ha, hb⟩ | ⟨a, ha, hb⟩
    · rcases a with _ | ⟨x, a⟩
      · simpa using ha.symm
      · simp at hb
        exact absurd h2 (h3 S (by rw [ha, hb.1]; simp))
    · rcases a with _ | ⟨x, a⟩
      · simpa using ha
      · simp at hb
        have : S ∈ P ++ [O] := by rw [ha, hb.1]; simp
        exact absurd rfl ((List.nodup_append.mp hn').2.2 S this S (by simp))
  refine ⟨P, S :: Q, rfl, .inr ⟨rfl, rfl⟩, ?_⟩
  rintro E hE (h4 | ⟨h4, _⟩)
  · exact h3 E (by rw [← hpre]; simp [hE]) h4
  · have : E = O := List.append_cancel_right h4
    subst this
    exact absurd rfl ((List.nodup_append.mp hn).2.2 E hE E (by simp))

/-! ## The canonical setup -/

/-- The target is in foo/ of a project, with `-I` for the project. -/
def canonical : List Opt := [⟨["tmp", "foo", "details"], ["tmp"], ["tmp"]⟩]

/-- A header with the prefix is mapped to the project, also in other subdirectories. -/
example : mapRelative (fun _ _ => false) (fun _ _ => true) (build canonical)
    ["foo", "details", "..", ".", "config", "h.hxx"] = some (["tmp"], ["foo", "config"], "h.hxx") := by
  decide +kernel

/-- One that isn't declared and has no prefix is not. -/
example : mapRelative (fun _ _ => false) (fun _ _ => true) (build canonical) ["h.hxx"] = none := by
  decide +kernel

example : mapRelative (fun _ _ => true) (fun _ _ => true) (build canonical) ["..", "h.hxx"] = none := by
  decide +kernel

example : Finds [["tmp"]] (Files.add (fun _ _ => False) ["tmp", "foo"] "h.hxx") ["foo"] "h.hxx"
    ["tmp"] :=
  mapped_found (decl := fun _ _ => false) (new := fun _ _ => true) (opts := canonical)
    (by decide +kernel) (by simp [canonical]) (by simp)

/-- Two include directories of a target where the order might matter: the closest is taken. -/
example : lookup (fun _ _ => false) (fun _ _ => true)
      (build [⟨["a", "b", "a", "c"], [], []⟩, ⟨["a", "b", "a", "c"], [], ["a", "b"]⟩]) ["a"] "h" =
    some ["a", "b"] ∧
    lookup (fun _ _ => false) (fun _ _ => true)
      (build [⟨["a", "b", "a", "c"], [], ["a", "b"]⟩, ⟨["a", "b", "a", "c"], [], []⟩]) ["a"] "h" =
    some ["a", "b"] := by decide +kernel

/-- A source directory after its output directory. -/
def scopes (d : Dir) : Option Base := if ["out"] <+: d then some ⟨["out"], ["src"]⟩ else none

example : remap (fun _ _ => true)
    (buildSrcout scopes [some ["out", "a"], some ["src", "a"], some ["inc"]]) ["src", "a", "b"] "h" =
    some ["out", "a", "b"] := by decide +kernel

/-! ## Where it is not found -/

/-- A header that is declared in a library with the same prefix as ours is mapped to our directory
even though it isn't declared there. -/
theorem other_project_missed : ∃ opts : List Opt, ∃ decl : Dir → String → Bool,
    decl ["y", "foo"] "h" = true ∧ decl ["x", "foo"] "h" = false ∧ (∃ o ∈ opts, o.dir = ["y"]) ∧
    lookup decl (fun _ _ => true) (build opts) ["foo"] "h" = some ["x"] ∧
    lookup decl (fun _ _ => false) (build opts) ["foo"] "h" = none :=
  ⟨[⟨["x", "foo"], ["x"], ["x"]⟩, ⟨["y", "foo"], ["y"], ["y"]⟩],
    fun d f => d == ["y", "foo"] && f == "h", by decide +kernel⟩

/-- Without a prefix, of two that are declared, the one that the compiler finds in the end is not
the one that it is mapped to. -/
theorem other_found : ∃ opts : List Opt, ∃ decl : Dir → String → Bool, ∃ D D' : Dir,
    lookup decl (fun _ _ => true) (build opts) [] "h" = some D ∧ D ≠ D' ∧
    decl D' "h" = true ∧
    Finds (opts.map Opt.dir) (fun d f => decl d f = true) [] "h" D' := by
  refine ⟨[⟨["x", "foo"], ["x"], ["x"]⟩, ⟨["x", "foo"], ["x"], ["x", "foo"]⟩],
    fun _ f => f == "h", ["x", "foo"], ["x"], by decide +kernel, by decide, by decide, ?_⟩
  exact ⟨[], [["x", "foo"]], rfl, by simp, by simp⟩

/-- A header in a subdirectory of the source directory is remapped to one of the same name in the
output directory, no matter how it has been included. -/
theorem other_directory_remapped : ∃ dirs : List (Option Dir), ∃ decl : Dir → String → Bool,
    some ["src"] ∈ dirs ∧
    remap decl (buildSrcout scopes dirs) ["src", "details"] "h" = some ["out"] ∧
    decl ["out", "details"] "h" = false ∧
    Finds (dirs.filterMap id) (fun d f => d = ["src", "details"] ∧ f = "h") ["details"] "h" ["src"] ∧
    Finds (dirs.filterMap id) (fun d f => (d = ["src", "details"] ∨ d = ["out"]) ∧ f = "h")
      ["details"] "h" ["src"] := by
  refine ⟨[some ["out"], some ["src", "details"], some ["src"]],
    fun d f => d == ["out"] && f == "h", by simp, by decide +kernel, by decide, ?_, ?_⟩
  · exact ⟨[["out"], ["src", "details"]], [], rfl, by simp, by simp⟩
  · exact ⟨[["out"], ["src", "details"]], [], rfl, by simp, by simp⟩

/-- If the source directory is also before that, then the compiler does not find the new one. -/
theorem duplicate_remapped : ∃ dirs : List (Option Dir), ∃ decl : Dir → String → Bool,
    remap decl (buildSrcout scopes dirs) ["src"] "h" = some ["out"] ∧
    Finds (dirs.filterMap id) (fun d f => (d = ["src"] ∨ d = ["out"]) ∧ f = "h") [] "h" ["src"] :=
  ⟨[some ["src"], some ["out"], some ["src"]], fun _ f => f == "h", by decide +kernel,
    [], [["out"], ["src"]], rfl, by simp, by simp⟩

end Verif.PrefixMap
