import Verif.NameFilter.Lemmas

/-! # Filtering of names by target type: properties -/

namespace Verif.NameFilter

/-- If `$filter()` or `$filter_out()` doesn't fail, the target types are those named, and what results is
the names and pairs whose type is one of them or derived from one, or else all others; in order, and with
pairs kept together. -/
theorem filter_spec (env : Env) (is : List Item) (ts : List Nm) (out : Bool) (r : List Nm)
    (hi : ∀ i ∈ is, i.Ok) (h : filter env (is.flatMap Item.names) ts out = .ok r) :
    ∃ (tts : List Ty) (p : Item → Bool), ts.map (fun n => env.find n.value) = tts.map some ∧
      (∀ i, p i = true ↔ Takes env tts i) ∧ r = (is.filter fun i => p i != out).flatMap Item.names := by
  unfold filter at h
  cases ht : typesLoop env ts with
  | error e => rw [ht] at h; cases h
  | ok tts =>
    rw [ht] at h
    have hex : ∀ i : Item, ∃ b : Bool, b = true ↔ Takes env tts i := fun i => by
      by_cases hh : Takes env tts i
      · exact ⟨true, by simp [hh]⟩
      · exact ⟨false, by simp [hh]⟩
    refine ⟨tts, fun i => (hex i).choose, ((typesLoop_spec env ts).1 tts ht).1, fun i => (hex i).choose_spec, ?_⟩
    rcases filterLoop_spec env tts out (fun i => (hex i).choose) (fun i => (hex i).choose_spec) is hi with
      ⟨h1, _⟩ | ⟨⟨e, h1⟩, _⟩
    · simp only at h
      rw [h1] at h
      exact (Except.ok.inj h).symm
    · simp only at h
      rw [h1] at h
      cases h

/-- They fail, both of them, exactly if a target type isn't given as a simple name of a known one, or if the
type of some name can't be told. -/
theorem filter_fails (env : Env) (is : List Item) (ts : List Nm) (out : Bool) (hi : ∀ i ∈ is, i.Ok) :
    (∃ e, filter env (is.flatMap Item.names) ts out = .error e) ↔
      (∃ n ∈ ts, n.proj = true ∨ n.type ≠ "" ∨ n.dir ≠ "" ∨ n.pair = true ∨ env.find n.value = none) ∨
      ∃ i ∈ is, Wrong env i := by
  obtain ⟨t1, t2⟩ := typesLoop_spec env ts
  unfold filter
  cases ht : typesLoop env ts with
  | error e =>
    refine ⟨fun _ => .inl ?_, fun _ => ⟨e, rfl⟩⟩
    refine Classical.byContradiction fun hn => ?_
    obtain ⟨tts, h⟩ := t2 (fun n hm => by
      refine ⟨?_, ?_, ?_, ?_, ?_⟩
      · exact Bool.eq_false_iff.2 fun h => hn ⟨n, hm, .inl h⟩
      · exact Classical.byContradiction fun h => hn ⟨n, hm, .inr (.inl h)⟩
      · exact Classical.byContradiction fun h => hn ⟨n, hm, .inr (.inr (.inl h))⟩
      · exact Bool.eq_false_iff.2 fun h => hn ⟨n, hm, .inr (.inr (.inr (.inl h)))⟩
      · exact fun h => hn ⟨n, hm, .inr (.inr (.inr (.inr h)))⟩)
    rw [h] at ht
    cases ht
  | ok tts =>
    obtain ⟨t3, t4⟩ := t1 tts ht
    have hts : ¬ ∃ n ∈ ts, n.proj = true ∨ n.type ≠ "" ∨ n.dir ≠ "" ∨ n.pair = true ∨ env.find n.value = none := by
      rintro ⟨n, hm, h⟩
      obtain ⟨h1, h2, h3, h4⟩ := t4 n hm
      rcases h with h | h | h | h | h
      · rw [h1] at h; cases h
      · exact h h2
      · exact h h3
      · rw [h4] at h; cases h
      · have : none ∈ tts.map some := t3 ▸ List.mem_map.2 ⟨n, hm, h⟩
        simp at this
    have hex : ∀ i : Item, ∃ b : Bool, b = true ↔ Takes env tts i := fun i => by
      by_cases hh : Takes env tts i
      · exact ⟨true, by simp [hh]⟩
      · exact ⟨false, by simp [hh]⟩
    simp only
    rcases filterLoop_spec env tts out (fun i => (hex i).choose) (fun i => (hex i).choose_spec) is hi with
      ⟨h1, h2⟩ | ⟨h1, h2⟩
    · rw [h1]
      constructor
      · rintro ⟨e, h⟩; cases h
      · rintro (h | ⟨i, hm, h⟩)
        · exact absurd h hts
        · exact absurd h (h2 i hm)
    · exact ⟨fun _ => .inr h2, fun _ => h1⟩

/-- `$is_a()`: whether the type is this one or derived from it; that of an imported name may be unknown. -/
theorem isA_spec (env : Env) (i : Item) (t : String) (b : Bool) (hi : i.Ok)
    (h : nameIsA env i.name i.second t = .ok b) :
    ∃ u, env.find t = some u ∧ (b = true ↔ Takes env [u] i) ∧ ¬ Wrong env i := by
  unfold nameIsA at h
  cases hu : env.find t with
  | none => rw [hu] at h; cases h
  | some u =>
    rw [hu] at h
    refine ⟨u, rfl, ?_⟩
    -- What `$filter()` decides.
    have hk : keep env [u] false i.name i.second = .ok b := by
      simp only [toTargetType] at h
      unfold keep toTargetType
      by_cases hp : (i.name.pair && !isDir i.second) = true
      · rw [if_pos hp] at h; cases h
      · rw [if_neg hp] at h
        by_cases ht : i.name.type = ""
        · have hc : copy i.name = i.name := if_neg (fun h => h ht)
          rw [hc, if_neg hp]
          unfold findTargetType at h ⊢
          rw [if_neg (fun h => h ht)] at h ⊢
          cases hg : env.guess i.name with
          | none => rw [hg] at h; cases h
          | some v =>
            rw [hg] at h
            simpa using h
        · have hc : copy i.name = { type := i.name.type } := if_pos ht
          rw [hc, if_neg (by simp)]
          unfold findTargetType at h ⊢
          simp only
          rw [if_pos ht] at h ⊢
          cases hf : env.find i.name.type with
          | none =>
            rw [hf] at h
            cases hpj : i.name.proj with
            | false => rw [hpj] at h; cases h
            | true => rw [hpj] at h; cases h; rfl
          | some v =>
            rw [hf] at h
            simp only at h
            split at h
            · cases h
            · rename_i heq; split at heq <;> cases heq
            · rename_i w heq
              split at heq
              · cases heq
              · cases heq
                simp only [env.bad_empty]
                simpa using h
    rcases keep_spec env [u] false i hi with ⟨b', p, h1, h2, h3, h4⟩ | ⟨e, h1, _⟩
    · rw [hk] at h1
      cases h1
      rw [h3]
      refine ⟨?_, h4⟩
      rw [← h2]
      cases p <;> simp
    · rw [hk] at h1
      cases h1

/-- `$filter()` of a name is what `$is_a()` says. The converse, that `$is_a()` doesn't fail if `$filter()`
doesn't, is false: `pair_unchecked`, `invalid_unchecked`. -/
theorem filter_isA_partial (env : Env) (i : Item) (t : String) (b out : Bool) (hi : i.Ok)
    (h : nameIsA env i.name i.second t = .ok b) :
    filter env i.names [{ value := t }] out = .ok (if b != out then i.names else []) := by
  obtain ⟨u, h1, h2, h3⟩ := isA_spec env i t b hi h
  have hex : ∀ i : Item, ∃ b : Bool, b = true ↔ Takes env [u] i := fun i => by
    by_cases hh : Takes env [u] i
    · exact ⟨true, by simp [hh]⟩
    · exact ⟨false, by simp [hh]⟩
  have ht : typesLoop env [{ value := t }] = .ok [u] := by simp [typesLoop, h1]
  unfold filter
  rw [ht]
  simp only
  rcases filterLoop_spec env [u] out (fun i => (hex i).choose) (fun i => (hex i).choose_spec) [i]
    (by simpa using hi) with ⟨k1, _⟩ | ⟨_, j, k1, k2⟩
  · have hb : (hex i).choose = b := by rw [Bool.eq_iff_iff, (hex i).choose_spec, h2]
    simp only [List.flatMap_cons, List.flatMap_nil, List.append_nil, List.filter_cons, List.filter_nil, hb] at k1
    rw [k1]
    split <;> simp
  · rw [List.mem_singleton.1 k1] at k2
    exact absurd k2 h3

/-- A scope with two types, for examples: `file`, and `cxx` that is derived from it. -/
def sample : Env where
  find s := if s = "file" then some (.root 0) else if s = "cxx" then some (.derived 1 (.root 0)) else
    if s = "dir" then some (.root 2) else none
  guess n := if n.value = "" then some (.root 2) else some (.root 0)
  bad _ v := v == "a//"
  bad_empty _ := rfl

/-- The second half of a pair with a typed first half needn't be a directory for `$filter()`. -/
theorem pair_unchecked : ∃ (i : Item), i.Ok ∧
    (∃ e, nameIsA sample i.name i.second "cxx" = .error e) ∧
    filter sample i.names [{ value := "cxx" }] false = .ok i.names :=
  ⟨.two { type := "cxx", value := "a", pair := true } { value := "b" }, rfl, ⟨.pair, by rfl⟩, by rfl⟩

/-- Nor does it need to be valid. -/
theorem invalid_unchecked : ∃ (i : Item), i.Ok ∧
    (∃ e, nameIsA sample i.name i.second "cxx" = .error e) ∧
    filter sample i.names [{ value := "cxx" }] false = .ok i.names :=
  ⟨.one { type := "cxx", value := "a//" }, rfl, ⟨.invalid, by rfl⟩, by rfl⟩

/-! Cases that meet the hypotheses. -/

example : (filter sample [{ type := "cxx", value := "a", pair := true }, { dir := "out/" }, { dir := "d/" },
      { value := "b" }, { proj := true, type := "lib", value := "c" }] [{ value := "file" }] false).toOption =
    some [{ type := "cxx", value := "a", pair := true }, { dir := "out/" }, { value := "b" }] := by decide +kernel

example : (filter sample [{ type := "cxx", value := "a", pair := true }, { dir := "out/" }, { dir := "d/" },
      { value := "b" }, { proj := true, type := "lib", value := "c" }] [{ value := "file" }] true).toOption =
    some [{ dir := "d/" }, { proj := true, type := "lib", value := "c" }] := by decide +kernel

example : (nameIsA sample { type := "cxx", value := "a" } {} "file").toOption = some true ∧
    (nameIsA sample { type := "file", value := "a" } {} "cxx").toOption = some false ∧
    (nameIsA sample { type := "lib", value := "a" } {} "cxx").toOption = none := by decide +kernel

end Verif.NameFilter
