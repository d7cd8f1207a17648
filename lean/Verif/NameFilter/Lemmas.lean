import Verif.NameFilter.Model

/-! # Filtering of names by target type: lemmas -/

namespace Verif.NameFilter

theorem isA_iff {t u : Ty} : isA t u = true ↔ Derives t u := by
  induction t with
  | root i =>
    rw [isA, beq_iff_eq]
    constructor
    · intro h; exact .same h
    · intro h; cases h with | same h => exact h
  | derived i b ih =>
    rw [isA]
    split
    · rename_i h
      exact ⟨fun _ => .same (beq_iff_eq.1 h), fun _ => rfl⟩
    · rename_i h
      rw [ih]
      constructor
      · exact .base
      · intro hd
        cases hd with
        | same h' => exact absurd (beq_iff_eq.2 h') h
        | base h' => exact h'

theorem isDir_iff {n : Nm} : isDir n = true ↔ n.IsDir := by
  simp [isDir, Nm.IsDir, and_assoc]

theorem typeOf_unique {env : Env} {n : Nm} {t u : Ty} (h : TypeOf env n t) (h' : TypeOf env n u) : t = u := by
  rcases h with ⟨a, h⟩ | ⟨a, h⟩ <;> rcases h' with ⟨b, h'⟩ | ⟨b, h'⟩
  · rw [h] at h'; exact Option.some.inj h'
  · exact absurd b a
  · exact absurd a b
  · rw [h] at h'; exact Option.some.inj h'

/-- The second half, or what is passed if there is none. -/
def Item.second : Item → Nm
  | .one _ => {}
  | .two _ o => o

/-- What is decided for one name or pair. -/
theorem keep_spec (env : Env) (tts : List Ty) (out : Bool) (i : Item) (hi : i.Ok) :
    (∃ b p : Bool, keep env tts out i.name i.second = .ok b ∧ (p = true ↔ Takes env tts i) ∧ b = (p != out) ∧
      ¬ Wrong env i) ∨
    (∃ e, keep env tts out i.name i.second = .error e ∧ Wrong env i) := by
  have htake : ∀ t, TypeOf env i.name t → (tts.any (isA t) = true ↔ Takes env tts i) := by
    intro t ht
    rw [List.any_eq_true]
    constructor
    · rintro ⟨u, hu, h⟩; exact ⟨t, ht, u, hu, isA_iff.1 h⟩
    · rintro ⟨t', ht', u, hu, h⟩
      rw [typeOf_unique ht ht']
      exact ⟨u, hu, isA_iff.2 h⟩
  unfold keep toTargetType
  by_cases ht : i.name.type = ""
  · have hc : copy i.name = i.name := if_neg (fun h => h ht)
    rw [hc]
    by_cases hp : i.name.pair = true ∧ isDir i.second = false
    · rw [if_pos (by rw [hp.1, hp.2]; rfl)]
      refine .inr ⟨_, rfl, .inr ⟨ht, .inr ?_⟩⟩
      cases i with
      | one n => rw [Item.name, show n.pair = false from hi] at hp; cases hp.1
      | two n o =>
        refine ⟨o, rfl, fun h => ?_⟩
        have := isDir_iff.2 h
        rw [show isDir o = false from hp.2] at this
        cases this
    · rw [if_neg (by
        intro h
        rw [Bool.and_eq_true, Bool.not_eq_true'] at h
        exact hp h)]
      unfold findTargetType
      rw [if_neg (fun h => h ht)]
      cases hg : env.guess i.name with
      | none => exact .inr ⟨_, rfl, .inr ⟨ht, .inl hg⟩⟩
      | some t =>
        refine .inl ⟨_, tts.any (isA t), rfl, htake t (.inr ⟨ht, hg⟩), rfl, ?_⟩
        rintro (⟨h, _⟩ | ⟨_, h | ⟨o, ho, hd⟩⟩)
        · exact h ht
        · rw [hg] at h; cases h
        · cases i with
          | one n => cases ho
          | two n o' =>
            cases ho
            refine hp ⟨hi, ?_⟩
            cases h : isDir o with
            | false => exact h
            | true => exact absurd (isDir_iff.1 h) hd
  · have hc : copy i.name = { type := i.name.type } := if_pos ht
    rw [hc, if_neg (by simp)]
    unfold findTargetType
    simp only
    rw [if_pos ht]
    cases hf : env.find i.name.type with
    | none =>
      cases hpj : i.name.proj with
      | false => exact .inr ⟨_, rfl, .inl ⟨ht, hf, hpj⟩⟩
      | true =>
        refine .inl ⟨out, false, rfl, ⟨nofun, ?_⟩, by cases out <;> rfl, ?_⟩
        · rintro ⟨t, ⟨_, h⟩ | ⟨h, _⟩, _⟩
          · rw [hf] at h; cases h
          · exact absurd h ht
        · rintro (⟨_, _, h⟩ | ⟨h, _⟩)
          · rw [hpj] at h; cases h
          · exact ht h
    | some t =>
      simp only [env.bad_empty]
      refine .inl ⟨_, tts.any (isA t), rfl, htake t (.inl ⟨ht, hf⟩), rfl, ?_⟩
      rintro (⟨_, h, _⟩ | ⟨h, _⟩)
      · rw [hf] at h; cases h
      · exact ht h

/-- One turn of the loop. -/
theorem filterLoop_item (env : Env) (tts : List Ty) (out : Bool) (i : Item) (hi : i.Ok) (ns : List Nm) :
    filterLoop env tts out (i.names ++ ns) =
      match keep env tts out i.name i.second with
      | .error e => .error e
      | .ok b =>
        match filterLoop env tts out ns with
        | .error e => .error e
        | .ok r => .ok (if b then i.names ++ r else r) := by
  cases i with
  | one n =>
    have hp : n.pair = false := hi
    simp only [Item.names, List.cons_append, List.nil_append, Item.name, Item.second]
    rw [filterLoop.eq_def]
    simp only [hp]
    rfl
  | two n o =>
    have hp : n.pair = true := hi
    simp only [Item.names, List.cons_append, List.nil_append, Item.name, Item.second]
    rw [filterLoop.eq_def]
    simp only [hp, if_true]
    rfl

theorem filterLoop_spec (env : Env) (tts : List Ty) (out : Bool) (p : Item → Bool)
    (hp : ∀ i, p i = true ↔ Takes env tts i) : ∀ is : List Item, (∀ i ∈ is, i.Ok) →
    (filterLoop env tts out (is.flatMap Item.names) = .ok ((is.filter fun i => p i != out).flatMap Item.names) ∧
      ∀ i ∈ is, ¬ Wrong env i) ∨
    ((∃ e, filterLoop env tts out (is.flatMap Item.names) = .error e) ∧ ∃ i ∈ is, Wrong env i) := by
  intro is
  induction is with
  | nil => intro _; exact .inl ⟨rfl, nofun⟩
  | cons i is ih =>
    intro h
    have hi := h i (by simp)
    rw [List.flatMap_cons, filterLoop_item env tts out i hi]
    rcases keep_spec env tts out i hi with ⟨b, q, h1, h2, h3, h4⟩ | ⟨e, h1, h2⟩
    · have hq : q = p i := by
        rw [Bool.eq_iff_iff, h2, hp]
      rw [h1]
      simp only
      rcases ih (fun j hj => h j (List.mem_cons_of_mem _ hj)) with ⟨k1, k2⟩ | ⟨⟨e, k1⟩, j, k2, k3⟩
      · left
        rw [k1]
        constructor
        · rw [List.filter_cons, h3, hq]
          simp only
          split <;> simp
        · intro j hj
          rcases List.mem_cons.1 hj with rfl | hj
          · exact h4
          · exact k2 j hj
      · right
        rw [k1]
        exact ⟨⟨e, rfl⟩, j, List.mem_cons_of_mem _ k2, k3⟩
    · right
      rw [h1]
      exact ⟨⟨e, rfl⟩, i, by simp, h2⟩

theorem typesLoop_spec (env : Env) : ∀ ts : List Nm,
    (∀ tts, typesLoop env ts = .ok tts → ts.map (fun n => env.find n.value) = tts.map some ∧
      ∀ n ∈ ts, n.proj = false ∧ n.type = "" ∧ n.dir = "" ∧ n.pair = false) ∧
    ((∀ n ∈ ts, n.proj = false ∧ n.type = "" ∧ n.dir = "" ∧ n.pair = false ∧ env.find n.value ≠ none) →
      ∃ tts, typesLoop env ts = .ok tts) := by
  intro ts
  induction ts with
  | nil =>
    refine ⟨fun tts h => ?_, fun _ => ⟨[], rfl⟩⟩
    cases h
    exact ⟨rfl, nofun⟩
  | cons n ts ih =>
    constructor
    · intro tts h
      rw [typesLoop] at h
      split at h
      · cases h
      rename_i hs
      split at h
      · cases h
      rename_i hp
      cases hf : env.find n.value with
      | none => rw [hf] at h; cases h
      | some t =>
        rw [hf] at h
        cases ht : typesLoop env ts with
        | error e => rw [ht] at h; cases h
        | ok us =>
          rw [ht] at h
          cases h
          obtain ⟨k1, k2⟩ := ih.1 us ht
          refine ⟨by simp [hf, k1], fun m hm => ?_⟩
          rcases List.mem_cons.1 hm with rfl | hm
          · simp at hs hp
            exact ⟨hs.1.1, hs.1.2, hs.2, hp⟩
          · exact k2 m hm
    · intro h
      obtain ⟨us, hu⟩ := ih.2 (fun m hm => h m (List.mem_cons_of_mem _ hm))
      obtain ⟨h1, h2, h3, h4, h5⟩ := h n (by simp)
      cases hf : env.find n.value with
      | none => exact absurd hf h5
      | some t =>
        refine ⟨t :: us, ?_⟩
        rw [typesLoop, if_neg (by simp [h1, h2, h3]), if_neg (by simp [h4]), hf, hu]

end Verif.NameFilter
