import Verif.ModMap.Score

/-! # Modules and their binary interfaces: resolution -/

namespace Verif.ModMap

theorem stdName_iff (n : Str) : stdName n = true ↔ Std n := by
  unfold stdName Std
  constructor
  · intro h
    rw [Bool.and_eq_true, beq_iff_eq, Bool.or_eq_true, beq_iff_eq, beq_iff_eq] at h
    obtain ⟨h1, h2 | h2⟩ := h
    · refine Or.inl ?_
      rw [← h1, List.take_of_length_le (by omega)]
    · refine Or.inr ⟨n.drop 4, ?_⟩
      have h3 : n = n.take 3 ++ n.drop 3 := (List.take_append_drop 3 n).symm
      have h4 : n.drop 3 = '.' :: n.drop 4 := by
        have hl : 3 < n.length := by
          rcases Nat.lt_or_ge 3 n.length with h | h
          · exact h
          · rw [List.getElem?_eq_none h] at h2; cases h2
        rw [List.drop_eq_getElem_cons hl]
        rw [List.getElem?_eq_getElem hl] at h2
        rw [Option.some.inj h2]
      rw [h1, h4] at h3
      exact h3
  · rintro (rfl | ⟨r, rfl⟩)
    · decide
    · rfl

/-- One entry, for one import. -/
def step (i : Slot) : Entry → Slot
  | .known n b =>
    if i.score > matchMax i.name then i
    else if n = i.name then { i with target := some b, score := matchMax i.name + 1 }
    else i
  | .file f b =>
    if stdName i.name then i
    else if i.score > matchMax i.name then i
    else if score f i.name > i.score then { i with target := some b, score := score f i.name }
    else i

def Done (i : Slot) : Prop := i.score > matchMax i.name

instance (i : Slot) : Decidable (Done i) := by unfold Done; infer_instance

theorem step_name (i : Slot) (e : Entry) : (step i e).name = i.name := by
  cases e <;> simp only [step] <;> (repeat' split) <;> rfl

theorem step_exported (i : Slot) (e : Entry) : (step i e).exported = i.exported := by
  cases e <;> simp only [step] <;> (repeat' split) <;> rfl

theorem step_done {i : Slot} (h : Done i) (e : Entry) : step i e = i := by
  have h' : i.score > matchMax i.name := h
  cases e <;> simp only [step, if_pos h', ite_self]

theorem exact_true (n : Str) (b : Nat) (is : List Slot) (h : n ∉ is.map (·.name)) :
    checkExact n b true is = some (is, is.all fun i => decide (Done i)) := by
  induction is with
  | nil => rfl
  | cons i is ih =>
    simp only [List.map_cons, List.mem_cons, not_or] at h
    unfold checkExact
    rw [ih h.2]
    by_cases hd : Done i
    · rw [if_pos (show i.score > matchMax i.name from hd)]
      simp [hd]
    · rw [if_neg (show ¬ i.score > matchMax i.name from hd)]
      simp [hd, h.1]

theorem exact_false (n : Str) (b : Nat) (is : List Slot) (h : (is.map (·.name)).Nodup) :
    checkExact n b false is = some (is.map fun i => step i (.known n b),
      (is.map fun i => step i (.known n b)).all fun i => decide (Done i)) := by
  induction is with
  | nil => rfl
  | cons i is ih =>
    rw [List.map_cons, List.nodup_cons] at h
    unfold checkExact
    rw [List.map_cons, List.all_cons]
    by_cases hd : Done i
    · rw [if_pos (show i.score > matchMax i.name from hd), ih h.2, step_done hd]
      simp [hd]
    · have hd' : ¬ i.score > matchMax i.name := hd
      rw [if_neg hd', if_pos rfl]
      simp only [step, if_neg hd']
      by_cases hn : n = i.name
      · rw [if_pos hn, if_pos hn, exact_true n b is (hn ▸ h.1)]
        have e : (is.map fun i => step i (.known n b)) = is := by
          conv => rhs; rw [← List.map_id is]
          apply List.map_congr_left
          intro j hj
          simp only [step, id]
          have : n ≠ j.name := fun e => h.1 (by rw [← hn, e]; exact List.mem_map_of_mem hj)
          rw [if_neg this, ite_self]
        simp only [step] at e
        rw [e]
        simp [Done]
      · rw [if_neg hn, if_neg hn, ih h.2]
        simp [step, hd]

theorem map_names (is : List Slot) (f : Slot → Slot) (h : ∀ i, (f i).name = i.name) :
    (is.map f).map (·.name) = is.map (·.name) := by
  rw [List.map_map]
  exact List.map_congr_left fun i _ => h i

theorem foldl_done (es : List Entry) {i : Slot} (h : Done i) : es.foldl step i = i := by
  induction es with
  | nil => rfl
  | cons e es ih => rw [List.foldl_cons, step_done h, ih]

theorem foldl_name (es : List Entry) (i : Slot) : (es.foldl step i).name = i.name := by
  induction es generalizing i with
  | nil => rfl
  | cons e es ih => rw [List.foldl_cons, ih, step_name]

theorem foldl_exported (es : List Entry) (i : Slot) :
    (es.foldl step i).exported = i.exported := by
  induction es generalizing i with
  | nil => rfl
  | cons e es ih => rw [List.foldl_cons, ih, step_exported]

/-- Imports are independent of each other. -/
theorem pool_eq (es : List Entry) (is : List Slot) (h : (is.map (·.name)).Nodup) :
    ∃ d, poolResolve es is = .ok (is.map fun i => es.foldl step i, d) ∧
      (d = true → ∀ i ∈ is.map fun i => es.foldl step i, Done i) := by
  induction es generalizing is with
  | nil => exact ⟨false, by simp [poolResolve], nofun⟩
  | cons e es ih =>
    have hn := map_names is (fun i => step i e) fun i => step_name i e
    obtain ⟨d, h1, h2⟩ := ih (is.map fun i => step i e) (hn ▸ h)
    have hm : ((is.map fun i => step i e).map fun i => es.foldl step i) =
        is.map fun i => (e :: es).foldl step i := by
      rw [List.map_map]; rfl
    rw [hm] at h1 h2
    cases e with
    | known n b =>
      unfold poolResolve
      rw [exact_false n b is h]
      cases hd : (is.map fun i => step i (.known n b)).all fun i => decide (Done i) with
      | false => exact ⟨d, h1, h2⟩
      | true =>
        have ha : ∀ i ∈ is, Done (step i (.known n b)) := by
          intro i hi
          have := List.all_eq_true.1 hd _ (List.mem_map_of_mem hi)
          exact of_decide_eq_true this
        have e1 : (is.map fun i => (Entry.known n b :: es).foldl step i) =
            is.map fun i => step i (.known n b) :=
          List.map_congr_left fun i hi => by rw [List.foldl_cons, foldl_done es (ha i hi)]
        rw [e1]
        refine ⟨true, rfl, fun _ i hi => ?_⟩
        obtain ⟨j, hj, rfl⟩ := List.mem_map.1 hi
        exact ha j hj
    | file f b =>
      unfold poolResolve
      exact ⟨d, h1, h2⟩

/-- What an import is resolved to so far. -/
def Sofar (p : List Entry) (n : Str) (i : Slot) : Prop :=
  (Done i ∧ ∃ b, i.target = some b ∧ ∃ q r, p = q ++ .known n b :: r ∧ ∀ b', .known n b' ∉ q) ∨
  (¬ Done i ∧ (∀ b', .known n b' ∉ p) ∧
    ((i.target = none ∧ i.score = 0 ∧ ∀ f b, .file f b ∈ p → score f n = 0) ∨
     ∃ b, i.target = some b ∧ ∃ q f r, p = q ++ .file f b :: r ∧ score f n ≠ 0 ∧
      i.score = score f n ∧
      (∀ f' b', .file f' b' ∈ q → score f' n < score f n) ∧
      ∀ f' b', .file f' b' ∈ r → score f' n ≤ score f n))

theorem step_sofar {p : List Entry} {i : Slot} {e : Entry} (hs : ¬ Std i.name)
    (hl : i.name.length < 9998) (hf : ∀ f b, e = .file f b → f.length < 9998)
    (h : Sofar p i.name i) : Sofar (p ++ [e]) i.name (step i e) := by
  have hs' : stdName i.name = false := Bool.eq_false_iff.2 fun h => hs ((stdName_iff _).1 h)
  rcases h with ⟨hd, b, ht, q, r, rfl, hq⟩ | ⟨hd, hk, h⟩
  · rw [step_done hd]
    exact Or.inl ⟨hd, b, ht, q, r ++ [e], by simp, hq⟩
  · have hd' : ¬ i.score > matchMax i.name := hd
    cases e with
    | known n b =>
      simp only [step, if_neg hd']
      by_cases hn : n = i.name
      · rw [if_pos hn]
        subst hn
        exact Or.inl ⟨Nat.lt_succ_self _, b, rfl, p, [], rfl, hk⟩
      · rw [if_neg hn]
        refine Or.inr ⟨hd, ?_, ?_⟩
        · intro b' hb
          rcases List.mem_append.1 hb with hb | hb
          · exact hk b' hb
          · rw [List.mem_singleton] at hb
            injection hb with e1
            exact hn e1.symm
        · rcases h with ⟨h1, h2, h3⟩ | ⟨b0, h1, q, f, r, rfl, h3, h4, h5, h6⟩
          · refine Or.inl ⟨h1, h2, fun f b hb => ?_⟩
            rcases List.mem_append.1 hb with hb | hb
            · exact h3 f b hb
            · rw [List.mem_singleton] at hb; cases hb
          · refine Or.inr ⟨b0, h1, q, f, r ++ [.known n b], by simp, h3, h4, h5, ?_⟩
            intro f' b' hb
            rcases List.mem_append.1 hb with hb | hb
            · exact h6 f' b' hb
            · rw [List.mem_singleton] at hb; cases hb
    | file f b =>
      simp only [step, if_neg hd', hs']
      have hk' : ∀ b', .known i.name b' ∉ p ++ [.file f b] := by
        intro b' hb
        rcases List.mem_append.1 hb with hb | hb
        · exact hk b' hb
        · rw [List.mem_singleton] at hb; cases hb
      by_cases hg : score f i.name > i.score
      · rw [if_neg Bool.false_ne_true, if_pos hg]
        have hle := score_le (hf f b rfl) hl
        refine Or.inr ⟨?_, hk', Or.inr ⟨b, rfl, p, f, [], rfl, by omega, rfl, ?_, nofun⟩⟩
        · show ¬ score f i.name > matchMax i.name
          omega
        · rcases h with ⟨h1, h2, h3⟩ | ⟨b0, h1, q, f0, r, rfl, h3, h4, h5, h6⟩
          · intro f' b' hb
            rw [h3 f' b' hb]; omega
          · intro f' b' hb
            rw [List.mem_append, List.mem_cons] at hb
            rcases hb with hb | hb | hb
            · have := h5 f' b' hb; omega
            · injection hb with e1; subst e1; omega
            · have := h6 f' b' hb; omega
      · rw [if_neg Bool.false_ne_true, if_neg hg]
        refine Or.inr ⟨hd, hk', ?_⟩
        rcases h with ⟨h1, h2, h3⟩ | ⟨b0, h1, q, f0, r, rfl, h3, h4, h5, h6⟩
        · refine Or.inl ⟨h1, h2, fun f' b' hb => ?_⟩
          rcases List.mem_append.1 hb with hb | hb
          · exact h3 f' b' hb
          · rw [List.mem_singleton] at hb; injection hb with e1; subst e1; omega
        · refine Or.inr ⟨b0, h1, q, f0, r ++ [.file f b], by simp, h3, h4, h5, ?_⟩
          intro f' b' hb
          rcases List.mem_append.1 hb with hb | hb
          · exact h6 f' b' hb
          · rw [List.mem_singleton] at hb; injection hb with e1; subst e1; omega

theorem foldl_sofar (es : List Entry) {p : List Entry} {i : Slot} (hs : ¬ Std i.name)
    (hl : i.name.length < 9998) (hf : ∀ f b, .file f b ∈ es → f.length < 9998)
    (h : Sofar p i.name i) : Sofar (p ++ es) i.name (es.foldl step i) := by
  induction es generalizing p i with
  | nil => simpa using h
  | cons e es ih =>
    have h1 := step_sofar (e := e) hs hl (fun f b he => hf f b (he ▸ List.mem_cons_self ..)) h
    have hn := step_name i e
    rw [← hn] at h1
    have := ih (hn ▸ hs) (hn ▸ hl) (fun f b hb => hf f b (List.mem_cons_of_mem _ hb)) h1
    rw [hn, List.append_assoc] at this
    exact this

theorem pos_of_file {p : List Entry} {n : Str} {b : Nat} (h : Resolves score p n b) :
    (∃ b, .known n b ∈ p) ∨ ∃ f b, .file f b ∈ p ∧ score f n ≠ 0 := by
  rcases h with ⟨q, r, rfl, _⟩ | ⟨_, q, f, r, rfl, h, _⟩
  · exact Or.inl ⟨b, by simp⟩
  · exact Or.inr ⟨f, b, by simp, h⟩

/-- There is at most one. -/
theorem first_unique {α β : Type} {P : β → α → Prop} {x y : β} {a b : α} {q r q' r' : List α}
    (h : q ++ a :: r = q' ++ b :: r') (hx : P x a) (hy : P y b)
    (h1 : ∀ c ∈ q, ¬ ∃ z, P z c) (h2 : ∀ c ∈ q', ¬ ∃ z, P z c) : q = q' ∧ a = b ∧ r = r' := by
  induction q generalizing q' with
  | nil =>
    cases q' with
    | nil =>
      rw [List.nil_append, List.nil_append] at h
      injection h with e1 e2
      exact ⟨rfl, e1, e2⟩
    | cons c q' =>
      injection h with e1
      exact absurd ⟨x, e1 ▸ hx⟩ (h2 c (List.mem_cons_self ..))
  | cons c q ih =>
    cases q' with
    | nil =>
      injection h with e1
      exact absurd ⟨y, e1 ▸ hy⟩ (h1 c (List.mem_cons_self ..))
    | cons c' q' =>
      injection h with e1 e2
      obtain ⟨h3, h4⟩ := ih e2 (fun c hc => h1 c (List.mem_cons_of_mem _ hc))
        (fun c hc => h2 c (List.mem_cons_of_mem _ hc))
      exact ⟨by rw [e1, h3], h4⟩

theorem named_unique {l : List (Str × Nat)} {n : Str} {b b' : Nat} (h : Named l n b)
    (h' : Named l n b') : b = b' := by
  obtain ⟨q, r, rfl, h1⟩ := h
  obtain ⟨q', r', e, h2⟩ := h'
  obtain ⟨_, h3, _⟩ := first_unique (P := fun (z : Nat) (x : Str × Nat) => x = (n, z)) (x := b)
    (y := b') e rfl rfl (fun c hc ⟨z, hz⟩ => h1 z (hz ▸ hc)) (fun c hc ⟨z, hz⟩ => h2 z (hz ▸ hc))
  injection h3

theorem resolves_unique {p : List Entry} {n : Str} {b b' : Nat} (h : Resolves score p n b)
    (h' : Resolves score p n b') : b = b' := by
  rcases h with ⟨q, r, rfl, h1⟩ | ⟨h1, q, f, r, rfl, h2, h3, h4⟩
  · rcases h' with ⟨q', r', e, h2⟩ | ⟨h2, _⟩
    · obtain ⟨_, h3, _⟩ := first_unique (P := fun (z : Nat) (x : Entry) => x = .known n z)
        (x := b) (y := b') e rfl rfl
        (fun c hc ⟨z, hz⟩ => h1 z (hz ▸ hc)) (fun c hc ⟨z, hz⟩ => h2 z (hz ▸ hc))
      injection h3
    · exact absurd (by simp) (h2 b)
  · rcases h' with ⟨q', r', e, _⟩ | ⟨_, q', f', r', e, h5, h6, h7⟩
    · exact absurd (by rw [e]; simp) (h1 b')
    · have hs : score f n = score f' n := by
        have m1 : Entry.file f b ∈ q' ++ .file f' b' :: r' := by rw [← e]; simp
        have m2 : Entry.file f' b' ∈ q ++ .file f b :: r := by rw [e]; simp
        simp only [List.mem_append, List.mem_cons] at m1 m2
        have a1 : score f n ≤ score f' n := by
          rcases m1 with m | m | m
          · exact Nat.le_of_lt (h6 _ _ m)
          · injection m with e1; rw [e1]; exact Nat.le_refl _
          · exact h7 _ _ m
        have a2 : score f' n ≤ score f n := by
          rcases m2 with m | m | m
          · exact Nat.le_of_lt (h3 _ _ m)
          · injection m with e1; rw [e1]; exact Nat.le_refl _
          · exact h4 _ _ m
        omega
      obtain ⟨_, h8, _⟩ := first_unique
        (P := fun (z : Str × Nat) (x : Entry) => x = .file z.1 z.2 ∧ score z.1 n = score f n)
        (x := (f, b)) (y := (f', b')) e ⟨rfl, rfl⟩ ⟨rfl, hs.symm⟩
        (fun c hc ⟨z, hz, hz'⟩ => by have := h3 z.1 z.2 (hz ▸ hc); omega)
        (fun c hc ⟨z, hz, hz'⟩ => by have := h6 z.1 z.2 (hz ▸ hc); omega)
      injection h8

theorem chosen_unique {std : List (Str × Nat)} {p : List Entry} {n : Str} {b b' : Nat}
    (h : Chosen score std p n b) (h' : Chosen score std p n b') : b = b' := by
  rcases h with ⟨h, h1⟩ | ⟨h, h1⟩ <;> rcases h' with ⟨h', h2⟩ | ⟨h', h2⟩
  · exact named_unique h1 h2
  · exact absurd h h'
  · exact absurd h' h
  · exact resolves_unique h1 h2

theorem sofar_target {p : List Entry} {n : Str} {i : Slot} (h : Sofar p n i) (b : Nat) :
    i.target = some b ↔ Resolves score p n b := by
  have key : ∀ c, i.target = some c → Resolves score p n c := by
    intro c hc
    rcases h with ⟨_, b, ht, q, r, rfl, hq⟩ | ⟨_, hk, ⟨ht, _⟩ |
      ⟨b, ht, q, f, r, rfl, h3, _, h5, h6⟩⟩
    · rw [ht] at hc; injection hc with e; subst e
      exact Or.inl ⟨q, r, rfl, hq⟩
    · rw [ht] at hc; cases hc
    · rw [ht] at hc; injection hc with e; subst e
      exact Or.inr ⟨hk, q, f, r, rfl, h3, h5, h6⟩
  refine ⟨key b, fun hr => ?_⟩
  cases ht : i.target with
  | some c => rw [resolves_unique (key c ht) hr]
  | none =>
    exfalso
    rcases h with ⟨_, b, ht', _⟩ | ⟨_, hk, ⟨_, _, h3⟩ | ⟨b, ht', _⟩⟩
    · rw [ht] at ht'; cases ht'
    · rcases pos_of_file hr with ⟨c, hc⟩ | ⟨f, c, hc, h0⟩
      · exact hk c hc
      · exact h0 (h3 f c hc)
    · rw [ht] at ht'; cases ht'

theorem sofar_done {p : List Entry} {n : Str} {i : Slot} (h : Sofar p n i) :
    Done i ↔ ∃ b, .known n b ∈ p := by
  rcases h with ⟨hd, b, _, q, r, rfl, _⟩ | ⟨hd, hk, _⟩
  · exact ⟨fun _ => ⟨b, by simp⟩, fun _ => hd⟩
  · exact ⟨fun h => absurd h hd, fun ⟨b, hb⟩ => absurd hb (hk b)⟩

theorem find_named {l : List (Str × Nat)} {n : Str} {s : Str × Nat}
    (h : l.find? (fun s => decide (s.1 = n)) = some s) : Named l n s.2 := by
  obtain ⟨h1, q, r, h2, h3⟩ := List.find?_eq_some_iff_append.1 h
  have h1 : s.1 = n := of_decide_eq_true h1
  refine ⟨q, r, by rw [h2, ← h1], fun b' hb => ?_⟩
  have := h3 _ hb
  simp at this

theorem named_find {l : List (Str × Nat)} {n : Str} {b : Nat} (h : Named l n b) :
    l.find? (fun s => decide (s.1 = n)) = some (n, b) := by
  rw [List.find?_eq_some_iff_append]
  obtain ⟨q, r, h1, h2⟩ := h
  refine ⟨by simp, q, r, h1, fun x hx => ?_⟩
  have : x.1 ≠ n := fun e => h2 x.2 (by rw [← e]; exact hx)
  simpa using this

/-- One import of a module of the standard library. -/
def stdStep (std : List (Str × Nat)) (i : Slot) : Slot :=
  if stdName i.name then
    match std.find? fun s => s.1 = i.name with
    | none => i
    | some s => { i with target := some s.2, score := matchMax i.name + 1 }
  else i

theorem stdStep_name (std : List (Str × Nat)) (i : Slot) : (stdStep std i).name = i.name := by
  unfold stdStep
  repeat' split
  all_goals rfl

theorem stdStep_exported (std : List (Str × Nat)) (i : Slot) :
    (stdStep std i).exported = i.exported := by
  unfold stdStep
  repeat' split
  all_goals rfl

theorem std_eq (std : List (Str × Nat)) (is : List Slot) :
    (∀ i ∈ is, Std i.name → ∃ b, Named std i.name b) ∧
      stdResolve std is = .ok (is.map (stdStep std), is.all fun i => stdName i.name) ∨
    (∃ i ∈ is, Std i.name ∧ ¬ ∃ b, Named std i.name b) ∧ stdResolve std is = .error .std := by
  induction is with
  | nil => exact Or.inl ⟨nofun, rfl⟩
  | cons i is ih =>
    unfold stdResolve
    by_cases hs : stdName i.name = true
    · rw [if_pos hs]
      cases hf : std.find? fun s => decide (s.1 = i.name) with
      | none =>
        refine Or.inr ⟨⟨i, List.mem_cons_self .., (stdName_iff _).1 hs, ?_⟩, rfl⟩
        rintro ⟨b, hb⟩
        rw [named_find hb] at hf
        cases hf
      | some s =>
        have hn := find_named hf
        rcases ih with ⟨h1, h2⟩ | ⟨⟨j, hj, h1⟩, h2⟩
        · refine Or.inl ⟨?_, ?_⟩
          · intro j hj hsj
            rcases List.mem_cons.1 hj with rfl | hj
            · exact ⟨_, hn⟩
            · exact h1 j hj hsj
          · simp only [h2]
            rw [List.map_cons, List.all_cons, hs, Bool.true_and]
            simp [stdStep, hs, hf]
        · exact Or.inr ⟨⟨j, List.mem_cons_of_mem _ hj, h1⟩, by simp only [h2]⟩
    · rw [if_neg hs]
      rcases ih with ⟨h1, h2⟩ | ⟨⟨j, hj, h1⟩, h2⟩
      · refine Or.inl ⟨?_, ?_⟩
        · intro j hj hsj
          rcases List.mem_cons.1 hj with rfl | hj
          · exact absurd ((stdName_iff _).2 hsj) hs
          · exact h1 j hj hsj
        · simp only [h2]
          rw [List.map_cons, List.all_cons, Bool.eq_false_iff.2 hs, Bool.false_and]
          simp [stdStep, hs]
      · exact Or.inr ⟨⟨j, List.mem_cons_of_mem _ hj, h1⟩, by simp only [h2]⟩

/-- What becomes of an import. -/
def final (std : List (Str × Nat)) (pool : List Entry) (i : Slot) : Slot :=
  pool.foldl step (stdStep std i)

theorem final_name (std : List (Str × Nat)) (pool : List Entry) (i : Slot) :
    (final std pool i).name = i.name := by rw [final, foldl_name, stdStep_name]

theorem final_exported (std : List (Str × Nat)) (pool : List Entry) (i : Slot) :
    (final std pool i).exported = i.exported := by rw [final, foldl_exported, stdStep_exported]

/-- The imports before anything. -/
def Fresh (i : Slot) : Prop := i.score = 0 ∧ i.target = none

theorem final_std {std : List (Str × Nat)} {pool : List Entry} {i : Slot} (hs : Std i.name)
    {b : Nat} (hb : Named std i.name b) :
    (final std pool i).target = some b ∧ Done (final std pool i) ∧
      final std pool i = stdStep std i := by
  have e : stdStep std i = { i with target := some b, score := matchMax i.name + 1 } := by
    simp [stdStep, (stdName_iff _).2 hs, named_find hb]
  have hd : Done (stdStep std i) := by
    rw [e]; exact Nat.lt_succ_self _
  have h : final std pool i = stdStep std i := foldl_done pool hd
  exact ⟨by rw [h, e], by rw [h]; exact hd, h⟩

theorem final_sofar {std : List (Str × Nat)} {pool : List Entry} {i : Slot} (hs : ¬ Std i.name)
    (h0 : Fresh i) (hl : i.name.length < 9998) (hf : ∀ f b, .file f b ∈ pool → f.length < 9998) :
    Sofar pool i.name (final std pool i) := by
  have e : stdStep std i = i := by
    have : ¬ stdName i.name = true := fun h => hs ((stdName_iff _).1 h)
    simp [stdStep, this]
  rw [final, e]
  have h1 : Sofar [] i.name i := by
    refine Or.inr ⟨?_, nofun, Or.inl ⟨h0.2, h0.1, nofun⟩⟩
    unfold Done
    rw [h0.1]
    exact Nat.not_lt_zero _
  exact foldl_sofar pool (p := []) hs hl hf h1

theorem final_target {std : List (Str × Nat)} {pool : List Entry} {i : Slot} (h0 : Fresh i)
    (hl : i.name.length < 9998) (hf : ∀ f b, .file f b ∈ pool → f.length < 9998)
    (hn : Std i.name → ∃ b, Named std i.name b) (b : Nat) :
    (final std pool i).target = some b ↔ Chosen score std pool i.name b := by
  by_cases hs : Std i.name
  · obtain ⟨c, hc⟩ := hn hs
    rw [(final_std (pool := pool) hs hc).1]
    constructor
    · intro h; injection h with e; subst e; exact Or.inl ⟨hs, hc⟩
    · rintro (⟨_, h⟩ | ⟨h, _⟩)
      · rw [named_unique hc h]
      · exact absurd hs h
  · rw [sofar_target (final_sofar (std := std) hs h0 hl hf)]
    exact ⟨fun h => Or.inr ⟨hs, h⟩, fun h => h.elim (fun h => absurd h.1 hs) (·.2)⟩

theorem done_target {std : List (Str × Nat)} {pool : List Entry} {i : Slot} (h0 : Fresh i)
    (hl : i.name.length < 9998) (hf : ∀ f b, .file f b ∈ pool → f.length < 9998)
    (hn : Std i.name → ∃ b, Named std i.name b) :
    Done (final std pool i) ↔ Std i.name ∨ ∃ b, .known i.name b ∈ pool := by
  by_cases hs : Std i.name
  · obtain ⟨c, hc⟩ := hn hs
    exact ⟨fun _ => Or.inl hs, fun _ => (final_std hs hc).2.1⟩
  · rw [sofar_done (final_sofar (std := std) hs h0 hl hf)]
    exact ⟨Or.inr, fun h => h.elim (fun h => absurd h hs) id⟩

/-- All of the resolution. -/
theorem resolve_eq {std : List (Str × Nat)} {pool : List Entry} {is : List Slot}
    (hN : (is.map (·.name)).Nodup) (h0 : ∀ i ∈ is, Fresh i)
    (hl : ∀ i ∈ is, i.name.length < 9998) (hf : ∀ f b, .file f b ∈ pool → f.length < 9998) :
    (∀ i ∈ is, ∃ b, Chosen score std pool i.name b) ∧
      resolve std pool is = .ok (is.map (final std pool)) ∨
    (∃ i ∈ is, ¬ ∃ b, Chosen score std pool i.name b) ∧
      (resolve std pool is = .error .std ∨ resolve std pool is = .error .unresolved) := by
  unfold resolve
  rcases std_eq std is with ⟨h1, h2⟩ | ⟨⟨i, hi, hs, hb⟩, h2⟩
  · rw [h2]
    cases ha : is.all fun i => stdName i.name with
    | true =>
      have hs : ∀ i ∈ is, Std i.name := fun i hi =>
        (stdName_iff _).1 (List.all_eq_true.1 ha i hi)
      refine Or.inl ⟨fun i hi => ?_, ?_⟩
      · obtain ⟨b, hb⟩ := h1 i hi (hs i hi)
        exact ⟨b, Or.inl ⟨hs i hi, hb⟩⟩
      · show Except.ok _ = Except.ok _
        congr 1
        refine List.map_congr_left fun i hi => ?_
        obtain ⟨b, hb⟩ := h1 i hi (hs i hi)
        exact (final_std (hs i hi) hb).2.2.symm
    | false =>
      have hN' : ((is.map (stdStep std)).map (·.name)).Nodup := by
        rw [map_names _ _ (stdStep_name std)]; exact hN
      obtain ⟨d, h3, h4⟩ := pool_eq pool (is.map (stdStep std)) hN'
      have hm : ((is.map (stdStep std)).map fun i => pool.foldl step i) =
          is.map (final std pool) := by rw [List.map_map]; rfl
      rw [hm] at h3 h4
      simp only [h3]
      have key : ∀ i ∈ is, ∀ b, (final std pool i).target = some b ↔
          Chosen score std pool i.name b := fun i hi =>
        final_target (h0 i hi) (hl i hi) hf (h1 i hi)
      cases d with
      | true =>
        refine Or.inl ⟨fun i hi => ?_, rfl⟩
        have hd := h4 rfl _ (List.mem_map_of_mem hi)
        rcases (done_target (h0 i hi) (hl i hi) hf (h1 i hi)).1 hd with hs | hs
        · obtain ⟨b, hb⟩ := h1 i hi hs
          exact ⟨b, Or.inl ⟨hs, hb⟩⟩
        · by_cases hst : Std i.name
          · obtain ⟨b, hb⟩ := h1 i hi hst
            exact ⟨b, Or.inl ⟨hst, hb⟩⟩
          · have hso := final_sofar (std := std) hst (h0 i hi) (hl i hi) hf
            rcases hso with ⟨_, b, hb, _⟩ | ⟨hnd, _⟩
            · exact ⟨b, (key i hi b).1 hb⟩
            · exact absurd hd hnd
      | false =>
        show _ ∧ (if _ then _ else _) = _ ∨ _ ∧ ((if _ then _ else _) = _ ∨ (if _ then _ else _) = _)
        by_cases hu : ∀ i ∈ is, ∃ b, Chosen score std pool i.name b
        · refine Or.inl ⟨hu, if_neg ?_⟩
          intro h
          obtain ⟨j, hj, h⟩ := List.any_eq_true.1 h
          obtain ⟨i, hi, rfl⟩ := List.mem_map.1 hj
          obtain ⟨b, hb⟩ := hu i hi
          rw [(key i hi b).2 hb] at h
          simp at h
        · have hu' : ∃ i ∈ is, ¬ ∃ b, Chosen score std pool i.name b := by
            apply Classical.byContradiction
            intro hc
            exact hu fun i hi => Classical.byContradiction fun h => hc ⟨i, hi, h⟩
          refine Or.inr ⟨hu', Or.inr (if_pos ?_)⟩
          obtain ⟨i, hi, hb⟩ := hu'
          rw [List.any_eq_true]
          refine ⟨_, List.mem_map_of_mem hi, ?_⟩
          have hst : ¬ Std i.name := fun hs => by
            obtain ⟨b, hb'⟩ := h1 i hi hs
            exact hb ⟨b, Or.inl ⟨hs, hb'⟩⟩
          have e1 : (final std pool i).target = none := by
            cases ht : (final std pool i).target with
            | none => rfl
            | some b => exact absurd ⟨b, (key i hi b).1 ht⟩ hb
          have e2 : stdName i.name = false :=
            Bool.eq_false_iff.2 fun h => hst ((stdName_iff _).1 h)
          rw [e1, final_name, e2]
          rfl
  · rw [h2]
    refine Or.inr ⟨⟨i, hi, ?_⟩, Or.inl rfl⟩
    rintro ⟨b, ⟨_, h⟩ | ⟨h, _⟩⟩
    · exact hb ⟨b, h⟩
    · exact h hs

end Verif.ModMap
