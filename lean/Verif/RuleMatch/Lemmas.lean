import Verif.RuleMatch.Model

/-!
# Rule matching: lemmas
-/

namespace Verif.RuleMatch

/-! ## Rule maps -/

theorem emplace_mem (lt : Name → Name → Bool) (e x : Entry) (es : List Entry) :
    x ∈ (emplace lt e es).1 ↔ x ∈ es ∨ (x = e ∧ ∀ y ∈ es, y.cand.name ≠ e.cand.name) := by
  induction es with
  | nil => simp [emplace]
  | cons z zs ih =>
    rw [emplace]
    by_cases h1 : z.cand.name = e.cand.name
    · rw [if_pos h1]
      constructor
      · exact .inl
      · rintro (h | ⟨_, h⟩)
        · exact h
        · exact absurd h1 (h z List.mem_cons_self)
    · rw [if_neg h1]
      by_cases h2 : (lt e.cand.name z.cand.name && !(zs.any (fun y => y.cand.name = e.cand.name))) = true
      · rw [if_pos h2]
        simp only [Bool.and_eq_true, Bool.not_eq_true', List.any_eq_false, decide_eq_true_eq] at h2
        simp only [List.mem_cons]
        constructor
        · rintro (h | h)
          · refine .inr ⟨h, ?_⟩
            rintro y (rfl | hy)
            · exact h1
            · exact h2.2 y hy
          · exact .inl h
        · rintro (h | ⟨h, _⟩)
          · exact .inr h
          · exact .inl h
      · rw [if_neg h2]
        simp only [List.mem_cons, ih]
        constructor
        · rintro (h | h | ⟨h, h'⟩)
          · exact .inl (.inl h)
          · exact .inl (.inr h)
          · refine .inr ⟨h, ?_⟩
            rintro y (rfl | hy)
            · exact h1
            · exact h' y hy
        · rintro ((h | h) | ⟨h, h'⟩)
          · exact .inl h
          · exact .inr (.inl h)
          · exact .inr (.inr ⟨h, fun y hy => h' y (.inr hy)⟩)

theorem emplace_new (lt : Name → Name → Bool) (e : Entry) (es : List Entry) :
    (emplace lt e es).2 = true ↔ ∀ y ∈ es, y.cand.name ≠ e.cand.name := by
  induction es with
  | nil => simp [emplace]
  | cons z zs ih =>
    rw [emplace]
    by_cases h1 : z.cand.name = e.cand.name
    · rw [if_pos h1]
      simp [h1]
    · rw [if_neg h1]
      by_cases h2 : (lt e.cand.name z.cand.name && !(zs.any (fun y => y.cand.name = e.cand.name))) = true
      · rw [if_pos h2]
        simp only [Bool.and_eq_true, Bool.not_eq_true', List.any_eq_false, decide_eq_true_eq] at h2
        simp only [List.mem_cons, true_iff]
        rintro y (rfl | hy)
        · exact h1
        · exact h2.2 y hy
      · rw [if_neg h2]
        simp only [List.mem_cons, ih]
        constructor
        · rintro h y (rfl | hy)
          · exact h1
          · exact h y hy
        · intro h y hy; exact h y (.inr hy)

/-- Names in a list of entries are unique. -/
def Unique (es : List Entry) : Prop := (es.map (fun e => e.cand.name)).Nodup

theorem emplace_unique (lt : Name → Name → Bool) (e : Entry) (es : List Entry) (h : Unique es) :
    Unique (emplace lt e es).1 := by
  induction es with
  | nil => simp [emplace, Unique]
  | cons z zs ih =>
    unfold Unique at h ih ⊢
    rw [List.map_cons, List.nodup_cons] at h
    rw [emplace]
    by_cases h1 : z.cand.name = e.cand.name
    · rw [if_pos h1, List.map_cons, List.nodup_cons]; exact h
    · rw [if_neg h1]
      by_cases h2 : (lt e.cand.name z.cand.name && !(zs.any (fun y => y.cand.name = e.cand.name))) = true
      · rw [if_pos h2]
        simp only [Bool.and_eq_true, Bool.not_eq_true', List.any_eq_false, decide_eq_true_eq] at h2
        rw [List.map_cons, List.nodup_cons, List.map_cons, List.nodup_cons]
        refine ⟨?_, h⟩
        intro hm
        rcases List.mem_cons.mp hm with hm | hm
        · exact h1 hm.symm
        · obtain ⟨y, hy, he⟩ := List.mem_map.mp hm
          exact h2.2 y hy he
      · rw [if_neg h2]
        show ((z :: (emplace lt e zs).1).map _).Nodup
        rw [List.map_cons, List.nodup_cons]
        refine ⟨?_, ih h.2⟩
        intro hm
        obtain ⟨y, hy, he⟩ := List.mem_map.mp hm
        rcases (emplace_mem lt e y zs).mp hy with hy | ⟨rfl, _⟩
        · exact h.1 (List.mem_map.mpr ⟨y, hy, he⟩)
        · exact h1 he.symm

/-- What is found in the map by type. -/
def typeEntries (l : List (Nat × List Entry)) (tt : Nat) : List Entry :=
  match l.find? (fun x => x.1 == tt) with
  | none => []
  | some (_, es) => es

theorem insertType_get (lt : Name → Name → Bool) (tt tt' : Nat) (e : Entry)
    (l : List (Nat × List Entry)) :
    typeEntries (insertType lt tt e l).1 tt' =
      (if tt' = tt then (emplace lt e (typeEntries l tt)).1 else typeEntries l tt') ∧
    (insertType lt tt e l).2 = (emplace lt e (typeEntries l tt)).2 := by
  induction l with
  | nil =>
    by_cases h : tt' = tt
    · subst h; simp [insertType, typeEntries, List.find?]
    · have h' : ¬ tt = tt' := fun e => h e.symm
      simp [insertType, typeEntries, List.find?, h, h']
  | cons a l ih =>
    obtain ⟨x, es⟩ := a
    rw [insertType]
    by_cases hx : x = tt
    · subst hx
      rw [if_pos rfl]
      by_cases h : tt' = x
      · subst h; simp [typeEntries, List.find?]
      · have h' : ¬ x = tt' := fun e => h e.symm
        simp [typeEntries, List.find?, h]
        rw [show (x == tt') = false by simpa using h']
    · rw [if_neg hx]
      have e1 : typeEntries ((x, es) :: l) tt = typeEntries l tt := by
        simp [typeEntries, List.find?]
        rw [show (x == tt) = false by simpa using hx]
      rw [e1]
      refine ⟨?_, ih.2⟩
      by_cases h : x = tt'
      · subst h
        rw [if_neg hx]
        simp [typeEntries, List.find?]
      · have e2 : ∀ l', typeEntries ((x, es) :: l') tt' = typeEntries l' tt' := by
          intro l'
          simp [typeEntries, List.find?]
          rw [show (x == tt') = false by simpa using h]
        rw [e2, e2]
        exact ih.1

/-- What is found in the map by operation and type. -/
def opEntries (m : OpMap) (o tt : Nat) : List Entry := typeEntries (m[o]?.getD []) tt

theorem resizeOp_get (m : OpMap) (o o' : Nat) : ((resizeOp m o)[o']?).getD [] = m[o']?.getD [] := by
  unfold resizeOp
  split
  · rw [List.getElem?_append]
    split
    · rfl
    · rename_i h
      rw [List.getElem?_replicate, List.getElem?_eq_none (l := m) (by omega)]
      repeat' split
      all_goals rfl
  · rfl

theorem resizeOp_lt (m : OpMap) (o : Nat) : o < (resizeOp m o).length := by
  unfold resizeOp
  split
  · rw [List.length_append, List.length_replicate]
    split <;> omega
  · omega

theorem insertOp_get (lt : Name → Name → Bool) (o o' tt tt' : Nat) (e : Entry) (m : OpMap) :
    opEntries (insertOp lt o tt e m).1 o' tt' =
      (if o' = o ∧ tt' = tt then (emplace lt e (opEntries m o tt)).1 else opEntries m o' tt') ∧
    (insertOp lt o tt e m).2 = (emplace lt e (opEntries m o tt)).2 := by
  simp only [insertOp, opEntries]
  rw [resizeOp_get]
  refine ⟨?_, (insertType_get lt tt tt e _).2⟩
  rw [List.getElem?_set]
  by_cases h : o = o'
  · subst h
    rw [if_pos rfl, if_pos (resizeOp_lt m o), Option.getD_some]
    rw [(insertType_get lt tt tt' e _).1]
    simp only [true_and]
  · rw [if_neg h, resizeOp_get, if_neg (by rintro ⟨rfl, _⟩; exact h rfl)]

theorem entries_eq (m : RuleMap) (mo o tt : Nat) :
    entries m mo o tt = opEntries (((m.find? (fun x => x.1 == mo)).map (·.2)).getD []) o tt := by
  unfold entries opEntries typeEntries
  cases m.find? (fun x => x.1 == mo) with
  | none => simp
  | some a =>
    obtain ⟨x, om⟩ := a
    simp only [Option.map_some, Option.getD_some]
    cases om[o]? with
    | none => simp
    | some ttm => rfl

theorem insertRule_get (lt : Name → Name → Bool) (mo mo' o o' tt tt' : Nat) (e : Entry)
    (m : RuleMap) :
    entries (insertRule lt mo o tt e m).1 mo' o' tt' =
      (if mo' = mo ∧ o' = o ∧ tt' = tt then (emplace lt e (entries m mo o tt)).1
       else entries m mo' o' tt') ∧
    (insertRule lt mo o tt e m).2 = (emplace lt e (entries m mo o tt)).2 := by
  induction m with
  | nil =>
    have hnil : ∀ x y z, entries [] x y z = [] := by intro x y z; simp [entries]
    have hop : opEntries [] o tt = [] := by simp [opEntries, typeEntries]
    rw [insertRule, hnil, hnil]
    have i1 := insertOp_get lt o o' tt tt' e []
    rw [hop] at i1
    refine ⟨?_, i1.2⟩
    rw [entries_eq]
    by_cases h : mo = mo'
    · subst h
      simp only [List.find?_cons, beq_self_eq_true, Option.map_some, Option.getD_some, true_and]
      rw [i1.1]
      simp [opEntries, typeEntries]
    · simp only [List.find?_cons, show (mo == mo') = false by simpa using h, List.find?_nil,
        Option.map_none, Option.getD_none]
      rw [if_neg (by rintro ⟨rfl, _⟩; exact h rfl)]
      simp [opEntries, typeEntries]
  | cons a m ih =>
    obtain ⟨x, om⟩ := a
    rw [insertRule]
    by_cases hx : x = mo
    · subst hx
      rw [if_pos rfl]
      have e1 : entries ((x, om) :: m) x o tt = opEntries om o tt := by
        rw [entries_eq]; simp
      rw [e1]
      have i1 := insertOp_get lt o o' tt tt' e om
      refine ⟨?_, i1.2⟩
      by_cases h : x = mo'
      · subst h
        rw [entries_eq]
        simp only [List.find?_cons, beq_self_eq_true, Option.map_some, Option.getD_some, true_and]
        rw [i1.1, entries_eq]
        simp
      · rw [if_neg (by rintro ⟨rfl, _⟩; exact h rfl)]
        simp [entries, show (x == mo') = false by simpa using h]
    · rw [if_neg hx]
      have e1 : ∀ y z w l, ¬ x = y → entries ((x, om) :: l) y z w = entries l y z w := by
        intro y z w l h
        simp [entries, show (x == y) = false by simpa using h]
      rw [e1 mo o tt m hx]
      refine ⟨?_, ih.2⟩
      by_cases h : x = mo'
      · subst h
        rw [if_neg (by rintro ⟨h, _⟩; exact hx h)]
        simp [entries]
      · rw [e1 _ _ _ _ h, e1 _ _ _ _ h]
        exact ih.1

/-! ## The search -/

theorem Outcome.orElse_none (f : Unit → Outcome) : Outcome.orElse .none f = f () := rfl

theorem Outcome.orElse_some {r : Outcome} (h : r ≠ .none) (f : Unit → Outcome) :
    Outcome.orElse r f = r := by
  cases r <;> simp_all [Outcome.orElse]

/-- The first that is not none. -/
theorem first_spec {α : Type} (f : α → Outcome) (search : List α → Outcome)
    (hn : search [] = .none) (hc : ∀ x xs, search (x :: xs) = (f x).orElse (fun _ => search xs))
    (l : List α) :
    (search l = .none ∧ ∀ (i : Nat) x, l[i]? = some x → f x = .none) ∨
    ∃ (i : Nat) (x : α), l[i]? = some x ∧ f x = search l ∧ f x ≠ .none ∧
      ∀ (j : Nat) y, l[j]? = some y → f y ≠ .none → i ≤ j := by
  induction l with
  | nil => left; simp [hn]
  | cons a l ih =>
    rw [hc]
    by_cases h : f a = .none
    · rw [h, Outcome.orElse_none]
      rcases ih with ⟨h1, h2⟩ | ⟨i, x, h1, h2, h3, h4⟩
      · left
        refine ⟨h1, ?_⟩
        intro i x hx
        cases i with
        | zero => simp at hx; subst hx; exact h
        | succ i => simp at hx; exact h2 i x hx
      · right
        refine ⟨i + 1, x, by simpa using h1, h2, h3, ?_⟩
        intro j y hy hne
        cases j with
        | zero => simp at hy; subst hy; exact absurd h hne
        | succ j => simp at hy; exact Nat.succ_le_succ (h4 j y hy hne)
    · right
      rw [Outcome.orElse_some h]
      exact ⟨0, a, by simp, rfl, h, fun j _ _ _ => Nat.zero_le j⟩

/-- The outcome for a list of matching rules. -/
def classify (mo o tt oi : Nat) : List Entry → Outcome
  | [] => .none
  | [e] => match resolve mo o tt oi e with | some c => .matched c | none => .none
  | _ :: _ :: _ => .ambiguous

/-- Not the one to skip. -/
def NotSkipped (v : Env) (tt oi : Nat) (es : List Entry) : Prop :=
  ∀ e ∈ es, ∀ c, resolve v.mo v.o tt oi e = some c → alsoMatches v tt oi e = true →
    some c.obj ≠ v.skip

theorem scan_spec (v : Env) (tt oi : Nat) (es : List Entry) (hs : NotSkipped v tt oi es) :
    scan v tt oi es = classify v.mo v.o tt oi (es.filter (alsoMatches v tt oi)) := by
  induction es with
  | nil => rfl
  | cons e es ih =>
    have ih' := ih (fun e' he' => hs e' (List.mem_cons_of_mem _ he'))
    rw [scan, List.filter_cons]
    cases hr : resolve v.mo v.o tt oi e with
    | none =>
      have : alsoMatches v tt oi e = false := by simp [alsoMatches, hr]
      simp only [this, Bool.false_eq_true, if_false]
      exact ih'
    | some c =>
      simp only
      by_cases hl : (!v.locked && !c.adhoc) = true
      · have : alsoMatches v tt oi e = false := by simp only [alsoMatches, hr]; rw [if_pos hl]
        simp only [this, Bool.false_eq_true, if_false]
        rw [if_pos hl]; exact ih'
      · rw [if_neg hl]
        have ha : alsoMatches v tt oi e = v.m c.obj v.hint (oi = 0) := by
          simp only [alsoMatches, hr]; rw [if_neg hl]
        by_cases hm : v.m c.obj v.hint (oi = 0) = true
        · have hns : some c.obj ≠ v.skip := hs e List.mem_cons_self c hr (ha.trans hm)
          rw [if_neg hns, if_neg (by simp [hm]), ha, hm, if_pos rfl]
          by_cases hany : es.any (alsoMatches v tt oi) = true
          · rw [if_pos hany]
            obtain ⟨x, hx, hx'⟩ := List.any_eq_true.mp hany
            cases hfl : es.filter (alsoMatches v tt oi) with
            | nil =>
              have := List.filter_eq_nil_iff.mp hfl x hx
              exact absurd hx' this
            | cons y ys => rfl
          · rw [if_neg hany]
            have hfl : es.filter (alsoMatches v tt oi) = [] := by
              rw [List.filter_eq_nil_iff]
              intro x hx hx'
              exact hany (List.any_eq_true.mpr ⟨x, hx, hx'⟩)
            rw [hfl, classify, hr]
        · have hmf : v.m c.obj v.hint (oi = 0) = false := by simpa using hm
          rw [ha, hmf]
          simp only [Bool.false_eq_true, if_false, Bool.not_false, if_true]
          split <;> exact ih'

theorem alsoMatches_resolve {v : Env} {tt oi : Nat} {e : Entry}
    (h : alsoMatches v tt oi e = true) : ∃ c, resolve v.mo v.o tt oi e = some c := by
  cases hr : resolve v.mo v.o tt oi e with
  | none => simp [alsoMatches, hr] at h
  | some c => exact ⟨c, rfl⟩

theorem classify_none {v : Env} {tt oi : Nat} {es : List Entry} :
    classify v.mo v.o tt oi (es.filter (alsoMatches v tt oi)) = .none ↔
      es.filter (alsoMatches v tt oi) = [] := by
  cases h : es.filter (alsoMatches v tt oi) with
  | nil => simp [classify]
  | cons e l =>
    have he : e ∈ es.filter (alsoMatches v tt oi) := by rw [h]; exact List.mem_cons_self
    obtain ⟨c, hc⟩ := alsoMatches_resolve (List.mem_filter.mp he).2
    cases l with
    | nil => simp [classify, hc]
    | cons a l => simp [classify]

end Verif.RuleMatch
