import Verif.RulePat.Model

/-! # Ad hoc pattern rules: lemmas -/

namespace Verif.RulePat

/-! ## The matcher -/

theorem dropPrefix_iff (fold : Nat → Nat) (p s t : Str) :
    dropPrefix fold p s = some t ↔ ∃ u, s = u ++ t ∧ u.map fold = p.map fold := by
  induction p generalizing s with
  | nil =>
    constructor
    · intro h; cases h; exact ⟨[], rfl, rfl⟩
    · rintro ⟨u, rfl, h⟩
      have : u = [] := by simpa using h
      subst this; rfl
  | cons c p ih =>
    cases s with
    | nil =>
      constructor
      · intro h; cases h
      · rintro ⟨u, h1, h2⟩
        have : u = [] := (List.append_eq_nil_iff.1 h1.symm).1
        subst this; cases h2
    | cons d s =>
      rw [dropPrefix]
      constructor
      · intro h
        split at h
        · rename_i hc
          obtain ⟨u, rfl, hu⟩ := (ih s).1 h
          exact ⟨d :: u, rfl, by simp [hu, hc]⟩
        · cases h
      · rintro ⟨u, h1, h2⟩
        cases u with
        | nil => cases h2
        | cons x u =>
          simp only [List.cons_append, List.cons.injEq] at h1
          simp only [List.map_cons, List.cons.injEq] at h2
          obtain ⟨rfl, rfl⟩ := h1
          rw [if_pos h2.1.symm]
          exact (ih _).2 ⟨u, rfl, h2.2⟩

/-- What is left is a part of what there was. -/
def Shrinks (f : Env → Str → List (Env × Str)) : Prop :=
  ∀ e s x, x ∈ f e s → ∃ u, s = u ++ x.2

theorem iters_iff (fold : Nat → Nat) (r : Re) (f : Env → Str → List (Env × Str))
    (hf : ∀ e s e' t, (e', t) ∈ f e s ↔ ∃ u, s = u ++ t ∧ Sat fold r e u e') (n : Nat) :
    ∀ e s e' t, s.length ≤ n →
      ((e', t) ∈ iters f n e s ↔ ∃ u, s = u ++ t ∧ Sat fold (.star r) e u e') := by
  have star_inv : ∀ e u e', Sat fold (.star r) e u e' →
      (u = [] ∧ e' = e) ∨ ∃ a e1 b, u = a ++ b ∧ a ≠ [] ∧ Sat fold r e a e1 ∧
        Sat fold (.star r) e1 b e' := by
    intro e u e' h
    cases h with
    | done => exact Or.inl ⟨rfl, rfl⟩
    | more h1 h2 h3 => exact Or.inr ⟨_, _, _, rfl, h2, h1, h3⟩
  induction n with
  | zero =>
    intro e s e' t hn
    have : s = [] := List.length_eq_zero_iff.1 (by omega)
    subst this
    simp only [iters, List.mem_singleton, Prod.mk.injEq]
    constructor
    · rintro ⟨rfl, rfl⟩; exact ⟨[], rfl, .done⟩
    · rintro ⟨u, h1, h2⟩
      obtain ⟨rfl, rfl⟩ := List.append_eq_nil_iff.1 h1.symm
      rcases star_inv _ _ _ h2 with ⟨_, rfl⟩ | ⟨a, e1, b, h3, h4, _⟩
      · exact ⟨rfl, rfl⟩
      · exact absurd (List.append_eq_nil_iff.1 h3.symm).1 h4
  | succ n ih =>
    intro e s e' t hn
    simp only [iters, List.mem_append, List.mem_flatMap, List.mem_filter, decide_eq_true_eq,
      List.mem_singleton, Prod.mk.injEq]
    constructor
    · rintro (⟨⟨e1, s1⟩, ⟨h1, h2⟩, h3⟩ | ⟨rfl, rfl⟩)
      · obtain ⟨u, rfl, hu⟩ := (hf _ _ _ _).1 h1
        simp only [List.length_append] at h2 hn
        obtain ⟨v, rfl, hv⟩ := (ih e1 s1 e' t (by omega)).1 h3
        refine ⟨u ++ v, by simp, .more hu ?_ hv⟩
        intro h; subst h; simp at h2
      · exact ⟨[], rfl, .done⟩
    · rintro ⟨u, rfl, hu⟩
      rcases star_inv _ _ _ hu with ⟨rfl, rfl⟩ | ⟨a, e1, b, rfl, h4, h5, h6⟩
      · exact Or.inr ⟨rfl, rfl⟩
      · have ha : 0 < a.length := List.length_pos_iff.2 h4
        simp only [List.length_append] at hn
        refine Or.inl ⟨(e1, b ++ t), ⟨(hf _ _ _ _).2 ⟨a, by simp, h5⟩, ?_⟩, ?_⟩
        · simp only [List.length_append]; omega
        · exact (ih e1 (b ++ t) e' t (by simp only [List.length_append]; omega)).2 ⟨b, rfl, h6⟩

theorem take_sub (u t : Str) : (u ++ t).take ((u ++ t).length - t.length) = u := by
  rw [List.length_append, Nat.add_sub_cancel]
  simp

/-- The ways are exactly those in which it matches. -/
theorem ways_iff (fold : Nat → Nat) (r : Re) : ∀ e s e' t,
    (e', t) ∈ ways fold r e s ↔ ∃ u, s = u ++ t ∧ Sat fold r e u e' := by
  induction r with
  | eps =>
    intro e s e' t
    simp only [ways, List.mem_singleton, Prod.mk.injEq]
    constructor
    · rintro ⟨rfl, rfl⟩; exact ⟨[], rfl, .eps⟩
    · rintro ⟨u, rfl, h⟩; cases h; exact ⟨rfl, rfl⟩
  | chr p =>
    intro e s e' t
    constructor
    · intro h
      cases s with
      | nil => cases h
      | cons c s =>
        simp only [ways] at h
        split at h
        · rename_i hc
          simp only [List.mem_singleton, Prod.mk.injEq] at h
          obtain ⟨rfl, rfl⟩ := h
          exact ⟨[c], rfl, .chr hc⟩
        · cases h
    · rintro ⟨u, rfl, h⟩
      cases h with
      | chr hc => simp [ways, hc]
  | seq a b iha ihb =>
    intro e s e' t
    simp only [ways, List.mem_flatMap]
    constructor
    · rintro ⟨⟨e1, s1⟩, h1, h2⟩
      obtain ⟨u, rfl, hu⟩ := (iha _ _ _ _).1 h1
      obtain ⟨v, rfl, hv⟩ := (ihb _ _ _ _).1 h2
      exact ⟨u ++ v, by simp, .seq hu hv⟩
    · rintro ⟨u, rfl, h⟩
      cases h with
      | seq h1 h2 =>
        rename_i s1 e1 t1
        exact ⟨(e1, t1 ++ t), (iha _ _ _ _).2 ⟨s1, by simp, h1⟩, (ihb _ _ _ _).2 ⟨t1, rfl, h2⟩⟩
  | alt a b iha ihb =>
    intro e s e' t
    simp only [ways, List.mem_append, iha, ihb]
    constructor
    · rintro (⟨u, h1, h2⟩ | ⟨u, h1, h2⟩)
      · exact ⟨u, h1, .left h2⟩
      · exact ⟨u, h1, .right h2⟩
    · rintro ⟨u, h1, h⟩
      cases h with
      | left h => exact Or.inl ⟨u, h1, h⟩
      | right h => exact Or.inr ⟨u, h1, h⟩
  | star r ih =>
    intro e s e' t
    exact iters_iff fold r _ ih s.length e s e' t (Nat.le_refl _)
  | grp i r ih =>
    intro e s e' t
    simp only [ways, List.mem_map, Prod.mk.injEq]
    constructor
    · rintro ⟨⟨e1, s1⟩, h1, h2, rfl⟩
      obtain ⟨u, rfl, hu⟩ := (ih _ _ _ _).1 h1
      simp only at h2 ⊢
      rw [take_sub] at h2
      subst h2
      exact ⟨u, rfl, .grp hu⟩
    · rintro ⟨u, rfl, h⟩
      cases h with
      | grp h =>
        rename_i e1
        exact ⟨(e1, t), (ih _ _ _ _).2 ⟨u, rfl, h⟩, by simp only [take_sub], rfl⟩
  | ref i =>
    intro e s e' t
    simp only [ways]
    constructor
    · intro h
      split at h
      · rename_i s1 hs
        simp only [List.mem_singleton, Prod.mk.injEq] at h
        obtain ⟨rfl, rfl⟩ := h
        obtain ⟨u, rfl, hu⟩ := (dropPrefix_iff _ _ _ _).1 hs
        exact ⟨u, rfl, .ref hu⟩
      · cases h
    · rintro ⟨u, rfl, h⟩
      cases h with
      | ref h =>
        rw [(dropPrefix_iff fold _ _ _).2 ⟨u, rfl, h⟩]
        simp

theorem full_iff (fold : Nat → Nat) (r : Re) (e : Env) (s : Str) (e' : Env) :
    e' ∈ full fold r e s ↔ Sat fold r e s e' := by
  simp only [full, List.mem_map, List.mem_filter, List.isEmpty_iff]
  constructor
  · rintro ⟨⟨e1, t⟩, ⟨h1, h2⟩, rfl⟩
    obtain ⟨u, rfl, hu⟩ := (ways_iff _ _ _ _ _ _).1 h1
    simp only at h2
    subst h2
    simpa using hu
  · intro h
    exact ⟨(e', []), ⟨(ways_iff _ _ _ _ _ _).2 ⟨s, by simp, h⟩, rfl⟩, rfl⟩

/-! ## Locality: what comes later does not matter for what is matched before it -/

theorem flatMap_keep {α β : Type} (P : α → Bool) (h : α → List β) (l : List α)
    (hn : ∀ x ∈ l, P x = false → h x = []) : l.flatMap h = (l.filter P).flatMap h := by
  induction l with
  | nil => rfl
  | cons a l ih =>
    have ih' := ih fun x hx => hn x (by simp [hx])
    cases hp : P a with
    | true => simp [hp, ih']
    | false => simp [hp, hn a (by simp) hp, ih']

/-- Those in which at least `t` is left. -/
def keep (t : Str) (l : List (Env × Str)) : List (Env × Str) :=
  l.filter fun x => t.length ≤ x.2.length

/-- The same with `t` after what is left. -/
def addTail (t : Str) (l : List (Env × Str)) : List (Env × Str) :=
  l.map fun x => (x.1, x.2 ++ t)

theorem keep_append (t : Str) (a b : List (Env × Str)) : keep t (a ++ b) = keep t a ++ keep t b :=
  List.filter_append ..

theorem keep_flatMap (t : Str) {α : Type} (l : List α) (f : α → List (Env × Str)) :
    keep t (l.flatMap f) = l.flatMap fun x => keep t (f x) := by
  induction l with
  | nil => rfl
  | cons a l ih => simp only [List.flatMap_cons, keep_append, ih]

/-- `f` is local. -/
def Local (f : Env → Str → List (Env × Str)) : Prop :=
  ∀ e s t, keep t (f e (s ++ t)) = addTail t (f e s)

theorem keep_short (t : Str) (f : Env → Str → List (Env × Str)) (hf : Shrinks f) (e : Env)
    (s : Str) (h : s.length < t.length) : keep t (f e s) = [] := by
  refine List.filter_eq_nil_iff.2 ?_
  intro x hx
  obtain ⟨u, hu⟩ := hf e s x hx
  have := congrArg List.length hu
  simp only [List.length_append] at this
  simp only [decide_eq_true_eq]
  omega

theorem seq_local {f g : Env → Str → List (Env × Str)} (hf : Local f) (hg : Local g)
    (sg : Shrinks g) (e : Env) (s t : Str) :
    keep t ((f e (s ++ t)).flatMap fun r => g r.1 r.2) =
      addTail t ((f e s).flatMap fun r => g r.1 r.2) := by
  rw [keep_flatMap, flatMap_keep (fun x => decide (t.length ≤ x.2.length)) _ _
    (fun x _ hx => keep_short t g sg x.1 x.2 (by simpa using hx))]
  show (keep t (f e (s ++ t))).flatMap _ = _
  rw [hf]
  unfold addTail
  rw [List.flatMap_map, List.map_flatMap]
  congr 1
  funext x
  exact hg x.1 x.2 t

theorem iters_shrinks (f : Env → Str → List (Env × Str)) (hf : Shrinks f) (n : Nat) :
    Shrinks (iters f n) := by
  induction n with
  | zero =>
    intro e s x hx
    simp only [iters, List.mem_singleton] at hx
    subst hx; exact ⟨[], rfl⟩
  | succ n ih =>
    intro e s x hx
    simp only [iters, List.mem_append, List.mem_flatMap, List.mem_filter,
      List.mem_singleton] at hx
    rcases hx with ⟨y, ⟨h1, _⟩, h2⟩ | rfl
    · obtain ⟨u, hu⟩ := hf e s y h1
      obtain ⟨v, hv⟩ := ih y.1 y.2 x h2
      exact ⟨u ++ v, by rw [hu, hv]; simp⟩
    · exact ⟨[], rfl⟩

/-- More iterations than there are characters do not matter. -/
theorem iters_more (f : Env → Str → List (Env × Str)) (n : Nat) :
    ∀ m e s, s.length ≤ n → s.length ≤ m → iters f n e s = iters f m e s := by
  have empty : ∀ e (s : Str), s.length = 0 →
      ((f e s).filter fun r => decide (r.2.length < s.length)) = [] := by
    intro e s hs
    refine List.filter_eq_nil_iff.2 ?_
    intro x _
    simp [hs]
  induction n with
  | zero =>
    intro m e s h _
    cases m with
    | zero => rfl
    | succ m => simp only [iters]; rw [empty e s (by omega)]; rfl
  | succ n ih =>
    intro m e s h hm
    cases m with
    | zero => simp only [iters]; rw [empty e s (by omega)]; rfl
    | succ m =>
      simp only [iters]
      congr 1
      rw [List.flatMap_def, List.flatMap_def]
      congr 1
      refine List.map_congr_left ?_
      intro x hx
      simp only [List.mem_filter, decide_eq_true_eq] at hx
      exact ih m x.1 x.2 (by omega) (by omega)

theorem iters_local (f : Env → Str → List (Env × Str)) (hf : Local f) (sf : Shrinks f) :
    ∀ n e s t, (s ++ t).length ≤ n →
      keep t (iters f n e (s ++ t)) = addTail t (iters f s.length e s) := by
  intro n
  induction n with
  | zero =>
    intro e s t h
    have h0 : s ++ t = [] := List.length_eq_zero_iff.1 (by omega)
    obtain ⟨rfl, rfl⟩ := List.append_eq_nil_iff.1 h0
    rfl
  | succ n ih =>
    intro e s t h
    rw [iters_more f s.length (s.length + 1) e s (Nat.le_refl _) (by omega)]
    simp only [iters]
    rw [keep_append]
    unfold addTail
    rw [List.map_append]
    congr 1
    · rw [keep_flatMap, flatMap_keep (fun x => decide (t.length ≤ x.2.length)) _ _
        (fun x _ hx => keep_short t _ (iters_shrinks f sf n) x.1 x.2 (by simpa using hx))]
      rw [List.filter_filter]
      have hsw : ((f e (s ++ t)).filter fun a => decide (t.length ≤ a.2.length) &&
          decide (a.2.length < (s ++ t).length)) =
          (keep t (f e (s ++ t))).filter fun a => decide (a.2.length < (s ++ t).length) := by
        unfold keep
        rw [List.filter_filter]
        congr 1
        funext a
        exact Bool.and_comm _ _
      rw [hsw, hf]
      unfold addTail
      rw [List.filter_map, List.flatMap_map, List.map_flatMap]
      have hfl : ((f e s).filter ((fun a => decide (a.2.length < (s ++ t).length)) ∘
          fun x => (x.1, x.2 ++ t))) = (f e s).filter fun r => decide (r.2.length < s.length) := by
        congr 1
        funext a
        simp
      rw [hfl, List.flatMap_def, List.flatMap_def]
      congr 1
      refine List.map_congr_left ?_
      intro x hx
      simp only [List.mem_filter, decide_eq_true_eq] at hx
      simp only [List.length_append] at h
      rw [ih x.1 x.2 t (by simp only [List.length_append]; omega),
        iters_more f x.2.length s.length x.1 x.2 (Nat.le_refl _) (by omega)]
      rfl
    · simp [keep]

theorem ways_shrinks (fold : Nat → Nat) (r : Re) : Shrinks (ways fold r) := by
  intro e s x hx
  obtain ⟨u, hu, _⟩ := (ways_iff fold r e s x.1 x.2).1 hx
  exact ⟨u, hu⟩

theorem dropPrefix_local (fold : Nat → Nat) (p s t : Str) :
    (match dropPrefix fold p (s ++ t) with
      | some x => if t.length ≤ x.length then some x else none
      | none => none) = (dropPrefix fold p s).map (· ++ t) := by
  induction p generalizing s with
  | nil => simp [dropPrefix]
  | cons c p ih =>
    cases s with
    | nil =>
      simp only [List.nil_append]
      show _ = none
      cases h : dropPrefix fold (c :: p) t with
      | none => rfl
      | some x =>
        obtain ⟨u, hu, hm⟩ := (dropPrefix_iff _ _ _ _).1 h
        have : u ≠ [] := by intro h0; subst h0; cases hm
        have : 0 < u.length := List.length_pos_iff.2 this
        have hl := congrArg List.length hu
        simp only [List.length_append] at hl
        simp only
        rw [if_neg (by omega)]
    | cons d s =>
      simp only [List.cons_append, dropPrefix]
      by_cases hc : fold c = fold d
      · simp only [hc, if_true]; exact ih s
      · simp only [hc, if_false]; rfl

theorem ways_local (fold : Nat → Nat) (r : Re) : Local (ways fold r) := by
  induction r with
  | eps => intro e s t; simp [ways, keep, addTail]
  | chr p =>
    intro e s t
    cases s with
    | nil =>
      cases t with
      | nil => rfl
      | cons c t =>
        simp only [List.nil_append, ways, addTail, List.map_nil]
        split <;> simp [keep]
    | cons c s =>
      simp only [List.cons_append, ways]
      split <;> simp [keep, addTail]
  | seq a b iha ihb => intro e s t; exact seq_local iha ihb (ways_shrinks fold b) e s t
  | alt a b iha ihb =>
    intro e s t
    simp only [ways, keep_append, iha e s t, ihb e s t]
    simp [addTail]
  | star r ih =>
    intro e s t
    exact iters_local _ ih (ways_shrinks fold r) _ e s t (Nat.le_refl _)
  | grp i r ih =>
    intro e s t
    have := ih e s t
    simp only [ways]
    unfold keep at this ⊢
    rw [List.filter_map]
    show List.map _ ((ways fold r e (s ++ t)).filter fun x => decide (t.length ≤ x.2.length)) = _
    rw [this]
    simp only [addTail, List.map_map]
    refine List.map_congr_left ?_
    intro x hx
    obtain ⟨u, rfl⟩ := ways_shrinks fold r e s x hx
    simp only [Function.comp, Prod.mk.injEq, and_true]
    congr 1
    rw [take_sub, List.append_assoc, take_sub]
  | ref i =>
    intro e s t
    have := dropPrefix_local fold ((e i).getD []) s t
    simp only [ways]
    cases h1 : dropPrefix fold ((e i).getD []) (s ++ t) with
    | none =>
      rw [h1] at this
      cases h2 : dropPrefix fold ((e i).getD []) s with
      | none => rfl
      | some y => rw [h2] at this; cases this
    | some x =>
      rw [h1] at this
      simp only at this
      cases h2 : dropPrefix fold ((e i).getD []) s with
      | none =>
        rw [h2] at this
        split at this
        · cases this
        · rename_i hx; simp [keep, addTail, hx]
      | some y =>
        rw [h2] at this
        split at this
        · rename_i hx
          simp only [Option.map_some, Option.some.injEq] at this
          subst this
          simp [keep, addTail]
        · cases this

/-! ## Concatenation -/

/-- With slashes in between. -/
def joinRe : List Re → Re
  | [] => .eps
  | [r] => r
  | r :: rs => .seq r (.seq (.chr (· == 47)) (joinRe rs))

/-- One after the other: the ways in which all of them match their names. -/
def each (fold : Nat → Nat) : List Re → List Str → Env → List Env
  | [], [], e => [e]
  | r :: rs, n :: ns, e => (full fold r e n).flatMap (each fold rs ns)
  | _, _, _ => []

/-- `fold` leaves slashes, and only slashes, slashes. -/
def SlashFixed (fold : Nat → Nat) : Prop := ∀ c, fold c = 47 ↔ c = 47

theorem sat_count (fold : Nat → Nat) (hf : SlashFixed fold) (rs : List Re) :
    ∀ e s e', Sat fold (joinRe rs) e s e' → rs.length ≤ s.count 47 + 1 := by
  induction rs with
  | nil => intro e s e' _; simp
  | cons r rs ih =>
    intro e s e' h
    cases rs with
    | nil => simp
    | cons r2 rs =>
      rw [show joinRe (r :: r2 :: rs) = .seq r (.seq (.chr (· == 47)) (joinRe (r2 :: rs))) from rfl]
        at h
      cases h with
      | seq h1 h2 =>
        cases h2 with
        | seq h3 h4 =>
          cases h3 with
          | chr hc =>
            rename_i c
            have : c = 47 := (hf c).1 (by simpa using hc)
            subst this
            have := ih _ _ _ h4
            simp only [List.length_cons, List.count_append, List.count_cons_self] at this ⊢
            omega

theorem full_seq (fold : Nat → Nat) (a b : Re) (e : Env) (s : Str) :
    full fold (.seq a b) e s = (ways fold a e s).flatMap fun x => full fold b x.1 x.2 := by
  simp only [full, ways]
  induction ways fold a e s with
  | nil => rfl
  | cons x xs ih => simp only [List.flatMap_cons, List.filter_append, List.map_append, ih]

theorem count_signature (ns : List Str) (h : ∀ n ∈ ns, 47 ∉ n) :
    (signature ns).count 47 = ns.length - 1 := by
  induction ns with
  | nil => rfl
  | cons n ns ih =>
    have hn : n.count 47 = 0 := List.count_eq_zero.2 (h n (by simp))
    cases ns with
    | nil => simpa [signature] using hn
    | cons m ns =>
      have := ih fun x hx => h x (by simp [hx])
      rw [show signature (n :: m :: ns) = n ++ 47 :: signature (m :: ns) from rfl]
      simp only [List.count_append, List.count_cons_self, hn, this, List.length_cons]
      omega

theorem full_sep (fold : Nat → Nat) (hf : SlashFixed fold) (j : Re) (e : Env) (s : Str) :
    full fold (.seq (.chr (· == 47)) j) e s =
      match s with
      | c :: s => if c = 47 then full fold j e s else []
      | [] => [] := by
  rw [full_seq]
  cases s with
  | nil => rfl
  | cons c s =>
    simp only [ways]
    by_cases hc : c = 47
    · have : fold c = 47 := (hf c).2 hc
      simp [hc, (hf 47).2 rfl]
    · have : ¬ fold c = 47 := fun h => hc ((hf c).1 h)
      simp [hc, this]

/-- The concatenation matches the names with slashes in between exactly if every expression
matches its name, in the same ways and in the same order. -/
theorem full_join (fold : Nat → Nat) (hf : SlashFixed fold) (rs : List Re) :
    ∀ (ns : List Str) (e : Env), rs.length = ns.length → rs ≠ [] → (∀ n ∈ ns, 47 ∉ n) →
      full fold (joinRe rs) e (signature ns) = each fold rs ns e := by
  induction rs with
  | nil => intro ns e _ h; exact absurd rfl h
  | cons r rs ih =>
    intro ns e hl _ hn
    cases ns with
    | nil => cases hl
    | cons n ns =>
      cases rs with
      | nil =>
        cases ns with
        | cons m ns => simp at hl
        | nil =>
          simp only [joinRe, signature, each]
          induction full fold r e n with
          | nil => rfl
          | cons a l ih => simp
      | cons r2 rs =>
        cases ns with
        | nil => simp at hl
        | cons m ns =>
          have hlen : (r2 :: rs).length = (m :: ns).length := by simpa using hl
          have hn' : ∀ x ∈ m :: ns, 47 ∉ x := fun x hx => hn x (by simp [hx])
          have ih' := fun e => ih (m :: ns) e hlen (by simp) hn'
          rw [show joinRe (r :: r2 :: rs) =
            .seq r (.seq (.chr (· == 47)) (joinRe (r2 :: rs))) from rfl, full_seq]
          rw [show signature (n :: m :: ns) = n ++ 47 :: signature (m :: ns) from rfl]
          -- Nothing after the name is consumed.
          rw [flatMap_keep
            (fun x => decide ((47 :: signature (m :: ns)).length ≤ x.2.length))]
          · have hk := ways_local fold r e n (47 :: signature (m :: ns))
            unfold keep at hk
            rw [hk]
            simp only [addTail, List.flatMap_map, full_sep fold hf]
            rw [show each fold (r :: r2 :: rs) (n :: m :: ns) e =
              (full fold r e n).flatMap (each fold (r2 :: rs) (m :: ns)) from rfl]
            unfold full
            rw [List.flatMap_map]
            rw [flatMap_keep (fun x => x.2.isEmpty) _ (ways fold r e n)]
            · rw [List.flatMap_def, List.flatMap_def]
              congr 1
              refine List.map_congr_left ?_
              intro x hx
              simp only [List.mem_filter, List.isEmpty_iff] at hx
              rw [hx.2]
              simp only [List.nil_append, if_true]
              exact ih' x.1
            · intro x hx he
              obtain ⟨u, hu⟩ := ways_shrinks fold r e n x hx
              cases hx2 : x.2 with
              | nil => rw [hx2] at he; cases he
              | cons c y =>
                have hc : c ≠ 47 := by
                  intro h
                  refine hn n (by simp) ?_
                  rw [hu, hx2, h]; simp
                simp [hc]
          · intro x hx hs
            simp only [decide_eq_false_iff_not, Nat.not_le] at hs
            obtain ⟨u, hu⟩ := ways_shrinks fold r e _ x hx
            rw [full_sep fold hf]
            cases hx2 : x.2 with
            | nil => rfl
            | cons c y =>
              simp only
              by_cases hc : c = 47
              · rw [if_pos hc]
                refine List.eq_nil_iff_forall_not_mem.2 ?_
                intro e' he'
                have hcnt := sat_count fold hf _ _ _ _ ((full_iff _ _ _ _ _).1 he')
                -- There are not enough slashes left.
                rw [hx2] at hu hs
                have hsuf : ∃ v, signature (m :: ns) = v ++ c :: y := by
                  have h1 : (c :: y) <:+ n ++ 47 :: signature (m :: ns) := ⟨u, hu.symm⟩
                  have h2 : signature (m :: ns) <:+ n ++ 47 :: signature (m :: ns) :=
                    ⟨n ++ [47], by simp⟩
                  have hle : (c :: y).length ≤ (signature (m :: ns)).length := by
                    simp only [List.length_cons] at hs ⊢; omega
                  obtain ⟨v, hv⟩ := List.suffix_of_suffix_length_le h1 h2 hle
                  exact ⟨v, hv.symm⟩
                obtain ⟨v, hv⟩ := hsuf
                have hcs := count_signature (m :: ns) hn'
                rw [hv, List.count_append, hc, List.count_cons_self] at hcs
                simp only [List.length_cons] at hcs hcnt hlen
                omega
              · rw [if_neg hc]

theorem each_iff (fold : Nat → Nat) (rs : List Re) : ∀ (ns : List Str) (e e' : Env),
    e' ∈ each fold rs ns e ↔ SatAll fold rs e ns e' := by
  induction rs with
  | nil =>
    intro ns e e'
    cases ns with
    | nil =>
      simp only [each, List.mem_singleton]
      constructor
      · rintro rfl; exact .nil
      · intro h; cases h; rfl
    | cons n ns =>
      simp only [each]
      constructor
      · intro h; cases h
      · intro h; cases h
  | cons r rs ih =>
    intro ns e e'
    cases ns with
    | nil =>
      simp only [each]
      constructor
      · intro h; cases h
      · intro h; cases h
    | cons n ns =>
      simp only [each, List.mem_flatMap, full_iff, ih]
      constructor
      · rintro ⟨e1, h1, h2⟩; exact .cons h1 h2
      · intro h
        cases h with
        | cons h1 h2 => exact ⟨_, h1, h2⟩

end Verif.RulePat
