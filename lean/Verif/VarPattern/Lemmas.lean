import Verif.VarPattern.Model

/-! # Variable patterns: lemmas -/

namespace Verif.VarPattern

/-! ## Matching -/

theorem matchPattern_iff (n p s : List Char) (multi : Bool) :
    matchPattern n p s multi = true ↔
      ∃ stem, n = p ++ stem ++ s ∧ stem ≠ [] ∧ (multi = false → '.' ∉ stem) := by
  unfold matchPattern
  constructor
  · intro h
    simp only at h
    split at h
    · cases h
    rename_i h1
    split at h
    · cases h
    rename_i h2
    split at h
    · cases h
    rename_i h3
    have hp : n.take p.length = p := by
      by_cases e : p.length = 0
      · have := List.eq_nil_of_length_eq_zero e
        subst this; simp
      · simpa [e] using h2
    have hs : n.drop (n.length - s.length) = s := by
      by_cases e : s.length = 0
      · have := List.eq_nil_of_length_eq_zero e
        subst this; simp
      · simpa [e] using h3
    refine ⟨(n.drop p.length).take (n.length - p.length - s.length), ?_, ?_, ?_⟩
    · have e1 : n = n.take p.length ++ n.drop p.length := (List.take_append_drop _ _).symm
      have e2 : n.drop p.length =
          (n.drop p.length).take (n.length - p.length - s.length) ++
          (n.drop p.length).drop (n.length - p.length - s.length) :=
        (List.take_append_drop _ _).symm
      have e3 : (n.drop p.length).drop (n.length - p.length - s.length) = s := by
        rw [List.drop_drop]
        rw [show p.length + (n.length - p.length - s.length) = n.length - s.length by omega]
        exact hs
      rw [e3] at e2
      calc n = n.take p.length ++ n.drop p.length := e1
        _ = p ++ n.drop p.length := by rw [hp]
        _ = p ++ (_ ++ s) := by rw [← e2]
        _ = _ := by rw [List.append_assoc]
    · intro e
      have := congrArg List.length e
      simp at this
      omega
    · intro hm
      simp [hm] at h
      simpa using h
  · rintro ⟨stem, rfl, hne, hm⟩
    have hl : 0 < stem.length := List.length_pos_iff.mpr hne
    simp only
    rw [if_neg (by simp; omega)]
    rw [if_neg (by simp)]
    rw [if_neg (by
      simp only [List.length_append, Bool.and_eq_true, not_and, bne_iff_ne, ne_eq,
        Decidable.not_not]
      intro _
      rw [show p.length + stem.length + s.length - s.length = (p ++ stem).length by simp]
      simp)]
    cases multi
    · have : '.' ∉ stem := hm rfl
      simp only [Bool.false_or, Bool.not_eq_true', List.append_assoc]
      rw [List.drop_left]
      rw [show (p ++ (stem ++ s)).length - p.length - s.length = stem.length by simp]
      simpa using this
    · simp

theorem matches_iff' (p : Pattern) (n : List Char) : p.matches n = true ↔ Matches p n :=
  matchPattern_iff _ _ _ _

theorem lt_iff (x y : Pattern) : lt x y = true ↔ MoreSpecific y x := by
  unfold lt MoreSpecific
  split
  · rename_i h; simp [h]
  · rename_i h
    split
    · rename_i h2
      simp at h2
      simp [h2.1, h2.2]
      rw [and_comm]
    · rename_i h2
      simp at h2
      constructor
      · intro h; cases h
      · rintro (h' | ⟨h3, h4, _, _⟩)
        · exact absurd h' h
        · exact absurd h4.symm (h2 h3.symm)

/-! ## The order -/

/-- Length of the fixed part. -/
def len (p : Pattern) : Nat := p.pre.length + p.suf.length

theorem lt_len {x y : Pattern} (h : lt x y = true) : len x ≤ len y := by
  rw [lt_iff] at h
  rcases h with h | ⟨h1, h2, _, _⟩
  · simp only [len]; omega
  · simp only [len, h1, h2]; exact Nat.le_refl _

theorem not_lt_len {x y : Pattern} (h : ¬ lt x y = true) : len y ≤ len x := by
  rw [lt_iff] at h
  simp only [MoreSpecific, not_or] at h
  simp only [len]; omega

theorem lt_asymm {x y : Pattern} (h : lt x y = true) : ¬ lt y x = true := by
  rw [lt_iff] at *
  rintro (h2 | ⟨a, b, c, d⟩)
  · rcases h with h | ⟨a, b, c, d⟩
    · omega
    · rw [a, b] at h2; omega
  · rcases h with h | ⟨a', b', c', d'⟩
    · rw [a, b] at h; omega
    · rw [c] at d'; cases d'

theorem negTrans {S : List Pattern} (hs : Separated S) {x y z : Pattern}
    (_hx : x ∈ S) (hy : y ∈ S) (_hz : z ∈ S) (h : lt x z = true) :
    lt x y = true ∨ lt y z = true := by
  simp only [lt_iff] at *
  rcases h with h | ⟨a, b, c, d⟩
  · by_cases h1 : x.pre.length + x.suf.length < y.pre.length + y.suf.length
    · exact .inl (.inl h1)
    · exact .inr (.inl (by omega))
  · by_cases h1 : x.pre.length + x.suf.length < y.pre.length + y.suf.length
    · exact .inl (.inl h1)
    by_cases h2 : y.pre.length + y.suf.length < z.pre.length + z.suf.length
    · exact .inr (.inl h2)
    have e : y.pre.length + y.suf.length = z.pre.length + z.suf.length := by
      rw [a, b] at *; omega
    have := hs z _hz x _hx (.inr ⟨a, b, c, d⟩) a b y hy e
    cases hm : y.multi
    · exact .inl (.inr ⟨this.1.trans a, this.2.trans b, hm, d⟩)
    · exact .inr (.inr ⟨this.1.symm, this.2.symm, c, hm⟩)

theorem moreSpecific_trans {x y z : Pattern} (h1 : MoreSpecific x y) (h2 : MoreSpecific y z) :
    MoreSpecific x z := by
  rcases h1 with h1 | ⟨a, b, c, d⟩
  · rcases h2 with h2 | ⟨a', b', c', d'⟩
    · exact .inl (by omega)
    · rw [a', b'] at h1; exact .inl h1
  · rcases h2 with h2 | ⟨a', b', c', d'⟩
    · rw [← a, ← b] at h2; exact .inl h2
    · rw [d] at c'; cases c'

/-! ## Insertion into the tree -/

theorem insertAt_toList (x : Pattern) (t : Tree) :
    (t.insertAt x).1 ++ (t.insertAt x).2 = t.toList := by
  induction t with
  | leaf => rfl
  | node l p r ihl ihr =>
    simp only [Tree.insertAt, Tree.toList]
    split
    · simp [← ihl]
    · simp [← ihr]

theorem insertAt_len (x : Pattern) (t : Tree)
    (hs : t.toList.Pairwise (fun a b => len a ≤ len b)) :
    (∀ y ∈ (t.insertAt x).1, len y ≤ len x) ∧ (∀ y ∈ (t.insertAt x).2, len x ≤ len y) := by
  induction t with
  | leaf => simp [Tree.insertAt]
  | node l p r ihl ihr =>
    simp only [Tree.toList, List.pairwise_append, List.pairwise_cons] at hs
    obtain ⟨hl, ⟨hpr, hr⟩, hlp⟩ := hs
    simp only [Tree.insertAt]
    split
    · rename_i h
      have := ihl hl
      refine ⟨this.1, ?_⟩
      intro y hy
      simp at hy
      rcases hy with hy | rfl | hy
      · exact this.2 y hy
      · exact lt_len h
      · exact Nat.le_trans (lt_len h) (hpr y hy)
    · rename_i h
      have := ihr hr
      refine ⟨?_, this.2⟩
      intro y hy
      simp at hy
      rcases hy with hy | rfl | hy
      · exact Nat.le_trans (hlp y hy p (by simp)) (not_lt_len h)
      · exact not_lt_len h
      · exact this.1 y hy

theorem insertAt_lt {S : List Pattern} (hS : Separated S) (x : Pattern) (hx : x ∈ S)
    (t : Tree) (ht : ∀ y ∈ t.toList, y ∈ S)
    (hs : t.toList.Pairwise (fun a b => ¬ lt b a = true)) :
    (∀ y ∈ (t.insertAt x).1, ¬ lt x y = true) ∧ (∀ y ∈ (t.insertAt x).2, lt x y = true) := by
  induction t with
  | leaf => simp [Tree.insertAt]
  | node l p r ihl ihr =>
    simp only [Tree.toList, List.pairwise_append, List.pairwise_cons] at hs
    obtain ⟨hl, ⟨hpr, hr⟩, hlp⟩ := hs
    have hp : p ∈ S := ht p (by simp [Tree.toList])
    simp only [Tree.insertAt]
    split
    · rename_i h
      have := ihl (fun y hy => ht y (by simp [Tree.toList, hy])) hl
      refine ⟨this.1, ?_⟩
      intro y hy
      simp at hy
      rcases hy with hy | rfl | hy
      · exact this.2 y hy
      · exact h
      · exact (negTrans hS hx (ht y (by simp [Tree.toList, hy])) hp h).resolve_right (hpr y hy)
    · rename_i h
      have := ihr (fun y hy => ht y (by simp [Tree.toList, hy])) hr
      refine ⟨?_, this.2⟩
      intro y hy
      simp at hy
      rcases hy with hy | rfl | hy
      · intro hxy
        rcases negTrans hS hx hp (ht y (by simp [Tree.toList, hy])) hxy with h1 | h1
        · exact h h1
        · exact hlp y hy p (by simp) h1
      · exact h
      · exact this.1 y hy

/-! ## The search -/

/-- The last matching element. -/
def last (l : List Pattern) (n : List Char) : Option Pattern :=
  l.reverse.find? (·.matches n)

theorem last_append (a b : List Pattern) (n : List Char) :
    last (a ++ b) n = (last b n).or (last a n) := by
  simp [last, List.find?_append]

theorem last_cons (p : Pattern) (b : List Pattern) (n : List Char) :
    last (p :: b) n = (last b n).or (if p.matches n then some p else none) := by
  have : p :: b = [p] ++ b := rfl
  rw [this, last_append]
  congr 1
  simp [last, List.find?_cons]
  split <;> simp_all

theorem last_some {l : List Pattern} {n : List Char} {p : Pattern} (h : last l n = some p) :
    p ∈ l ∧ p.matches n = true := by
  have h1 := List.mem_of_find?_eq_some h
  have h2 := List.find?_some h
  exact ⟨by simpa using h1, h2⟩

theorem last_none {l : List Pattern} {n : List Char} :
    last l n = none ↔ ∀ p ∈ l, p.matches n = false := by
  simp [last]

/-- The specification as a function: scan the patterns in the order of insertion. -/
def bestOf (n : List Char) : List Pattern → Option Pattern → Option Pattern
  | [], b => b
  | p :: h, b =>
    bestOf n h (if p.matches n then
      (match b with
       | none => some p
       | some q => if lt p q then some q else some p)
      else b)

theorem bestOf_append (n : List Char) (a b : List Pattern) (x : Option Pattern) :
    bestOf n (a ++ b) x = bestOf n b (bestOf n a x) := by
  induction a generalizing x with
  | nil => rfl
  | cons p a ih => simp [bestOf, ih]

theorem separated_sub {a b : List Pattern} (h : Separated (a ++ b)) : Separated a := by
  intro p hp q hq m e1 e2 r hr e
  exact h p (by simp [hp]) q (by simp [hq]) m e1 e2 r (by simp [hr]) e

theorem bestOf_best {h : List Pattern} (hs : Separated h) (n : List Char) :
    match bestOf n h none with
    | some p => Best h n p
    | none => ∀ q ∈ h, ¬ Matches q n := by
  suffices H : ∀ k, ∀ h : List Pattern, h.length = k → Separated h →
      (match bestOf n h none with
      | some p => Best h n p
      | none => ∀ q ∈ h, ¬ Matches q n) from H _ h rfl hs
  intro k
  induction k with
  | zero =>
    intro h e _
    have := List.eq_nil_of_length_eq_zero e
    subst this
    simp [bestOf]
  | succ k ih =>
    intro h e hs
    rcases List.eq_nil_or_concat h with rfl | ⟨h', p, rfl⟩
    · simp at e
    rw [List.concat_eq_append] at *
    have ih := ih h' (by simpa using e) (separated_sub hs)
    rw [bestOf_append]
    cases hb : bestOf n h' none with
    | none =>
      rw [hb] at ih
      simp only at ih
      by_cases hm : p.matches n = true
      · simp only [bestOf, hm, if_true]
        refine ⟨h', [], rfl, (matches_iff' _ _).mp hm, ?_, by simp⟩
        intro q hq hqm
        exact absurd hqm (ih q hq)
      · simp only [bestOf, hm]
        intro q hq
        simp at hq
        rcases hq with hq | rfl
        · exact ih q hq
        · rw [matches_iff'] at hm; exact hm
    | some b =>
      rw [hb] at ih
      obtain ⟨x, y, rfl, hbm, hx, hy⟩ := ih
      by_cases hm : p.matches n = true
      · simp only [bestOf, hm, if_true]
        by_cases hlt : lt p b = true
        · simp only [hlt, if_true]
          refine ⟨x, y ++ [p], by simp, hbm, hx, ?_⟩
          intro q hq hqm
          simp at hq
          rcases hq with hq | rfl
          · exact hy q hq hqm
          · exact (lt_iff _ _).mp hlt
        · simp only [hlt]
          refine ⟨x ++ b :: y, [], rfl, (matches_iff' _ _).mp hm, ?_, by simp⟩
          intro q hq hqm hmore
          have hq' := hq
          simp at hq
          rcases hq with hq | rfl | hq
          · rcases negTrans hs (by simp) (y := b) (by simp) (by simp at hq' ⊢; exact .inl hq)
              ((lt_iff _ _).mpr hmore) with h1 | h1
            · exact hlt h1
            · exact hx q hq hqm ((lt_iff _ _).mp h1)
          · exact hlt ((lt_iff _ _).mpr hmore)
          · exact hlt ((lt_iff _ _).mpr (moreSpecific_trans (hy q hq hqm) hmore))
      · simp only [bestOf, hm]
        refine ⟨x, y ++ [p], by simp, hbm, hx, ?_⟩
        intro q hq hqm
        simp at hq
        rcases hq with hq | rfl
        · exact hy q hq hqm
        · rw [← matches_iff'] at hqm; exact absurd hqm hm

theorem best_unique' {h : List Pattern} {n : List Char} {p q : Pattern}
    (hp : Best h n p) (hq : Best h n q) : p = q := by
  obtain ⟨a, b, rfl, hpm, ha, hb⟩ := hp
  obtain ⟨c, d, e, hqm, hc, hd⟩ := hq
  rw [List.append_eq_append_iff] at e
  rcases e with ⟨w, rfl, e⟩ | ⟨w, rfl, e⟩
  · cases w with
    | nil => simp at e; exact e.1
    | cons z w =>
      simp at e
      obtain ⟨rfl, rfl⟩ := e
      -- q is after p
      exact absurd (hb q (by simp) hqm) (hc p (by simp) hpm)
  · cases w with
    | nil => simp at e; exact e.1.symm
    | cons z w =>
      simp at e
      obtain ⟨rfl, rfl⟩ := e
      exact absurd (hd p (by simp) hpm) (ha q (by simp) hqm)

/-! ## The invariant -/

/-- The tree has the inserted patterns ordered by length, and by the order itself
if the patterns are separated, and the search in it is the specification. -/
structure Inv (s : State) : Prop where
  perm : ∀ p, p ∈ s.tree.toList ↔ p ∈ s.hist
  len  : s.tree.toList.Pairwise (fun a b => len a ≤ len b)
  ord  : Separated s.hist → s.tree.toList.Pairwise (fun a b => ¬ lt b a = true)
  best : Separated s.hist → ∀ n, last s.tree.toList n = bestOf n s.hist none

theorem inv_insert {s : State} (hi : Inv s) {p : Pattern} {tree : Tree} {vs : List Var}
    (e : tree.toList = (s.tree.insertAt p).1 ++ p :: (s.tree.insertAt p).2) :
    Inv ⟨s.hist ++ [p], tree, vs⟩ := by
  have hcat := insertAt_toList p s.tree
  have hlen := insertAt_len p s.tree hi.len
  have hlt : Separated (s.hist ++ [p]) →
      (∀ y ∈ (s.tree.insertAt p).1, ¬ lt p y = true) ∧
      (∀ y ∈ (s.tree.insertAt p).2, lt p y = true) := fun hS =>
    insertAt_lt hS p (by simp) s.tree
      (fun y hy => by have := (hi.perm y).mp hy; simp [this]) (hi.ord (separated_sub hS))
  generalize s.tree.insertAt p = ab at *
  obtain ⟨a, b⟩ := ab
  simp only at e hcat hlen hlt
  constructor
  · intro q
    simp only [e]
    have := hi.perm q
    rw [← hcat] at this
    simp at this ⊢
    rw [← this]
    constructor
    · rintro (h | h | h) <;> simp [h]
    · rintro ((h | h) | h) <;> simp [h]
  · simp only [e]
    have := hi.len
    rw [← hcat] at this
    rw [List.pairwise_append] at this ⊢
    refine ⟨this.1, ?_, ?_⟩
    · rw [List.pairwise_cons]; exact ⟨hlen.2, this.2.1⟩
    · intro x hx y hy
      simp at hy
      rcases hy with rfl | hy
      · exact hlen.1 x hx
      · exact this.2.2 x hx y hy
  · intro hS
    simp only [e]
    have := hi.ord (separated_sub hS)
    have hl := hlt hS
    rw [← hcat] at this
    rw [List.pairwise_append] at this ⊢
    refine ⟨this.1, ?_, ?_⟩
    · rw [List.pairwise_cons]; exact ⟨fun y hy => lt_asymm (hl.2 y hy), this.2.1⟩
    · intro x hx y hy
      simp at hy
      rcases hy with rfl | hy
      · exact hl.1 x hx
      · exact this.2.2 x hx y hy
  · intro hS n
    have hl := hlt hS
    have hb := hi.best (separated_sub hS) n
    simp only [e]
    rw [bestOf_append, ← hb, ← hcat, last_append, last_append, last_cons]
    simp only [bestOf]
    by_cases hm : p.matches n = true
    · simp only [hm, if_true]
      cases hlb : last b n with
      | some q =>
        have := hl.2 q (last_some hlb).1
        simp [this]
      | none =>
        cases hla : last a n with
        | none => simp
        | some q =>
          have := hl.1 q (last_some hla).1
          simp [this]
    · simp [hm]

theorem inv_step {s t : State} {op : Op} (h : Step s op t) (hi : Inv s) : Inv t := by
  cases h with
  | var _ => exact ⟨hi.perm, hi.len, hi.ord, hi.best⟩
  | pattern e _ => exact inv_insert hi e
  | override => exact ⟨hi.perm, hi.len, hi.ord, hi.best⟩

theorem inv_run {ops : List Op} {s : State} (h : Run init ops s) : Inv s := by
  generalize hi : init = i at h
  induction h with
  | nil =>
    subst hi
    exact ⟨by simp [init, Tree.toList], by simp [init, Tree.toList],
      fun _ => by simp [init, Tree.toList], fun _ _ => rfl⟩
  | snoc _ hs ih => exact inv_step hs ih

/-! ## Attributes -/

theorem qualified_dot {p : Pattern} (hq : Qualified p) {n : List Char} (h : Matches p n) :
    n.contains '.' = true := by
  obtain ⟨stem, rfl, _, _⟩ := h
  obtain ⟨h1, h2, h3⟩ := hq
  rcases h1 with h1 | h1
  · obtain ⟨l, e⟩ := h2 h1
    simp [e]
  · obtain ⟨l, e⟩ := h3 h1
    simp [e]

/-- The attributes of a variable given the pattern to be used. -/
def attrsOf (b : Option Pattern) : Option Nat × Vis :=
  match b with
  | some p => p.attrs
  | none => (none, .project)

theorem update_attrs {v w : Var} {t x o} (h : update v t x o = .ok w) :
    w.name = v.name ∧ w.type = t.or v.type ∧ w.vis = x.getD v.vis := by
  unfold update at h
  split at h
  · cases h
  simp only at h
  split at h
  · cases h
  rename_i h1
  by_cases hut : (t.isSome && v.type != t) = true
  · rw [hut] at h1 h
    simp only [if_true] at h
    have ht : t.or v.type = t := by cases t <;> simp_all
    cases x with
    | none => cases h; simp [ht]
    | some x =>
      simp only at h
      split at h
      · split at h
        · cases h; simp [ht]
        · cases h
      · rename_i h2; simp at h2; cases h; simp [ht, h2]
  · have ht : t.or v.type = v.type := by
      cases t with
      | none => simp
      | some y => simp at hut; simp [hut]
    simp only [hut, Bool.false_eq_true, if_false] at h
    cases x with
    | none => cases h; simp [ht]
    | some x =>
      simp only at h
      split at h
      · split at h
        · cases h; simp [ht]
        · cases h
      · rename_i h2; simp at h2; cases h; simp [ht, ← h2]

theorem retroAll_mem {p : Pattern} {after : List Pattern} {vs ws : List Var}
    (h : retroAll p after vs = .ok ws) {w : Var} (hw : w ∈ ws) :
    ∃ v ∈ vs, retroOne p after v = .ok w := by
  induction vs generalizing ws with
  | nil => simp [retroAll] at h; subst h; cases hw
  | cons v vs ih =>
    rw [retroAll] at h
    split at h
    · rename_i v' vs' h1 h2
      cases h
      simp at hw
      rcases hw with rfl | hw
      · exact ⟨v, by simp, h1⟩
      · obtain ⟨u, hu, e⟩ := ih h2 hw
        exact ⟨u, by simp [hu], e⟩
    · cases h
    · cases h

end Verif.VarPattern
