import Verif.Function.Model

/-! # Function calls: lemmas -/

namespace Verif.Function

variable {α : Type}

theorem derives_iff (a b : VType) : derives a b = true ↔ Derives a b := by
  induction a with
  | root id =>
    simp only [derives]
    constructor
    · intro h; cases h
    · intro h; cases h
  | derived id c ih =>
    simp only [derives]
    split
    · rename_i e; subst e; exact ⟨fun _ => .direct, fun _ => rfl⟩
    · rename_i e
      rw [ih]
      constructor
      · exact .indirect
      · intro h
        cases h with
        | direct => exact absurd rfl e
        | indirect h => exact h

theorem not_derives_self (a : VType) : ¬ Derives a a := by
  suffices H : ∀ a b, Derives a b → sizeOf b < sizeOf a from fun h => Nat.lt_irrefl _ (H a a h)
  intro a b h
  induction h with
  | direct => simp; omega
  | indirect _ ih => simp; omega

theorem conv_unique {a : Option VType} {p : Param} {r q : Nat} (h1 : Conv a p r)
    (h2 : Conv a p q) : r = q := by
  cases h1 with
  | any => cases h2; rfl
  | exact =>
    cases h2 with
    | exact => rfl
    | base h => exact absurd h (not_derives_self _)
  | base h =>
    cases h2 with
    | exact => exact absurd h (not_derives_self _)
    | base => rfl
  | untype => cases h2; rfl

theorem convs_unique {as : List (Arg α)} {ps : List Param} {rs qs : List Nat}
    (h1 : Convs as ps rs) (h2 : Convs as ps qs) : rs = qs := by
  induction h1 generalizing qs with
  | noParams => cases h2 <;> rfl
  | noArgs => cases h2 <;> rfl
  | cons hc _ ih =>
    cases h2 with
    | cons hc2 h2 => rw [conv_unique hc hc2, ih h2]

theorem conv_le {a : Option VType} {p : Param} {r : Nat} (h : Conv a p r) : r ≤ 2 := by
  cases h <;> omega

theorem convs_le {as : List (Arg α)} {ps : List Param} {rs : List Nat}
    (h : Convs as ps rs) : ∀ r ∈ rs, r ≤ 2 := by
  induction h with
  | noParams => simp
  | noArgs => simp
  | cons hc _ ih =>
    intro r hr
    simp at hr
    rcases hr with rfl | hr
    · exact conv_le hc
    · exact ih r hr

/-- Maximum of the ranks, starting from `r`. -/
def maxFrom (r : Nat) (rs : List Nat) : Nat := rs.foldl max r

theorem rankLoop_spec (as : List (Arg α)) (ps : List Param) (r q : Nat) :
    rankLoop r as ps = some q ↔ ∃ rs, Convs as ps rs ∧ q = maxFrom r rs := by
  induction as generalizing ps r with
  | nil =>
    simp only [rankLoop]
    constructor
    · intro h; cases h; exact ⟨[], .noArgs, rfl⟩
    · rintro ⟨rs, h, e⟩
      cases h <;> (rw [e]; rfl)
  | cons a as ih =>
    cases ps with
    | nil =>
      simp only [rankLoop]
      constructor
      · intro h; cases h; exact ⟨[], .noParams, rfl⟩
      · rintro ⟨rs, h, e⟩
        cases h; rw [e]; rfl
    | cons p ps =>
      have key : ∀ k, Conv a.type p k → (rankLoop (max r k) as ps = some q ↔
          ∃ rs, Convs (a :: as) (p :: ps) rs ∧ q = maxFrom r rs) := by
        intro k hk
        rw [ih]
        constructor
        · rintro ⟨rs, h, e⟩
          exact ⟨k :: rs, .cons hk h, e⟩
        · rintro ⟨rs, h, e⟩
          cases h with
          | @cons _ _ _ _ r' rs' hc h =>
            rw [conv_unique hc hk] at e
            exact ⟨rs', h, e⟩
      have nokey : (∀ k, ¬ Conv a.type p k) → ((none : Option Nat) = some q ↔
          ∃ rs, Convs (a :: as) (p :: ps) rs ∧ q = maxFrom r rs) := by
        intro hno
        constructor
        · intro h; cases h
        · rintro ⟨rs, h, e⟩
          cases h with
          | cons hc h => exact absurd hc (hno _)
      have m0 : max r 0 = r := by omega
      have m1 : max r 1 = if r < 1 then 1 else r := by split <;> omega
      have m2 : max r 2 = if r < 2 then 2 else r := by split <;> omega
      cases p with
      | none =>
        simp only [rankLoop]
        have := key 0 .any
        rwa [m0] at this
      | some ft =>
        simp only [rankLoop]
        by_cases e : a.type = ft
        · rw [if_pos e]
          have := key 0 (e ▸ .exact)
          rwa [m0] at this
        · rw [if_neg e]
          cases hat : a.type with
          | none =>
            cases ft with
            | none => exact absurd hat e
            | some ft =>
              simp only
              apply nokey
              intro k hk
              rw [hat] at hk
              cases hk
          | some at' =>
            cases ft with
            | none =>
              simp only
              rw [← m2]
              exact key 2 (hat ▸ .untype)
            | some ft =>
              simp only
              by_cases hd : derives at' ft = true
              · rw [if_pos hd, ← m1]
                exact key 1 (hat ▸ .base ((derives_iff _ _).mp hd))
              · rw [if_neg hd]
                apply nokey
                intro k hk
                rw [hat] at hk e
                cases hk with
                | exact => exact e rfl
                | base h => exact hd ((derives_iff _ _).mpr h)

theorem maxFrom_spec (r : Nat) (rs : List Nat) (q : Nat) :
    q = maxFrom r rs ↔ r ≤ q ∧ (∀ x ∈ rs, x ≤ q) ∧ (q = r ∨ q ∈ rs) := by
  induction rs generalizing r with
  | nil =>
    simp [maxFrom]
    omega
  | cons x rs ih =>
    show q = maxFrom (max r x) rs ↔ _
    rw [ih]
    simp only [List.mem_cons, forall_eq_or_imp]
    constructor
    · rintro ⟨h1, h2, h3⟩
      refine ⟨by omega, ⟨by omega, h2⟩, ?_⟩
      rcases h3 with h3 | h3
      · by_cases hx : x ≤ r
        · left; omega
        · right; left; omega
      · exact .inr (.inr h3)
    · rintro ⟨h1, ⟨h2, h3⟩, h4⟩
      refine ⟨by omega, h3, ?_⟩
      rcases h4 with h4 | h4 | h4
      · left; omega
      · left; omega
      · right; exact h4

theorem rankOf_iff (f : Overload) (args : List (Arg α)) (r : Nat) :
    rankOf f args = some r ↔ Viable f args r := by
  unfold rankOf Viable
  simp only
  have htm : tooMany f args.length = false ↔ ∀ m, f.max = some m → args.length ≤ m := by
    unfold tooMany
    cases f.max with
    | none => simp
    | some m => simp
  by_cases h : (decide (args.length < f.min) || tooMany f args.length) = true
  · simp only [h, if_true]
    constructor
    · intro h; cases h
    · rintro ⟨h1, h2, _⟩
      rw [← htm] at h2
      simp [h2] at h
      omega
  · simp only [h]
    simp only [Bool.or_eq_true, decide_eq_true_eq, not_or, Bool.not_eq_true] at h
    rw [htm] at h
    simp only [Bool.false_eq_true, if_false]
    rw [rankLoop_spec]
    constructor
    · rintro ⟨rs, hc, e⟩
      rw [maxFrom_spec] at e
      exact ⟨by omega, h.2, rs, hc, e.2.1, e.2.2⟩
    · rintro ⟨_, _, rs, hc, h1, h2⟩
      exact ⟨rs, hc, (maxFrom_spec _ _ _).mpr ⟨by omega, h1, h2⟩⟩

/-! ## The loop over the overloads -/

/-- What the loop establishes. -/
def Good (fs : List Overload) (args : List (Arg α)) (c : Cand) : Prop :=
  match c.rank with
  | none => (∀ f ∈ fs, rankOf f args = none) ∧ c.ovls = []
  | some m => (∃ f ∈ fs, rankOf f args = some m) ∧
      (∀ f ∈ fs, ∀ r, rankOf f args = some r → m ≤ r) ∧
      c.ovls = fs.filter (fun f => rankOf f args == some m)

theorem filter_none_of_lt {fs : List Overload} {args : List (Arg α)} {m r : Nat}
    (h : ∀ f ∈ fs, ∀ r, rankOf f args = some r → m ≤ r) (hr : r < m) :
    fs.filter (fun f => rankOf f args == some r) = [] := by
  rw [List.filter_eq_nil_iff]
  intro f hf hc
  have := h f hf r (by simpa using hc)
  omega

theorem consider_good {fs : List Overload} {args : List (Arg α)} {c : Cand}
    (h : Good fs args c) (f : Overload) : Good (fs ++ [f]) args (consider args c f) := by
  unfold consider
  cases hr : rankOf f args with
  | none =>
    simp only
    unfold Good at *
    cases hc : c.rank with
    | none =>
      rw [hc] at h
      refine ⟨?_, h.2⟩
      intro g hg
      simp at hg
      rcases hg with hg | rfl
      · exact h.1 g hg
      · exact hr
    | some m =>
      rw [hc] at h
      obtain ⟨⟨g, hg, e⟩, h2, h3⟩ := h
      refine ⟨⟨g, by simp [hg], e⟩, ?_, ?_⟩
      · intro g hg r e
        simp at hg
        rcases hg with hg | rfl
        · exact h2 g hg r e
        · rw [hr] at e; cases e
      · simp [h3, hr]
  | some r =>
    simp only
    cases hc : c.rank with
    | none =>
      unfold Good at h
      rw [hc] at h
      simp only
      refine ⟨⟨f, by simp, hr⟩, ?_, ?_⟩
      · intro g hg r' e
        simp at hg
        rcases hg with hg | rfl
        · rw [h.1 g hg] at e; cases e
        · rw [hr] at e; cases e; exact Nat.le_refl _
      · have : fs.filter (fun f => rankOf f args == some r) = [] := by
          rw [List.filter_eq_nil_iff]
          intro g hg hg2
          rw [h.1 g hg] at hg2; simp at hg2
        simp [this, hr]
    | some m =>
      unfold Good at h
      rw [hc] at h
      obtain ⟨⟨g, hg, e⟩, h2, h3⟩ := h
      simp only
      by_cases h1 : r ≤ m
      · rw [if_pos h1]
        by_cases h4 : r < m
        · rw [if_pos h4]
          refine ⟨⟨f, by simp, hr⟩, ?_, ?_⟩
          · intro g hg r' e
            simp at hg
            rcases hg with hg | rfl
            · have := h2 g hg r' e; omega
            · rw [hr] at e; cases e; exact Nat.le_refl _
          · simp [filter_none_of_lt h2 h4, hr]
        · rw [if_neg h4]
          have hrm : r = m := by omega
          subst hrm
          refine ⟨⟨f, by simp, hr⟩, ?_, ?_⟩
          · intro g hg r' e
            simp at hg
            rcases hg with hg | rfl
            · exact h2 g hg r' e
            · rw [hr] at e; cases e; exact Nat.le_refl _
          · simp [h3, hr]
      · rw [if_neg h1]
        unfold Good
        rw [hc]
        refine ⟨⟨g, by simp [hg], e⟩, ?_, ?_⟩
        · intro g hg r' e
          simp at hg
          rcases hg with hg | rfl
          · exact h2 g hg r' e
          · rw [hr] at e; cases e; omega
        · have : ¬ (r = m) := by omega
          simp [h3, hr, this]

theorem fold_good (fs : List Overload) (args : List (Arg α)) :
    Good fs args (fs.foldl (consider args) ⟨none, []⟩) := by
  suffices H : ∀ (fs gs : List Overload) (c : Cand), Good gs args c →
      Good (gs ++ fs) args (fs.foldl (consider args) c) by
    have := H fs [] ⟨none, []⟩ ⟨by simp, rfl⟩
    simpa using this
  intro fs
  induction fs with
  | nil => intro gs c h; simpa using h
  | cons f fs ih =>
    intro gs c h
    have := ih (gs ++ [f]) (consider args c f) (consider_good h f)
    simpa using this

/-! ## Untypification -/

theorem untypifyArgs_spec (unt : VType → α → α) (ps : List Param) (as : List (Arg α)) (i : Nat) :
    (untypifyArgs unt ps as)[i]? = as[i]?.map (pass unt ps[i]?) := by
  induction ps generalizing as i with
  | nil =>
    simp only [untypifyArgs]
    cases as[i]? <;> rfl
  | cons p ps ih =>
    cases as with
    | nil => simp [untypifyArgs]
    | cons a as =>
      simp only [untypifyArgs]
      cases i with
      | zero =>
        simp only [List.getElem?_cons_zero, Option.map_some, pass]
        cases p with
        | none => rfl
        | some p => cases p <;> cases a.type <;> rfl
      | succ i => simpa using ih as i

theorem convs_get {as : List (Arg α)} {ps : List Param} {rs : List Nat} (h : Convs as ps rs)
    {i : Nat} {a : Arg α} {p : Param} (ha : as[i]? = some a) (hp : ps[i]? = some p) :
    ∃ r ∈ rs, Conv a.type p r := by
  induction h generalizing i with
  | noParams => simp at hp
  | noArgs => simp at ha
  | @cons a' as p' ps r rs hc _ ih =>
    cases i with
    | zero => simp at ha hp; subst ha; subst hp; exact ⟨r, by simp, hc⟩
    | succ i =>
      simp at ha hp
      obtain ⟨r', h1, h2⟩ := ih ha hp
      exact ⟨r', by simp [h1], h2⟩

theorem pass_id {as : List (Arg α)} {ps : List Param} {rs : List Nat} (h : Convs as ps rs)
    (hr : ∀ r ∈ rs, r ≤ 1) (unt : VType → α → α) (i : Nat) :
    as[i]? = as[i]?.map (pass unt ps[i]?) := by
  cases ha : as[i]? with
  | none => rfl
  | some a =>
    cases hp : ps[i]? with
    | none => rfl
    | some p =>
      obtain ⟨r, h1, h2⟩ := convs_get h ha hp
      simp only [Option.map_some, Option.some.injEq]
      unfold pass
      cases p with
      | none => rfl
      | some p =>
        cases p with
        | some _ => rfl
        | none =>
          cases hat : a.type with
          | none => rfl
          | some t =>
            rw [hat] at h2
            cases h2
            have := hr 2 h1
            omega

/-! ## The map -/

theorem slt_irrefl (a : List Char) : slt a a = false := by
  induction a with
  | nil => rfl
  | cons c a ih => simp [slt, ih]

theorem slt_trans {a b c : List Char} (h1 : slt a b = true) (h2 : slt b c = true) :
    slt a c = true := by
  induction a generalizing b c with
  | nil =>
    cases b with
    | nil => simp [slt] at h1
    | cons y b => cases c <;> simp [slt] at h2 ⊢
  | cons x a ih =>
    cases b with
    | nil => simp [slt] at h1
    | cons y b =>
      cases c with
      | nil => simp [slt] at h2
      | cons z c =>
        simp only [slt] at *
        split at h1
        · split at h2
          · rw [if_pos (by omega)]
          · split at h2
            · rw [if_pos (by omega)]
            · cases h2
        · split at h1
          · split at h2
            · rw [if_pos (by omega)]
            · split at h2
              · rw [if_neg (by omega), if_pos (by omega)]
                exact ih h1 h2
              · cases h2
          · cases h1

theorem toNat_inj {x y : Char} (h : x.toNat = y.toNat) : x = y := by
  apply Char.ext
  apply UInt32.toNat_inj.mp
  exact h

theorem slt_total {a b : List Char} (h1 : slt a b = false) (h2 : a ≠ b) : slt b a = true := by
  induction a generalizing b with
  | nil => cases b <;> simp [slt] at *
  | cons x a ih =>
    cases b with
    | nil => rfl
    | cons y b =>
      simp only [slt] at *
      split at h1
      · cases h1
      · split at h1
        · rename_i e
          have := toNat_inj e
          subst this
          simp only [Nat.lt_irrefl, if_false, if_true]
          exact ih h1 (by simpa using h2)
        · rw [if_pos (by omega)]

/-- The keys are ordered. -/
def Sorted (m : Map) : Prop := m.Pairwise (fun x y => slt x.1 y.1 = true)

theorem add_keys (n : List Char) (f : Overload) (m : Map) (k : List Char) :
    (∃ x ∈ add n f m, x.1 = k) ↔ k = n ∨ ∃ x ∈ m, x.1 = k := by
  induction m with
  | nil => simp [add, eq_comm]
  | cons x m ih =>
    obtain ⟨k', fs⟩ := x
    simp only [add]
    split
    · simp [eq_comm]
    · split
      · rename_i e; subst e
        simp [eq_comm]
      · simp only [List.mem_cons, exists_eq_or_imp]
        rw [ih]
        constructor
        · rintro (h | h | h) <;> simp [h]
        · rintro (h | h | h) <;> simp [h]

theorem add_sorted (n : List Char) (f : Overload) {m : Map} (h : Sorted m) :
    Sorted (add n f m) := by
  induction m with
  | nil => simp [add, Sorted]
  | cons x m ih =>
    obtain ⟨k, fs⟩ := x
    simp only [add]
    unfold Sorted at *
    rw [List.pairwise_cons] at h
    split
    · rename_i hlt
      rw [List.pairwise_cons]
      refine ⟨?_, ?_⟩
      · intro y hy
        simp at hy
        rcases hy with rfl | hy
        · exact hlt
        · exact slt_trans hlt (h.1 y hy)
      · rw [List.pairwise_cons]; exact h
    · rename_i hlt
      split
      · rename_i e; subst e
        rw [List.pairwise_cons]; exact h
      · rename_i hne
        rw [List.pairwise_cons]
        refine ⟨?_, ih h.2⟩
        intro y hy
        have := (add_keys n f m y.1).mp ⟨y, hy, rfl⟩
        rcases this with e | ⟨z, hz, e⟩
        · simp only; rw [e]
          exact slt_total (by simpa using hlt) hne
        · rw [← e]; exact h.1 z hz

theorem find_add (n : List Char) (f : Overload) {m : Map} (h : Sorted m) (k : List Char) :
    find (add n f m) k =
      if k = n then some ((find m k).getD [] ++ [f]) else find m k := by
  induction m with
  | nil =>
    simp only [add, find, List.find?_cons, List.find?_nil]
    by_cases e : k = n
    · subst e; simp
    · have : (n == k) = false := by simpa using fun h => e h.symm
      simp [e, this]
  | cons x m ih =>
    obtain ⟨k', fs⟩ := x
    unfold Sorted at h
    rw [List.pairwise_cons] at h
    simp only [add]
    split
    · rename_i hlt
      have hno : k = n → find ((k', fs) :: m) k = none := by
        rintro rfl
        simp only [find, Option.map_eq_none_iff, List.find?_eq_none]
        intro y hy
        simp at hy
        simp only [beq_iff_eq]
        intro e
        rcases hy with rfl | hy
        · simp only at e; subst e; rw [slt_irrefl] at hlt; cases hlt
        · have := slt_trans hlt (h.1 y hy)
          rw [e, slt_irrefl] at this; cases this
      by_cases e : k = n
      · rw [if_pos e, hno e]
        subst e
        simp [find]
      · rw [if_neg e]
        have : (n == k) = false := by simpa using fun h => e h.symm
        simp [find, List.find?_cons, this]
    · split
      · rename_i e; subst e
        by_cases e : k = n
        · subst e; simp [find]
        · have : (n == k) = false := by simpa using fun h => e h.symm
          simp [find, this, e]
      · rename_i hne
        by_cases e2 : k' = k
        · subst e2
          have : ¬ k' = n := fun h => hne h.symm
          simp [find, this]
        · have ihk := ih h.2
          have hb : (k' == k) = false := by simpa using e2
          simp only [find, List.find?_cons, hb] at ihk ⊢
          exact ihk

/-- The overloads registered under a name. -/
def under (rs : List Reg) (n : List Char) : List Overload :=
  (rs.filter (fun r => decide (n ∈ names r.qual r.name))).map (·.ovl)

theorem register_spec {m m' : Map} {r : Reg} (hs : Sorted m) (h : register m r = some m') :
    Sorted m' ∧ ∀ k, find m' k =
      if k ∈ names r.qual r.name then some ((find m k).getD [] ++ [r.ovl]) else find m k := by
  unfold register at h
  unfold names
  by_cases h1 : '.' ∈ r.name
  · have e1 : (!r.name.contains '.') = false := by simpa using h1
    simp only [e1, Bool.false_eq_true, if_false] at h
    simp only [h1, not_true_eq_false, if_false]
    by_cases h2 : r.name.head? = some '.'
    · have e2 : (r.name.head? == some '.') = true := by simpa using h2
      simp only [e2, if_true] at h
      simp only [h2, if_true]
      split at h
      · cases h
      · cases h
        refine ⟨add_sorted _ _ hs, ?_⟩
        intro k
        rw [find_add _ _ hs]
        simp
    · have e2 : (r.name.head? == some '.') = false := by simpa using h2
      simp only [e2, Bool.false_eq_true, if_false] at h
      simp only [h2, if_false]
      cases h
      refine ⟨add_sorted _ _ hs, ?_⟩
      intro k
      rw [find_add _ _ hs]
      simp
  · have e1 : (!r.name.contains '.') = true := by simpa using h1
    simp only [e1, if_true] at h
    simp only [h1, not_false_eq_true, if_true]
    cases hq : r.qual with
    | nil =>
      rw [hq] at h
      simp at h
      subst h
      refine ⟨add_sorted _ _ hs, ?_⟩
      intro k
      rw [find_add _ _ hs]
      simp
    | cons c q =>
      rw [hq] at h
      simp at h
      subst h
      refine ⟨add_sorted _ _ (add_sorted _ _ hs), ?_⟩
      intro k
      rw [find_add _ _ (add_sorted _ _ hs), find_add _ _ hs]
      have hne : ¬ r.name = c :: (q ++ '.' :: r.name) := by
        intro e
        have := congrArg List.length e
        simp at this
        omega
      simp only [List.cons_append, reduceCtorEq, if_false, List.mem_cons, List.not_mem_nil, or_false]
      by_cases ek : k = r.name
      · subst ek
        simp [hne]
      · simp [ek]

theorem registerAll_spec {rs : List Reg} {m m' : Map} (hs : Sorted m)
    (h : registerAll m rs = some m') :
    Sorted m' ∧ ∀ k, (find m' k).getD [] = (find m k).getD [] ++ under rs k ∧
      ((find m' k).isSome = true ↔ (find m k).isSome = true ∨ under rs k ≠ []) := by
  induction rs generalizing m with
  | nil =>
    simp [registerAll] at h; subst h
    exact ⟨hs, by simp [under]⟩
  | cons r rs ih =>
    rw [registerAll] at h
    split at h
    · cases h
    rename_i m1 h1
    have hr := register_spec hs h1
    have hi := ih hr.1 h
    refine ⟨hi.1, ?_⟩
    intro k
    have h2 := hi.2 k
    rw [hr.2 k] at h2
    unfold under at *
    by_cases hm : k ∈ names r.qual r.name
    · simp [hm] at h2 ⊢
      exact h2
    · simp [hm] at h2 ⊢
      exact h2

/-- Between a string and a continuation of it there are only continuations. -/
theorem prefix_between {n x k : List Char} (h1 : slt n x = true)
    (h2 : x = k ∨ slt x k = true) (h3 : n <+: k) : n <+: x := by
  rcases h2 with rfl | h2
  · exact h3
  induction n generalizing x k with
  | nil => exact List.nil_prefix
  | cons c n ih =>
    cases x with
    | nil => simp [slt] at h1
    | cons d x =>
      cases k with
      | nil => simp [slt] at h2
      | cons e k =>
        rw [List.cons_prefix_cons] at h3
        obtain ⟨rfl, h3⟩ := h3
        simp only [slt] at h1 h2
        split at h2
        · rw [if_neg (by omega), if_neg (by omega)] at h1; cases h1
        · split at h2
          · rename_i e1
            have := toNat_inj e1
            subst this
            simp only [Nat.lt_irrefl, if_false, if_true] at h1
            rw [List.cons_prefix_cons]
            exact ⟨rfl, ih h1 h3 h2⟩
          · cases h2

theorem slt_of_prefix {n k : List Char} (h : n <+: k) (hne : n ≠ k) : slt n k = true := by
  induction n generalizing k with
  | nil => cases k with
    | nil => exact absurd rfl hne
    | cons _ _ => rfl
  | cons c n ih =>
    cases k with
    | nil => simp at h
    | cons d k =>
      rw [List.cons_prefix_cons] at h
      obtain ⟨rfl, h⟩ := h
      simp only [slt, Nat.lt_irrefl, if_false, if_true]
      exact ih h (by simpa using hne)

end Verif.Function
