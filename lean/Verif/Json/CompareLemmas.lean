import Verif.Json.Model

/-! # JSON values: lemmas about comparison -/

namespace Verif.Json

/-! ## Elementary orders -/

/-- Lexicographic order of lists of numbers. -/
def lex : List Nat → List Nat → Ordering
  | [], [] => .eq
  | [], _ :: _ => .lt
  | _ :: _, [] => .gt
  | a :: s, b :: t => (ordN a b).then (lex s t)

theorem ordN_swap (a b : Nat) : ordN b a = (ordN a b).swap := by
  unfold ordN
  by_cases h1 : a < b
  · have : ¬ b < a := by omega
    simp [h1, this]
  · by_cases h2 : b < a <;> simp [h1, h2]

theorem ordN_eq {a b : Nat} : ordN a b = .eq ↔ a = b := by
  unfold ordN
  constructor
  · intro h
    split at h
    · cases h
    · split at h
      · cases h
      · omega
  · rintro rfl; simp

theorem ordN_lt {a b : Nat} : ordN a b = .lt ↔ a < b := by
  unfold ordN
  split
  · simp [*]
  · split <;> simp <;> omega

theorem ordN_gt {a b : Nat} : ordN a b = .gt ↔ b < a := by
  unfold ordN
  split
  · simp; omega
  · split <;> simp <;> omega

theorem ordI_lt {a b : Int} : ordI a b = .lt ↔ a < b := by
  unfold ordI
  split
  · simp [*]
  · split <;> simp <;> omega

theorem ordI_gt {a b : Int} : ordI a b = .gt ↔ b < a := by
  unfold ordI
  split
  · simp; omega
  · split <;> simp <;> omega

theorem ordI_eq {a b : Int} : ordI a b = .eq ↔ a = b := by
  unfold ordI
  constructor
  · intro h
    split at h
    · cases h
    · split at h
      · cases h
      · omega
  · rintro rfl; simp

theorem ordN_ordI (a b : Nat) : ordN a b = ordI a b := by
  rcases Nat.lt_trichotomy a b with h | h | h
  · rw [ordN_lt.mpr h, ordI_lt.mpr (by omega)]
  · rw [ordN_eq.mpr h, ordI_eq.mpr (by omega)]
  · rw [ordN_gt.mpr h, ordI_gt.mpr (by omega)]

theorem lex_swap (s t : List Nat) : lex t s = (lex s t).swap := by
  induction s generalizing t with
  | nil => cases t <;> rfl
  | cons a s ih =>
    cases t with
    | nil => rfl
    | cons b t =>
      simp only [lex]
      rw [ordN_swap, ih]
      cases ordN a b <;> rfl

theorem lex_eq {s t : List Nat} : lex s t = .eq ↔ s = t := by
  induction s generalizing t with
  | nil => cases t <;> simp [lex]
  | cons a s ih =>
    cases t with
    | nil => simp [lex]
    | cons b t =>
      simp only [lex, List.cons.injEq]
      rw [← ih, ← ordN_eq]
      cases ordN a b <;> simp [Ordering.then]

theorem lex_trans {s t u : List Nat} (h1 : lex s t = .lt) (h2 : lex t u = .lt) :
    lex s u = .lt := by
  induction s generalizing t u with
  | nil =>
    cases u with
    | nil => cases t <;> simp [lex] at h1 h2
    | cons c u => rfl
  | cons a s ih =>
    cases t with
    | nil => simp [lex] at h1
    | cons b t =>
      cases u with
      | nil => simp [lex] at h2
      | cons c u =>
        simp only [lex] at *
        rcases hab : ordN a b with _ | _ | _ <;> rw [hab] at h1
        · rw [ordN_lt] at hab
          rcases hbc : ordN b c with _ | _ | _ <;> rw [hbc] at h2
          · rw [ordN_lt] at hbc
            rw [ordN_lt.mpr (by omega : a < c)]; rfl
          · rw [ordN_eq] at hbc
            rw [ordN_lt.mpr (by omega : a < c)]; rfl
          · cases h2
        · rw [ordN_eq] at hab; subst hab
          rcases hbc : ordN a c with _ | _ | _ <;> rw [hbc] at h2
          · rfl
          · exact ih h1 h2
          · cases h2
        · cases h1

theorem then_assoc' (a b c : Ordering) : (a.then b).then c = a.then (b.then c) := by
  cases a <;> rfl

/-! ## Encoding

Values are encoded as lists of numbers in such a way that the order of values is the
lexicographic order of encodings. -/

/-- Encoding of a string. -/
def encStr (s : Str) : List Nat := s.map (·.toNat + 1) ++ [0]

theorem strCmp_lex (a b : Str) (s t : List Nat) :
    lex (encStr a ++ s) (encStr b ++ t) = (strCmp a b).then (lex s t) := by
  induction a generalizing b with
  | nil =>
    cases b with
    | nil => simp [encStr, lex, strCmp, ordN]
    | cons c b => simp [encStr, lex, strCmp, ordN]
  | cons d a ih =>
    cases b with
    | nil => simp [encStr, lex, strCmp, ordN]
    | cons c b =>
      have h := ih b
      simp only [encStr, List.map_cons, List.cons_append, lex, strCmp] at *
      have e : ordN (d.toNat + 1) (c.toNat + 1) = ordN d.toNat c.toNat := by
        unfold ordN; simp
      rw [e]
      cases ordN d.toNat c.toNat with
      | eq => simpa [Ordering.then] using h
      | lt => rfl
      | gt => rfl

theorem strCmp_swap (a b : Str) : strCmp b a = (strCmp a b).swap := by
  have h1 := strCmp_lex a b [] []
  have h2 := strCmp_lex b a [] []
  rw [lex_swap] at h2
  rw [h1] at h2
  simp [lex] at h2
  cases h3 : strCmp a b <;> cases h4 : strCmp b a <;> simp_all [Ordering.then]

theorem toNat_inj {x y : Char} (h : x.toNat = y.toNat) : x = y :=
  Char.ext (UInt32.toNat_inj.mp h)

theorem strCmp_eq {a b : Str} : strCmp a b = .eq ↔ a = b := by
  induction a generalizing b with
  | nil => cases b <;> simp [strCmp]
  | cons c a ih =>
    cases b with
    | nil => simp [strCmp]
    | cons d b =>
      simp only [strCmp, List.cons.injEq]
      cases h : ordN c.toNat d.toNat with
      | eq =>
        rw [ordN_eq] at h
        simp only [ih]
        simp [toNat_inj h]
      | lt =>
        rw [ordN_lt] at h
        simp only [reduceCtorEq, false_iff]
        rintro ⟨rfl, _⟩; omega
      | gt =>
        rw [ordN_gt] at h
        simp only [reduceCtorEq, false_iff]
        rintro ⟨rfl, _⟩; omega

theorem strCmp_trans {a b c : Str} (h1 : strCmp a b = .lt) (h2 : strCmp b c = .lt) :
    strCmp a c = .lt := by
  have e1 := strCmp_lex a b [] []
  have e2 := strCmp_lex b c [] []
  have e3 := strCmp_lex a c [] []
  rw [h1] at e1
  rw [h2] at e2
  have := lex_trans e1 e2
  rw [this] at e3
  cases h : strCmp a c <;> rw [h] at e3 <;> simp [lex, Ordering.then] at e3

theorem strCmp_gt {a b : Str} : strCmp a b = .gt ↔ strCmp b a = .lt := by
  rw [strCmp_swap a b]
  cases strCmp a b <;> simp

/-! ## Sorting of members -/

/-- Insert by name. -/
def ins {β : Type} (x : Str × β) : List (Str × β) → List (Str × β)
  | [] => [x]
  | y :: l => if strCmp x.1 y.1 = .lt then x :: y :: l else y :: ins x l

/-- Sort by name. -/
def isort {β : Type} : List (Str × β) → List (Str × β)
  | [] => []
  | x :: l => ins x (isort l)

theorem ins_perm {β : Type} (x : Str × β) (l : List (Str × β)) : (ins x l).Perm (x :: l) := by
  induction l with
  | nil => exact .refl _
  | cons y l ih =>
    simp only [ins]
    split
    · exact .refl _
    · exact (List.Perm.cons _ ih).trans (.swap _ _ _)

theorem isort_perm {β : Type} (l : List (Str × β)) : (isort l).Perm l := by
  induction l with
  | nil => exact .refl _
  | cons x l ih => exact (ins_perm _ _).trans (.cons _ ih)

/-- Strictly ordered by name. -/
def Sorted {β : Type} (l : List (Str × β)) : Prop :=
  l.Pairwise (fun x y => strCmp x.1 y.1 = .lt)

theorem ins_sorted {β : Type} {x : Str × β} {l : List (Str × β)} (hs : Sorted l)
    (hx : ∀ y ∈ l, y.1 ≠ x.1) : Sorted (ins x l) := by
  induction l with
  | nil => simp [ins, Sorted]
  | cons y l ih =>
    unfold Sorted at hs
    rw [List.pairwise_cons] at hs
    simp only [ins]
    split
    · rename_i h
      unfold Sorted
      rw [List.pairwise_cons, List.pairwise_cons]
      refine ⟨?_, hs⟩
      intro z hz
      simp at hz
      rcases hz with rfl | hz
      · exact h
      · exact strCmp_trans h (hs.1 z hz)
    · rename_i h
      have hyx : strCmp y.1 x.1 = .lt := by
        have hne : strCmp x.1 y.1 ≠ .eq := by
          rw [Ne, strCmp_eq]; exact fun e => hx y (by simp) e.symm
        rw [← strCmp_gt]
        cases h2 : strCmp x.1 y.1 with
        | lt => exact absurd h2 h
        | eq => exact absurd h2 hne
        | gt => rfl
      unfold Sorted
      rw [List.pairwise_cons]
      refine ⟨?_, ih hs.2 (fun z hz => hx z (by simp [hz]))⟩
      intro z hz
      have := (ins_perm x l).mem_iff.mp hz
      simp at this
      rcases this with rfl | hz
      · exact hyx
      · exact hs.1 z hz

theorem isort_sorted {β : Type} {l : List (Str × β)} (h : (l.map (·.1)).Nodup) :
    Sorted (isort l) := by
  induction l with
  | nil => simp [isort, Sorted]
  | cons x l ih =>
    simp at h
    refine ins_sorted (ih h.2) ?_
    intro y hy e
    have := (isort_perm l).mem_iff.mp hy
    exact h.1 y.2 (by rw [← e]; exact this)

/-- A strictly ordered list is determined by its elements. -/
theorem sorted_unique {β : Type} {l m : List (Str × β)} (hl : Sorted l) (hm : Sorted m)
    (hp : l.Perm m) : l = m := by
  induction l generalizing m with
  | nil => exact (List.nil_perm.mp hp).symm
  | cons x l ih =>
    cases m with
    | nil => exact absurd hp.length_eq (by simp)
    | cons y m =>
      unfold Sorted at hl hm
      rw [List.pairwise_cons] at hl hm
      have hx : x ∈ y :: m := hp.mem_iff.mp (by simp)
      have hy : y ∈ x :: l := hp.mem_iff.mpr (by simp)
      have hxy : x = y := by
        simp at hx hy
        rcases hx with rfl | hx
        · rfl
        rcases hy with rfl | hy
        · rfl
        have h1 := hl.1 y hy
        have h2 := hm.1 x hx
        have := strCmp_trans h1 h2
        rw [strCmp_eq.mpr rfl] at this
        cases this
      subst hxy
      rw [ih hl.2 hm.2 (List.Perm.cons_inv hp)]

theorem isort_map {β γ : Type} (f : β → γ) (l : List (Str × β)) :
    isort (l.map (fun x => (x.1, f x.2))) = (isort l).map (fun x => (x.1, f x.2)) := by
  have hins : ∀ (x : Str × β) (l : List (Str × β)),
      ins (x.1, f x.2) (l.map (fun x => (x.1, f x.2))) =
        (ins x l).map (fun x => (x.1, f x.2)) := by
    intro x l
    induction l with
    | nil => rfl
    | cons y l ih =>
      simp only [List.map_cons, ins]
      split
      · rfl
      · simp [ih]
  induction l with
  | nil => rfl
  | cons x l ih => simp only [List.map_cons, isort, ih, hins]

/-! ## The iteration over members -/

/-- The members that come after the given name, in order. -/
def rest (p : Option Str) (l : List (Str × Value)) : List (Str × Value) :=
  (isort l).filter (fun x => isAfter p x.1)

/-- The one with the smaller name. -/
def minOpt (a b : Option (Str × Value)) : Option (Str × Value) :=
  match a, b with
  | none, b => b
  | a, none => a
  | some x, some y => if strCmp x.1 y.1 = .lt then some x else some y

theorem head_ins (x : Str × Value) (l : List (Str × Value)) :
    (ins x l).head? = minOpt (some x) l.head? := by
  cases l with
  | nil => rfl
  | cons y l =>
    simp only [ins, List.head?_cons, minOpt]
    split <;> simp

theorem filter_ins {p : Option Str} {x : Str × Value} {l : List (Str × Value)}
    (hs : Sorted l) :
    (ins x l).filter (fun y => isAfter p y.1) =
      if isAfter p x.1 then ins x (l.filter (fun y => isAfter p y.1))
      else l.filter (fun y => isAfter p y.1) := by
  induction l with
  | nil => simp [ins, List.filter_cons]
  | cons y l ih =>
    unfold Sorted at hs
    rw [List.pairwise_cons] at hs
    simp only [ins]
    by_cases h : strCmp x.1 y.1 = .lt
    · rw [if_pos h]
      by_cases hx : isAfter p x.1 = true
      · have hy : isAfter p y.1 = true := by
          unfold isAfter at *
          cases p with
          | none => rfl
          | some p =>
            simp only [beq_iff_eq, strCmp_gt] at *
            exact strCmp_trans hx h
        simp [hx, hy, ins, h]
      · rw [List.filter_cons_of_neg (by simpa using hx)]
        simp [hx]
    · rw [if_neg h]
      by_cases hy : isAfter p y.1 = true
      · rw [List.filter_cons_of_pos (p := fun y : Str × Value => isAfter p y.1) hy, ih hs.2, List.filter_cons_of_pos (p := fun y : Str × Value => isAfter p y.1) hy]
        split
        · simp [ins, h]
        · rfl
      · rw [List.filter_cons_of_neg (p := fun y : Str × Value => isAfter p y.1) hy, ih hs.2, List.filter_cons_of_neg (p := fun y : Str × Value => isAfter p y.1) hy]

theorem minOpt_assoc (a b c : Option (Str × Value)) :
    minOpt a (minOpt b c) = minOpt (minOpt a b) c := by
  cases a with
  | none => rfl
  | some x =>
    cases b with
    | none => cases c <;> rfl
    | some y =>
      cases c with
      | none => simp only [minOpt]; split <;> rfl
      | some z =>
        simp only [minOpt]
        by_cases hyz : strCmp y.1 z.1 = .lt
        · rw [if_pos hyz]
          by_cases hxy : strCmp x.1 y.1 = .lt
          · simp only [hxy, if_true, minOpt]
            simp [strCmp_trans hxy hyz]
          · simp only [hxy, if_false, minOpt, hyz, if_true]
        · rw [if_neg hyz]
          by_cases hxy : strCmp x.1 y.1 = .lt
          · simp only [hxy, if_true, minOpt]
          · simp only [hxy, if_false, minOpt, hyz]
            by_cases hxz : strCmp x.1 z.1 = .lt
            · exfalso
              -- z ≤ y ≤ x
              have h1 : strCmp y.1 z.1 ≠ .lt := hyz
              cases e : strCmp y.1 x.1 with
              | lt => exact h1 (strCmp_trans e hxz)
              | eq => rw [strCmp_eq] at e; rw [e] at h1; exact h1 hxz
              | gt => rw [strCmp_gt] at e; exact hxy e
            · simp [hxz]

theorem rest_cons {p : Option Str} {x : Str × Value} {l : List (Str × Value)}
    (h : (l.map (·.1)).Nodup) :
    rest p (x :: l) = if isAfter p x.1 then ins x (rest p l) else rest p l := by
  unfold rest
  rw [isort, filter_ins (isort_sorted h)]

theorem next_spec {p : Option Str} {l : List (Str × Value)} {n : Option (Str × Value)}
    (h : (l.map (·.1)).Nodup) (hn : ∀ x, n = some x → ∀ y ∈ l, y.1 ≠ x.1) :
    next p n l = some (minOpt n (rest p l).head?) := by
  induction l generalizing n with
  | nil =>
    simp only [next, rest, isort, List.filter_nil, List.head?_nil]
    cases n <;> rfl
  | cons i l ih =>
    rw [rest_cons (by simp at h ⊢; exact h.2)]
    simp only [List.map_cons, List.nodup_cons] at h
    have hni : ∀ y ∈ l, y.1 ≠ i.1 := by
      intro y hy e
      exact h.1 (List.mem_map.mpr ⟨y, hy, e⟩)
    simp only [next]
    by_cases ha : isAfter p i.1 = true
    · simp only [ha, if_true]
      rw [head_ins, minOpt_assoc]
      cases n with
      | none =>
        simp only
        rw [ih h.2 (by intro x hx; cases hx; exact hni)]
        rfl
      | some n' =>
        have hne : i.1 ≠ n'.1 := hn n' rfl i (by simp)
        have hcur : ∀ y ∈ l, y.1 ≠ n'.1 := fun y hy => hn n' rfl y (by simp [hy])
        simp only
        cases hc : strCmp n'.1 i.1 with
        | lt =>
          simp only
          rw [ih h.2 (by intro x hx; cases hx; exact hcur)]
          simp [minOpt, hc]
        | eq => rw [strCmp_eq] at hc; exact absurd hc.symm hne
        | gt =>
          simp only
          rw [ih h.2 (by intro x hx; cases hx; exact hni)]
          simp [minOpt, hc]
    · simp only [ha]
      exact ih h.2 (fun x hx y hy => hn x hx y (by simp [hy]))

theorem rest_none (l : List (Str × Value)) : rest none l = isort l := by
  unfold rest isAfter
  simp

theorem rest_tail {p : Option Str} {l : List (Str × Value)} {x : Str × Value}
    {t : List (Str × Value)} (h : (l.map (·.1)).Nodup) (hr : rest p l = x :: t) :
    rest (some x.1) l = t := by
  have hs := isort_sorted h
  unfold rest at *
  generalize isort l = s at *
  induction s with
  | nil => simp at hr
  | cons y s ih =>
    unfold Sorted at hs
    rw [List.pairwise_cons] at hs
    by_cases hy : isAfter p y.1 = true
    · rw [List.filter_cons_of_pos (p := fun y : Str × Value => isAfter p y.1) hy] at hr
      simp only [List.cons.injEq] at hr
      obtain ⟨rfl, rfl⟩ := hr
      have h1 : isAfter (some y.1) y.1 = false := by
        simp [isAfter, strCmp_eq.mpr]
      rw [List.filter_cons_of_neg (by simp [h1])]
      apply List.filter_congr
      intro z hz
      have hzy := hs.1 z hz
      have h2 : isAfter (some y.1) z.1 = true := by
        simp [isAfter, strCmp_gt.mpr hzy]
      have h3 : isAfter p z.1 = true := by
        unfold isAfter at *
        cases p with
        | none => rfl
        | some p =>
          simp only [beq_iff_eq, strCmp_gt] at *
          exact strCmp_trans hy hzy
      rw [h2, h3]
    · rw [List.filter_cons_of_neg (p := fun y : Str × Value => isAfter p y.1) hy] at hr
      have hxm : x ∈ s := by
        have : x ∈ s.filter (fun x => isAfter p x.1) := by rw [hr]; simp
        exact (List.mem_filter.mp this).1
      have hyx := hs.1 x hxm
      have h1 : isAfter (some x.1) y.1 = false := by
        simp [isAfter, hyx]
      rw [List.filter_cons_of_neg (by simp [h1])]
      exact ih hr hs.2

/-! ## The encoding of values -/

/-- Encoding of a list given encodings of its elements. -/
def encList : List (List Nat) → List Nat
  | [] => [0]
  | x :: l => 1 :: x ++ encList l

/-- Encoding of a member. -/
def encMember (x : Str × List Nat) : List Nat := encStr x.1 ++ x.2

mutual
/-- Encoding of a value. -/
def enc : Value → List Nat
  | .null => [0]
  | .bool b => [1, if b then 1 else 0]
  | .num n => [2, (n.value + 2 ^ 63).toNat]
  | .str s => 3 :: encStr s
  | .arr l => 4 :: encList (encs l)
  | .obj m => 5 :: encList ((isort (encm m)).map encMember)
/-- Encodings of elements. -/
def encs : List Value → List (List Nat)
  | [] => []
  | x :: l => enc x :: encs l
/-- Encodings of members. -/
def encm : List (Str × Value) → List (Str × List Nat)
  | [] => []
  | (n, v) :: m => (n, enc v) :: encm m
end

theorem encm_eq (m : List (Str × Value)) : encm m = m.map (fun x => (x.1, enc x.2)) := by
  induction m with
  | nil => rw [encm]; rfl
  | cons x m ih => obtain ⟨n, v⟩ := x; rw [encm, ih]; rfl

theorem encs_eq (l : List Value) : encs l = l.map enc := by
  induction l with
  | nil => rw [encs]; rfl
  | cons x l ih => rw [encs, ih]; rfl

theorem WFs_iff (l : List Value) : WFs l ↔ ∀ x ∈ l, WF x := by
  induction l with
  | nil => simp [WFs]
  | cons x l ih => simp [WFs, ih]

theorem WFm_iff (m : List (Str × Value)) : WFm m ↔ ∀ x ∈ m, WF x.2 := by
  induction m with
  | nil => simp [WFm]
  | cons x m ih =>
    obtain ⟨n, v⟩ := x
    simp only [WFm, ih, List.mem_cons]
    constructor
    · rintro ⟨h1, h2⟩ x (rfl | hx)
      · exact h1
      · exact h2 x hx
    · intro h
      exact ⟨h _ (.inl rfl), fun x hx => h x (.inr hx)⟩

theorem depth_mem_arr {l : List Value} {x : Value} (h : x ∈ l) : depth x ≤ depths l := by
  induction l with
  | nil => cases h
  | cons y l ih =>
    simp only [depths]
    simp at h
    rcases h with rfl | h
    · omega
    · have := ih h; omega

theorem depth_mem_obj {m : List (Str × Value)} {x : Str × Value} (h : x ∈ m) :
    depth x.2 ≤ depthm m := by
  induction m with
  | nil => cases h
  | cons y m ih =>
    obtain ⟨n, v⟩ := y
    simp only [depthm]
    simp at h
    rcases h with rfl | h
    · simp only; omega
    · have := ih h; omega

theorem value_range (n : Num) : -2 ^ 63 ≤ n.value ∧ n.value < 2 ^ 64 := by
  unfold Num.value
  split
  · have h1 := BitVec.le_toInt n.bits
    have h2 := BitVec.toInt_lt (x := n.bits)
    simp at h1 h2
    omega
  · have := n.bits.isLt
    omega

theorem toInt_cond (b : BitVec 64) :
    b.toInt = if b.toNat < 2 ^ 63 then (b.toNat : Int) else (b.toNat : Int) - 2 ^ 64 := by
  rw [BitVec.toInt_eq_toNat_cond]
  simp only [Nat.reducePow]
  split <;> split <;> first | rfl | omega

/-- What the comparison of numbers amounts to. -/
theorem cmp_num (a b : Num) (cmp : Value → Value → Option Ordering) :
    (match cmpTypes (.num a) (.num b) with
     | .eq => cmpSame cmp (.num a) (.num b)
     | r => some r) = some (ordI a.value b.value) := by
  obtain ⟨sa, xa, a⟩ := a
  obtain ⟨sb, xb, b⟩ := b
  have ha := toInt_cond a
  have hb := toInt_cond b
  have la := a.isLt
  have lb := b.isLt
  cases sa <;> cases sb <;> simp only [cmpTypes, typeOf, cmpSame, Num.value, Bool.false_eq_true,
    if_false, if_true, Nat.reduceEqDiff]
  · -- unsigned, unsigned
    rw [ordN_ordI]
  · -- unsigned, signed
    by_cases h0 : b.toInt < 0
    · simp only [h0, if_true]
      rw [ordI_gt.mpr (by omega)]
    · have h1 : b.toInt = b.toNat := by split at hb <;> omega
      simp only [h0, if_false]
      rw [h1, ← ordN_ordI]
      cases ordN a.toNat b.toNat <;> rfl
  · -- signed, unsigned
    by_cases h0 : a.toInt < 0
    · simp only [h0, if_true]
      rw [ordI_lt.mpr (by omega)]
    · have h1 : a.toInt = a.toNat := by split at ha <;> omega
      simp only [h0, if_false]
      cases h : ordN a.toNat b.toNat with
      | eq =>
        simp only
        have h2 := ordN_eq.mp h
        rw [ordI_eq.mpr (by rw [ha, hb, h2]), ordI_eq.mpr (by omega)]
      | lt => simp only; rw [h1, ← ordN_ordI, h]
      | gt => simp only; rw [h1, ← ordN_ordI, h]

theorem lex_num (a b : Num) (s t : List Nat) :
    lex (enc (.num a) ++ s) (enc (.num b) ++ t) = (ordI a.value b.value).then (lex s t) := by
  have ha := value_range a
  have hb := value_range b
  simp only [enc, List.cons_append, List.nil_append, lex]
  have e : ordN (a.value + 2 ^ 63).toNat (b.value + 2 ^ 63).toNat = ordI a.value b.value := by
    unfold ordN ordI
    split <;> split <;> first | rfl | omega | (split <;> first | rfl | omega | (split <;> first | rfl | omega))
  rw [e]
  simp [ordN, Ordering.then]

/-- The claim proved by induction on the fuel. -/
def Claim (f : Nat) : Prop :=
  ∀ x y, WF x → WF y → depth x < f →
    ∃ r, compareF f x y = some r ∧
      ∀ s t, lex (enc x ++ s) (enc y ++ t) = r.then (lex s t)

theorem arr_claim {f : Nat} (hf : Claim f) (l m : List Value) (hl : ∀ x ∈ l, WF x)
    (hm : ∀ x ∈ m, WF x) (hd : ∀ x ∈ l, depth x < f) :
    ∃ r, arrLoop (compareF f) l m = some r ∧
      ∀ s t, lex (encList (encs l) ++ s) (encList (encs m) ++ t) = r.then (lex s t) := by
  induction l generalizing m with
  | nil =>
    cases m with
    | nil => exact ⟨.eq, rfl, fun s t => by simp [encs, encList, lex, ordN, Ordering.then]⟩
    | cons y m => exact ⟨.lt, rfl, fun s t => by simp [encs, encList, lex, ordN, Ordering.then]⟩
  | cons x l ih =>
    cases m with
    | nil => exact ⟨.gt, rfl, fun s t => by simp [encs, encList, lex, ordN, Ordering.then]⟩
    | cons y m =>
      obtain ⟨r, h1, h2⟩ := hf x y (hl x (by simp)) (hm y (by simp)) (hd x (by simp))
      obtain ⟨q, h3, h4⟩ := ih m (fun x hx => hl x (by simp [hx])) (fun x hx => hm x (by simp [hx]))
        (fun x hx => hd x (by simp [hx]))
      simp only [arrLoop, h1]
      have key : ∀ s t, lex (encList (encs (x :: l)) ++ s) (encList (encs (y :: m)) ++ t) =
          (r.then q).then (lex s t) := by
        intro s t
        simp only [encs, encList, List.cons_append, lex, List.append_assoc]
        rw [h2, h4, then_assoc']
        simp [ordN, Ordering.then]
      cases r with
      | eq => exact ⟨q, h3, fun s t => by rw [key]; rfl⟩
      | lt => exact ⟨.lt, rfl, fun s t => by rw [key]; rfl⟩
      | gt => exact ⟨.gt, rfl, fun s t => by rw [key]; rfl⟩

theorem obj_claim {f : Nat} (hf : Claim f) (a b : List (Str × Value))
    (ha : (a.map (·.1)).Nodup) (hb : (b.map (·.1)).Nodup)
    (wa : ∀ x ∈ a, WF x.2) (wb : ∀ x ∈ b, WF x.2) (hd : ∀ x ∈ a, depth x.2 < f)
    (g : Nat) (i j : Option Str) (hg : (rest i a).length < g) :
    ∃ r, objLoop (compareF f) a b g i j = some r ∧
      ∀ s t, lex (encList ((rest i a).map (fun x => encMember (x.1, enc x.2))) ++ s)
          (encList ((rest j b).map (fun x => encMember (x.1, enc x.2))) ++ t) =
        r.then (lex s t) := by
  induction g generalizing i j with
  | zero => omega
  | succ g ih =>
    simp only [objLoop]
    have n1 : next i none a = some (rest i a).head? := by
      have := next_spec (p := i) (n := none) ha (by simp)
      simpa [minOpt] using this
    have n2 : next j none b = some (rest j b).head? := by
      have := next_spec (p := j) (n := none) hb (by simp)
      simpa [minOpt] using this
    rw [n1, n2]
    cases hra : rest i a with
    | nil =>
      cases hrb : rest j b with
      | nil => exact ⟨.eq, rfl, fun s t => by simp [encList, lex, ordN, Ordering.then]⟩
      | cons y v => exact ⟨.lt, rfl, fun s t => by simp [encList, lex, ordN, Ordering.then]⟩
    | cons x u =>
      cases hrb : rest j b with
      | nil => exact ⟨.gt, rfl, fun s t => by simp [encList, lex, ordN, Ordering.then]⟩
      | cons y v =>
        have hxa : x ∈ a := by
          have : x ∈ rest i a := by rw [hra]; simp
          exact (isort_perm a).mem_iff.mp (List.mem_filter.mp this).1
        have hyb : y ∈ b := by
          have : y ∈ rest j b := by rw [hrb]; simp
          exact (isort_perm b).mem_iff.mp (List.mem_filter.mp this).1
        obtain ⟨r, h1, h2⟩ := hf x.2 y.2 (wa x hxa) (wb y hyb) (hd x hxa)
        have hu := rest_tail ha hra
        have hv := rest_tail hb hrb
        obtain ⟨q, h3, h4⟩ := ih (some x.1) (some y.1) (by rw [hu]; rw [hra] at hg; simp at hg; omega)
        rw [hu, hv] at h4
        simp only [List.head?_cons]
        have key : ∀ s t,
            lex (encList ((x :: u).map (fun x => encMember (x.1, enc x.2))) ++ s)
              (encList ((y :: v).map (fun x => encMember (x.1, enc x.2))) ++ t) =
            ((strCmp x.1 y.1).then (r.then q)).then (lex s t) := by
          intro s t
          have e : ∀ (z : Str × Value) w, encMember (z.1, enc z.2) ++ w = encStr z.1 ++ (enc z.2 ++ w) := by
            intro z w; simp [encMember]
          simp only [List.map_cons, encList, List.cons_append, lex, List.append_assoc]
          rw [e, e, strCmp_lex, h2, h4, then_assoc', then_assoc']
          simp [ordN, Ordering.then]
        cases hc : strCmp x.1 y.1 with
        | lt => exact ⟨.lt, rfl, fun s t => by rw [key, hc]; rfl⟩
        | gt => exact ⟨.gt, rfl, fun s t => by rw [key, hc]; rfl⟩
        | eq =>
          simp only [h1]
          cases r with
          | lt => exact ⟨.lt, rfl, fun s t => by rw [key, hc]; rfl⟩
          | gt => exact ⟨.gt, rfl, fun s t => by rw [key, hc]; rfl⟩
          | eq => exact ⟨q, h3, fun s t => by rw [key, hc]; rfl⟩

theorem enc_obj (m : List (Str × Value)) :
    enc (.obj m) = 5 :: encList ((rest none m).map (fun x => encMember (x.1, enc x.2))) := by
  rw [enc, encm_eq, isort_map, List.map_map, rest_none]
  rfl

/-- Values of different kinds are compared by their kind. -/
theorem cmp_kinds (x y : Value) (cmp : Value → Value → Option Ordering)
    (h : kind x ≠ kind y) :
    (match cmpTypes x y with
     | .eq => cmpSame cmp x y
     | r => some r) = some (ordN (kind x) (kind y)) := by
  cases x <;> cases y <;> first
    | exact absurd rfl h
    | rfl
    | (rename_i n; obtain ⟨s, _, _⟩ := n; cases s <;> rfl)
    | (rename_i n _; obtain ⟨s, _, _⟩ := n; cases s <;> rfl)

theorem lex_kinds (x y : Value) (s t : List Nat) (h : kind x ≠ kind y) :
    lex (enc x ++ s) (enc y ++ t) = ordN (kind x) (kind y) := by
  cases x <;> cases y <;> first
    | exact absurd rfl h
    | simp [enc, kind, lex, ordN, Ordering.then]

theorem claim (f : Nat) : Claim f := by
  induction f with
  | zero => intro x y _ _ h; omega
  | succ f ih =>
    intro x y hx hy hd
    simp only [compareF]
    by_cases hk : kind x ≠ kind y
    · refine ⟨_, cmp_kinds _ _ _ hk, fun s t => ?_⟩
      rw [lex_kinds _ _ _ _ hk]
      have : ordN (kind x) (kind y) ≠ .eq := by rwa [Ne, ordN_eq]
      cases h : ordN (kind x) (kind y) with
      | eq => exact absurd h this
      | lt => rfl
      | gt => rfl
    rw [ne_eq, Classical.not_not] at hk
    cases x <;> cases y
    case num.num a b =>
      exact ⟨_, cmp_num a b _, lex_num a b⟩
    case null.null => exact ⟨.eq, rfl, fun s t => by simp [enc, lex, ordN, Ordering.then]⟩
    case bool.bool a b =>
      cases a <;> cases b <;>
        exact ⟨_, rfl, fun s t => by simp [enc, lex, ordN, Ordering.then]⟩
    case str.str a b =>
      refine ⟨_, rfl, fun s t => ?_⟩
      have := strCmp_lex a b s t
      simp only [enc, List.cons_append, lex]
      rw [this]
      simp [ordN, Ordering.then]
    case arr.arr l m =>
      simp only [WF] at hx hy
      simp only [depth] at hd
      obtain ⟨r, h1, h2⟩ := arr_claim ih l m ((WFs_iff l).mp hx) ((WFs_iff m).mp hy)
        (fun x hx => by have := depth_mem_arr hx; omega)
      refine ⟨r, h1, fun s t => ?_⟩
      simp only [enc, List.cons_append, lex]
      rw [h2]
      simp [ordN, Ordering.then]
    case obj.obj l m =>
      simp only [WF] at hx hy
      simp only [depth] at hd
      obtain ⟨r, h1, h2⟩ := obj_claim ih l m hx.1 hy.1 ((WFm_iff l).mp hx.2) ((WFm_iff m).mp hy.2)
        (fun x hx => by have := depth_mem_obj hx; omega) (l.length + 1) none none
        (by rw [rest_none, (isort_perm l).length_eq]; omega)
      refine ⟨r, h1, fun s t => ?_⟩
      rw [enc_obj, enc_obj]
      simp only [List.cons_append, lex]
      rw [h2]
      simp [ordN, Ordering.then]
    all_goals simp [kind] at hk

/-- The comparison is that of encodings. -/
theorem compare_enc {x y : Value} (hx : WF x) (hy : WF y) :
    compare x y = some (lex (enc x) (enc y)) := by
  obtain ⟨r, h1, h2⟩ := claim (depth x + 1) x y hx hy (by omega)
  have := h2 [] []
  simp [lex] at this
  unfold compare
  rw [h1, this]

/-! ## Encodings are prefix-free -/

theorem enc_prefix_free {x y : Value} (hx : WF x) (hy : WF y) {s t : List Nat}
    (h : enc x ++ s = enc y ++ t) : enc x = enc y ∧ s = t := by
  obtain ⟨r, _, h2⟩ := claim (depth x + 1) x y hx hy (by omega)
  have e := h2 s t
  rw [lex_eq.mpr h] at e
  have e0 := h2 [] []
  simp only [List.append_nil, lex] at e0
  cases r with
  | lt => cases e
  | gt => cases e
  | eq => exact ⟨lex_eq.mp e0, lex_eq.mp e.symm⟩

theorem encStr_prefix_free {a b : Str} {s t : List Nat} (h : encStr a ++ s = encStr b ++ t) :
    a = b ∧ s = t := by
  have e := strCmp_lex a b s t
  rw [lex_eq.mpr h] at e
  cases hc : strCmp a b <;> rw [hc] at e
  · cases e
  · exact ⟨strCmp_eq.mp hc, lex_eq.mp e.symm⟩
  · cases e

theorem encList_arr_inj {l m : List Value} (hl : ∀ x ∈ l, WF x) (hm : ∀ x ∈ m, WF x)
    (h : encList (encs l) = encList (encs m)) : encs l = encs m := by
  induction l generalizing m with
  | nil =>
    cases m with
    | nil => rfl
    | cons y m => simp [encs, encList] at h
  | cons x l ih =>
    cases m with
    | nil => simp [encs, encList] at h
    | cons y m =>
      simp only [encs, encList, List.cons_append, List.cons.injEq, true_and] at h
      obtain ⟨e1, e2⟩ := enc_prefix_free (hl x (by simp)) (hm y (by simp)) h
      simp only [encs]
      rw [e1, ih (fun x hx => hl x (by simp [hx])) (fun x hx => hm x (by simp [hx])) e2]

theorem encList_obj_inj {l m : List (Str × Value)} (hl : ∀ x ∈ l, WF x.2) (hm : ∀ x ∈ m, WF x.2)
    (h : encList (l.map (fun x => encMember (x.1, enc x.2))) =
      encList (m.map (fun x => encMember (x.1, enc x.2)))) :
    l.map (fun x => (x.1, enc x.2)) = m.map (fun x => (x.1, enc x.2)) := by
  induction l generalizing m with
  | nil =>
    cases m with
    | nil => rfl
    | cons y m => simp [encList] at h
  | cons x l ih =>
    cases m with
    | nil => simp [encList] at h
    | cons y m =>
      have e : ∀ (z : Str × Value) w,
          encMember (z.1, enc z.2) ++ w = encStr z.1 ++ (enc z.2 ++ w) := by
        intro z w; simp [encMember]
      simp only [List.map_cons, encList, List.cons_append, List.cons.injEq, true_and] at h
      rw [e, e] at h
      obtain ⟨e1, h⟩ := encStr_prefix_free h
      obtain ⟨e2, h⟩ := enc_prefix_free (hl x (by simp)) (hm y (by simp)) h
      simp only [List.map_cons]
      rw [e1, e2, ih (fun x hx => hl x (by simp [hx])) (fun x hx => hm x (by simp [hx])) h]

/-! ## Members -/

theorem member_mem {m : List (Str × Value)} {n : Str} {v : Value} (h : member m n = some v) :
    (n, v) ∈ m := by
  unfold member at h
  rw [Option.map_eq_some_iff] at h
  obtain ⟨⟨k, w⟩, h1, h2⟩ := h
  have e := List.find?_some h1
  simp at e h2
  subst e; subst h2
  exact List.mem_of_find?_eq_some h1

theorem mem_member {m : List (Str × Value)} (hm : (m.map (·.1)).Nodup) {n : Str} {v : Value}
    (h : (n, v) ∈ m) : member m n = some v := by
  induction m with
  | nil => cases h
  | cons x m ih =>
    simp only [List.map_cons, List.nodup_cons] at hm
    simp only [List.mem_cons] at h
    unfold member
    rw [List.find?_cons]
    rcases h with rfl | h
    · simp
    · have hne : x.1 ≠ n := by
        intro e
        exact hm.1 (List.mem_map.mpr ⟨(n, v), h, e.symm⟩)
      have : (x.1 == n) = false := by simpa using hne
      rw [this]
      exact ih hm.2 h

theorem member_iff {m : List (Str × Value)} (hm : (m.map (·.1)).Nodup) {n : Str} {v : Value} :
    member m n = some v ↔ (n, v) ∈ m := ⟨member_mem, mem_member hm⟩

theorem member_none_iff {m : List (Str × Value)} {n : Str} :
    member m n = none ↔ n ∉ m.map (·.1) := by
  unfold member
  simp only [Option.map_eq_none_iff, List.find?_eq_none, List.mem_map, beq_iff_eq]
  constructor
  · rintro h ⟨x, hx, e⟩; exact h x hx e
  · intro h x hx e; exact h ⟨x, hx, e⟩

/-- The members in order with their encodings. -/
def encSorted (m : List (Str × Value)) : List (Str × List Nat) :=
  (rest none m).map (fun x => (x.1, enc x.2))

theorem encSorted_sorted {m : List (Str × Value)} (hm : (m.map (·.1)).Nodup) :
    Sorted (encSorted m) := by
  unfold encSorted
  rw [rest_none]
  have := isort_sorted hm
  unfold Sorted at *
  rw [List.pairwise_map]
  exact this

theorem mem_encSorted {m : List (Str × Value)} (hm : (m.map (·.1)).Nodup) {n : Str}
    {e : List Nat} :
    (n, e) ∈ encSorted m ↔ ∃ v, member m n = some v ∧ enc v = e := by
  unfold encSorted
  rw [rest_none, List.mem_map]
  constructor
  · rintro ⟨⟨k, v⟩, hx, he⟩
    simp only [Prod.mk.injEq] at he
    obtain ⟨rfl, rfl⟩ := he
    exact ⟨v, mem_member hm ((isort_perm m).mem_iff.mp hx), rfl⟩
  · rintro ⟨v, h, rfl⟩
    exact ⟨(n, v), (isort_perm m).mem_iff.mpr (member_mem h), rfl⟩

theorem enc_obj' (m : List (Str × Value)) :
    enc (.obj m) = 5 :: encList ((encSorted m).map encMember) := by
  rw [enc_obj]
  unfold encSorted
  rw [List.map_map]
  rfl

/-- Strictly ordered lists with the same elements are the same. -/
theorem sorted_ext {β : Type} {l m : List (Str × β)} (hl : Sorted l) (hm : Sorted m)
    (h : ∀ x, x ∈ l ↔ x ∈ m) : l = m := by
  induction l generalizing m with
  | nil =>
    cases m with
    | nil => rfl
    | cons y m => exact absurd ((h y).mpr (by simp)) (by simp)
  | cons x l ih =>
    cases m with
    | nil => exact absurd ((h x).mp (by simp)) (by simp)
    | cons y m =>
      unfold Sorted at hl hm
      rw [List.pairwise_cons] at hl hm
      have irr : ∀ z : Str × β, strCmp z.1 z.1 ≠ .lt := by
        intro z; rw [strCmp_eq.mpr rfl]; simp
      have hx : x ∈ y :: m := (h x).mp (by simp)
      have hy : y ∈ x :: l := (h y).mpr (by simp)
      have hxy : x = y := by
        simp at hx hy
        rcases hx with rfl | hx
        · rfl
        rcases hy with rfl | hy
        · rfl
        exact absurd (strCmp_trans (hl.1 y hy) (hm.1 x hx)) (irr x)
      subst hxy
      rw [ih hl.2 hm.2]
      intro z
      have hz := h z
      simp only [List.mem_cons] at hz
      constructor
      · intro hzl
        rcases hz.mp (.inr hzl) with rfl | h
        · exact absurd (hl.1 _ hzl) (irr _)
        · exact h
      · intro hzm
        rcases hz.mpr (.inr hzm) with rfl | h
        · exact absurd (hm.1 _ hzm) (irr _)
        · exact h

theorem sorted_filter {β : Type} {l : List (Str × β)} (hl : Sorted l) (p : Str × β → Bool) :
    Sorted (l.filter p) := List.Pairwise.filter p hl

/-- A strictly ordered list is what is less than a name followed by what is not. -/
theorem sorted_split {β : Type} {l : List (Str × β)} (hl : Sorted l) (n : Str) :
    l = l.filter (fun x => strCmp x.1 n == .lt) ++ l.filter (fun x => !(strCmp x.1 n == .lt)) := by
  induction l with
  | nil => rfl
  | cons x l ih =>
    unfold Sorted at hl
    rw [List.pairwise_cons] at hl
    by_cases hx : strCmp x.1 n = .lt
    · rw [List.filter_cons_of_pos (by simpa using hx), List.filter_cons_of_neg (by simpa using hx)]
      rw [List.cons_append, ← ih hl.2]
    · have e1 : l.filter (fun x => strCmp x.1 n == .lt) = [] := by
        rw [List.filter_eq_nil_iff]
        intro y hy h
        simp only [beq_iff_eq] at h
        exact hx (strCmp_trans (hl.1 y hy) h)
      have e2 : l.filter (fun x => !(strCmp x.1 n == .lt)) = l := by
        have := ih hl.2
        rw [e1] at this
        exact this.symm
      rw [List.filter_cons_of_neg (by simpa using hx), List.filter_cons_of_pos (by simpa using hx),
        e1, e2]
      rfl

theorem encList_append (a b c : List (List Nat)) (s t : List Nat) :
    lex (encList (a ++ b) ++ s) (encList (a ++ c) ++ t) =
      lex (encList b ++ s) (encList c ++ t) := by
  induction a with
  | nil => rfl
  | cons x a ih =>
    simp only [List.cons_append, encList, lex, List.append_assoc]
    have : ∀ (x s t : List Nat), lex (x ++ s) (x ++ t) = lex s t := by
      intro x s t
      induction x with
      | nil => rfl
      | cons y x ihx => simp only [List.cons_append, lex, ihx]; rw [ordN_eq.mpr rfl]; rfl
    rw [this, ih, ordN_eq.mpr rfl]
    rfl

end Verif.Json
