import Verif.Json.CompareLemmas
import Verif.Json.AddLemmas

/-!
# JSON values: properties

C36 JSON values are totally ordered; C37 JSON append adds numbers correctly; C38 JSON
append and prepend merge.
-/

namespace Verif.Json

/-! ## C36: comparison

All theorems are about values without duplicate member names (`WF`), which is what
the code assumes (and asserts). -/

/-- The comparison returns (no assertion fails). -/
theorem compare_defined {x y : Value} (hx : WF x) (hy : WF y) : ∃ r, compare x y = some r :=
  ⟨_, compare_enc hx hy⟩

/-- Reflexive. -/
theorem compare_refl {x : Value} (hx : WF x) : compare x x = some .eq := by
  rw [compare_enc hx hx, lex_eq.mpr rfl]

/-- Antisymmetric: swapping the values swaps the result. -/
theorem compare_antisymm {x y : Value} (hx : WF x) (hy : WF y) :
    compare y x = (compare x y).map Ordering.swap := by
  rw [compare_enc hx hy, compare_enc hy hx, lex_swap]
  rfl

/-- Transitive. -/
theorem compare_trans {x y z : Value} (hx : WF x) (hy : WF y) (hz : WF z)
    (h1 : compare x y = some .lt) (h2 : compare y z = some .lt) :
    compare x z = some .lt := by
  rw [compare_enc hx hy] at h1
  rw [compare_enc hy hz] at h2
  rw [compare_enc hx hz, lex_trans (Option.some.inj h1) (Option.some.inj h2)]

/-- Equal values compare the same with every other value. -/
theorem compare_congr {x y z : Value} (hx : WF x) (hy : WF y) (hz : WF z)
    (h : compare x y = some .eq) : compare x z = compare y z := by
  rw [compare_enc hx hy] at h
  have e := lex_eq.mp (Option.some.inj h)
  rw [compare_enc hx hz, compare_enc hy hz, e]

/-- Numbers are compared by their numeric value whatever their representation. -/
theorem compare_numbers (a b : Num) :
    (compare (.num a) (.num b) = some .lt ↔ a.value < b.value) ∧
    (compare (.num a) (.num b) = some .eq ↔ a.value = b.value) ∧
    (compare (.num a) (.num b) = some .gt ↔ a.value > b.value) := by
  have e : compare (.num a) (.num b) = some (ordI a.value b.value) := cmp_num a b _
  rw [e]
  simp only [Option.some.injEq]
  exact ⟨ordI_lt, ordI_eq, ordI_gt⟩

/-- Values of different types are never equal and are ordered by type: null, boolean,
number, string, array, object. -/
theorem compare_kinds {x y : Value} (h : kind x < kind y) :
    compare x y = some .lt ∧ compare y x = some .gt := by
  have h1 : compare x y = some (ordN (kind x) (kind y)) := cmp_kinds x y _ (by omega)
  have h2 : compare y x = some (ordN (kind y) (kind x)) := cmp_kinds y x _ (by omega)
  rw [h1, h2, ordN_lt.mpr h, ordN_gt.mpr h]
  exact ⟨rfl, rfl⟩

theorem strCmp_nameLt {a b : Str} : strCmp a b = .lt ↔ NameLt a b := by
  constructor
  · intro h
    induction a generalizing b with
    | nil =>
      cases b with
      | nil => cases h
      | cons c b => exact .inl ⟨c, b, rfl⟩
    | cons d a ih =>
      cases b with
      | nil => cases h
      | cons c b =>
        simp only [strCmp] at h
        split at h
        · rename_i he
          rw [ordN_eq] at he
          have := toNat_inj he
          subst this
          rcases ih h with ⟨x, s, rfl⟩ | ⟨p, x, y, s, t, rfl, rfl, hlt⟩
          · exact .inl ⟨x, s, rfl⟩
          · exact .inr ⟨d :: p, x, y, s, t, rfl, rfl, hlt⟩
        · exact .inr ⟨[], d, c, a, b, rfl, rfl, ordN_lt.mp h⟩
  · have pre : ∀ (p s t : Str), strCmp (p ++ s) (p ++ t) = strCmp s t := by
      intro p s t
      induction p with
      | nil => rfl
      | cons c p ih => simp only [List.cons_append, strCmp]; rw [ordN_eq.mpr rfl]; exact ih
    rintro (⟨c, s, rfl⟩ | ⟨p, c, d, s, t, rfl, rfl, h⟩)
    · have := pre a [] (c :: s)
      rw [List.append_nil] at this
      rw [this]
      rfl
    · rw [pre]
      simp only [strCmp, ordN_lt.mpr h]

/-- Strings are compared lexicographically. -/
theorem compare_strings (a b : Str) :
    (compare (.str a) (.str b) = some .lt ↔ NameLt a b) ∧
    (compare (.str a) (.str b) = some .eq ↔ a = b) := by
  have e : compare (.str a) (.str b) = some (strCmp a b) := rfl
  rw [e]
  simp only [Option.some.injEq]
  exact ⟨strCmp_nameLt, strCmp_eq⟩

/-- False is less than true. -/
theorem compare_booleans (a b : Bool) :
    (compare (.bool a) (.bool b) = some .lt ↔ a = false ∧ b = true) ∧
    (compare (.bool a) (.bool b) = some .eq ↔ a = b) := by
  cases a <;> cases b <;> decide

/-- Equal elements. -/
theorem encs_eq_iff {l m : List Value} (hl : ∀ x ∈ l, WF x) (hm : ∀ x ∈ m, WF x) :
    encs l = encs m ↔ l.length = m.length ∧
      ∀ (i : Nat) (h1 : i < l.length) (h2 : i < m.length), compare l[i] m[i] = some .eq := by
  rw [encs_eq, encs_eq]
  constructor
  · intro h
    refine ⟨by simpa using congrArg List.length h, ?_⟩
    intro i h1 h2
    rw [compare_enc (hl _ (by simp)) (hm _ (by simp)), lex_eq.mpr]
    have := congrArg (·[i]?) h
    simpa [h1, h2] using this
  · rintro ⟨h1, h2⟩
    apply List.ext_getElem
    · simpa using h1
    · intro i hi1 hi2
      simp at hi1 hi2
      have := h2 i hi1 hi2
      rw [compare_enc (hl _ (by simp)) (hm _ (by simp))] at this
      simpa using lex_eq.mp (Option.some.inj this)

/-- Arrays are equal if they have the same number of elements and the elements are
equal. -/
theorem compare_arrays_eq {l m : List Value} (hl : WF (.arr l)) (hm : WF (.arr m)) :
    compare (.arr l) (.arr m) = some .eq ↔ l.length = m.length ∧
      ∀ (i : Nat) (h1 : i < l.length) (h2 : i < m.length), compare l[i] m[i] = some .eq := by
  rw [compare_enc hl hm, Option.some.injEq, lex_eq]
  simp only [WF, WFs_iff] at hl hm
  rw [← encs_eq_iff hl hm]
  simp only [enc, List.cons.injEq, true_and]
  constructor
  · exact encList_arr_inj hl hm
  · intro h; rw [h]

/-- The first different element decides the order of arrays. -/
theorem compare_arrays_first {p q : List Value} {x y : Value} {l m : List Value}
    (hl : WF (.arr (p ++ x :: l))) (hm : WF (.arr (q ++ y :: m)))
    (hp : compare (.arr p) (.arr q) = some .eq) {r : Ordering} (hr : r ≠ .eq)
    (h : compare x y = some r) :
    compare (.arr (p ++ x :: l)) (.arr (q ++ y :: m)) = some r := by
  have hl' := hl
  have hm' := hm
  simp only [WF, WFs_iff, List.mem_append, List.mem_cons] at hl' hm'
  have hx := hl' x (.inr (.inl rfl))
  have hy := hm' y (.inr (.inl rfl))
  have hpw : WF (.arr p) := by simp only [WF, WFs_iff]; exact fun z hz => hl' z (.inl hz)
  have hqw : WF (.arr q) := by simp only [WF, WFs_iff]; exact fun z hz => hm' z (.inl hz)
  rw [compare_arrays_eq hpw hqw,
    ← encs_eq_iff (by simpa [WF, WFs_iff] using hpw) (by simpa [WF, WFs_iff] using hqw)] at hp
  obtain ⟨r', h1, h2⟩ := claim (depth x + 1) x y hx hy (by omega)
  have : r' = r := by
    unfold compare at h
    rw [h1] at h
    exact Option.some.inj h
  subst this
  rw [compare_enc hl hm]
  simp only [enc, lex]
  have e : ∀ (p : List Value) z l, encs (p ++ z :: l) = encs p ++ (enc z :: encs l) := by
    intro p z l; simp [encs_eq]
  rw [e, e, hp]
  have key := encList_append (encs q) (enc x :: encs l) (enc y :: encs m) [] []
  simp only [List.append_nil] at key
  rw [key]
  simp only [encList, List.cons_append, lex]
  rw [h2]
  cases r' with
  | eq => exact absurd rfl hr
  | lt => rfl
  | gt => rfl

/-- A proper prefix is less. -/
theorem compare_arrays_prefix {p q : List Value} {y : Value} {m : List Value}
    (hl : WF (.arr p)) (hm : WF (.arr (q ++ y :: m)))
    (hp : compare (.arr p) (.arr q) = some .eq) :
    compare (.arr p) (.arr (q ++ y :: m)) = some .lt := by
  have hm' := hm
  simp only [WF, WFs_iff, List.mem_append, List.mem_cons] at hm'
  have hqw : WF (.arr q) := by simp only [WF, WFs_iff]; exact fun z hz => hm' z (.inl hz)
  rw [compare_arrays_eq hl hqw,
    ← encs_eq_iff (by simpa [WF, WFs_iff] using hl) (by simpa [WF, WFs_iff] using hqw)] at hp
  rw [compare_enc hl hm]
  simp only [enc, lex]
  have e : encs (q ++ y :: m) = encs q ++ (enc y :: encs m) := by simp [encs_eq]
  rw [e, hp]
  have key := encList_append (encs q) [] (enc y :: encs m) [] []
  simp only [List.append_nil] at key
  rw [key]
  simp [encList, lex, ordN, Ordering.then]

/-- The same member or no such member in both. -/
def SameMember (a b : Option Value) : Prop :=
  match a, b with
  | none, none => True
  | some v, some w => compare v w = some .eq
  | _, _ => False

theorem wf_member {m : List (Str × Value)} (hm : WF (.obj m)) {n : Str} {v : Value}
    (h : member m n = some v) : WF v := by
  simp only [WF, WFm_iff] at hm
  exact hm.2 _ (member_mem h)

theorem same_of_mem {m k : List (Str × Value)} (hm : WF (.obj m)) (hk : WF (.obj k)) {n : Str} :
    SameMember (member m n) (member k n) ↔
      ∀ e, (n, e) ∈ encSorted m ↔ (n, e) ∈ encSorted k := by
  have hm1 := hm
  have hk1 := hk
  simp only [WF] at hm1 hk1
  simp only [mem_encSorted hm1.1, mem_encSorted hk1.1]
  unfold SameMember
  cases h1 : member m n with
  | none =>
    cases h2 : member k n with
    | none => simp
    | some w => simp
  | some v =>
    cases h2 : member k n with
    | none => simp
    | some w =>
      simp only [Option.some.injEq, exists_eq_left']
      rw [compare_enc (wf_member hm h1) (wf_member hk h2), Option.some.injEq, lex_eq]
      constructor
      · intro h e; rw [h]
      · intro h; exact ((h (enc v)).mp rfl).symm

/-- Objects are equal if they have the same names with equal values. -/
theorem compare_objects_eq {m k : List (Str × Value)} (hm : WF (.obj m)) (hk : WF (.obj k)) :
    compare (.obj m) (.obj k) = some .eq ↔ ∀ n, SameMember (member m n) (member k n) := by
  have hm1 := hm
  have hk1 := hk
  simp only [WF] at hm1 hk1
  rw [compare_enc hm hk, Option.some.injEq, lex_eq]
  have : enc (.obj m) = enc (.obj k) ↔ encSorted m = encSorted k := by
    constructor
    · intro h
      rw [enc_obj, enc_obj] at h
      simp only [List.cons.injEq, true_and] at h
      refine encList_obj_inj ?_ ?_ h
      · intro x hx
        rw [rest_none] at hx
        exact (WFm_iff m).mp hm1.2 x ((isort_perm m).mem_iff.mp hx)
      · intro x hx
        rw [rest_none] at hx
        exact (WFm_iff k).mp hk1.2 x ((isort_perm k).mem_iff.mp hx)
    · intro h; rw [enc_obj', enc_obj', h]
  rw [this]
  constructor
  · intro h n
    rw [same_of_mem hm hk, h]
    exact fun _ => .rfl
  · intro h
    refine sorted_ext (encSorted_sorted hm1.1) (encSorted_sorted hk1.1) ?_
    rintro ⟨n, e⟩
    exact (same_of_mem hm hk).mp (h n) e

/-- The order of members does not matter. -/
theorem compare_objects_perm {m k : List (Str × Value)} (hm : WF (.obj m)) (hp : m.Perm k)
    {z : Value} (hz : WF z) :
    compare (.obj m) (.obj k) = some .eq ∧ compare (.obj m) z = compare (.obj k) z := by
  have hm1 := hm
  simp only [WF, WFm_iff] at hm1
  have hk : WF (.obj k) := by
    simp only [WF, WFm_iff]
    exact ⟨(hp.map _).nodup_iff.mp hm1.1, fun x hx => hm1.2 x (hp.mem_iff.mpr hx)⟩
  have hk1 := hk
  simp only [WF] at hk1
  have e : encSorted m = encSorted k := by
    refine sorted_ext (encSorted_sorted hm1.1) (encSorted_sorted hk1.1) ?_
    rintro ⟨n, e⟩
    rw [mem_encSorted hm1.1, mem_encSorted hk1.1]
    simp only [member_iff hm1.1, member_iff hk1.1, hp.mem_iff]
  have e' : enc (.obj m) = enc (.obj k) := by rw [enc_obj', enc_obj', e]
  rw [compare_enc hm hk, compare_enc hm hz, compare_enc hk hz, e', lex_eq.mpr rfl]
  exact ⟨rfl, rfl⟩

/-- Members that come before a name. -/
theorem agree_below {m k : List (Str × Value)} (hm : WF (.obj m)) (hk : WF (.obj k)) {n : Str}
    (h : ∀ i, NameLt i n → SameMember (member m i) (member k i)) :
    (encSorted m).filter (fun x => strCmp x.1 n == .lt) =
      (encSorted k).filter (fun x => strCmp x.1 n == .lt) := by
  have hm1 := hm
  have hk1 := hk
  simp only [WF] at hm1 hk1
  refine sorted_ext (sorted_filter (encSorted_sorted hm1.1) _)
    (sorted_filter (encSorted_sorted hk1.1) _) ?_
  rintro ⟨i, e⟩
  simp only [List.mem_filter, beq_iff_eq]
  constructor
  · rintro ⟨h1, h2⟩
    exact ⟨((same_of_mem hm hk).mp (h i (strCmp_nameLt.mp h2)) e).mp h1, h2⟩
  · rintro ⟨h1, h2⟩
    exact ⟨((same_of_mem hm hk).mp (h i (strCmp_nameLt.mp h2)) e).mpr h1, h2⟩

/-- What is not before a name starts with the member with this name. -/
theorem from_present {m : List (Str × Value)} (hm : WF (.obj m)) {n : Str} {v : Value}
    (h : member m n = some v) :
    ∃ t, (encSorted m).filter (fun x => !(strCmp x.1 n == .lt)) = (n, enc v) :: t := by
  have hm1 := hm
  simp only [WF] at hm1
  have hs := sorted_filter (encSorted_sorted hm1.1) (fun x => !(strCmp x.1 n == .lt))
  have hmem : (n, enc v) ∈ (encSorted m).filter (fun x => !(strCmp x.1 n == .lt)) := by
    rw [List.mem_filter]
    exact ⟨(mem_encSorted hm1.1).mpr ⟨v, h, rfl⟩, by simp [strCmp_eq.mpr]⟩
  generalize hl : (encSorted m).filter (fun x => !(strCmp x.1 n == .lt)) = l at *
  cases l with
  | nil => cases hmem
  | cons x t =>
    unfold Sorted at hs
    rw [List.pairwise_cons] at hs
    simp only [List.mem_cons] at hmem
    rcases hmem with rfl | hmem
    · exact ⟨t, rfl⟩
    · exfalso
      have h1 := hs.1 _ hmem
      have h2 : x ∈ (encSorted m).filter (fun x => !(strCmp x.1 n == .lt)) := by rw [hl]; simp
      have h3 := (List.mem_filter.mp h2).2
      simp only [h1] at h3
      exact absurd h3 (by decide)

/-- The comparison of objects that agree below a name. -/
theorem compare_below {m k : List (Str × Value)} (hm : WF (.obj m)) (hk : WF (.obj k)) {n : Str}
    (h : ∀ i, NameLt i n → SameMember (member m i) (member k i)) :
    compare (.obj m) (.obj k) =
      some (lex (encList (((encSorted m).filter (fun x => !(strCmp x.1 n == .lt))).map encMember))
        (encList (((encSorted k).filter (fun x => !(strCmp x.1 n == .lt))).map encMember))) := by
  have hm1 := hm
  have hk1 := hk
  simp only [WF] at hm1 hk1
  rw [compare_enc hm hk, enc_obj', enc_obj']
  simp only [lex]
  conv => lhs; rw [sorted_split (encSorted_sorted hm1.1) n, sorted_split (encSorted_sorted hk1.1) n,
    agree_below hm hk h]
  rw [List.map_append, List.map_append]
  have key := encList_append
    (((encSorted k).filter (fun x => strCmp x.1 n == .lt)).map encMember)
    (((encSorted m).filter (fun x => !(strCmp x.1 n == .lt))).map encMember)
    (((encSorted k).filter (fun x => !(strCmp x.1 n == .lt))).map encMember) [] []
  simp only [List.append_nil] at key
  rw [key]
  rfl

/-- Members are considered in the order of names: if both objects have the member
with the smallest name in which they differ, then its values decide the order. -/
theorem compare_objects_first {m k : List (Str × Value)} (hm : WF (.obj m)) (hk : WF (.obj k))
    {n : Str} (h : ∀ i, NameLt i n → SameMember (member m i) (member k i)) {v w : Value}
    (hv : member m n = some v) (hw : member k n = some w) {r : Ordering} (hr : r ≠ .eq)
    (hc : compare v w = some r) : compare (.obj m) (.obj k) = some r := by
  rw [compare_below hm hk h]
  obtain ⟨s, e1⟩ := from_present hm hv
  obtain ⟨t, e2⟩ := from_present hk hw
  obtain ⟨r', h1, h2⟩ := claim (depth v + 1) v w (wf_member hm hv) (wf_member hk hw) (by omega)
  have : r' = r := by
    unfold compare at hc
    rw [h1] at hc
    exact Option.some.inj hc
  subst this
  rw [e1, e2]
  simp only [List.map_cons, encList, encMember, List.cons_append, lex, List.append_assoc]
  rw [strCmp_lex, h2, strCmp_eq.mpr rfl]
  cases r' with
  | eq => exact absurd rfl hr
  | lt => rfl
  | gt => rfl

/-- If the smallest name in which objects differ is absent in one of them and it has
no greater names, then it is less, as documented. -/
theorem compare_objects_absent_last {m k : List (Str × Value)} (hm : WF (.obj m))
    (hk : WF (.obj k)) {n : Str} (h : ∀ i, NameLt i n → SameMember (member m i) (member k i))
    (hv : member m n ≠ none) (hw : member k n = none) (hl : ∀ i, NameLt n i → member k i = none) :
    compare (.obj m) (.obj k) = some .gt := by
  rw [compare_below hm hk h]
  cases hv' : member m n with
  | none => exact absurd hv' hv
  | some v =>
    obtain ⟨s, e1⟩ := from_present hm hv'
    have e2 : (encSorted k).filter (fun x => !(strCmp x.1 n == .lt)) = [] := by
      rw [List.filter_eq_nil_iff]
      rintro ⟨i, e⟩ hi hlt
      have hk1 := hk
      simp only [WF] at hk1
      rw [mem_encSorted hk1.1] at hi
      obtain ⟨w, hi, _⟩ := hi
      simp at hlt
      cases hc : strCmp i n with
      | lt => exact hlt hc
      | eq => rw [strCmp_eq] at hc; subst hc; rw [hw] at hi; cases hi
      | gt =>
        rw [strCmp_gt, strCmp_nameLt] at hc
        rw [hl i hc] at hi
        cases hi
    rw [e1, e2]
    simp [encList, lex, ordN, Ordering.then]

/-- If it does have greater names then, contrary to the documentation ("An absent
member is less than a present member"), the object with the member absent is greater. -/
theorem compare_objects_absent_inverted {m k : List (Str × Value)} (hm : WF (.obj m))
    (hk : WF (.obj k)) {n : Str} (h : ∀ i, NameLt i n → SameMember (member m i) (member k i))
    (hv : member m n ≠ none) (hw : member k n = none)
    (hl : ∃ i, NameLt n i ∧ member k i ≠ none) :
    compare (.obj m) (.obj k) = some .lt := by
  rw [compare_below hm hk h]
  cases hv' : member m n with
  | none => exact absurd hv' hv
  | some v =>
    obtain ⟨s, e1⟩ := from_present hm hv'
    have hk1 := hk
    simp only [WF] at hk1
    rw [e1]
    cases e2 : (encSorted k).filter (fun x => !(strCmp x.1 n == .lt)) with
    | nil =>
      exfalso
      obtain ⟨i, hi, hne⟩ := hl
      cases hw' : member k i with
      | none => exact hne hw'
      | some w =>
        rw [List.filter_eq_nil_iff] at e2
        refine e2 (i, enc w) ((mem_encSorted hk1.1).mpr ⟨w, hw', rfl⟩) ?_
        rw [← strCmp_nameLt, ← strCmp_gt] at hi
        simp [hi]
    | cons x t =>
      obtain ⟨i, e⟩ := x
      have hx : (i, e) ∈ (encSorted k).filter (fun x => !(strCmp x.1 n == .lt)) := by
        rw [e2]; simp
      rw [List.mem_filter, mem_encSorted hk1.1] at hx
      obtain ⟨⟨w, hi, _⟩, hlt⟩ := hx
      simp at hlt
      have hni : strCmp n i = .lt := by
        cases hc : strCmp i n with
        | lt => exact absurd hc hlt
        | eq => rw [strCmp_eq] at hc; subst hc; rw [hw] at hi; cases hi
        | gt => rwa [strCmp_gt] at hc
      simp only [List.map_cons, encList, encMember, List.cons_append, lex, List.append_assoc]
      rw [strCmp_lex, hni]
      rfl

/-- A decimal signed number. -/
def int (i : Int) : Value := .num ⟨true, false, BitVec.ofInt 64 i⟩
/-- A decimal unsigned number. -/
def nat (n : Nat) : Value := .num ⟨false, false, BitVec.ofNat 64 n⟩
/-- A hexadecimal unsigned number. -/
def hex (n : Nat) : Value := .num ⟨false, true, BitVec.ofNat 64 n⟩

/-- The documentation is contradicted by `{"a":1}` and `{"b":1}`: "a" is absent in
the second so it should be less but it is greater. -/
theorem absent_member_greater :
    compare (.obj [(['a'], nat 1)]) (.obj [(['b'], nat 1)]) = some .lt := by decide

/-! Non-vacuity. -/

example : WF (.obj [(['b'], .arr [int (-1), .null]), (['a'], .obj [(['x'], .bool true)])]) := by
  simp [WF, WFs, WFm, int]

example : compare (.obj [(['b'], nat 1), (['a'], hex 2)]) (.obj [(['a'], int 2), (['b'], nat 1)]) =
    some .eq := by decide

example : compare (int (-1)) (nat (2 ^ 64 - 1)) = some .lt := by decide

example : compare (.arr [int 1, int 2]) (.arr [nat 1]) = some .gt := by decide

-- A value with duplicate members fails the assertion.
example : compare (.obj [(['a'], .null), (['a'], .null)]) (.obj []) = none := by decide

/-! ## C37: numbers -/

theorem append_num (l r : Num) : append (.num l) (.num r) = numRes (appendNumbers l r) := rfl

theorem representable_iff (v : Int) : Representable v ↔ -2 ^ 63 ≤ v ∧ v < 2 ^ 64 := by
  constructor
  · rintro ⟨n, rfl⟩; exact value_range n
  · rintro ⟨h1, h2⟩
    by_cases h : v < 0
    · refine ⟨⟨true, false, BitVec.ofInt 64 v⟩, ?_⟩
      simp only [Num.value, if_true]
      rw [BitVec.toInt_ofInt, Int.bmod_eq_of_le] <;> omega
    · refine ⟨⟨false, false, BitVec.ofNat 64 v.toNat⟩, ?_⟩
      simp only [Num.value, Bool.false_eq_true, if_false, BitVec.toNat_ofNat]
      rw [Nat.mod_eq_of_lt (by omega)]
      omega

/-- Appending a number gives the sum, if representable, and keeps the notation.

Full statement: for every `l` and `r` with a representable sum. Missing (and false,
see below): `r` is a negative hexadecimal number; one number is zero and the other one
is the least signed number, in which case the behavior is undefined. -/
theorem append_sum_partial (l r : Num) (hs : Representable (l.value + r.value))
    (hh : ¬ (r.hex = true ∧ r.value < 0))
    (hm : ¬ (l.value = 0 ∧ r.value = -2 ^ 63) ∧ ¬ (l.value = -2 ^ 63 ∧ r.value = 0)) :
    ∃ n, append (.num l) (.num r) = .ok (.num n) ∧ n.value = l.value + r.value ∧
      n.hex = l.hex := by
  rw [representable_iff] at hs
  obtain ⟨n, h1, h2, h3⟩ := appendNumbers_spec l r hs.1 hs.2 hh hm
  refine ⟨n, ?_, h2, h3⟩
  rw [append_num, h1]
  rfl

/-- Prepending is the same. -/
theorem prepend_sum (l r : Num) : prepend (.num l) (.num r) = append (.num l) (.num r) := rfl

/-- `1 + -0x2` is 2^64-1. -/
theorem hex_negative_wrong :
    append (.num ⟨true, false, 1#64⟩) (.num ⟨true, true, BitVec.ofInt 64 (-2)⟩) = .ok (nat (2 ^ 64 - 1)) := by
  have : appendNumbers ⟨true, false, 1#64⟩ ⟨true, true, BitVec.ofInt 64 (-2)⟩ =
    .ok ⟨false, false, BitVec.ofNat 64 (2 ^ 64 - 1)⟩ := by decide
  rw [append_num, this]
  rfl

/-- Any negative hexadecimal number appended to an unsigned one is taken as 2^64 more
than it is. -/
theorem hex_negative_unsigned {l r : Num} (hl : l.signed = false) (hs : r.signed = true)
    (hh : r.hex = true) :
    append (.num l) (.num r) = .ok (.num ⟨false, l.hex, l.bits + r.bits⟩) := by
  show numRes (appendNumbers _ _) = _
  simp [appendNumbers, hl, hs, hh, numRes]

/-- Zero and the least signed number is undefined behavior. -/
theorem min_undefined :
    append (nat 0) (int (-2 ^ 63)) = .undefined ∧ append (int (-2 ^ 63)) (nat 0) = .undefined := by
  have h1 : appendNumbers ⟨false, false, BitVec.ofNat 64 0⟩ ⟨true, false, BitVec.ofInt 64 (-2 ^ 63)⟩ =
    .undefined := by decide
  have h2 : appendNumbers ⟨true, false, BitVec.ofInt 64 (-2 ^ 63)⟩ ⟨false, false, BitVec.ofNat 64 0⟩ =
    .undefined := by decide
  constructor
  · rw [nat, int, append_num, h1]; rfl
  · rw [nat, int, append_num, h2]; rfl

/-! Non-vacuity. -/

example : appendNumbers ⟨true, true, BitVec.ofInt 64 (-5)⟩ ⟨false, false, 7#64⟩ =
    .ok ⟨false, true, 2#64⟩ := by decide
example : appendNumbers ⟨false, false, 3#64⟩ ⟨true, false, BitVec.ofInt 64 (-5)⟩ =
    .ok ⟨true, false, BitVec.ofInt 64 (-2)⟩ := by decide

/-! ## C38: append and prepend -/

/-- A call throws exactly if neither value is null, the value is not an array and the
types are different; the value is then not modified. -/
theorem throws_iff (front override : Bool) (x v w : Value) :
    add front override x v = .throws w ↔
      w = x ∧ x ≠ .null ∧ v ≠ .null ∧ (∀ l, x ≠ .arr l) ∧ kind x ≠ kind v := by
  have e : ∀ a b : Value, Res.throws a = Res.throws b ↔ b = a := by
    intro a b; constructor
    · intro h; cases h; rfl
    · rintro rfl; rfl
  cases x <;> cases v <;> simp only [add, kind, e] <;> simp
  · rename_i a b
    cases appendNumbers a b <;> simp [numRes]

/-- The behavior is only undefined for numbers. -/
theorem undefined_only_numbers (front override : Bool) (x v : Value)
    (h : add front override x v = .undefined) : ∃ a b, x = .num a ∧ v = .num b := by
  cases x <;> cases v <;> simp [add] at h ⊢

/-- Null: nothing. -/
theorem add_null (front override : Bool) (v : Value) :
    add front override .null v = .ok v ∧ ((∀ l, v ≠ .arr l) → add front override v .null = .ok v) := by
  refine ⟨rfl, ?_⟩
  intro h
  cases v <;> first | rfl | exact absurd rfl (h _)

/-- Arrays are spliced, anything else becomes an element. -/
theorem add_array (override : Bool) (l : List Value) (v : Value) :
    (∀ m, v = .arr m → add false override (.arr l) v = .ok (.arr (l ++ m)) ∧
      add true override (.arr l) v = .ok (.arr (m ++ l))) ∧
    ((∀ m, v ≠ .arr m) → add false override (.arr l) v = .ok (.arr (l ++ [v])) ∧
      add true override (.arr l) v = .ok (.arr (v :: l))) := by
  constructor
  · rintro m rfl
    cases l with
    | nil => simp [add]
    | cons x l => simp [add]
  · intro h
    cases v <;> first | exact ⟨rfl, rfl⟩ | exact absurd rfl (h _)

/-- Booleans and strings. -/
theorem add_scalars (override : Bool) (a b : Bool) (s t : Str) :
    add false override (.bool a) (.bool b) = .ok (.bool (a || b)) ∧
    add true override (.bool a) (.bool b) = .ok (.bool (a || b)) ∧
    add false override (.str s) (.str t) = .ok (.str (s ++ t)) ∧
    add true override (.str s) (.str t) = .ok (.str (t ++ s)) := ⟨rfl, rfl, rfl, rfl⟩

/-- The members after merging objects: with override the new value is used and
without it -- the existing one. -/
theorem merge_members (front override : Bool) {o v : List (Str × Value)}
    (hv : (v.map (·.1)).Nodup) :
    ∃ m, add front override (.obj o) (.obj v) = .ok (.obj m) ∧
      ∀ n, member m n = if override then (member v n).or (member o n)
        else (member o n).or (member v n) := by
  refine ⟨merge front override o v, rfl, ?_⟩
  intro n
  unfold merge
  cases o with
  | nil => cases override <;> simp [member]
  | cons x o => exact member_foldl front override hv n

/-- By default append uses the new value and prepend -- the existing one. -/
theorem merge_default {o v : List (Str × Value)} (hv : (v.map (·.1)).Nodup) :
    (∃ m, append (.obj o) (.obj v) = .ok (.obj m) ∧
      ∀ n, member m n = (member v n).or (member o n)) ∧
    (∃ m, prepend (.obj o) (.obj v) = .ok (.obj m) ∧
      ∀ n, member m n = (member o n).or (member v n)) := by
  constructor
  · obtain ⟨m, h1, h2⟩ := merge_members false true (o := o) hv
    exact ⟨m, h1, by simpa using h2⟩
  · obtain ⟨m, h1, h2⟩ := merge_members true false (o := o) hv
    exact ⟨m, h1, by simpa using h2⟩

/-- Existing members keep their positions, new ones are added at the end by append and
at the beginning by prepend. -/
theorem merge_positions (override : Bool) {o v : List (Str × Value)} (hv : (v.map (·.1)).Nodup) :
    (∃ m, add false override (.obj o) (.obj v) = .ok (.obj m) ∧
      m.map (·.1) = o.map (·.1) ++ (v.map (·.1)).filter (fun n => !(o.map (·.1)).contains n)) ∧
    (∃ m, add true override (.obj o) (.obj v) = .ok (.obj m) ∧
      m.map (·.1) =
        (if o.isEmpty then v.map (·.1)
         else ((v.map (·.1)).filter (fun n => !(o.map (·.1)).contains n)).reverse) ++
        o.map (·.1)) := by
  constructor
  · refine ⟨merge false override o v, rfl, ?_⟩
    unfold merge
    cases o with
    | nil =>
      simp only [List.isEmpty_nil, if_true, List.map_nil, List.nil_append]
      exact (List.filter_eq_self.mpr (by simp)).symm
    | cons x o => exact names_append override hv
  · refine ⟨merge true override o v, rfl, ?_⟩
    unfold merge
    cases o with
    | nil => simp
    | cons x o => exact names_prepend override hv

/-- No duplicate members are created at any depth. -/
theorem add_wf (front override : Bool) {x v w : Value} (hx : WF x) (hv : WF v)
    (h : add front override x v = .ok w) : WF w := by
  cases x with
  | null => simp only [add, Res.ok.injEq] at h; subst h; exact hv
  | arr l =>
    have hx' : ∀ z ∈ l, WF z := (WFs_iff l).mp hx
    have h1 := (add_array override l v).1
    have h2 := (add_array override l v).2
    by_cases hva : ∃ m, v = .arr m
    · obtain ⟨m, rfl⟩ := hva
      have hv' : ∀ z ∈ m, WF z := (WFs_iff m).mp hv
      have := h1 m rfl
      cases front
      · rw [this.1] at h; cases h
        simp only [WF, WFs_iff, List.mem_append]
        rintro z (hz | hz)
        · exact hx' z hz
        · exact hv' z hz
      · rw [this.2] at h; cases h
        simp only [WF, WFs_iff, List.mem_append]
        rintro z (hz | hz)
        · exact hv' z hz
        · exact hx' z hz
    · have := h2 (fun m e => hva ⟨m, e⟩)
      cases front
      · rw [this.1] at h; cases h
        simp only [WF, WFs_iff, List.mem_append, List.mem_singleton]
        rintro z (hz | rfl)
        · exact hx' z hz
        · exact hv
      · rw [this.2] at h; cases h
        simp only [WF, WFs_iff, List.mem_cons]
        rintro z (rfl | hz)
        · exact hv
        · exact hx' z hz
  | bool a => cases v <;> simp [add] at h <;> subst h <;> trivial
  | num a =>
    cases v <;> simp [add] at h
    · subst h; trivial
    · rename_i b
      cases hn : appendNumbers a b <;> rw [hn] at h <;> simp [numRes] at h
      subst h; trivial
  | str a => cases v <;> simp [add] at h <;> subst h <;> trivial
  | obj o =>
    cases v <;> simp [add] at h
    · subst h; exact hx
    · rename_i v
      subst h
      simp only [WF, WFm_iff] at hx hv
      simp only [WF, WFm_iff]
      unfold merge
      cases o with
      | nil => simpa using hv
      | cons x o =>
        simp only [List.isEmpty_cons, Bool.false_eq_true, if_false]
        exact ⟨nodup_foldl front override v _ hx.1,
          fun z hz => by
            rcases mem_foldl front override v _ z hz with h | h | ⟨k, h⟩
            · exact hx.2 z h
            · exact hv.2 z h
            · exact hv.2 (k, z.2) h⟩

/-- New members are added in the reverse order by prepend unless there were none. -/
theorem prepend_reverses :
    prepend (.obj [(['z'], .null)]) (.obj [(['a'], .null), (['b'], .null)]) =
      .ok (.obj [(['b'], .null), (['a'], .null), (['z'], .null)]) ∧
    prepend (.obj []) (.obj [(['a'], .null), (['b'], .null)]) =
      .ok (.obj [(['a'], .null), (['b'], .null)]) := ⟨rfl, rfl⟩

/-! Non-vacuity. -/

example : append (.obj [(['a'], nat 1), (['b'], nat 2)]) (.obj [(['c'], nat 3), (['a'], nat 4)]) =
    .ok (.obj [(['a'], nat 4), (['b'], nat 2), (['c'], nat 3)]) := rfl
example : prepend (.obj [(['a'], nat 1), (['b'], nat 2)]) (.obj [(['c'], nat 3), (['a'], nat 4)]) =
    .ok (.obj [(['c'], nat 3), (['a'], nat 1), (['b'], nat 2)]) := rfl
example : append (.str ['a']) (.arr []) = .throws (.str ['a']) := rfl

end Verif.Json
