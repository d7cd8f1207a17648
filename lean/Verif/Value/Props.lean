import Verif.Value.Lemmas

/-!
# Appending to and prepending to values: properties

C33 Append and prepend preserve elements and order.
-/

namespace Verif.Value

/-! ## List-like values -/

/-- An untyped value after any history of assignments, appends and prepends. -/
theorem untyped_history (v : Option Names) (ops : List (How × Names)) :
    ∃ w, run untyped v ops = .ok w ∧ w.getD [] = expected (v.getD []) ops ∧
      (ops ≠ [] → w ≠ none) := by
  have h := run_effect (t := untyped) (fun v => Option.getD v []) (fun ns xs => ns = xs)
    (by
      intro v h ns xs e
      subst e
      exact ⟨_, untyped_step v h ns, rfl⟩)
    (ops.map (fun o => (o.1, o.2, o.2))) (by
      intro o ho
      obtain ⟨a, _, rfl⟩ := List.mem_map.mp ho
      rfl) v
  simp only [List.map_map, Function.comp_def] at h
  have e : (ops.map (fun o => (o.1, o.2))) = ops := by simp
  rw [e] at h
  obtain ⟨w, h1, h2, h3⟩ := h
  exact ⟨w, h1, h2, fun hn => h3 (by simpa using hn)⟩

/-- A value of a vector type after any history in which every list of names can be
converted: nothing is dropped, duplicated or reordered and NULL is the same as empty. -/
theorem vector_history {T : Type} (conv : Nm → Option Nm → Option T) (v : Option (List T))
    (ops : List (How × Names × List T)) (h : ∀ o ∈ ops, Reads conv o.2.1 o.2.2) :
    ∃ w : Option (List T),
      run (vectorType conv) v (ops.map (fun o => (o.1, o.2.1))) = .ok w ∧
      w.getD [] = expected (v.getD []) (ops.map (fun o => (o.1, o.2.2))) ∧
      (ops ≠ [] → w ≠ none) := by
  refine run_effect (t := vectorType conv) (fun v => Option.getD v []) (Reads conv) ?_ ops h v
  intro (v : Option (List T)) h ns xs hr
  cases h with
  | assign =>
    refine ⟨xs, ?_, rfl⟩
    show (vectorAssign conv v ns).bind _ = _
    rw [(vectorAssign_ok v ns xs).mpr hr]; rfl
  | append =>
    refine ⟨v.getD [] ++ xs, ?_, rfl⟩
    show (vectorAppend conv v ns).bind _ = _
    rw [(vectorAppend_ok v ns _).mpr ⟨xs, hr, rfl⟩]; rfl
  | prepend =>
    refine ⟨xs ++ v.getD [], ?_, rfl⟩
    show (vectorPrepend conv v ns).bind _ = _
    rw [(vectorPrepend_ok v ns _).mpr ⟨xs, hr, rfl⟩]; rfl

/-- Names that cannot be converted are diagnosed, whatever the operation and the old
value. Undefined behavior requires half a pair at the end. -/
theorem vector_fails {T : Type} (conv : Nm → Option Nm → Option T) (v : Option (List T))
    (h : How) {ns : Names} (hc : Complete ns) :
    step (vectorType conv) v (h, ns) ≠ .undef ∧
    (step (vectorType conv) v (h, ns) = .fail ↔ ¬ ∃ xs, Reads conv ns xs) := by
  have key : ∀ p : List T, (vectorLoop conv p ns ≠ .undef) ∧
      (vectorLoop conv p ns = .fail ↔ ¬ ∃ xs, Reads conv ns xs) := by
    intro p
    rw [vectorLoop_eq]
    exact ⟨loop_defined hc p, loop_fail hc p⟩
  cases h with
  | assign =>
    show (vectorLoop conv _ ns).bind _ ≠ _ ∧ _
    obtain ⟨k1, k2⟩ := key ((v.map (fun _ => [])).getD [])
    rw [← k2]
    show (vectorLoop conv _ ns).bind _ ≠ _ ∧ ((vectorLoop conv _ ns).bind _ = _ ↔ _)
    cases hl : vectorLoop conv ((v.map (fun _ => ([] : List T))).getD []) ns with
    | undef => exact absurd hl k1
    | fail => simp [Res.bind]
    | ok q => simp [Res.bind]
  | append =>
    obtain ⟨k1, k2⟩ := key (v.getD [])
    rw [← k2]
    show (vectorLoop conv _ ns).bind _ ≠ _ ∧ ((vectorLoop conv _ ns).bind _ = _ ↔ _)
    cases hl : vectorLoop conv (v.getD []) ns with
    | undef => exact absurd hl k1
    | fail => simp [Res.bind]
    | ok q => simp [Res.bind]
  | prepend =>
    obtain ⟨k1, k2⟩ := key ((v.map (fun _ => [])).getD [])
    rw [← k2]
    show ((vectorLoop conv _ ns).bind _).bind _ ≠ _ ∧ (((vectorLoop conv _ ns).bind _).bind _ = _ ↔ _)
    cases hl : vectorLoop conv ((v.map (fun _ => ([] : List T))).getD []) ns with
    | undef => exact absurd hl k1
    | fail => simp [Res.bind]
    | ok q => simp [Res.bind]

/-- Appending twice is the same as appending the concatenation, also when it fails. -/
theorem vector_append_assoc {T : Type} (conv : Nm → Option Nm → Option T)
    (v : Option (List T)) {a b : Names} (ha : Complete a) (hb : Complete b) :
    run (vectorType conv) v [(.append, a), (.append, b)] =
      run (vectorType conv) v [(.append, a ++ b)] := by
  obtain ⟨d1, f1⟩ := vector_fails conv v .append (ha.append hb)
  by_cases h : ∃ zs, Reads conv (a ++ b) zs
  · obtain ⟨zs, h⟩ := h
    obtain ⟨xs, ys, hx, hy, rfl⟩ := Reads.split ha h
    obtain ⟨w1, e1, g1, n1⟩ := vector_history conv v
      [(.append, a, xs), (.append, b, ys)] (by simp [hx, hy])
    obtain ⟨w2, e2, g2, n2⟩ := vector_history conv v [(.append, a ++ b, xs ++ ys)] (by simp [h])
    simp only [List.map_cons, List.map_nil] at e1 e2 g1 g2
    rw [e1, e2]
    have : w1.getD [] = w2.getD [] := by
      rw [g1, g2, expected_eq, expected_eq]; simp [effect]
    cases w1 with
    | none => exact absurd rfl (n1 (by simp))
    | some w1 =>
      cases w2 with
      | none => exact absurd rfl (n2 (by simp))
      | some w2 => simp at this; rw [this]
  · have e2 := f1.mpr h
    have e3 : run (vectorType conv) v [(.append, a ++ b)] = .fail := by
      simp only [run, e2]; rfl
    rw [e3]
    obtain ⟨d2, f2⟩ := vector_fails conv v .append ha
    by_cases hx : ∃ xs, Reads conv a xs
    · obtain ⟨xs, hx⟩ := hx
      have hy : ¬ ∃ ys, Reads conv b ys := fun ⟨ys, hy⟩ => h ⟨_, hx.append hy⟩
      cases hs : step (vectorType conv) v (.append, a) with
      | undef => exact absurd hs d2
      | fail => simp only [run, hs]; rfl
      | ok w =>
        obtain ⟨d3, f3⟩ := vector_fails conv w .append hb
        simp only [run, hs]
        show (step (vectorType conv) w (.append, b)).bind _ = _
        rw [f3.mpr hy]; rfl
    · simp only [run, f2.mpr hx]; rfl

/-- It does not matter whether an untyped value becomes a vector before or after
something is appended to it. -/
theorem typify_append {T : Type} (conv : Nm → Option Nm → Option T)
    {a b : Names} {xs ys : List T} (ha : Reads conv a xs) (hb : Reads conv b ys) :
    (append untyped (some a) b).bind (typify (vectorType conv)) = .ok (some (xs ++ ys)) ∧
    (typify (vectorType conv) (some a)).bind (fun v => append (vectorType conv) v b) =
      .ok (some (xs ++ ys)) := by
  constructor
  · have e : append untyped (some a) b = .ok (some (a ++ b)) := by
      show (appendUntyped (some a) b).bind _ = _
      unfold appendUntyped
      by_cases hp : a = []
      · subst hp; rfl
      · by_cases hn : b = []
        · subst hn; simp [hp, Res.bind]
        · simp [hp, hn, Res.bind]
    rw [e]
    show (vectorAssign conv none (a ++ b)).bind _ = _
    rw [(vectorAssign_ok none _ _).mpr (ha.append hb)]; rfl
  · have e : typify (vectorType conv) (some a) = .ok (some xs) := by
      show (vectorAssign conv none a).bind _ = _
      rw [(vectorAssign_ok none _ _).mpr ha]; rfl
    rw [e]
    show (vectorAppend conv (some xs) b).bind _ = _
    rw [(vectorAppend_ok (some xs) b _).mpr ⟨ys, hb, rfl⟩]; rfl

/-! ## Vectors of pairs -/

/-- Appending to a vector of pairs adds the pairs at the end. -/
theorem pair_vector_append {K V : Type} (ck : Nm → Option K) (cv : Nm → Option V)
    (v : Option (List (K × V))) {ns : Names} {xs : List (K × V)} (h : ReadsPairs ck cv ns xs) :
    append (pairVectorType (pairConvert ck cv)) v ns = .ok (some (v.getD [] ++ xs)) := by
  show (pairVectorAppend _ v ns).bind _ = _
  rw [pairVectorAppend, (pairLoop_ok _ _).mpr ⟨xs, h, rfl⟩, foldl_snoc]; rfl

/-- But prepending does too (so `config.config.persist =+ a@b` has the effect of
`+=`). -/
theorem pair_vector_prepend_appends {K V : Type} (ck : Nm → Option K) (cv : Nm → Option V)
    (v : Option (List (K × V))) {ns : Names} {xs : List (K × V)} (h : ReadsPairs ck cv ns xs) :
    prepend (pairVectorType (pairConvert ck cv)) v ns = .ok (some (v.getD [] ++ xs)) :=
  pair_vector_append ck cv v h

/-- A single name that cannot be converted to the second half of a pair with an optional
first half makes the code dereference a null pointer while preparing the diagnostics. -/
theorem optional_first_null_dereference {K V : Type} (ck : Nm → Option K) (cv : Nm → Option V)
    (v : Option (List (Option K × V))) {n : Nm} (hp : n.pair = none) (h : cv n = none) :
    append (pairVectorType (optPairConvert ck cv)) v [n] = .undef := by
  show (pairVectorAppend _ v [n]).bind _ = _
  rw [pairVectorAppend, pairLoop, hp]
  simp [optPairConvert, hp, h, Res.bind]

/-! ## Sets -/

/-- Appending to a set and prepending to it add the new elements to the old, in order and
without duplicates. -/
theorem set_union {T : Type} (conv : Nm → Option Nm → Option T) {lt : T → T → Bool}
    (ho : StrictTotal lt) (v : Option (List T)) (hv : Ascending lt (v.getD [])) {ns : Names}
    {xs : List T} (h : Reads conv ns xs) :
    ∃ q : List T, append (setType conv lt) v ns = .ok (some q) ∧
      prepend (setType conv lt) v ns = .ok (some q) ∧
      Ascending lt q ∧ ∀ y, y ∈ q ↔ y ∈ v.getD [] ∨ y ∈ xs := by
  obtain ⟨h1, h2⟩ := foldl_setInsert ho xs hv
  have e : setAppend conv lt v ns = .ok (xs.foldl (fun p x => setInsert lt x p) (v.getD [])) := by
    rw [setAppend, setLoop_eq]
    exact (loop_ok _ _).mpr ⟨xs, h, rfl⟩
  refine ⟨_, ?_, ?_, h1, h2⟩
  · show (setAppend conv lt v ns).bind _ = _
    rw [e]; rfl
  · show (setAppend conv lt v ns).bind _ = _
    rw [e]; rfl

/-- Assigning gives the set of the new elements only. -/
theorem set_assign {T : Type} (conv : Nm → Option Nm → Option T) {lt : T → T → Bool}
    (ho : StrictTotal lt) (v : Option (List T)) {ns : Names} {xs : List T}
    (h : Reads conv ns xs) :
    ∃ q : List T, assign (setType conv lt) v ns = .ok (some q) ∧ Ascending lt q ∧ ∀ y, y ∈ q ↔ y ∈ xs := by
  obtain ⟨h1, h2⟩ := foldl_setInsert ho xs (l := []) (by simp [Ascending])
  refine ⟨_, ?_, h1, by simpa using h2⟩
  show (setAppend conv lt (v.map (fun _ => [])) ns).bind _ = _
  rw [setAppend, setLoop_eq, getD_map_nil, (loop_ok _ _).mpr ⟨xs, h, rfl⟩]; rfl

/-! ## Maps -/

/-- After appending to a map, a key has the value from the last new pair with this key or
the old value. After an assignment, only the former. -/
theorem map_append {K V : Type} [DecidableEq K] (ck : Nm → Option K) (cv : Nm → Option V)
    {lt : K → K → Bool} (ho : StrictTotal lt) (v : Option (List (K × V)))
    (hv : Ascending lt ((v.getD []).map (·.1))) {ns : Names} {xs : List (K × V)}
    (h : ReadsPairs ck cv ns xs) :
    (∃ q : List (K × V), append (mapType ck cv lt) v ns = .ok (some q) ∧
      Ascending lt (q.map (·.1)) ∧ ∀ k, valueOf q k = (lastValue xs k).or (valueOf (v.getD []) k)) ∧
    (∃ q : List (K × V), assign (mapType ck cv lt) v ns = .ok (some q) ∧
      Ascending lt (q.map (·.1)) ∧ ∀ k, valueOf q k = lastValue xs k) := by
  constructor
  · obtain ⟨h1, h2⟩ := foldl_mapSet ho xs (v.getD [])
    refine ⟨_, ?_, h1 hv, h2⟩
    show (mapAppend ck cv lt v ns).bind _ = _
    rw [mapAppend, (pairLoop_ok _ _).mpr ⟨xs, h, rfl⟩]; rfl
  · obtain ⟨h1, h2⟩ := foldl_mapSet ho xs []
    refine ⟨_, ?_, h1 (by simp [KeysAscending, Ascending]), fun k => ?_⟩
    · show (mapAppend ck cv lt (v.map (fun _ => [])) ns).bind _ = _
      rw [mapAppend, getD_map_nil, (pairLoop_ok _ _).mpr ⟨xs, h, rfl⟩]; rfl
    · rw [h2]; cases lastValue xs k <;> simp [valueOf]

/-- After prepending to a map, a key has the old value or the value from the first new pair
with this key.

Full statement: whatever appears last, from left to right, is kept, that is, the last new
pair. Missing (and false, see `map_prepend_repeated`): keys that are repeated in what is
prepended. -/
theorem map_prepend_partial {K V : Type} [DecidableEq K] (ck : Nm → Option K)
    (cv : Nm → Option V) {lt : K → K → Bool} (ho : StrictTotal lt) (v : Option (List (K × V)))
    (hv : Ascending lt ((v.getD []).map (·.1))) {ns : Names} {xs : List (K × V)}
    (h : ReadsPairs ck cv ns xs) :
    ∃ q : List (K × V), prepend (mapType ck cv lt) v ns = .ok (some q) ∧
      Ascending lt (q.map (·.1)) ∧
      (∀ k, valueOf q k = (valueOf (v.getD []) k).or (valueOf xs k)) ∧
      ((xs.map (·.1)).Nodup → ∀ k, valueOf q k = (valueOf (v.getD []) k).or (lastValue xs k)) := by
  obtain ⟨h1, h2⟩ := foldl_mapEmplace ho xs (m := v.getD []) hv
  refine ⟨_, ?_, h1, h2, ?_⟩
  · show (mapPrepend ck cv lt v ns).bind _ = _
    rw [mapPrepend, (pairLoop_ok _ _).mpr ⟨xs, h, rfl⟩]; rfl
  · intro hn k
    rw [h2]
    congr 1
    clear h1 h2 h
    induction xs with
    | nil => rfl
    | cons x xs ih =>
      rw [List.map_cons, List.nodup_cons] at hn
      rw [valueOf_cons, lastValue_cons, ih hn.2]
      by_cases hx : x.1 = k
      · have : lastValue xs k = none := by
          unfold lastValue valueOf
          rw [List.find?_eq_none.mpr]
          · rfl
          · intro y hy he
            simp at hy he
            exact hn.1 (List.mem_map.mpr ⟨y, hy, by rw [he, hx]⟩)
        simp [hx, this]
      · simp [hx]

/-- A key is a name's text, compared by length, for the examples. -/
def textOf (n : Nm) : Option (List Char) := some n.body

def natOf (n : Nm) : Option Nat := some n.body.length

def natLt (x y : Nat) : Bool := decide (x < y)

theorem natLt_strict : StrictTotal natLt :=
  ⟨by simp [natLt], by simp only [natLt, decide_eq_true_eq]; omega,
   by simp only [natLt, decide_eq_false_iff_not]; omega⟩

/-- `x =+ a@0 a@1` on a NULL or empty map keeps `a@0` while `x = a@0 a@1` and
`x += a@0 a@1` keep `a@1`. -/
theorem map_prepend_repeated :
    let ns : Names := [⟨some '@', ['a']⟩, ⟨none, ['0']⟩, ⟨some '@', ['a']⟩, ⟨none, ['1']⟩]
    prepend (mapType natOf textOf natLt) none ns = .ok (some [(1, ['0'])]) ∧
    append (mapType natOf textOf natLt) none ns = .ok (some [(1, ['1'])]) ∧
    assign (mapType natOf textOf natLt) none ns = .ok (some [(1, ['1'])]) :=
  ⟨rfl, rfl, rfl⟩

/-! ## Simple values -/

/-- Appending to a simple value: the result is the combination with the one new value. -/
theorem simple_append {n : Nm} :
    (∀ (conv : Nm → Option Nm → Option Bool) (b x : Bool), conv n none = some x →
      append (boolType conv) (some b) [n] = .ok (some (b || x)) ∧
      prepend (boolType conv) (some b) [n] = .ok (some (b || x))) ∧
    (∀ (conv : Nm → Option Nm → Option Int) (i x : Int), conv n none = some x →
      -2 ^ 63 ≤ i + x → i + x < 2 ^ 63 →
      append (intType conv) (some i) [n] = .ok (some (i + x)) ∧
      prepend (intType conv) (some i) [n] = .ok (some (i + x))) ∧
    (∀ (conv : Nm → Option Nm → Option (BitVec 64)) (i x : BitVec 64), conv n none = some x →
      ∃ r : BitVec 64, append (uintType conv) (some i) [n] = .ok (some r) ∧
        prepend (uintType conv) (some i) [n] = .ok (some r) ∧
        r.toNat = (i.toNat + x.toNat) % 2 ^ 64) ∧
    (∀ (conv : Nm → Option Nm → Option (List Char)) (s x : List Char), conv n none = some x →
      append (stringType conv) (some s) [n] = .ok (some (s ++ x)) ∧
      prepend (stringType conv) (some s) [n] = .ok (some (x ++ s))) := by
  refine ⟨?_, ?_, ?_, ?_⟩
  · intro conv b x h
    have e : simple conv none boolAppend (some b) [n] = .ok (b || x) := by
      simp [simple, h, boolAppend]
    constructor
    · show (simple conv none boolAppend (some b) [n]).bind _ = _; rw [e]; rfl
    · show (simple conv none boolAppend (some b) [n]).bind _ = _; rw [e]; rfl
  · intro conv i x h h1 h2
    have e : simple conv none intAppend (some i) [n] = .ok (i + x) := by
      simp only [simple, h, intAppend]
      rw [if_pos ⟨h1, h2⟩]
    constructor
    · show (simple conv none intAppend (some i) [n]).bind _ = _; rw [e]; rfl
    · show (simple conv none intAppend (some i) [n]).bind _ = _; rw [e]; rfl
  · intro conv i x h
    have e : simple conv none uintAppend (some i) [n] = .ok (i + x) := by
      simp [simple, h, uintAppend]
    refine ⟨i + x, ?_, ?_, by rw [BitVec.toNat_add]⟩
    · show (simple conv none uintAppend (some i) [n]).bind _ = _; rw [e]; rfl
    · show (simple conv none uintAppend (some i) [n]).bind _ = _; rw [e]; rfl
  · intro conv s x h
    have e1 : simple conv (some []) stringAppend (some s) [n] = .ok (s ++ x) := by
      simp only [simple, h, stringAppend]
      split
      · rename_i hs; subst hs; rfl
      · rfl
    have e2 : simple conv (some []) stringPrepend (some s) [n] = .ok (x ++ s) := by
      simp only [simple, h, stringPrepend]
      split
      · rfl
      · rename_i hs
        simp only [ne_eq, Classical.not_not] at hs
        subst hs; simp
    constructor
    · show (simple conv (some []) stringAppend (some s) [n]).bind _ = _; rw [e1]; rfl
    · show (simple conv (some []) stringPrepend (some s) [n]).bind _ = _; rw [e2]; rfl

/-- Paths are combined with the directory separator; combining with an absolute path is
diagnosed. -/
theorem path_append (conv : Nm → Option Nm → Option PathV) {n : Nm} (p x : PathV)
    (h : conv n none = some x) (hp : p.empty = false) :
    (x.abs = false → append (pathType conv) (some p) [n] = .ok (some ⟨p.abs, p.comps ++ x.comps⟩)) ∧
    (x.abs = true → append (pathType conv) (some p) [n] = .fail) ∧
    (x.empty = false → p.abs = false →
      prepend (pathType conv) (some p) [n] = .ok (some ⟨x.abs, x.comps ++ p.comps⟩)) ∧
    (x.empty = false → p.abs = true → prepend (pathType conv) (some p) [n] = .fail) ∧
    prepend (absDirType conv) (some p) [n] = .fail := by
  have a1 : append (pathType conv) (some p) [n] = (p.join x).bind (fun d => .ok (some d)) := by
    show (simple conv _ pathAppend (some p) [n]).bind _ = _
    simp only [simple, h, pathAppend, hp]
    rfl
  have a2 : prepend (pathType conv) (some p) [n] = (x.join p).bind (fun d => .ok (some d)) := by
    show (simple conv _ pathPrepend (some p) [n]).bind _ = _
    simp only [simple, h, pathPrepend, hp, if_true]
    rfl
  rw [a1, a2]
  unfold PathV.join
  refine ⟨?_, ?_, ?_, ?_, rfl⟩
  · intro hx; simp [hx, Res.bind]; rfl
  · intro hx; simp [hx, hp, Res.bind]; rfl
  · intro hx hb; simp [hb, Res.bind]; rfl
  · intro hx hb; simp [hx, hb, Res.bind]; rfl

/-- Signed integer overflow is not diagnosed: it is undefined behavior. -/
theorem int_append_overflow (conv : Nm → Option Nm → Option Int) {n : Nm} (i x : Int)
    (h : conv n none = some x) (ho : 2 ^ 63 ≤ i + x) :
    append (intType conv) (some i) [n] = .undef := by
  show (simple conv none intAppend (some i) [n]).bind _ = _
  simp only [simple, h, intAppend]
  rw [if_neg (by omega)]; rfl

/-- Several names are never appended or prepended to a simple value. -/
theorem simple_multiple {T : Type} (conv : Nm → Option Nm → Option T) (e : Option T)
    (a p : Option (Option T → T → Res T)) (v : Option T) (h : How) (n m : Nm) (ns : Names) :
    step (simpleType conv e a p) v (h, n :: m :: ns) = .fail := by
  cases h with
  | assign => rfl
  | append => cases a <;> rfl
  | prepend => cases p <;> rfl

/-- NULL is the same as nothing: appending to a NULL value is assigning to it, for all
types that support it, and so is prepending, except to a map. -/
theorem null_append (ns : Names) :
    append untyped none ns = assign untyped none ns ∧
    prepend untyped none ns = assign untyped none ns ∧
    (∀ (T : Type) (conv : Nm → Option Nm → Option T) (lt : T → T → Bool),
      append (vectorType conv) none ns = assign (vectorType conv) none ns ∧
      prepend (vectorType conv) none ns = assign (vectorType conv) none ns ∧
      append (setType conv lt) none ns = assign (setType conv lt) none ns ∧
      prepend (setType conv lt) none ns = assign (setType conv lt) none ns) ∧
    (∀ (K V : Type) (ck : Nm → Option K) (cv : Nm → Option V) (lt : K → K → Bool),
      append (mapType ck cv lt) none ns = assign (mapType ck cv lt) none ns) ∧
    (∀ conv, append (boolType conv) none ns = assign (boolType conv) none ns) ∧
    (∀ conv, append (intType conv) none ns = assign (intType conv) none ns) ∧
    (∀ conv, append (uintType conv) none ns = assign (uintType conv) none ns) ∧
    (∀ conv, append (stringType conv) none ns = assign (stringType conv) none ns ∧
      prepend (stringType conv) none ns = assign (stringType conv) none ns) ∧
    (∀ conv, append (pathType conv) none ns = assign (pathType conv) none ns ∧
      prepend (pathType conv) none ns = assign (pathType conv) none ns) := by
  refine ⟨rfl, rfl, ?_, fun _ _ _ _ _ => rfl, fun _ => rfl, fun _ => rfl, fun _ => rfl,
    fun _ => ⟨rfl, rfl⟩, fun _ => ⟨rfl, rfl⟩⟩
  intro T conv lt
  refine ⟨rfl, ?_, rfl, rfl⟩
  show ((vectorAppend conv none ns).bind (fun p => .ok (p ++ []))).bind _ =
    (vectorAppend conv none ns).bind _
  cases vectorAppend conv none ns with
  | ok x => exact congrArg (fun l : List T => Res.ok (some l)) (List.append_nil x)
  | fail => rfl
  | undef => rfl

/-! ## Inherited values -/

/-- Appending or prepending to a variable that is not set in the inner scope starts with a
copy of the value from the nearest outer scope where it is set and leaves the outer scopes
alone. If it is set, then the outer scopes do not matter. -/
theorem inherited (t : VType) (o : How × Names) (ho : o.1 ≠ .assign)
    (unset : List (Option t.Val)) (hu : ∀ x ∈ unset, x = none) (v : t.Val)
    (rest : List (Option t.Val)) (w : t.Val) (hs : step t v o = .ok w) :
    (unset ≠ [] →
      change t o (unset ++ some v :: rest) = .ok (some w :: (unset ++ some v :: rest).tail)) ∧
    change t o (some v :: rest) = .ok (some w :: rest) ∧
    (∀ w', step t none o = .ok w' → unset ≠ [] →
      change t o unset = .ok (some w' :: unset.tail)) := by
  have hi : ∀ l : List (Option t.Val), (∀ x ∈ l, x = none) →
      inherit t (l ++ some v :: rest) = v := by
    intro l
    induction l with
    | nil => intro _; rfl
    | cons x l ih =>
      intro h
      rw [h x List.mem_cons_self]
      exact ih (fun y hy => h y (List.mem_cons_of_mem _ hy))
  have hn : ∀ l : List (Option t.Val), (∀ x ∈ l, x = none) → inherit t l = none := by
    intro l
    induction l with
    | nil => intro _; rfl
    | cons x l ih =>
      intro h
      rw [h x List.mem_cons_self]
      exact ih (fun y hy => h y (List.mem_cons_of_mem _ hy))
  obtain ⟨how, ns⟩ := o
  refine ⟨?_, ?_, ?_⟩
  · intro hne
    cases unset with
    | nil => exact absurd rfl hne
    | cons x l =>
      have e := hi (x :: l) hu
      cases how with
      | assign => exact absurd rfl ho
      | append =>
        rw [List.cons_append] at e ⊢
        simp only [change, e, hs, Res.bind, List.tail_cons]
      | prepend =>
        rw [List.cons_append] at e ⊢
        simp only [change, e, hs, Res.bind, List.tail_cons]
  · cases how with
    | assign => exact absurd rfl ho
    | append => simp only [change, inherit, hs, Res.bind]
    | prepend => simp only [change, inherit, hs, Res.bind]
  · intro w' hw hne
    cases unset with
    | nil => exact absurd rfl hne
    | cons x l =>
      have e := hn (x :: l) hu
      cases how with
      | assign => exact absurd rfl ho
      | append => simp only [change, e, hw, Res.bind, List.tail_cons]
      | prepend => simp only [change, e, hw, Res.bind, List.tail_cons]

/-- Assignment does not look at the outer scopes. -/
theorem assigned_not_inherited (t : VType) (ns : Names) (inner : Option t.Val)
    (outer outer' : List (Option t.Val)) (w : t.Val)
    (h : change t (.assign, ns) (inner :: outer) = .ok (some w :: outer)) :
    change t (.assign, ns) (inner :: outer') = .ok (some w :: outer') := by
  simp only [change] at h ⊢
  rw [bind_ok] at h ⊢
  obtain ⟨x, h1, h2⟩ := h
  cases h2
  exact ⟨w, h1, rfl⟩

/-! ## Imported values -/

/-- The names of several imported targets end up in the variable in order in case of `=`
and `+=`.

Full statement: and in case of `=+`. Missing (and false, see `import_prepend_reverses`):
the case of `=+`. -/
theorem import_order_partial (v : Option Names) (rs : List Names) :
    (∃ w : Option Names, importLoop untyped .append v rs = .ok w ∧
      w.getD [] = v.getD [] ++ rs.flatten) ∧
    (rs ≠ [] → ∃ w : Option Names, importLoop untyped .assign v rs = .ok w ∧
      w.getD [] = rs.flatten) := by
  refine ⟨import_append rs v, ?_⟩
  intro hne
  cases rs with
  | nil => exact absurd rfl hne
  | cons r rs =>
    by_cases hr : r = []
    · subst hr
      obtain ⟨w, h1, h2⟩ := import_append rs none
      exact ⟨w, h1, by simpa using h2⟩
    · obtain ⟨w, h1, h2⟩ := import_append rs (some r)
      refine ⟨w, ?_, by simpa using h2⟩
      have : importStep untyped .assign v r = .ok (some r : Option Names) := by
        exact importStep_untyped .assign v hr
      show (importStep untyped .assign v r).bind _ = _
      rw [this]; exact h1

/-- In case of `=+` they end up in the reverse order: `import x =+ a%lib{a} b%lib{b}` is the
same as `x =+ b a`. -/
theorem import_prepend_reverses (v : Option Names) (rs : List Names) :
    ∃ w : Option Names, importLoop untyped .prepend v rs = .ok w ∧
      w.getD [] = rs.reverse.flatten ++ v.getD [] := import_prepend rs v

/-! Non-vacuity. -/

/-- A name that is not in a pair. -/
def nm (s : String) : Nm := ⟨none, s.toList⟩

/-- Elements are texts; a pair is joined with `@`; the empty text is not accepted. -/
def convText (n : Nm) (r : Option Nm) : Option (List Char) :=
  match r with
  | none => if n.body = [] then none else some n.body
  | some r => some (n.body ++ ['@'] ++ r.body)

example : Reads convText [nm "a", ⟨some '@', ['b']⟩, nm "c"] [['a'], ['b', '@', 'c']] :=
  .single rfl rfl (.pair rfl rfl .nil)

example : expected ['x'] [(.append, ['a']), (.assign, ['b', 'c']), (.prepend, ['d', 'e']),
    (.append, ['f']), (.prepend, ['g'])] = ['g', 'd', 'e', 'b', 'c', 'f'] := rfl

example : run (vectorType convText) none [(.append, [nm "a", nm "b"]), (.prepend, [nm "c", nm "d"]),
    (.append, [nm "e"])] = .ok (some [['c'], ['d'], ['a'], ['b'], ['e']]) := rfl

example : ¬ ∃ xs, Reads convText [nm ""] xs := by
  rintro ⟨xs, h⟩
  cases h with
  | single _ g _ => cases g

example : ReadsPairs natOf textOf [⟨some '@', ['a']⟩, nm "b"] [(1, ['b'])] :=
  .pair rfl rfl rfl .nil

example : prepend (pairVectorType (pairConvert natOf textOf)) (some [(5, [])])
    [⟨some '@', ['a']⟩, nm "b"] = .ok (some [(5, []), (1, ['b'])]) := rfl

example : append (setType (fun n _ => natOf n) natLt) (some [1, 4]) [nm "aaa", nm "b", nm "cccc"]
    = .ok (some [1, 3, 4]) := rfl

example : change (vectorType convText) (.append, [nm "z"]) [none, none, some (some [['y']])] =
    .ok [some (some [['y'], ['z']]), none, some (some [['y']])] := rfl

example : importLoop untyped .prepend (some [nm "x"]) [[nm "a"], [], [nm "b"]] =
    .ok (some [nm "b", nm "a", nm "x"] : Option Names) := by
  simp [importLoop, importStep, importNext, step, prepend, untyped, prependUntyped, Res.bind, nm]

end Verif.Value
