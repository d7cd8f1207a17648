import Verif.Value.Model

/-!
# Appending to and prepending to values: lemmas
-/

namespace Verif.Value

section
variable {T : Type} {conv : Nm → Option Nm → Option T}

/-- Induction over names two at a time. -/
theorem names_ind {P : Names → Prop} (h0 : P []) (h1 : ∀ n, P [n])
    (h2 : ∀ n r ns, P ns → P (r :: ns) → P (n :: r :: ns)) : ∀ ns, P ns
  | [] => h0
  | [n] => h1 n
  | n :: r :: ns => h2 n r ns (names_ind h0 h1 h2 ns) (names_ind h0 h1 h2 (r :: ns))

theorem Reads.complete {ns xs} (h : Reads conv ns xs) : Complete ns := by
  induction h with
  | nil => exact .nil
  | single h1 _ _ ih => exact .single h1 ih
  | pair h1 _ _ ih => exact .pair (by simp [h1]) ih

theorem Reads.append {a b xs ys} (h : Reads conv a xs) (h' : Reads conv b ys) :
    Reads conv (a ++ b) (xs ++ ys) := by
  induction h with
  | nil => exact h'
  | single h1 h2 _ ih => exact .single h1 h2 ih
  | pair h1 h2 _ ih => exact .pair h1 h2 ih

theorem Reads.unique {ns xs ys} (h : Reads conv ns xs) (h' : Reads conv ns ys) : xs = ys := by
  induction h generalizing ys with
  | nil => cases h'; rfl
  | single h1 h2 _ ih =>
    cases h' with
    | single _ g2 g => rw [h2] at g2; cases g2; rw [ih g]
    | pair g1 _ _ => rw [h1] at g1; cases g1
  | pair h1 h2 _ ih =>
    cases h' with
    | single g1 _ _ => rw [h1] at g1; cases g1
    | pair _ g2 g => rw [h2] at g2; cases g2; rw [ih g]

/-- Reading a concatenation is reading the parts if the first is complete. -/
theorem Reads.split {a b zs} (hc : Complete a) (h : Reads conv (a ++ b) zs) :
    ∃ xs ys, Reads conv a xs ∧ Reads conv b ys ∧ zs = xs ++ ys := by
  induction hc generalizing zs with
  | nil => exact ⟨[], zs, .nil, h, rfl⟩
  | single h1 _ ih =>
    rename_i n ns _
    rw [List.cons_append] at h
    generalize hm : ns ++ b = m at h
    cases h with
    | single _ g2 g =>
      subst hm
      obtain ⟨xs, ys, h3, h4, rfl⟩ := ih g
      exact ⟨_ :: xs, ys, .single h1 g2 h3, h4, rfl⟩
    | pair g1 _ _ => rw [h1] at g1; cases g1
  | pair h1 _ ih =>
    cases h with
    | single g1 _ _ => exact absurd g1 h1
    | pair g1 g2 g =>
      obtain ⟨xs, ys, h3, h4, rfl⟩ := ih g
      exact ⟨_ :: xs, ys, .pair g1 g2 h3, h4, rfl⟩

theorem Complete.append {a b} (h : Complete a) (h' : Complete b) : Complete (a ++ b) := by
  induction h with
  | nil => exact h'
  | single h1 _ ih => exact .single h1 ih
  | pair h1 _ ih => exact .pair h1 ih

/-- The generic loop behind vectors and sets. -/
def loop {C : Type} (conv : Nm → Option Nm → Option T) (add : C → T → C) (p : C) : Names → Res C
  | [] => .ok p
  | n :: ns =>
    match n.pair with
    | none =>
      match conv n none with
      | none => .fail
      | some x => loop conv add (add p x) ns
    | some c =>
      match ns with
      | [] => .undef
      | r :: ns' =>
        if c ≠ '@' then .fail
        else
          match conv n (some r) with
          | none => .fail
          | some x => loop conv add (add p x) ns'

theorem loop_ok {C : Type} {add : C → T → C} {ns} (p q : C) :
    loop conv add p ns = .ok q ↔ ∃ xs, Reads conv ns xs ∧ q = xs.foldl add p := by
  induction ns using names_ind generalizing p with
  | h0 =>
    simp only [loop, Res.ok.injEq]
    constructor
    · rintro rfl; exact ⟨[], .nil, rfl⟩
    · rintro ⟨xs, h, rfl⟩; cases h; rfl
  | h1 n =>
    simp only [loop]
    cases hp : n.pair with
    | none =>
      cases hc : conv n none with
      | none =>
        simp only [reduceCtorEq, false_iff]
        rintro ⟨xs, h, _⟩
        cases h with
        | single _ g _ => rw [hc] at g; cases g
      | some x =>
        simp only [Res.ok.injEq]
        constructor
        · rintro rfl; exact ⟨[x], .single hp hc .nil, rfl⟩
        · rintro ⟨xs, h, rfl⟩
          cases h with
          | single _ g h => rw [hc] at g; cases g; cases h; rfl
    | some c =>
      simp only [reduceCtorEq, false_iff]
      rintro ⟨xs, h, _⟩
      cases h with
      | single g _ _ => rw [hp] at g; cases g
  | h2 n r ns ih1 ih2 =>
    rw [loop]
    cases hp : n.pair with
    | none =>
      cases hc : conv n none with
      | none =>
        simp only [reduceCtorEq, false_iff]
        rintro ⟨xs, h, _⟩
        cases h with
        | single _ g _ => rw [hc] at g; cases g
        | pair g _ _ => rw [hp] at g; cases g
      | some x =>
        simp only [ih2]
        constructor
        · rintro ⟨xs, h, rfl⟩; exact ⟨x :: xs, .single hp hc h, rfl⟩
        · rintro ⟨xs, h, rfl⟩
          cases h with
          | single _ g h => rw [hc] at g; cases g; exact ⟨_, h, rfl⟩
          | pair g _ _ => rw [hp] at g; cases g
    | some c =>
      by_cases ha : c = '@'
      · subst ha
        simp only [ne_eq, not_true_eq_false, if_false]
        cases hc : conv n (some r) with
        | none =>
          simp only [reduceCtorEq, false_iff]
          rintro ⟨xs, h, _⟩
          cases h with
          | single g _ _ => rw [hp] at g; cases g
          | pair _ g _ => rw [hc] at g; cases g
        | some x =>
          simp only [ih1]
          constructor
          · rintro ⟨xs, h, rfl⟩; exact ⟨x :: xs, .pair hp hc h, rfl⟩
          · rintro ⟨xs, h, rfl⟩
            cases h with
            | single g _ _ => rw [hp] at g; cases g
            | pair _ g h => rw [hc] at g; cases g; exact ⟨_, h, rfl⟩
      · simp only [ne_eq, ha, not_false_eq_true, if_true, reduceCtorEq, false_iff]
        rintro ⟨xs, h, _⟩
        cases h with
        | single g _ _ => rw [hp] at g; cases g
        | pair g _ _ => rw [hp] at g; cases g; exact ha rfl

theorem loop_defined {C : Type} {add : C → T → C} {ns} (hc : Complete ns) (p : C) :
    loop conv add p ns ≠ .undef := by
  induction hc generalizing p with
  | nil => simp [loop]
  | single h1 _ ih =>
    rw [loop, h1]
    simp only
    split
    · simp
    · exact ih _
  | pair h1 _ ih =>
    rename_i n r ns _
    rw [loop]
    cases hp : n.pair with
    | none => exact absurd hp h1
    | some c =>
      simp only
      split
      · simp
      · split
        · simp
        · exact ih _

theorem loop_fail {C : Type} {add : C → T → C} {ns} (hc : Complete ns) (p : C) :
    loop conv add p ns = .fail ↔ ¬ ∃ xs, Reads conv ns xs := by
  have h1 := @loop_ok T conv C add ns p
  have h2 := loop_defined (conv := conv) (add := add) hc p
  cases h : loop conv add p ns with
  | ok q =>
    obtain ⟨xs, hx, _⟩ := (h1 q).mp h
    simp only [reduceCtorEq, false_iff, Classical.not_not]
    exact ⟨xs, hx⟩
  | fail =>
    simp only [true_iff]
    rintro ⟨xs, hx⟩
    have := (h1 _).mpr ⟨xs, hx, rfl⟩
    rw [h] at this; cases this
  | undef => exact absurd h h2

theorem vectorLoop_eq (p : List T) (ns : Names) :
    vectorLoop conv p ns = loop conv (fun p x => p ++ [x]) p ns := by
  induction ns using names_ind generalizing p with
  | h0 => rfl
  | h1 n =>
    rw [vectorLoop, loop]
    cases n.pair with
    | none => cases conv n none <;> rfl
    | some c => rfl
  | h2 n r ns ih1 ih2 =>
    rw [vectorLoop, loop]
    cases n.pair with
    | none =>
      cases conv n none with
      | none => rfl
      | some x => exact ih2 _
    | some c =>
      simp only
      split
      · rfl
      · cases conv n (some r) with
        | none => rfl
        | some x => exact ih1 _

theorem setLoop_eq (lt : T → T → Bool) (p : List T) (ns : Names) :
    setLoop conv lt p ns = loop conv (fun p x => setInsert lt x p) p ns := by
  induction ns using names_ind generalizing p with
  | h0 => rfl
  | h1 n =>
    rw [setLoop, loop]
    cases n.pair with
    | none => cases conv n none <;> rfl
    | some c => rfl
  | h2 n r ns ih1 ih2 =>
    rw [setLoop, loop]
    cases n.pair with
    | none =>
      cases conv n none with
      | none => rfl
      | some x => exact ih2 _
    | some c =>
      simp only
      split
      · rfl
      · cases conv n (some r) with
        | none => rfl
        | some x => exact ih1 _

theorem foldl_snoc (xs p : List T) : xs.foldl (fun p x => p ++ [x]) p = p ++ xs := by
  induction xs generalizing p with
  | nil => simp
  | cons x xs ih => simp [ih]

theorem vectorAppend_ok (v : Option (List T)) (ns : Names) (q : List T) :
    vectorAppend conv v ns = .ok q ↔ ∃ xs, Reads conv ns xs ∧ q = v.getD [] ++ xs := by
  rw [vectorAppend, vectorLoop_eq, loop_ok]
  simp only [foldl_snoc]

theorem getD_map_nil (v : Option (List T)) : (v.map (fun _ => ([] : List T))).getD [] = [] := by
  cases v <;> rfl

theorem vectorAssign_ok (v : Option (List T)) (ns : Names) (q : List T) :
    vectorAssign conv v ns = .ok q ↔ Reads conv ns q := by
  rw [vectorAssign, vectorAppend_ok, getD_map_nil]
  simp only [List.nil_append]
  exact ⟨fun ⟨xs, h, e⟩ => e ▸ h, fun h => ⟨q, h, rfl⟩⟩

theorem bind_ok {α β : Type} {r : Res α} {f : α → Res β} {y : β} :
    r.bind f = .ok y ↔ ∃ x, r = .ok x ∧ f x = .ok y := by
  cases r <;> simp [Res.bind]

theorem vectorPrepend_ok (v : Option (List T)) (ns : Names) (q : List T) :
    vectorPrepend conv v ns = .ok q ↔ ∃ xs, Reads conv ns xs ∧ q = xs ++ v.getD [] := by
  rw [vectorPrepend, bind_ok]
  constructor
  · rintro ⟨x, h, e⟩
    change vectorAssign conv v ns = _ at h
    rw [vectorAssign_ok] at h
    cases e
    exact ⟨x, h, rfl⟩
  · rintro ⟨xs, h, rfl⟩
    exact ⟨xs, (vectorAssign_ok v ns xs).mpr h, rfl⟩

end

/-! ## Histories -/

section
variable {T : Type}

/-- The effect of one operation on the elements. -/
def effect (l : List T) (o : How × List T) : List T :=
  match o.1 with
  | .assign => o.2
  | .append => l ++ o.2
  | .prepend => o.2 ++ l

theorem expected_snoc (init : List T) (ops : List (How × List T)) (o : How × List T) :
    expected init (ops ++ [o]) = effect (expected init ops) o := by
  obtain ⟨h, x⟩ := o
  cases h with
  | assign =>
    simp [expected, effect, sinceAssign, lastAssigned, operands]
  | append =>
    simp [expected, effect, sinceAssign, lastAssigned, operands]
  | prepend =>
    simp [expected, effect, sinceAssign, lastAssigned, operands]

theorem expected_nil (init : List T) : expected init [] = init := by
  simp [expected, sinceAssign, lastAssigned, operands]

theorem expected_eq (init : List T) (ops : List (How × List T)) :
    expected init ops = ops.foldl effect init := by
  have key : ∀ l : List (How × List T), expected init l.reverse = l.reverse.foldl effect init := by
    intro l
    induction l with
    | nil => exact expected_nil init
    | cons o l ih => rw [List.reverse_cons, expected_snoc, ih, List.foldl_append]; rfl
  have := key ops.reverse
  rwa [List.reverse_reverse] at this

/-- If every operation has its effect on the elements then so does a history. -/
theorem run_effect {t : VType} (view : t.Val → List T) (R : Names → List T → Prop)
    (hs : ∀ v h ns xs, R ns xs → ∃ w, step t v (h, ns) = .ok (some w) ∧
      view (some w) = effect (view v) (h, xs))
    (ops : List (How × Names × List T)) (hr : ∀ o ∈ ops, R o.2.1 o.2.2) (v : t.Val) :
    ∃ w, run t v (ops.map (fun o => (o.1, o.2.1))) = .ok w ∧
      view w = expected (view v) (ops.map (fun o => (o.1, o.2.2))) ∧
      (ops ≠ [] → w ≠ none) := by
  rw [expected_eq]
  induction ops generalizing v with
  | nil => exact ⟨v, rfl, rfl, fun h => absurd rfl h⟩
  | cons o ops ih =>
    obtain ⟨w, h1, h2⟩ := hs v o.1 o.2.1 o.2.2 (hr o List.mem_cons_self)
    obtain ⟨w', h3, h4, h5⟩ := ih (fun o ho => hr o (List.mem_cons_of_mem _ ho)) (some w)
    refine ⟨w', ?_, ?_, ?_⟩
    · rw [List.map_cons, run, h1]; exact h3
    · rw [h4, h2]; rfl
    · intro _
      cases ops with
      | nil => cases h3; simp
      | cons => exact h5 (by simp)

end

/-! ## Untyped values -/

theorem appendUntyped_eq (v : Option Names) (ns : Names) :
    appendUntyped v ns = .ok (v.getD [] ++ ns) := by
  cases v with
  | none => rfl
  | some p =>
    simp only [appendUntyped, Option.getD_some]
    by_cases hp : p = []
    · subst hp; rfl
    · by_cases hn : ns = []
      · subst hn; simp [hp]
      · simp [hp, hn]

theorem prependUntyped_eq (v : Option Names) (ns : Names) :
    prependUntyped v ns = .ok (ns ++ v.getD []) := by
  cases v with
  | none => simp [prependUntyped]
  | some p =>
    simp only [prependUntyped, Option.getD_some]
    by_cases hp : p = []
    · subst hp; simp
    · by_cases hn : ns = []
      · subst hn; simp [hp]
      · simp [hp, hn]

theorem untyped_step (v : Option Names) (h : How) (ns : Names) :
    step untyped v (h, ns) = .ok (some (effect (v.getD []) (h, ns)) : Option Names) := by
  cases h with
  | assign => rfl
  | append =>
    show (appendUntyped v ns).bind _ = _
    rw [appendUntyped_eq]; rfl
  | prepend =>
    show (prependUntyped v ns).bind _ = _
    rw [prependUntyped_eq]; rfl

theorem importStep_untyped (h : How) (v : Option Names) {r : Names} (hr : r ≠ []) :
    importStep untyped h v r = .ok (some (effect (v.getD []) (h, r)) : Option Names) := by
  unfold importStep
  simp only [hr, if_false]
  exact untyped_step v h r

theorem import_append (rs : List Names) (v : Option Names) :
    ∃ w : Option Names, importLoop untyped .append v rs = .ok w ∧
      w.getD [] = v.getD [] ++ rs.flatten := by
  induction rs generalizing v with
  | nil => exact ⟨v, rfl, by simp⟩
  | cons r rs ih =>
    by_cases hr : r = []
    · subst hr
      obtain ⟨w, h1, h2⟩ := ih v
      exact ⟨w, h1, by simpa using h2⟩
    · obtain ⟨w, h1, h2⟩ := ih (some (v.getD [] ++ r))
      refine ⟨w, ?_, by rw [h2]; simp⟩
      have : importStep untyped .append v r = .ok (some (v.getD [] ++ r) : Option Names) := by
        exact importStep_untyped .append v hr
      show (importStep untyped .append v r).bind _ = _
      rw [this]; exact h1

theorem import_prepend (rs : List Names) (v : Option Names) :
    ∃ w : Option Names, importLoop untyped .prepend v rs = .ok w ∧
      w.getD [] = rs.reverse.flatten ++ v.getD [] := by
  induction rs generalizing v with
  | nil => exact ⟨v, rfl, by simp⟩
  | cons r rs ih =>
    by_cases hr : r = []
    · subst hr
      obtain ⟨w, h1, h2⟩ := ih v
      exact ⟨w, h1, by simpa using h2⟩
    · obtain ⟨w, h1, h2⟩ := ih (some (r ++ v.getD []))
      refine ⟨w, ?_, by rw [h2]; simp⟩
      have : importStep untyped .prepend v r = .ok (some (r ++ v.getD []) : Option Names) := by
        exact importStep_untyped .prepend v hr
      show (importStep untyped .prepend v r).bind _ = _
      rw [this]; exact h1

/-! ## Sets -/

section
variable {T : Type} {lt : T → T → Bool}

theorem setInsert_mem (ho : StrictTotal lt) (x y : T) (l : List T) :
    y ∈ setInsert lt x l ↔ y = x ∨ y ∈ l := by
  induction l with
  | nil => simp [setInsert]
  | cons z l ih =>
    rw [setInsert]
    split
    · simp
    · split
      · rw [List.mem_cons, ih, List.mem_cons]
        constructor <;> (rintro (h | h | h) <;> simp [h])
      · rename_i h1 h2
        have := ho.total x z (by simpa using h1) (by simpa using h2)
        subst this
        simp only [List.mem_cons]
        constructor
        · exact .inr
        · rintro (h | h)
          · exact .inl h
          · exact h

theorem setInsert_ascending (ho : StrictTotal lt) (x : T) {l : List T} (h : Ascending lt l) :
    Ascending lt (setInsert lt x l) := by
  induction l with
  | nil => simp [setInsert, Ascending]
  | cons z l ih =>
    rw [Ascending, List.pairwise_cons] at h
    obtain ⟨h1, h2⟩ := h
    rw [setInsert]
    split
    · rename_i hx
      rw [Ascending, List.pairwise_cons]
      refine ⟨?_, ?_⟩
      · intro y hy
        rcases List.mem_cons.mp hy with rfl | hy
        · exact hx
        · exact ho.trans _ _ _ hx (h1 y hy)
      · rw [List.pairwise_cons]; exact ⟨h1, h2⟩
    · split
      · rename_i _ hz
        rw [Ascending, List.pairwise_cons]
        refine ⟨?_, ih h2⟩
        intro y hy
        rw [setInsert_mem ho] at hy
        rcases hy with rfl | hy
        · exact hz
        · exact h1 y hy
      · rw [Ascending, List.pairwise_cons]; exact ⟨h1, h2⟩

theorem foldl_setInsert (ho : StrictTotal lt) (xs : List T) {l : List T} (h : Ascending lt l) :
    Ascending lt (xs.foldl (fun p x => setInsert lt x p) l) ∧
    ∀ y, y ∈ xs.foldl (fun p x => setInsert lt x p) l ↔ y ∈ l ∨ y ∈ xs := by
  induction xs generalizing l with
  | nil => exact ⟨h, fun y => by simp⟩
  | cons x xs ih =>
    obtain ⟨h1, h2⟩ := ih (setInsert_ascending ho x h)
    refine ⟨h1, fun y => ?_⟩
    rw [List.foldl_cons, h2, setInsert_mem ho, List.mem_cons]
    constructor
    · rintro ((h | h) | h) <;> simp [h]
    · rintro (h | h | h) <;> simp [h]

end

/-! ## Pairs and maps -/

section
variable {K V : Type} {ck : Nm → Option K} {cv : Nm → Option V}

theorem pairLoop_ok {C : Type} {add : C → K × V → C} {ns} (p q : C) :
    pairLoop (pairConvert ck cv) add p ns = .ok q ↔
      ∃ xs, ReadsPairs ck cv ns xs ∧ q = xs.foldl add p := by
  induction ns using names_ind generalizing p with
  | h0 =>
    simp only [pairLoop, Res.ok.injEq]
    constructor
    · rintro rfl; exact ⟨[], .nil, rfl⟩
    · rintro ⟨xs, h, rfl⟩; cases h; rfl
  | h1 n =>
    rw [pairLoop]
    have hn : ¬ ∃ xs, ReadsPairs ck cv [n] xs ∧ q = xs.foldl add p := by
      rintro ⟨xs, h, _⟩; cases h
    simp only [hn, iff_false]
    cases hp : n.pair with
    | none => simp [pairConvert, hp, Res.bind]
    | some c => simp
  | h2 n r ns ih1 ih2 =>
    rw [pairLoop]
    cases hp : n.pair with
    | none =>
      simp only [pairConvert, hp, Res.bind, reduceCtorEq, false_iff]
      rintro ⟨xs, h, _⟩
      cases h with
      | pair g _ _ _ => rw [hp] at g; cases g
    | some c =>
      simp only [pairConvert, hp]
      by_cases ha : c = '@'
      · subst ha
        simp only [ne_eq, not_true_eq_false, if_false]
        cases hk : ck n with
        | none =>
          simp only [Res.bind, reduceCtorEq, false_iff]
          rintro ⟨xs, h, _⟩
          cases h with
          | pair _ g _ _ => rw [hk] at g; cases g
        | some k =>
          cases hv : cv r with
          | none =>
            simp only [Res.bind, reduceCtorEq, false_iff]
            rintro ⟨xs, h, _⟩
            cases h with
            | pair _ _ g _ => rw [hv] at g; cases g
          | some v =>
            simp only [Res.bind]
            rw [ih1]
            constructor
            · rintro ⟨xs, h, rfl⟩; exact ⟨(k, v) :: xs, .pair hp hk hv h, rfl⟩
            · rintro ⟨xs, h, rfl⟩
              cases h with
              | pair _ g1 g2 h =>
                rw [hk] at g1; rw [hv] at g2; cases g1; cases g2
                exact ⟨_, h, rfl⟩
      · simp only [ne_eq, ha, not_false_eq_true, if_true, Res.bind, reduceCtorEq, false_iff]
        rintro ⟨xs, h, _⟩
        cases h with
        | pair g _ _ _ => rw [hp] at g; cases g; exact ha rfl

theorem pairConvert_defined (l : Nm) (r : Option Nm) (h : l.pair = none ∨ r.isSome = true) :
    pairConvert ck cv l r ≠ .undef := by
  unfold pairConvert
  cases hp : l.pair with
  | none => simp
  | some c =>
    cases r with
    | none => rw [hp] at h; simp at h
    | some r =>
      simp only
      split
      · simp
      · cases ck l with
        | none => simp
        | some k => cases cv r <;> simp

theorem pairLoop_defined {C : Type} {add : C → K × V → C} {ns} (hc : Complete ns) (p : C) :
    pairLoop (pairConvert ck cv) add p ns ≠ .undef := by
  induction hc generalizing p with
  | nil => simp [pairLoop]
  | single h1 _ ih =>
    rename_i n ns _
    have e : pairLoop (pairConvert ck cv) add p (n :: ns) =
        (pairConvert ck cv n none).bind
          (fun e => pairLoop (pairConvert ck cv) add (add p e) ns) := by
      cases ns <;> simp only [pairLoop, h1]
    rw [e]
    cases hq : pairConvert ck cv n none with
    | ok e => exact ih _
    | fail => simp [Res.bind]
    | undef => exact absurd hq (pairConvert_defined _ _ (.inl h1))
  | pair h1 _ ih =>
    rename_i n r ns _
    rw [pairLoop]
    cases hp : n.pair with
    | none => exact absurd hp h1
    | some c =>
      simp only
      cases hq : pairConvert ck cv n (some r) with
      | ok e => exact ih _
      | fail => simp [Res.bind]
      | undef => exact absurd hq (pairConvert_defined _ _ (.inr rfl))

variable [DecidableEq K] {lt : K → K → Bool}

/-- Keys in ascending order. -/
def KeysAscending (lt : K → K → Bool) (m : List (K × V)) : Prop := Ascending lt (m.map (·.1))

theorem valueOf_cons (y : K × V) (m : List (K × V)) (k : K) :
    valueOf (y :: m) k = if y.1 = k then some y.2 else valueOf m k := by
  unfold valueOf
  rw [List.find?_cons]
  by_cases h : y.1 = k
  · simp [h]
  · have : (y.1 == k) = false := by simpa using h
    simp [this, h]

theorem valueOf_absent (ho : StrictTotal lt) {m : List (K × V)} {k : K}
    (h : ∀ y ∈ m.map (·.1), lt k y = true) : valueOf m k = none := by
  induction m with
  | nil => rfl
  | cons y m ih =>
    rw [valueOf_cons, ih (fun z hz => h z (by simp at hz ⊢; exact .inr hz))]
    have := h y.1 (by simp)
    split
    · rename_i e; rw [e, ho.irrefl] at this; cases this
    · rfl

omit [DecidableEq K] in
theorem mapSet_keys (m : List (K × V)) (e : K × V) :
    (mapSet lt m e).map (·.1) = setInsert lt e.1 (m.map (·.1)) := by
  induction m with
  | nil => rfl
  | cons y m ih =>
    rw [mapSet, List.map_cons, setInsert]
    split
    · rfl
    · split
      · rw [List.map_cons, ih]
      · rfl

omit [DecidableEq K] in
theorem mapEmplace_keys (m : List (K × V)) (e : K × V) :
    (mapEmplace lt m e).map (·.1) = setInsert lt e.1 (m.map (·.1)) := by
  induction m with
  | nil => rfl
  | cons y m ih =>
    rw [mapEmplace, List.map_cons, setInsert]
    split
    · rfl
    · split
      · rw [List.map_cons, ih]
      · rfl

theorem mapSet_valueOf (ho : StrictTotal lt) (m : List (K × V)) (e : K × V) (k : K) :
    valueOf (mapSet lt m e) k = if e.1 = k then some e.2 else valueOf m k := by
  induction m with
  | nil => rw [mapSet, valueOf_cons]
  | cons y m ih =>
    rw [mapSet]
    split
    · rw [valueOf_cons]
    · split
      · rename_i h1 h2
        rw [valueOf_cons, ih, valueOf_cons]
        by_cases hy : y.1 = k
        · by_cases he : e.1 = k
          · rw [hy, he, ho.irrefl] at h2; cases h2
          · simp [hy, he]
        · simp [hy]
      · rename_i h1 h2
        have := ho.total e.1 y.1 (by simpa using h1) (by simpa using h2)
        rw [valueOf_cons, valueOf_cons, this]
        by_cases hy : y.1 = k <;> simp [hy]

theorem mapEmplace_valueOf (ho : StrictTotal lt) {m : List (K × V)} (hm : KeysAscending lt m)
    (e : K × V) (k : K) :
    valueOf (mapEmplace lt m e) k =
      (valueOf m k).or (if e.1 = k then some e.2 else none) := by
  induction m with
  | nil => rw [mapEmplace, valueOf_cons]; simp [valueOf]
  | cons y m ih =>
    rw [KeysAscending, List.map_cons, Ascending, List.pairwise_cons] at hm
    obtain ⟨hm1, hm2⟩ := hm
    rw [mapEmplace]
    split
    · rename_i h1
      rw [valueOf_cons]
      by_cases he : e.1 = k
      · have : valueOf (y :: m) k = none := by
          apply valueOf_absent ho
          intro z hz
          rw [← he]
          simp only [List.map_cons, List.mem_cons] at hz
          rcases hz with rfl | hz
          · exact h1
          · exact ho.trans _ _ _ h1 (hm1 z hz)
        simp [he, this]
      · simp [he]
    · split
      · rename_i h1 h2
        rw [valueOf_cons, valueOf_cons, ih hm2]
        by_cases hy : y.1 = k <;> simp [hy]
      · rename_i h1 h2
        have := ho.total e.1 y.1 (by simpa using h1) (by simpa using h2)
        rw [valueOf_cons, this]
        by_cases hy : y.1 = k <;> simp [hy]

theorem lastValue_cons (e : K × V) (xs : List (K × V)) (k : K) :
    lastValue (e :: xs) k = (lastValue xs k).or (if e.1 = k then some e.2 else none) := by
  unfold lastValue
  rw [List.reverse_cons]
  induction xs.reverse with
  | nil => rw [List.nil_append, valueOf_cons]; simp [valueOf]
  | cons y l ih =>
    rw [List.cons_append, valueOf_cons, valueOf_cons, ih]
    by_cases hy : y.1 = k <;> simp [hy]

theorem foldl_mapSet (ho : StrictTotal lt) (xs m : List (K × V)) :
    ((KeysAscending lt m) → KeysAscending lt (xs.foldl (mapSet lt) m)) ∧
    ∀ k, valueOf (xs.foldl (mapSet lt) m) k = (lastValue xs k).or (valueOf m k) := by
  induction xs generalizing m with
  | nil => exact ⟨id, fun k => by simp [lastValue, valueOf]⟩
  | cons x xs ih =>
    obtain ⟨h1, h2⟩ := ih (mapSet lt m x)
    refine ⟨fun h => h1 ?_, fun k => ?_⟩
    · rw [KeysAscending, mapSet_keys]; exact setInsert_ascending ho _ h
    · rw [List.foldl_cons, h2, mapSet_valueOf ho, lastValue_cons]
      by_cases hx : x.1 = k <;> cases lastValue xs k <;> simp [hx]

theorem foldl_mapEmplace (ho : StrictTotal lt) (xs : List (K × V)) {m : List (K × V)}
    (hm : KeysAscending lt m) :
    KeysAscending lt (xs.foldl (mapEmplace lt) m) ∧
    ∀ k, valueOf (xs.foldl (mapEmplace lt) m) k = (valueOf m k).or (valueOf xs k) := by
  induction xs generalizing m with
  | nil => exact ⟨hm, fun k => by simp [valueOf]⟩
  | cons x xs ih =>
    have h0 : KeysAscending lt (mapEmplace lt m x) := by
      rw [KeysAscending, mapEmplace_keys]; exact setInsert_ascending ho _ hm
    obtain ⟨h1, h2⟩ := ih h0
    refine ⟨h1, fun k => ?_⟩
    rw [List.foldl_cons, h2, mapEmplace_valueOf ho hm, valueOf_cons]
    by_cases hx : x.1 = k <;> cases valueOf m k <;> simp [hx]

end

end Verif.Value
