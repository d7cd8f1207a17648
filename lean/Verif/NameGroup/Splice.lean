import Verif.NameGroup.Words
/-! # Splicing -/

namespace Verif.NameGroup

theorem flat_append (a b : List Elem) : flat (a ++ b) = flat a ++ flat b := by
  induction a with
  | nil => rfl
  | cons x a ih =>
    cases x <;> simp [flat, ih]

theorem lastPair_append_flat (ns : List FName) (es : List Elem)
    (h : lastPair ns = false) : lastPair (ns ++ flat es) = false := by
  rcases List.eq_nil_or_concat es with h' | ⟨a, x, h'⟩
  · subst h'; simpa [flat] using h
  · have h'' : es = a ++ [x] := by simpa using h'
    subst h''
    rw [flat_append]
    cases x with
    | single n => simp [flat, lastPair]
    | pair m n => simp [flat, lastPair]

theorem setPair_append (pr : Bool) (ns : List FName) (x : Name) (b : Bool) :
    setPair pr (ns ++ [(x, b)]) = ns ++ [(x, pr)] := by
  simp [setPair]

theorem spliceProj_is (c : Ctx) (n : Name) :
    Is (spliceProj c n) (atMostOne c.proj n.proj) := by
  unfold spliceProj atMostOne
  cases c.proj <;> cases n.proj <;> first | rfl | exact ⟨_, rfl⟩

theorem spliceDir_is (e : Env) (c : Ctx) (n : Name) :
    Is (spliceDir e c n) (insideDir e c n) := by
  unfold spliceDir insideDir
  by_cases h : n.dir = []
  · rw [if_neg (by simpa using h), if_pos h]; rfl
  · rw [if_pos h, if_neg h]
    by_cases h1 : c.dir ≠ none ∧ e.absolute n.dir = true
    · rw [if_pos h1, if_pos ⟨by
        rw [Option.isSome_iff_ne_none]; exact h1.1, h1.2⟩]
      exact ⟨_, rfl⟩
    · rw [if_neg h1, if_neg (by
        intro h2; apply h1
        exact ⟨Option.isSome_iff_ne_none.mp h2.1, h2.2⟩)]
      exact joinDir_is e c.dir n.dir

theorem spliceType_is (c : Ctx) (n : Name) :
    Is (spliceType c n) (insideType c n) := by
  unfold spliceType insideType
  by_cases h : n.type = []
  · rw [if_neg (by simpa using h), if_pos h]; rfl
  · rw [if_pos h, if_neg h]
    cases c.type with
    | none => rfl
    | some t => exact ⟨_, rfl⟩

theorem spliceLoop_cons (e : Env) (c : Ctx) (k : Nat) (ns : List FName) (n : Name) (pr : Bool)
    (nv : List FName) : spliceLoop e c k ns ((n, pr) :: nv) =
      (spliceProj c n >>= fun p => spliceDir e c n >>= fun d => spliceType c n >>= fun t =>
        spliceHalf k pr ns >>= fun ns => appendName ns p d t n.value >>= fun ns =>
        spliceLoop e c k (setPair pr ns) nv) := by
  rw [spliceLoop]

/-- The names are added inside the qualification. -/
theorem spliceStep (e : Env) (c : Ctx) (k : Nat) (ns ns' : List FName) (n : Name) (pr : Bool)
    (nv : List FName) (hh : spliceHalf k pr ns = .ok ns') :
    (∀ m, inside e c n = some m →
      spliceLoop e c k ns ((n, pr) :: nv) = spliceLoop e c k (ns' ++ [(m, pr)]) nv) ∧
    (inside e c n = none → Fails (spliceLoop e c k ns ((n, pr) :: nv))) := by
  have h1 := spliceProj_is c n
  have h2 := spliceDir_is e c n
  have h3 := spliceType_is c n
  unfold inside
  constructor
  · intro m hm
    cases hp : atMostOne c.proj n.proj with
    | none => rw [hp] at hm; cases hm
    | some p =>
    cases hd : insideDir e c n with
    | none => rw [hp, hd] at hm; cases hm
    | some d =>
    cases ht : insideType c n with
    | none => rw [hp, hd, ht] at hm; cases hm
    | some t =>
    rw [hp, hd, ht] at hm
    have hm' : accept ⟨p, d, t, n.value⟩ = some m := hm
    rw [hp] at h1
    rw [hd] at h2
    rw [ht] at h3
    have h1' : spliceProj c n = .ok p := h1
    have h2' : spliceDir e c n = .ok d := h2
    have h3' : spliceType c n = .ok t := h3
    have h4 := appendName_is ns' p d t n.value
    rw [hm'] at h4
    have h4' : appendName ns' p d t n.value = .ok (ns' ++ [(m, false)]) := h4
    rw [spliceLoop_cons]
    rw [h1', h2', h3', hh]
    show (appendName ns' p d t n.value >>= fun ns => _) = _
    rw [h4']
    show spliceLoop e c k (setPair pr (ns' ++ [(m, false)])) nv = _
    rw [setPair_append]
  · intro hm
    rw [spliceLoop_cons]
    cases hp : atMostOne c.proj n.proj with
    | none => rw [hp] at h1; exact fails_bind h1
    | some p =>
    rw [hp] at h1
    have h1' : spliceProj c n = .ok p := h1
    rw [h1']
    show Fails (spliceDir e c n >>= fun d => _)
    cases hd : insideDir e c n with
    | none => rw [hd] at h2; exact fails_bind h2
    | some d =>
    rw [hd] at h2
    have h2' : spliceDir e c n = .ok d := h2
    rw [h2']
    show Fails (spliceType c n >>= fun d => _)
    cases ht : insideType c n with
    | none => rw [ht] at h3; exact fails_bind h3
    | some t =>
    rw [ht] at h3
    have h3' : spliceType c n = .ok t := h3
    rw [h3', hh]
    show Fails (appendName ns' p d t n.value >>= fun d => _)
    have h4 := appendName_is ns' p d t n.value
    rw [hp, hd, ht] at hm
    have hm' : accept ⟨p, d, t, n.value⟩ = none := hm
    rw [hm'] at h4
    exact fails_bind h4

theorem half_zero (pr : Bool) (ns : List FName) : spliceHalf 0 pr ns = .ok ns := rfl

/-- An expansion outside of a pair. -/
theorem spliceLoop_is (e : Env) (c : Ctx) : ∀ es ns,
    Is (spliceLoop e c 0 ns (flat es))
      ((insideAll e c es).map fun r => ns ++ flat r) := by
  intro es
  induction es with
  | nil => intro ns; simp only [flat, insideAll, Option.map_some, List.append_nil]; rfl
  | cons x es ih =>
    intro ns
    cases x with
    | single n =>
      obtain ⟨h1, h2⟩ := spliceStep e c 0 ns ns n false (flat es) (half_zero _ _)
      simp only [flat, insideAll]
      cases hn : inside e c n with
      | none =>
        have : insideElem e c (.single n) = none := by simp [insideElem, hn]
        rw [this]; exact h2 hn
      | some m =>
        have hi : insideElem e c (.single n) = some (.single m) := by simp [insideElem, hn]
        rw [hi]
        rw [h1 m hn]
        have h3 := ih (ns ++ [(m, false)])
        simp only [Option.bind_eq_bind, Option.bind_some]
        cases hc : insideAll e c es with
        | none => rw [hc] at h3; exact h3
        | some r =>
          rw [hc] at h3
          have h3' : spliceLoop e c 0 (ns ++ [(m, false)]) (flat es) =
            .ok (ns ++ [(m, false)] ++ flat r) := h3
          rw [h3']
          simp [Is, flat]
    | pair a b =>
      obtain ⟨h1, h2⟩ := spliceStep e c 0 ns ns a true ((b, false) :: flat es) (half_zero _ _)
      simp only [flat, insideAll]
      cases ha : inside e c a with
      | none =>
        have : insideElem e c (.pair a b) = none := by simp [insideElem, ha]
        rw [this]; exact h2 ha
      | some a' =>
        rw [h1 a' ha]
        obtain ⟨h1', h2'⟩ := spliceStep e c 0 (ns ++ [(a', true)]) _ b false (flat es) (half_zero _ _)
        cases hb : inside e c b with
        | none =>
          have : insideElem e c (.pair a b) = none := by simp [insideElem, ha, hb]
          rw [this]; exact h2' hb
        | some b' =>
          have hi : insideElem e c (.pair a b) = some (.pair a' b') := by
            simp [insideElem, ha, hb]
          rw [hi]
          rw [h1' b' hb]
          have h3 := ih (ns ++ [(a', true)] ++ [(b', false)])
          simp only [Option.bind_eq_bind, Option.bind_some]
          cases hc : insideAll e c es with
          | none => rw [hc] at h3; exact h3
          | some r =>
            rw [hc] at h3
            have h3' : spliceLoop e c 0 (ns ++ [(a', true)] ++ [(b', false)]) (flat es) =
              .ok (ns ++ [(a', true)] ++ [(b', false)] ++ flat r) := h3
            rw [h3']
            simp [Is, flat]

theorem flat_nil {es : List Elem} : flat es = [] ↔ es = [] := by
  cases es with
  | nil => simp [flat]
  | cons x es => cases x <;> simp [flat]

theorem splice_is (e : Env) (c : Ctx) (es : List Elem) (ns : List FName) (h : es ≠ []) :
    Is (splice e c 0 ns (flat es))
      ((insideAll e c es).map fun r =>
        (ns ++ flat r, (flat r).length)) := by
  unfold splice
  rw [if_neg (by
    intro h'; exact h (flat_nil.mp (List.eq_nil_of_length_eq_zero h')))]
  have h1 := spliceLoop_is e c es ns
  cases hc : insideAll e c es with
  | none => rw [hc] at h1; exact fails_bind h1
  | some r =>
    rw [hc] at h1
    have h1' : spliceLoop e c 0 ns (flat es) = .ok (ns ++ flat r) := h1
    rw [h1']
    show (Except.ok _ : Except Err _) = .ok _
    simp

/-! ## The second halves of a pair -/

/-- All of its names are acceptable. -/
def Elem.ok : Elem → Bool
  | .single n => n.ok
  | .pair a b => a.ok && b.ok

theorem inside_none (e : Env) {n : Name} (h : n.ok = true) :
    inside e Ctx.none n = some n := by
  have h2 : insideDir e Ctx.none n = some n.dir := by
    unfold insideDir
    by_cases hd : n.dir = []
    · rw [if_pos hd, hd]; rfl
    · rw [if_neg hd, if_neg (by simp [Ctx.none])]; rfl
  have h3 : insideType Ctx.none n = some n.type := by
    unfold insideType
    by_cases hd : n.type = []
    · rw [if_pos hd, hd]; rfl
    · rw [if_neg hd, if_pos (show Ctx.none.type = none from rfl)]
  have h1 : atMostOne Ctx.none.proj n.proj = some n.proj := rfl
  unfold inside
  rw [h1, h2, h3]
  show accept n = some n
  unfold accept
  rw [if_pos h]

theorem getElem_half (pre : List FName) (a : Name) (post : List FName) :
    (pre ++ [(a, true)] ++ post)[pre.length + 1 - 1]? = some (a, true) := by
  simp

theorem spliceLoop_more (e : Env) (a : Name) (pre : List FName) : ∀ es post,
    (∀ x ∈ es, Elem.ok x = true) → post ≠ [] →
    Is (spliceLoop e Ctx.none (pre.length + 1) (pre ++ [(a, true)] ++ post) (flat es))
      ((singles es).map fun bs =>
        pre ++ [(a, true)] ++ post ++ flat (bs.map (Elem.pair a))) := by
  intro es
  induction es with
  | nil => intro post _ _; simp only [flat, singles, Option.map_some, List.map_nil, List.append_nil]; rfl
  | cons x es ih =>
    intro post hok hp
    cases x with
    | pair m n =>
      refine ⟨.nestedPair, ?_⟩
      have hm : m.ok = true := by
        have := hok _ List.mem_cons_self
        simp only [Elem.ok, Bool.and_eq_true] at this
        exact this.1
      have h1 := spliceProj_is Ctx.none m
      have h2 := spliceDir_is e Ctx.none m
      have h3 := spliceType_is Ctx.none m
      have hi := inside_none e hm
      unfold inside at hi
      cases hpp : atMostOne Ctx.none.proj m.proj with
      | none => rw [hpp] at hi; cases hi
      | some p =>
      cases hd : insideDir e Ctx.none m with
      | none => rw [hpp, hd] at hi; cases hi
      | some d =>
      cases ht : insideType Ctx.none m with
      | none => rw [hpp, hd, ht] at hi; cases hi
      | some t =>
      rw [hpp] at h1
      rw [hd] at h2
      rw [ht] at h3
      have h1' : spliceProj Ctx.none m = .ok p := h1
      have h2' : spliceDir e Ctx.none m = .ok d := h2
      have h3' : spliceType Ctx.none m = .ok t := h3
      simp only [flat]
      rw [spliceLoop_cons]
      rw [h1', h2', h3']
      unfold spliceHalf
      rw [if_pos (by omega)]
      rfl
    | single n =>
      have hn : n.ok = true := hok (.single n) List.mem_cons_self
      have hh : spliceHalf (pre.length + 1) false (pre ++ [(a, true)] ++ post) =
          .ok (pre ++ [(a, true)] ++ post ++ [(a, true)]) := by
        unfold spliceHalf
        rw [if_pos (by omega), if_neg (by decide), if_pos, getElem_half]
        · rfl
        · simp only [List.length_append, List.length_cons, List.length_nil]
          have : post.length ≠ 0 := fun h => hp (List.eq_nil_of_length_eq_zero h)
          omega
      obtain ⟨h1, _⟩ := spliceStep e Ctx.none (pre.length + 1) _ _ n false (flat es) hh
      simp only [flat, singles]
      rw [h1 n (inside_none e hn)]
      have h3 := ih (post ++ [(a, true)] ++ [(n, false)])
        (fun x hx => hok x (List.mem_cons_of_mem _ hx)) (by simp)
      have e1 : pre ++ [(a, true)] ++ post ++ [(a, true)] ++ [(n, false)] =
          pre ++ [(a, true)] ++ (post ++ [(a, true)] ++ [(n, false)]) := by simp
      rw [e1]
      cases hs : singles es with
      | none => rw [hs] at h3; exact h3
      | some bs =>
        rw [hs] at h3
        have h3' : spliceLoop e Ctx.none (pre.length + 1)
            (pre ++ [(a, true)] ++ (post ++ [(a, true)] ++ [(n, false)])) (flat es) = .ok _ := h3
        rw [h3']
        simp [Is, flat]

/-- The names of a group that is the right hand side of a pair. -/
theorem addGroup_pair (e : Env) (a : Name) (pre : List FName) (es : List Elem)
    (hok : ∀ x ∈ es, Elem.ok x = true) :
    Is (addGroup e (pre ++ [(a, true)]) (flat es))
      ((singles es).map fun bs => pre ++ flat (bs.map (Elem.pair a))) := by
  unfold addGroup splice
  rw [if_pos (by simp [lastPair])]
  cases es with
  | nil => simp [flat, singles]; rfl
  | cons x es =>
    have hne : (flat (x :: es)).length ≠ 0 := by cases x <;> simp [flat]
    rw [if_neg hne]
    have hlen : (pre ++ [(a, true)]).length = pre.length + 1 := by simp
    rw [hlen]
    cases x with
    | pair m n =>
      have hm : m.ok = true := by
        have := hok _ List.mem_cons_self
        simp only [Elem.ok, Bool.and_eq_true] at this
        exact this.1
      refine ⟨.nestedPair, ?_⟩
      have h1 := spliceProj_is Ctx.none m
      have h2 := spliceDir_is e Ctx.none m
      have h3 := spliceType_is Ctx.none m
      have hi := inside_none e hm
      unfold inside at hi
      cases hpp : atMostOne Ctx.none.proj m.proj with
      | none => rw [hpp] at hi; cases hi
      | some p =>
      cases hd : insideDir e Ctx.none m with
      | none => rw [hpp, hd] at hi; cases hi
      | some d =>
      cases ht : insideType Ctx.none m with
      | none => rw [hpp, hd, ht] at hi; cases hi
      | some t =>
      rw [hpp] at h1
      rw [hd] at h2
      rw [ht] at h3
      have h1' : spliceProj Ctx.none m = .ok p := h1
      have h2' : spliceDir e Ctx.none m = .ok d := h2
      have h3' : spliceType Ctx.none m = .ok t := h3
      simp only [flat]
      rw [spliceLoop_cons]
      rw [h1', h2', h3']
      unfold spliceHalf
      rw [if_pos (by omega)]
      rfl
    | single n =>
      have hn : n.ok = true := hok (.single n) List.mem_cons_self
      have hh : spliceHalf (pre.length + 1) false (pre ++ [(a, true)]) =
          .ok (pre ++ [(a, true)]) := by
        unfold spliceHalf
        rw [if_pos (by omega), if_neg (by decide), if_neg (by simp)]
      obtain ⟨h1, _⟩ := spliceStep e Ctx.none (pre.length + 1) _ _ n false (flat es) hh
      simp only [flat, singles]
      rw [h1 n (inside_none e hn)]
      have h3 := spliceLoop_more e a pre es [(n, false)]
        (fun x hx => hok x (List.mem_cons_of_mem _ hx)) (by simp)
      cases hs : singles es with
      | none =>
        rw [hs] at h3
        obtain ⟨er, h3⟩ := h3
        exact ⟨er, by rw [h3]; rfl⟩
      | some bs =>
        rw [hs] at h3
        have h3' : spliceLoop e Ctx.none (pre.length + 1)
            (pre ++ [(a, true)] ++ [(n, false)]) (flat es) = .ok _ := h3
        rw [h3']
        show (Except.ok _ : Except Err _) = .ok _
        simp [flat]

end Verif.NameGroup
