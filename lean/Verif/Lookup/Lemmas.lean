import Verif.Lookup.Model

/-!
# Variable lookup: lemmas
-/

namespace Verif.Lookup

variable {α : Type}

/-- The combinations of keys that the assertions in scope.cxx:54-57 allow. -/
def Keys (ks : List Who) : Prop :=
  ks = [] ∨ ks = [.target] ∨ ks = [.target, .group] ∨ ks = [.target, .group, .group2]

theorem Keys.sorted {ks : List Who} (h : Keys ks) :
    ks.Pairwise (fun a b => a.rank < b.rank) := by
  rcases h with rfl | rfl | rfl | rfl <;> decide

/-! ## `visible` and `goesOn` -/

theorem visible_cons (v : Vis) (s : Scope α) (l : List (Scope α)) (hv : v ≠ .prereq) :
    visible v (s :: l) = s :: (if goesOn v s then visible v l else []) := by
  cases v with
  | prereq => exact absurd rfl hv
  | scope => rfl
  | global => cases l <;> rfl
  | project => cases h : s.root <;> simp [visible, goesOn, h]
  | target => cases h : s.root <;> simp [visible, goesOn, h]

theorem visible_prereq (l : List (Scope α)) : visible .prereq l = [] := by
  cases l <;> rfl

theorem visible_nil (v : Vis) : visible v ([] : List (Scope α)) = [] := by
  cases v <;> rfl

/-! ## Filtering places -/

theorem filter_placesIn (pl : Bool) (ks : List Who) (i j : Nat) (k : Who) :
    (placesIn pl ks i).filter (mayFollow ⟨j, some k⟩) =
      placesIn pl (ks.filter (fun w => decide (k.rank ≤ w.rank))) i := by
  unfold placesIn
  rw [List.filter_append]
  congr 1
  · induction ks with
    | nil => rfl
    | cons a l ih =>
      simp only [List.map_cons, List.filter_cons, mayFollow]
      rw [ih]
      by_cases h : k.rank ≤ a.rank <;> simp [h]
  · cases pl <;> simp [mayFollow]

theorem filter_placesFrom (pl : Bool) (ks : List Who) (j : Nat) (k : Who) :
    ∀ n i, (placesFrom pl ks i n).filter (mayFollow ⟨j, some k⟩) =
      placesFrom pl (ks.filter (fun w => decide (k.rank ≤ w.rank))) i n
  | 0, _ => rfl
  | n + 1, i => by
    simp only [placesFrom, List.filter_append, filter_placesIn,
      filter_placesFrom pl ks j k n (i + 1)]

theorem filter_sorted {a : List Who} {k : Who} {ks : List Who}
    (h : (a ++ k :: ks).Pairwise (fun a b => a.rank < b.rank)) :
    (a ++ k :: ks).filter (fun w => decide (k.rank ≤ w.rank)) = k :: ks := by
  rw [List.pairwise_append] at h
  obtain ⟨_, h2, h3⟩ := h
  rw [List.pairwise_cons] at h2
  rw [List.filter_append]
  have e1 : a.filter (fun w => decide (k.rank ≤ w.rank)) = [] := by
    rw [List.filter_eq_nil_iff]
    intro x hx
    have := h3 x hx k (by simp)
    simp only [decide_eq_true_eq]; omega
  have e2 : (k :: ks).filter (fun w => decide (k.rank ≤ w.rank)) = k :: ks := by
    rw [List.filter_eq_self]
    intro x hx
    rcases List.mem_cons.1 hx with rfl | hx
    · simp
    · have := h2.1 x hx
      simp only [decide_eq_true_eq]; omega
  rw [e1, e2]; rfl

/-! ## The value -/

theorem add_eq (k : Kind) (st : Option (Val α)) (x : Val α) (hk : k ≠ .assign) :
    add k st x = combine k st x := by
  cases k with
  | assign => exact absurd rfl hk
  | prepend =>
    cases x with
    | none => cases st <;> rfl
    | some l =>
      cases st with
      | none => simp [add, combine]
      | some y => cases y <;> simp [add, combine]
  | append =>
    cases x with
    | none => cases st <;> rfl
    | some l =>
      cases st with
      | none => simp [add, combine]
      | some y => cases y <;> simp [add, combine]

theorem setAt_specific (pre : List (Scope α)) (s : Scope α) (rest : List (Scope α)) (k : Who) :
    setAt (pre ++ s :: rest) ⟨pre.length, some k⟩ = s.specific k := by
  simp [setAt]

theorem setAt_plain (pre : List (Scope α)) (s : Scope α) (rest : List (Scope α)) :
    setAt (pre ++ s :: rest) ⟨pre.length, none⟩ = s.plain.map (⟨.assign, ·⟩) := by
  simp [setAt]

theorem stemIn_denote {v : Vis} {s : Scope α} {pre rest : List (Scope α)} {n : Nat}
    {out : List Who → Option (Val α)}
    (hout : ∀ cur, cur.Pairwise (fun a b => a.rank < b.rank) →
      out cur = denote (pre ++ s :: rest)
        (placesFrom (v != .target) cur (pre.length + 1) n)) :
    ∀ (ks cur a : List Who), cur = a ++ ks →
      cur.Pairwise (fun a b => a.rank < b.rank) →
      stemIn v s out cur ks = denote (pre ++ s :: rest)
        (placesIn (v != .target) ks pre.length ++
         placesFrom (v != .target) cur (pre.length + 1) n)
  | [], cur, a, hc, hp => by
    unfold stemIn
    cases hv : (v != .target) with
    | false =>
      have : plainOf v s = none := by simp [plainOf, hv]
      rw [this]
      dsimp only
      rw [hout cur hp, hv]
      simp [placesIn]
    | true =>
      simp only [placesIn, List.map_nil, List.nil_append, if_true, List.cons_append]
      rw [denote, setAt_plain]
      have : plainOf v s = s.plain := by simp [plainOf, hv]
      rw [this]
      cases h : s.plain with
      | none => simp only [Option.map_none]; rw [hout cur hp, hv]
      | some x => simp [combine]
  | k :: ks, cur, a, hc, hp => by
    unfold stemIn
    have e : placesIn (v != .target) (k :: ks) pre.length =
      ⟨pre.length, some k⟩ :: placesIn (v != .target) ks pre.length := rfl
    rw [e, List.cons_append, denote, setAt_specific]
    cases h : s.specific k with
    | none =>
      exact stemIn_denote hout ks cur (a ++ [k]) (by simp [hc]) hp
    | some t =>
      subst hc
      have hp' := hp
      rw [List.pairwise_append] at hp'
      have e2 := filter_sorted hp
      have hks : ks.filter (fun w => decide (k.rank ≤ w.rank)) = ks := by
        have := filter_sorted (a := []) (k := k) (ks := ks) hp'.2.1
        simpa using this
      rw [List.filter_append, filter_placesIn, filter_placesFrom, e2, hks,
        ← stemIn_denote hout ks (k :: ks) [k] rfl hp'.2.1]
      dsimp only
      cases hk : (t.kind != .assign) with
      | true =>
        rw [if_pos rfl, add_eq]
        intro h'; rw [h'] at hk; exact absurd hk (by decide)
      | false =>
        have : t.kind = .assign := by
          revert hk; cases t.kind <;> decide
        rw [if_neg (by decide), this]; rfl

theorem value_denote {v : Vis} (hv : v ≠ .prereq) :
    ∀ (rest pre : List (Scope α)) (ks : List Who),
      ks.Pairwise (fun a b => a.rank < b.rank) →
      value v rest ks = denote (pre ++ rest)
        (placesFrom (v != .target) ks pre.length (visible v rest).length)
  | [], pre, ks, _ => by
    rw [visible_nil]; simp only [value, List.length_nil, placesFrom]; rw [denote]
  | s :: rest, pre, ks, hp => by
    rw [value, visible_cons v s rest hv]
    simp only [List.length_cons, placesFrom]
    refine stemIn_denote ?_ ks ks [] rfl hp
    intro cur hcur
    cases hg : goesOn v s with
    | true =>
      have := value_denote hv rest (pre ++ [s]) cur hcur
      simp only [List.append_assoc, List.singleton_append, List.length_append,
        List.length_singleton] at this
      simpa using this
    | false => simp only [if_false, Bool.false_eq_true, List.length_nil, placesFrom]; rw [denote]

/-! ## The place and the depth -/

/-- The continuation used in a scope. -/
def outOf (v : Vis) (s : Scope α) (rest : List (Scope α)) (cur : List Who) : Option (Val α) :=
  if goesOn v s then value v rest cur else none

theorem stemIn_found (v : Vis) (s : Scope α) (out : List Who → Option (Val α))
    (cur : List Who) (k : Who) (ks : List Who) (t : Specific α) (h : s.specific k = some t) :
    stemIn v s out cur (k :: ks) =
      some (if t.kind != .assign then add t.kind (stemIn v s out (k :: ks) ks) t.val
            else t.val) := by
  rw [stemIn, h]; dsimp only; split <;> rfl

theorem stemIn_skip (v : Vis) (s : Scope α) (out : List Who → Option (Val α))
    (cur : List Who) (k : Who) (ks : List Who) (h : s.specific k = none) :
    stemIn v s out cur (k :: ks) = stemIn v s out cur ks := by
  rw [stemIn, h]

theorem specificIn_spec (v : Vis) (i : Nat) (s : Scope α) (rest : List (Scope α)) (d : Nat)
    {ks : List Who} (hk : Keys ks) :
    (specificIn v i s rest d ks = none ∧ ∀ k ∈ ks, s.specific k = none) ∨
    ∃ (a : List Who) (k : Who) (ks' : List Who) (t : Specific α) (x : Val α),
      ks = a ++ k :: ks' ∧ (∀ y ∈ a, s.specific y = none) ∧ s.specific k = some t ∧
      specificIn v i s rest d ks =
        some (⟨x, ⟨i, some k⟩⟩, .d (d + if k = .target then 0 else 1)) ∧
      (∀ cur, stemIn v s (outOf v s rest) cur (k :: ks') = some x) := by
  have found : ∀ (k : Who) (ks' : List Who) (t : Specific α), s.specific k = some t →
      ∀ cur, stemIn v s (outOf v s rest) cur (k :: ks') =
        some (if t.kind != .assign then add t.kind (stem v s rest k ks') t.val else t.val) :=
    fun k ks' t h cur => stemIn_found v s _ cur k ks' t h
  rcases hk with rfl | rfl | rfl | rfl
  · exact .inl ⟨rfl, by simp⟩
  · cases h : s.specific .target with
    | none => exact .inl ⟨by simp [specificIn, h], by simp [h]⟩
    | some t =>
      exact .inr ⟨[], .target, [], t, _, rfl, by simp, h, by simp [specificIn, h],
        found _ _ _ h⟩
  · cases h : s.specific .target with
    | some t =>
      exact .inr ⟨[], .target, [.group], t, _, rfl, by simp, h, by simp [specificIn, h],
        found _ _ _ h⟩
    | none =>
      cases h1 : s.specific .group with
      | some t =>
        exact .inr ⟨[.target], .group, [], t, _, rfl, by simp [h], h1,
          by simp [specificIn, h, h1], found _ _ _ h1⟩
      | none => exact .inl ⟨by simp [specificIn, h, h1], by simp [h, h1]⟩
  · cases h : s.specific .target with
    | some t =>
      exact .inr ⟨[], .target, [.group, .group2], t, _, rfl, by simp, h,
        by simp [specificIn, h], found _ _ _ h⟩
    | none =>
      cases h1 : s.specific .group with
      | some t =>
        exact .inr ⟨[.target], .group, [.group2], t, _, rfl, by simp [h], h1,
          by simp [specificIn, h, h1], found _ _ _ h1⟩
      | none =>
        cases h2 : s.specific .group2 with
        | some t =>
          exact .inr ⟨[.target, .group], .group2, [], t, _, rfl, by simp [h, h1], h2,
            by simp [specificIn, h, h1, h2], found _ _ _ h2⟩
        | none => exact .inl ⟨by simp [specificIn, h, h1, h2], by simp [h, h1, h2]⟩

/-- The value found by the loop without a limit. -/
theorem loop_value (v : Vis) {ks : List Who} (hk : Keys ks) :
    ∀ (rest : List (Scope α)) (i d : Nat),
      (loop v .none ks i d rest).1.map (·.val) = value v rest ks
  | [], _, _ => rfl
  | s :: rest, i, d => by
    rw [loop, value]
    rcases specificIn_spec v i s rest (d + 1) hk with ⟨h, hn⟩ | ⟨a, k, ks', t, x, e, hn, hs, h, hx⟩
    · rw [h]
      have skip : ∀ (l cur : List Who), (∀ k ∈ l, s.specific k = none) →
          stemIn v s (outOf v s rest) cur l = stemIn v s (outOf v s rest) cur [] := by
        intro l
        induction l with
        | nil => intro _ _; rfl
        | cons b l ih =>
          intro cur hb
          rw [stemIn_skip _ _ _ _ _ _ (hb b (by simp)), ih cur (fun k hk => hb k (by simp [hk]))]
      have := skip ks ks hn
      unfold outOf at this
      rw [this, stemIn]
      dsimp only
      rw [if_pos (by decide)]
      cases hp : plainOf v s with
      | some x => rfl
      | none =>
        dsimp only
        cases hg : goesOn v s with
        | true => simp only [if_true]; exact loop_value v hk rest _ _
        | false => rfl
    · rw [h]
      dsimp only [Option.map_some]
      have skip : ∀ (a cur l : List Who), (∀ k ∈ a, s.specific k = none) →
          stemIn v s (outOf v s rest) cur (a ++ l) = stemIn v s (outOf v s rest) cur l := by
        intro a
        induction a with
        | nil => intro _ _ _; rfl
        | cons b a ih =>
          intro cur l hb
          rw [List.cons_append, stemIn_skip _ _ _ _ _ _ (hb b (by simp)),
            ih cur l (fun k hk => hb k (by simp [hk]))]
      have e2 := skip a ks (k :: ks') hn
      rw [hx ks] at e2
      rw [← e] at e2
      unfold outOf at e2
      rw [e2]

/-- The depth of a place: every scope counts for one without a target, and
otherwise for three (the target, the groups, and the plain value). -/
def depthOf (ks : List Who) (p : Place) : Nat :=
  if ks = [] then p.scope + 1
  else 3 * p.scope + (match p.who with
    | some .target => 1
    | some _       => 2
    | none         => 3)

/-- The depth of a result. -/
def depthRes (ks : List Who) : Option (Res α) → Depth
  | none   => .max
  | some r => .d (depthOf ks r.place)

/-- The places that a limited lookup considers. -/
def limited (limit : Limit) (ps : List Place) : List Place :=
  if limit = .targetType then ps.filter (·.who.isSome) else ps

theorem find_specific {chain : List (Scope α)} {i : Nat} {s : Scope α}
    (hi : chain[i]? = some s) :
    ∀ (ks : List Who), (∀ k ∈ ks, s.specific k = none) →
      (ks.map (fun k => (⟨i, some k⟩ : Place))).find? (fun p => (setAt chain p).isSome) = none := by
  intro ks h
  rw [List.find?_eq_none]
  intro p hp
  rw [List.mem_map] at hp
  obtain ⟨k, hk, rfl⟩ := hp
  simp [setAt, hi, h k hk]

theorem limited_append (limit : Limit) (a b : List Place) :
    limited limit (a ++ b) = limited limit a ++ limited limit b := by
  unfold limited; split
  · simp
  · rfl

theorem limited_specific (limit : Limit) (i : Nat) (ks : List Who) :
    limited limit (ks.map (fun k => (⟨i, some k⟩ : Place))) = ks.map (fun k => ⟨i, some k⟩) := by
  unfold limited; split
  · rw [List.filter_eq_self]; intro p hp
    rw [List.mem_map] at hp
    obtain ⟨k, _, rfl⟩ := hp; rfl
  · rfl

theorem loop_place {v : Vis} (hv : v ≠ .prereq) {limit : Limit} {ks : List Who} (hk : Keys ks) :
    ∀ (rest pre : List (Scope α)),
      (loop v limit ks pre.length (if ks = [] then pre.length else 3 * pre.length) rest).1.map
          (·.place) =
        (limited limit (placesFrom (v != .target) ks pre.length (visible v rest).length)).find?
          (fun p => (setAt (pre ++ rest) p).isSome) ∧
      (loop v limit ks pre.length (if ks = [] then pre.length else 3 * pre.length) rest).2 =
        depthRes ks (loop v limit ks pre.length
            (if ks = [] then pre.length else 3 * pre.length) rest).1
  | [], pre => by
    rw [visible_nil]
    refine ⟨?_, rfl⟩
    simp [loop, placesFrom, limited]
  | s :: rest, pre => by
    have hget : (pre ++ s :: rest)[pre.length]? = some s := by simp
    have ih := loop_place hv (limit := limit) hk rest (pre ++ [s])
    have hd : (if ks = [] then (pre ++ [s]).length else 3 * (pre ++ [s]).length) =
        (if ks.isEmpty then (if ks = [] then pre.length else 3 * pre.length)
         else (if ks = [] then pre.length else 3 * pre.length) + 2) + 1 := by
      cases ks with
      | nil => simp
      | cons a l => simp; omega
    rw [hd] at ih
    have hl : (pre ++ [s]).length = pre.length + 1 := by simp
    rw [hl, List.append_assoc, List.singleton_append] at ih
    rw [visible_cons v s rest hv]
    simp only [List.length_cons, placesFrom, placesIn, limited_append, limited_specific]
    rw [loop]
    rcases specificIn_spec v pre.length s rest
        ((if ks = [] then pre.length else 3 * pre.length) + 1) hk with
      ⟨h, hn⟩ | ⟨a, k, ks', t, x, e, hn, hs, h, hx⟩
    · rw [h]
      dsimp only
      rw [List.append_assoc, List.find?_append, find_specific hget ks hn]
      simp only [Option.none_or]
      by_cases hc : (limit != .targetType) = true ∧ (v != .target) = true
      · have hlim : limited limit
            (if (v != .target) = true then [(⟨pre.length, none⟩ : Place)] else []) =
            [⟨pre.length, none⟩] := by
          have : limit ≠ .targetType := by simpa using hc.1
          simp [limited, this, hc.2]
        rw [hlim, if_pos hc.1]
        have hpl : plainOf v s = s.plain := by simp [plainOf, hc.2]
        rw [hpl, List.singleton_append, List.find?_cons, setAt_plain]
        cases hp : s.plain with
        | some x =>
          refine ⟨by simp, ?_⟩
          cases ks with
          | nil => simp [depthRes, depthOf]
          | cons b l => simp [depthRes, depthOf]
        | none =>
          simp only [Option.map_none, Option.isSome_none]
          cases hg : goesOn v s with
          | true => simpa only [if_true, hc.2] using ih
          | false => exact ⟨by simp [placesFrom, limited], rfl⟩
      · have hnone : (if (limit != .targetType) = true then plainOf v s else none) = none := by
          by_cases h1 : (limit != .targetType) = true
          · have h2 : (v != .target) = false := by
              cases h' : (v != .target) with
              | false => rfl
              | true => exact absurd ⟨h1, h'⟩ hc
            simp [h1, plainOf, h2]
          · simp [h1]
        have hlim : limited limit
            (if (v != .target) = true then [(⟨pre.length, none⟩ : Place)] else []) = [] := by
          by_cases h1 : (limit != .targetType) = true
          · have h2 : (v != .target) = false := by
              cases h' : (v != .target) with
              | false => rfl
              | true => exact absurd ⟨h1, h'⟩ hc
            simp [limited, h2]
          · have : limit = .targetType := by simpa using h1
            simp only [limited, this, if_true]
            split <;> simp
        rw [hnone, hlim]
        dsimp only
        rw [List.nil_append]
        cases hg : goesOn v s with
        | true => simpa only [if_true] using ih
        | false => exact ⟨by simp [placesFrom, limited], rfl⟩
    · rw [h]
      dsimp only [Option.map_some]
      constructor
      · rw [List.append_assoc, List.find?_append]
        have : (ks.map (fun k => (⟨pre.length, some k⟩ : Place))).find?
            (fun p => (setAt (pre ++ s :: rest) p).isSome) = some ⟨pre.length, some k⟩ := by
          rw [e, List.map_append, List.find?_append, find_specific hget a hn]
          simp only [List.map_cons, List.find?_cons, setAt_specific, hs, Option.isSome_some,
            Option.none_or]
        rw [this]; rfl
      · have hne : ks ≠ [] := by rw [e]; simp
        simp only [if_neg hne, depthRes, depthOf]
        cases k <;> simp <;> omega

/-! ## Non-interference -/

theorem value_visible (v : Vis) (hv : v ≠ .prereq) :
    ∀ (l : List (Scope α)) (ks : List Who), value v l ks = value v (visible v l) ks
  | [], ks => by rw [visible_nil]
  | s :: l, ks => by
    rw [visible_cons v s l hv, value, value]
    congr 1
    funext cur
    cases hg : goesOn v s with
    | true => simp only [if_true]; exact value_visible v hv l cur
    | false => rfl

theorem specificIn_congr (v : Vis) (i : Nat) (s : Scope α) (d : Nat) (r r' : List (Scope α))
    (h : outOf v s r = outOf v s r') (ks : List Who) :
    specificIn v i s r d ks = specificIn v i s r' d ks := by
  have hs : ∀ k l, stem v s r k l = stem v s r' k l := by
    intro k l
    show stemIn v s (outOf v s r) (k :: l) l = stemIn v s (outOf v s r') (k :: l) l
    rw [h]
  cases ks with
  | nil => rfl
  | cons k ks =>
    cases ks with
    | nil => simp only [specificIn, hs]
    | cons g gs =>
      cases gs with
      | nil => simp only [specificIn, hs]
      | cons g2 gs => simp only [specificIn, hs]

theorem loop_visible (v : Vis) (hv : v ≠ .prereq) (limit : Limit) (ks : List Who) :
    ∀ (l : List (Scope α)) (i d : Nat),
      loop v limit ks i d l = loop v limit ks i d (visible v l)
  | [], _, _ => by rw [visible_nil]
  | s :: l, i, d => by
    rw [visible_cons v s l hv, loop, loop]
    have ho : outOf v s l = outOf v s (if goesOn v s then visible v l else []) := by
      funext cur
      unfold outOf
      cases hg : goesOn v s with
      | true => simp only [if_true]; exact value_visible v hv l cur
      | false => rfl
    rw [specificIn_congr v i s (d + 1) l _ ho ks]
    cases hg : goesOn v s with
    | true => simp only [if_true]; rw [loop_visible v hv limit ks l]
    | false => simp

end Verif.Lookup
