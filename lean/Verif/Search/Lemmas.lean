import Verif.Search.Model

/-!
# What target a prerequisite refers to: lemmas
-/

namespace Verif.Search

theorem firstDir_none {p : Pre} (h : p.out = none) : firstDir p = p.dir.from p.scope.out := by
  rw [firstDir, Dir.from.eq_def]
  cases p.dir <;> simp [h]

theorem firstDir_some {p : Pre} {o : Dir} (h : p.out = some o) :
    firstDir p = p.dir.from p.scope.src := by
  rw [firstDir, Dir.from.eq_def]
  cases p.dir <;> simp [h]

theorem fileDir_eq (p : Pre) : fileDir p = p.dir.from p.scope.src := by
  rw [fileDir, Dir.from.eq_def]
  cases p.dir <;> rfl

theorem outDir_eq (p : Pre) (d : Path) (o : Dir) :
    outDir p d o = if o.from p.scope.out = d then none else some (o.from p.scope.out) := by
  cases o <;> rfl

theorem firstKey_eq (p : Pre) : firstKey p = ⟨p.here, p.ext⟩ := by
  rw [firstKey, Pre.here.eq_def]
  cases h : p.out with
  | none => rw [firstDir_none h]; rfl
  | some o =>
    rw [firstDir_some h]
    simp only [Option.bind_some, outDir_eq]

theorem secondKey_some {p : Pre} {k : Key} (h : secondKey p = some k) :
    p.InSrc k.id ∧ k.ext = p.ext := by
  rw [secondKey] at h
  cases hd : p.dir with
  | abs d => rw [hd] at h; cases h
  | rel r =>
    rw [hd] at h
    dsimp only at h
    by_cases hc : p.type.file = true ∧ p.out = none ∧ p.scope.out ≠ p.scope.src
    · rw [if_pos hc] at h
      cases h
      exact ⟨.mk hc.1 hc.2.1 hd hc.2.2, rfl⟩
    · rw [if_neg hc] at h
      cases h

theorem secondKey_none {p : Pre} (h : secondKey p = none) (i : Id) : ¬ p.InSrc i := by
  intro hi
  cases hi with
  | @mk r h1 h2 h3 h4 =>
    rw [secondKey, h3] at h
    dsimp only at h
    rw [if_pos ⟨h1, h2, h4⟩] at h
    cases h

theorem InSrc.unique {p : Pre} {i j : Id} (h : p.InSrc i) (h' : p.InSrc j) : i = j := by
  cases h with
  | mk h1 h2 h3 h4 =>
    cases h' with
    | mk k1 k2 k3 k4 =>
      rw [h3] at k3
      cases k3
      rfl

theorem fileExt_eq (p : Pre) : fileExt p = p.ext.or p.defaultExt := by
  rw [fileExt]
  cases p.ext <;> rfl

theorem fileKey_some {exist : Path → Bool} {p : Pre} {k : Key} (h : fileKey exist p = some k) :
    p.Existing (exist · = true) k := by
  rw [fileKey, fileDir_eq, fileExt_eq] at h
  split at h
  · rename_i hf
    split at h
    · rename_i hp
      obtain ⟨l, hl⟩ := List.isPrefixOf_iff_prefix.1 hp
      split at h
      · cases h
      · rename_i e he
        rw [show (if e = "" then p.name else p.name ++ "." ++ e) = fileName p.name e from rfl] at h
        split at h
        · rename_i hx
          rw [← hl] at hx
          injection h with h
          subst h
          cases ho : p.out with
          | none =>
            dsimp only
            rw [← hl, List.drop_left]
            exact .found hf ho hl.symm he hx
          | some o =>
            have := Pre.Existing.foundAt (files := (exist · = true)) hf ho hl.symm he hx
            rw [Pre.here, ho] at this
            dsimp only at this ⊢
            rw [outDir_eq]
            exact this
        · cases h
    · cases h
  · cases h

theorem fileKey_none {exist : Path → Bool} {p : Pre} (h : fileKey exist p = none) (k : Key) :
    ¬ p.Existing (exist · = true) k := by
  intro hk
  have key : ∀ l e, p.type.file = true → p.dir.from p.scope.src = p.scope.rootSrc ++ l →
      p.ext.or p.defaultExt = some e →
      exist (p.scope.rootSrc ++ l ++ [fileName p.name e]) = true → False := by
    intro l e h1 h2 h3 h4
    rw [fileKey, fileDir_eq, fileExt_eq, if_pos h1,
      if_pos (List.isPrefixOf_iff_prefix.2 ⟨l, h2.symm⟩), h3] at h
    dsimp only at h
    rw [h2, show (if e = "" then p.name else p.name ++ "." ++ e) = fileName p.name e from rfl,
      if_pos h4] at h
    cases h
  cases hk with
  | found h1 h2 h3 h4 h5 => exact key _ _ h1 h3 h4 h5
  | foundAt h1 h2 h3 h4 h5 => exact key _ _ h1 h3 h4 h5

theorem Existing.unique {files : Path → Prop} {p : Pre} {k k' : Key} (h : p.Existing files k)
    (h' : p.Existing files k') : k = k' := by
  cases h with
  | found h1 h2 h3 h4 h5 =>
    cases h' with
    | found k1 k2 k3 k4 k5 =>
      have := List.append_cancel_left (h3.symm.trans k3)
      subst this
      rw [h4] at k4
      cases k4
      rfl
    | foundAt k1 k2 => rw [h2] at k2; cases k2
  | foundAt h1 h2 h3 h4 h5 =>
    cases h' with
    | found k1 k2 => rw [h2] at k2; cases k2
    | foundAt k1 k2 k3 k4 k5 =>
      rw [h4] at k4
      cases k4
      rfl

theorem newKey_some {onlySrc : Path → Bool} {p : Pre} {k : Key} (h : newKey onlySrc p = some k) :
    p.New (onlySrc · = true) ∧ k = ⟨p.here, p.ext⟩ := by
  rw [newKey] at h
  cases ho : p.out with
  | some o => rw [ho] at h; cases h
  | none =>
    rw [ho] at h
    dsimp only at h
    cases hd : p.dir with
    | abs d =>
      rw [hd] at h
      dsimp only at h
      split at h
      · cases h
      · rename_i hs
        injection h with h
        subst h
        refine ⟨⟨ho, fun d' h' => ?_⟩, by simp [Pre.here, ho, hd, Dir.from]⟩
        rw [hd] at h'
        cases h'
        exact hs
    | rel r =>
      rw [hd] at h
      injection h with h
      subst h
      exact ⟨⟨ho, fun d' h' => by rw [hd] at h'; cases h'⟩, by simp [Pre.here, ho, hd, Dir.from]⟩

theorem newKey_none {onlySrc : Path → Bool} {p : Pre} (h : newKey onlySrc p = none) :
    ¬ p.New (onlySrc · = true) := by
  rintro ⟨ho, hd⟩
  rw [newKey, ho] at h
  dsimp only at h
  cases hx : p.dir with
  | abs d =>
    rw [hx] at h
    dsimp only at h
    rw [if_neg (hd d hx)] at h
    cases h
  | rel r => rw [hx] at h; cases h

theorem keyEq_iff {x y : Key} : keyEq x y = true ↔ x.id = y.id ∧ Compatible x.ext y.ext := by
  simp [keyEq, Compatible, or_assoc]

theorem keyEq_false {x y : Key} : keyEq x y = false ↔ ¬ (x.id = y.id ∧ Compatible x.ext y.ext) := by
  rw [← keyEq_iff]
  simp

theorem compatible_of {a b e : Option String} (ha : a = none ∨ a = e) (hb : b = none ∨ b = e) :
    Compatible a b := by
  rcases ha with h | h
  · exact .inl h
  · rcases hb with h' | h'
    · exact .inr (.inl h')
    · exact .inr (.inr (h.trans h'.symm))

theorem setExt_ids (objs : List Key) (t : Nat) (e : Option String) :
    (setExt objs t e).map Key.id = objs.map Key.id := by
  rw [setExt.eq_def]
  cases e with
  | none => rfl
  | some e =>
    apply List.ext_getElem?
    intro n
    simp only [List.getElem?_map, List.getElem?_modify]
    cases objs[n]? with
    | none => rfl
    | some k =>
      by_cases h : t = n <;> simp [h]

theorem setExt_get {objs : List Key} {t : Nat} {e : Option String} {n : Nat} {k : Key}
    (h : (setExt objs t e)[n]? = some k) :
    ∃ k', objs[n]? = some k' ∧ k.id = k'.id ∧ (k.ext = k'.ext ∨ (n = t ∧ k.ext = e)) := by
  rw [setExt.eq_def] at h
  cases e with
  | none => exact ⟨k, h, rfl, .inl rfl⟩
  | some e =>
    simp only [List.getElem?_modify] at h
    cases hk : objs[n]? with
    | none => rw [hk] at h; simp at h
    | some k' =>
      rw [hk] at h
      by_cases ht : t = n
      · subst ht
        simp at h
        subst h
        exact ⟨k', rfl, rfl, .inr ⟨rfl, rfl⟩⟩
      · simp [ht] at h
        subst h
        exact ⟨k', rfl, rfl, .inl rfl⟩

theorem setExt_get' {objs : List Key} {t : Nat} {e : Option String} {n : Nat} {k : Key}
    (h : objs[n]? = some k) : ∃ k', (setExt objs t e)[n]? = some k' ∧ k'.id = k.id := by
  have := congrArg (·[n]?) (setExt_ids objs t e)
  simp only [List.getElem?_map, h, Option.map_some] at this
  cases hx : (setExt objs t e)[n]? with
  | none => rw [hx] at this; cases this
  | some k' => rw [hx] at this; simp at this; exact ⟨k', rfl, this⟩

/-! ## The invariant -/

/-- What is known about where a thread is. -/
def PcOk (ks : List Key) (ps : List Pre) (exist : Path → Bool) : Pc → Prop
  | .idle => True
  | .first p => p ∈ ps
  | .second p k => p ∈ ps ∧ secondKey p = some k ∧ ¬ Declared ks p p.here
  | .file p => p ∈ ps ∧ ¬ Declared ks p p.here ∧ ∀ i, p.InSrc i → ¬ Declared ks p i
  | .new p => p ∈ ps ∧ ¬ Declared ks p p.here ∧ (∀ i, p.InSrc i → ¬ Declared ks p i) ∧
      fileKey exist p = none

structure Inv (ks : List Key) (ps : List Pre) (exist onlySrc : Path → Bool)
    (E : Id → Option String) (s : State) : Prop where
  nodup : (s.objs.map Key.id).Nodup
  ext : ∀ (n : Nat) o, s.objs[n]? = some o → o.ext = none ∨ o.ext = E o.id
  old : ∀ i ∈ ks.map Key.id, i ∈ s.objs.map Key.id
  new : ∀ i ∈ s.objs.map Key.id, i ∈ ks.map Key.id ∨
    ∃ q ∈ ps, Refers ks (exist · = true) (onlySrc · = true) q (some i)
  pc : ∀ i, PcOk ks ps exist (s.pc i)
  found : ∀ x ∈ s.done, ∀ t, x.2 = some t → ∃ o, s.objs[t]? = some o ∧
    Refers ks (exist · = true) (onlySrc · = true) x.1 (some o.id)
  failed : ∀ x ∈ s.done, x.2 = none → Refers ks (exist · = true) (onlySrc · = true) x.1 none

variable {ks : List Key} {ps : List Pre} {exist onlySrc : Path → Bool} {E : Id → Option String}

theorem declared_iff {p : Pre} {i : Id} (hk : ∀ k ∈ ks, k.ext = none ∨ k.ext = E k.id)
    (hp : p.ext = none ∨ p.ext = E i) : Declared ks p i ↔ i ∈ ks.map Key.id := by
  constructor
  · rintro ⟨k, h1, h2, _⟩
    exact List.mem_map.2 ⟨k, h1, h2⟩
  · intro h
    obtain ⟨k, h1, h2⟩ := List.mem_map.1 h
    subst h2
    exact ⟨k, h1, rfl, compatible_of (hk k h1) hp⟩

/-- The thread goes on. -/
theorem Inv.goto {s : State} (h : Inv ks ps exist onlySrc E s) (i : Nat) (x : Pc)
    (hx : PcOk ks ps exist x) : Inv ks ps exist onlySrc E { s with pc := setPc s.pc i x } where
  nodup := h.nodup
  ext := h.ext
  old := h.old
  new := h.new
  pc j := by
    show PcOk ks ps exist (setPc s.pc i x j)
    rw [setPc]
    split
    · exact hx
    · exact h.pc j
  found := h.found
  failed := h.failed

/-- The search is completed with an existing target. -/
theorem Inv.hit {s : State} (h : Inv ks ps exist onlySrc E s) (i : Nat) {p : Pre} {t : Nat} {o : Key}
    {e : Option String} (ho : s.objs[t]? = some o) (he : e = none ∨ e = E o.id)
    (hr : Refers ks (exist · = true) (onlySrc · = true) p (some o.id)) :
    Inv ks ps exist onlySrc E (finish s i p (setExt s.objs t e) (some t)) where
  nodup := by
    show ((setExt s.objs t e).map Key.id).Nodup
    rw [setExt_ids]; exact h.nodup
  ext n x hx := by
    obtain ⟨k', h1, h2, h3⟩ := setExt_get hx
    rcases h3 with h3 | ⟨rfl, h3⟩
    · rw [h3, h2]; exact h.ext n k' h1
    · rw [ho] at h1
      cases h1
      rw [h3, h2]
      exact he
  old := by
    show ∀ i ∈ ks.map Key.id, i ∈ (setExt s.objs t e).map Key.id
    rw [setExt_ids]; exact h.old
  new := by
    show ∀ i ∈ (setExt s.objs t e).map Key.id, _
    rw [setExt_ids]; exact h.new
  pc j := by
    show PcOk ks ps exist (setPc s.pc i .idle j)
    rw [setPc]
    split
    · trivial
    · exact h.pc j
  found x hx t' ht := by
    show ∃ o, (setExt s.objs t e)[t']? = some o ∧ _
    rcases List.mem_cons.1 hx with rfl | hx
    · cases ht
      obtain ⟨k', h1, h2⟩ := setExt_get' (t := t) (e := e) ho
      exact ⟨k', h1, by rw [h2]; exact hr⟩
    · obtain ⟨o', h1, h2⟩ := h.found x hx t' ht
      obtain ⟨k', h3, h4⟩ := setExt_get' (t := t) (e := e) h1
      exact ⟨k', h3, by rw [h4]; exact h2⟩
  failed x hx ht := by
    rcases List.mem_cons.1 hx with rfl | hx
    · cases ht
    · exact h.failed x hx ht

/-- The search is completed with a target that was not there. -/
theorem Inv.insert {s : State} (h : Inv ks ps exist onlySrc E s) (i : Nat) {p : Pre} {k : Key}
    (hp : p ∈ ps) (hk : ∀ o ∈ s.objs, keyEq o k = false) (he : k.ext = none ∨ k.ext = E k.id)
    (hr : Refers ks (exist · = true) (onlySrc · = true) p (some k.id)) :
    Inv ks ps exist onlySrc E (finish s i p (s.objs ++ [k]) (some s.objs.length)) where
  nodup := by
    show ((s.objs ++ [k]).map Key.id).Nodup
    rw [List.map_append, List.nodup_append]
    refine ⟨h.nodup, by simp, fun a ha b hb hab => ?_⟩
    simp only [List.map_cons, List.map_nil, List.mem_singleton] at hb
    subst hb
    obtain ⟨o, h1, h2⟩ := List.mem_map.1 ha
    obtain ⟨n, hn⟩ := List.getElem?_of_mem h1
    have h3 := h.ext n o hn
    have h4 := keyEq_false.1 (hk o h1)
    rw [h2.trans hab] at h3
    exact h4 ⟨h2.trans hab, compatible_of h3 he⟩
  ext n x hx := by
    rcases Nat.lt_or_ge n s.objs.length with hn | hn
    · rw [show (finish s i p (s.objs ++ [k]) (some s.objs.length)).objs = s.objs ++ [k] from rfl,
        List.getElem?_append_left hn] at hx
      exact h.ext n x hx
    · rw [show (finish s i p (s.objs ++ [k]) (some s.objs.length)).objs = s.objs ++ [k] from rfl,
        List.getElem?_append_right hn] at hx
      have := List.mem_of_getElem? hx
      simp only [List.mem_singleton] at this
      subst this
      exact he
  old j hj := by
    show j ∈ (s.objs ++ [k]).map Key.id
    rw [List.map_append]
    exact List.mem_append_left _ (h.old j hj)
  new j hj := by
    have hj : j ∈ (s.objs ++ [k]).map Key.id := hj
    rw [List.map_append] at hj
    rcases List.mem_append.1 hj with hj | hj
    · exact h.new j hj
    · simp only [List.map_cons, List.map_nil, List.mem_singleton] at hj
      subst hj
      exact .inr ⟨p, hp, hr⟩
  pc j := by
    show PcOk ks ps exist (setPc s.pc i .idle j)
    rw [setPc]
    split
    · trivial
    · exact h.pc j
  found x hx t' ht := by
    show ∃ o, (s.objs ++ [k])[t']? = some o ∧ _
    rcases List.mem_cons.1 hx with rfl | hx
    · cases ht
      exact ⟨k, by simp, hr⟩
    · obtain ⟨o', h1, h2⟩ := h.found x hx t' ht
      refine ⟨o', ?_, h2⟩
      rw [List.getElem?_append_left]
      · exact h1
      · exact (List.getElem?_eq_some_iff.1 h1).1
  failed x hx ht := by
    rcases List.mem_cons.1 hx with rfl | hx
    · cases ht
    · exact h.failed x hx ht

theorem Inv.reach (hc : Consistent ks (exist · = true) (onlySrc · = true) ps)
    (hE : (∀ k ∈ ks, k.ext = none ∨ k.ext = E k.id) ∧
      (∀ p ∈ ps, p.ext = none ∨ p.ext = E p.here) ∧
      (∀ p ∈ ps, ∀ i, p.InSrc i → p.ext = none ∨ p.ext = E i) ∧
      ∀ p ∈ ps, ∀ k, p.Existing (exist · = true) k → k.ext = E k.id) {s : State}
    (hr : Reach ks ps exist onlySrc s) : Inv ks ps exist onlySrc E s := by
  obtain ⟨hE1, hE2, hE3, hE4⟩ := hE
  induction hr with
  | init =>
    refine ⟨hc.declared, fun n o ho => hE1 o (List.mem_of_getElem? ho), fun _ h => h,
      fun _ h => .inl h, fun _ => trivial, ?_, ?_⟩
    · intro x hx; simp at hx
    · intro x hx; simp at hx
  | @step s s' i hr hs ih =>
    cases hs with
    | call h1 h2 => exact ih.goto i _ h2
    | @firstFound p t o h1 h2 h3 =>
      have hp := ih.pc i
      rw [h1] at hp
      rw [firstKey_eq, keyEq_iff] at h3
      obtain ⟨h3, h4⟩ := h3
      have h3 : o.id = p.here := h3
      refine ih.hit i h2 (by rw [h3]; exact hE2 p hp) ?_
      rcases ih.new o.id (List.mem_map.2 ⟨o, List.mem_of_getElem? h2, rfl⟩) with hm | ⟨q, hq, hR⟩
      · rw [h3] at hm ⊢
        exact .declared ((declared_iff hE1 (hE2 p hp)).2 hm)
      · by_cases hm : o.id ∈ ks.map Key.id
        · rw [h3] at hm ⊢
          exact .declared ((declared_iff hE1 (hE2 p hp)).2 hm)
        · exact (hc.way p hp q hq _ hR hm).1 h3
    | @firstMissed p h1 h2 =>
      have hp := ih.pc i
      rw [h1] at hp
      have hp : p ∈ ps := hp
      have hn : ¬ Declared ks p p.here := by
        intro hd
        have := ih.old _ ((declared_iff hE1 (hE2 p hp)).1 hd)
        obtain ⟨o, h3, h4⟩ := List.mem_map.1 this
        obtain ⟨n, hn⟩ := List.getElem?_of_mem h3
        have h5 := keyEq_false.1 (h2 o h3)
        rw [firstKey_eq] at h5
        have h6 := ih.ext n o hn
        rw [h4] at h6
        exact h5 ⟨h4, compatible_of h6 (hE2 p hp)⟩
      refine ih.goto i _ ?_
      rw [afterFirst]
      cases hk : secondKey p with
      | none => exact ⟨hp, hn, fun j hj => absurd hj (secondKey_none hk j)⟩
      | some k => exact ⟨hp, hk, hn⟩
    | @secondFound p k t o h1 h2 h3 =>
      have hp := ih.pc i
      rw [h1] at hp
      obtain ⟨hp, hk, hn⟩ := hp
      obtain ⟨hi, he⟩ := secondKey_some hk
      obtain ⟨h3, h4⟩ := keyEq_iff.1 h3
      have hx := hE3 p hp _ hi
      refine ih.hit i h2 (by rw [h3]; exact hx) ?_
      rcases ih.new o.id (List.mem_map.2 ⟨o, List.mem_of_getElem? h2, rfl⟩) with hm | ⟨q, hq, hR⟩
      · rw [h3] at hm ⊢
        exact .declaredSrc hn hi ((declared_iff hE1 hx).2 hm)
      · by_cases hm : o.id ∈ ks.map Key.id
        · rw [h3] at hm ⊢
          exact .declaredSrc hn hi ((declared_iff hE1 hx).2 hm)
        · exact (hc.way p hp q hq _ hR hm).2 (h3 ▸ hi) hn
    | @secondMissed p k h1 h2 =>
      have hp := ih.pc i
      rw [h1] at hp
      obtain ⟨hp, hk, hn⟩ := hp
      obtain ⟨hi, he⟩ := secondKey_some hk
      refine ih.goto i _ ⟨hp, hn, fun j hj hd => ?_⟩
      have := InSrc.unique hi hj
      subst this
      have hx := hE3 p hp _ hi
      have := ih.old _ ((declared_iff hE1 hx).1 hd)
      obtain ⟨o, h3, h4⟩ := List.mem_map.1 this
      obtain ⟨n, hn⟩ := List.getElem?_of_mem h3
      have h6 := ih.ext n o hn
      rw [h4] at h6
      exact keyEq_false.1 (h2 o h3) ⟨h4, compatible_of h6 (he ▸ hx)⟩
    | @fileInsert p k h1 h2 h3 =>
      have hp := ih.pc i
      rw [h1] at hp
      obtain ⟨hp, hn, hn'⟩ := hp
      have hx := fileKey_some h2
      exact ih.insert i hp h3 (.inr (hE4 p hp k hx)) (.existing hn hn' hx)
    | @fileFound p k t o h1 h2 h3 h4 =>
      have hp := ih.pc i
      rw [h1] at hp
      obtain ⟨hp, hn, hn'⟩ := hp
      have hx := fileKey_some h2
      obtain ⟨h5, h6⟩ := keyEq_iff.1 h4
      exact ih.hit i h3 (.inr (by rw [h5]; exact hE4 p hp k hx)) (by rw [h5]; exact .existing hn hn' hx)
    | @fileMissed p h1 h2 =>
      have hp := ih.pc i
      rw [h1] at hp
      exact ih.goto i _ ⟨hp.1, hp.2.1, hp.2.2, h2⟩
    | @newInsert p k h1 h2 h3 =>
      have hp := ih.pc i
      rw [h1] at hp
      obtain ⟨hp, hn, hn', hf⟩ := hp
      obtain ⟨h4, rfl⟩ := newKey_some h2
      exact ih.insert i hp h3 (hE2 p hp) (.new hn hn' (fileKey_none hf) h4)
    | @newFound p k t o h1 h2 h3 h4 =>
      have hp := ih.pc i
      rw [h1] at hp
      obtain ⟨hp, hn, hn', hf⟩ := hp
      obtain ⟨h7, rfl⟩ := newKey_some h2
      obtain ⟨h5, h6⟩ := keyEq_iff.1 h4
      have h5 : o.id = p.here := h5
      exact ih.hit i h3 (by rw [h5]; exact hE2 p hp)
        (by rw [h5]; exact .new hn hn' (fileKey_none hf) h7)
    | @newFailed p h1 h2 =>
      have hp := ih.pc i
      rw [h1] at hp
      obtain ⟨hp, hn, hn', hf⟩ := hp
      have hg := ih.goto i .idle trivial
      refine ⟨hg.nodup, hg.ext, hg.old, hg.new, hg.pc, ?_, ?_⟩
      · intro x hx t ht
        rcases List.mem_cons.1 hx with rfl | hx
        · cases ht
        · exact hg.found x hx t ht
      · intro x hx ht
        rcases List.mem_cons.1 hx with rfl | hx
        · exact .error hn hn' (fileKey_none hf) (newKey_none h2)
        · exact hg.failed x hx ht

end Verif.Search
