import Verif.TargetSet.Model

/-!
# Target identity: invariant
-/

namespace Verif.TargetSet

variable {Id Ext : Type} [DecidableEq Id] [DecidableEq Ext]
  {fixed : Id → Option (Option Ext → Ext)}

theorem keyEq_id {x y : Key Id Ext} (h : keyEq fixed x y = true) : x.id = y.id := by
  unfold keyEq at h
  by_cases e : x.id = y.id
  · exact e
  · simp [e] at h

theorem keyEq_free {x y : Key Id Ext} (hf : fixed x.id = none) :
    keyEq fixed x y = true ↔ x.id = y.id ∧ (x.ext = none ∨ y.ext = none ∨ x.ext = y.ext) := by
  unfold keyEq
  by_cases e : x.id = y.id
  · rw [if_neg (by simp [e])]
    rw [hf]
    simp only [Bool.or_eq_true, Option.isNone_iff_eq_none, decide_eq_true_eq, e, true_and,
      or_assoc]
  · simp [e]

theorem keyEq_fixed {x y : Key Id Ext} {f} (hf : fixed x.id = some f) :
    keyEq fixed x y = true ↔ x.id = y.id ∧ x.ext.getD (f none) = y.ext.getD (f none) := by
  unfold keyEq
  by_cases e : x.id = y.id
  · rw [if_neg (by simp [e])]
    rw [hf]
    simp only [decide_eq_true_eq, e, true_and]
  · simp [e]

/-- Objects of the same identity proper have different extensions, all set. -/
def Distinct (objs : List (Key Id Ext)) : Prop :=
  ∀ (i j : Nat) (a b : Key Id Ext), objs[i]? = some a → objs[j]? = some b → i ≠ j → a.id = b.id →
    ∃ x y, a.ext = some x ∧ b.ext = some y ∧ x ≠ y

/-- Objects stay, with their identity proper and the extension if set. -/
def Grow (objs objs' : List (Key Id Ext)) : Prop :=
  ∀ (t : Nat) (o : Key Id Ext), objs[t]? = some o → ∃ o' : Key Id Ext, objs'[t]? = some o' ∧ o'.id = o.id ∧
    (o.ext ≠ none → o'.ext = o.ext)

theorem Grow.refl (objs : List (Key Id Ext)) : Grow objs objs :=
  fun _ o h => ⟨o, h, rfl, fun _ => rfl⟩

theorem setExtOf_get (objs : List (Key Id Ext)) (t : Nat) (x : Option Ext) (j : Nat) :
    (setExtOf objs t x)[j]? = if t = j then (objs[j]?).map (fun k => { k with ext := x })
      else objs[j]? := by
  unfold setExtOf
  rw [List.getElem?_modify]
  split <;> simp

/-- The properties of the objects on their own. -/
structure Objs (fixed : Id → Option (Option Ext → Ext)) (objs : List (Key Id Ext))
    (used : List (Id × Ext)) : Prop where
  distinct : Distinct objs
  fixedSet : ∀ (t : Nat) (a : Key Id Ext) f, objs[t]? = some a → fixed a.id = some f → a.ext ≠ none
  usedIn : ∀ (t : Nat) (a : Key Id Ext), objs[t]? = some a → fixed a.id = none → ∀ x, a.ext = some x → (a.id, x) ∈ used

theorem Objs.mono {objs : List (Key Id Ext)} {used used' : List (Id × Ext)}
    (h : Objs fixed objs used) (hu : ∀ p ∈ used, p ∈ used') : Objs fixed objs used' :=
  ⟨h.distinct, h.fixedSet, fun t a ha hf x hx => hu _ (h.usedIn t a ha hf x hx)⟩

/-- Setting the extension of an object that has none. -/
theorem Objs.set {objs : List (Key Id Ext)} {used : List (Id × Ext)} (h : Objs fixed objs used)
    {t : Nat} {o : Key Id Ext} {x : Ext} (ho : objs[t]? = some o) (hn : o.ext = none)
    (hu : (o.id, x) ∈ used) :
    Objs fixed (setExtOf objs t (some x)) used ∧ Grow objs (setExtOf objs t (some x)) := by
  have alone : ∀ (j : Nat) (b : Key Id Ext), objs[j]? = some b → j ≠ t → b.id ≠ o.id := by
    intro j b hb hj e
    obtain ⟨_, y, _, hy, _⟩ := h.distinct j t b o hb ho hj e
    rw [hn] at hy; cases hy
  refine ⟨⟨?_, ?_, ?_⟩, ?_⟩
  · intro i j a b ha hb hij e
    rw [setExtOf_get] at ha hb
    split at ha
    · rename_i hi; subst hi
      rw [ho] at ha; cases ha
      rw [if_neg hij] at hb
      exact absurd e.symm (alone j b hb (fun h => hij h.symm))
    · split at hb
      · rename_i hi hj; subst hj
        rw [ho] at hb; cases hb
        exact absurd e (alone i a ha hij)
      · exact h.distinct i j a b ha hb hij e
  · intro j a f ha hf
    rw [setExtOf_get] at ha
    split at ha
    · rename_i hi; subst hi
      rw [ho] at ha; cases ha; simp
    · exact h.fixedSet j a f ha hf
  · intro j a ha hf y hy
    rw [setExtOf_get] at ha
    split at ha
    · rename_i hi; subst hi
      rw [ho] at ha; cases ha
      cases hy; exact hu
    · exact h.usedIn j a ha hf y hy
  · intro j b hb
    by_cases hj : t = j
    · subst hj
      rw [ho] at hb; cases hb
      exact ⟨{ o with ext := some x }, by rw [setExtOf_get, if_pos rfl, ho]; rfl, rfl,
        fun h => absurd hn h⟩
    · exact ⟨b, by rw [setExtOf_get, if_neg hj]; exact hb, rfl, fun _ => rfl⟩

/-- Adding an object that is not equal to any. -/
theorem Objs.push {objs : List (Key Id Ext)} {used : List (Id × Ext)} (h : Objs fixed objs used)
    {k : Key Id Ext} (hk : ∀ o ∈ objs, keyEq fixed o k = false)
    (hs : ∀ f, fixed k.id = some f → k.ext ≠ none)
    (hu : fixed k.id = none → ∀ x, k.ext = some x → (k.id, x) ∈ used) :
    Objs fixed (objs ++ [k]) used ∧ Grow objs (objs ++ [k]) := by
  have get : ∀ (j : Nat) (a : Key Id Ext), (objs ++ [k])[j]? = some a → objs[j]? = some a ∨ (j = objs.length ∧ a = k) := by
    intro j a ha
    rw [List.getElem?_append] at ha
    split at ha
    · exact .inl ha
    · right
      by_cases hj : j = objs.length
      · subst hj; simp at ha; exact ⟨rfl, ha.symm⟩
      · rw [List.getElem?_eq_none (by simp; omega)] at ha; cases ha
  have differ : ∀ (j : Nat) (a : Key Id Ext), objs[j]? = some a → a.id = k.id →
      ∃ x y, a.ext = some x ∧ k.ext = some y ∧ x ≠ y := by
    intro j a ha e
    have hne := hk a (List.mem_of_getElem? ha)
    cases hf : fixed a.id with
    | none =>
      have : ¬ keyEq fixed a k = true := by simp [hne]
      rw [keyEq_free hf] at this
      cases hx : a.ext with
      | none => exact absurd ⟨e, .inl hx⟩ this
      | some x =>
        cases hy : k.ext with
        | none => exact absurd ⟨e, .inr (.inl hy)⟩ this
        | some y =>
          refine ⟨x, y, rfl, rfl, ?_⟩
          rintro rfl
          exact this ⟨e, .inr (.inr (hx.trans hy.symm))⟩
    | some f =>
      have : ¬ keyEq fixed a k = true := by simp [hne]
      rw [keyEq_fixed hf] at this
      cases hx : a.ext with
      | none => exact absurd hx (h.fixedSet j a f ha hf)
      | some x =>
        cases hy : k.ext with
        | none => exact absurd hy (hs f (e ▸ hf))
        | some y =>
          refine ⟨x, y, rfl, rfl, ?_⟩
          rintro rfl
          exact this ⟨e, by rw [hx, hy]⟩
  refine ⟨⟨?_, ?_, ?_⟩, ?_⟩
  · intro i j a b ha hb hij e
    rcases get i a ha with ha' | ⟨hi, hak⟩
    · rcases get j b hb with hb' | ⟨hj, hbk⟩
      · exact h.distinct i j a b ha' hb' hij e
      · rw [hbk] at e ⊢
        exact differ i a ha' e
    · rcases get j b hb with hb' | ⟨hj, hbk⟩
      · rw [hak] at e ⊢
        obtain ⟨x, y, h1, h2, h3⟩ := differ j b hb' e.symm
        exact ⟨y, x, h2, h1, fun he => h3 he.symm⟩
      · exact absurd (hi.trans hj.symm) hij
  · intro j a f ha hf
    rcases get j a ha with ha | ⟨rfl, rfl⟩
    · exact h.fixedSet j a f ha hf
    · exact hs f hf
  · intro j a ha hf x hx
    rcases get j a ha with ha | ⟨rfl, rfl⟩
    · exact h.usedIn j a ha hf x hx
    · exact hu hf x hx
  · intro j b hb
    have hlt : j < objs.length := by
      rcases Nat.lt_or_ge j objs.length with h | h
      · exact h
      · rw [List.getElem?_eq_none h] at hb; cases hb
    exact ⟨b, by rw [List.getElem?_append_left hlt]; exact hb, rfl, fun _ => rfl⟩

/-- What is known about a thread. -/
def PcOk (fixed : Id → Option (Option Ext → Ext)) (objs : List (Key Id Ext))
    (used : List (Id × Ext)) : Pc Id Ext → Prop
  | .idle => True
  | .find k _ again =>
    (∀ x, k.ext = some x → (k.id, x) ∈ used) ∧
    (again = true → fixed k.id = none ∧ ∃ (t : Nat) (o : Key Id Ext), objs[t]? = some o ∧ o.id = k.id ∧ o.ext ≠ none)
  | .upgrade k t _ again =>
    (∀ x, k.ext = some x → (k.id, x) ∈ used) ∧ again = false ∧ fixed k.id = none ∧ k.ext ≠ none ∧
    ∃ o : Key Id Ext, objs[t]? = some o ∧ o.id = k.id
  | .emplace k => ∀ x, k.ext = some x → (k.id, x) ∈ used

theorem PcOk.grow {objs objs' : List (Key Id Ext)} {used used' : List (Id × Ext)}
    {p : Pc Id Ext} (h : PcOk fixed objs used p) (hg : Grow objs objs')
    (hu : ∀ p ∈ used, p ∈ used') : PcOk fixed objs' used' p := by
  cases p with
  | idle => trivial
  | find k ins again =>
    refine ⟨fun x hx => hu _ (h.1 x hx), fun ha => ?_⟩
    obtain ⟨h1, t, o, h2, h3, h4⟩ := h.2 ha
    obtain ⟨o', g1, g2, g3⟩ := hg t o h2
    exact ⟨h1, t, o', g1, g2.trans h3, by rw [g3 h4]; exact h4⟩
  | upgrade k t ins again =>
    obtain ⟨h0, h1, h2, h3, o, h4, h5⟩ := h
    obtain ⟨o', g1, g2, _⟩ := hg t o h4
    exact ⟨fun x hx => hu _ (h0 x hx), h1, h2, h3, o', g1, g2.trans h5⟩
  | emplace k => exact fun x hx => hu _ (h x hx)

/-- A completed request resolved to the right object. -/
def DoneOk (fixed : Id → Option (Option Ext → Ext)) (objs : List (Key Id Ext))
    (d : Done Id Ext) : Prop :=
  ∀ t, d.res = some t → ∃ o : Key Id Ext, objs[t]? = some o ∧ o.id = d.key.id ∧
    (fixed d.key.id = none → ∀ x, d.key.ext = some x → o.ext = some x) ∧
    (∀ f, fixed d.key.id = some f →
      o.ext = some (f d.key.ext) ∨ o.ext = some (d.key.ext.getD (f none)))

theorem DoneOk.grow {objs objs' : List (Key Id Ext)} {d : Done Id Ext}
    (h : DoneOk fixed objs d) (hg : Grow objs objs') : DoneOk fixed objs' d := by
  intro t ht
  obtain ⟨o, h1, h2, h3, h4⟩ := h t ht
  obtain ⟨o', g1, g2, g3⟩ := hg t o h1
  refine ⟨o', g1, g2.trans h2, fun hf x hx => ?_, fun f hf => ?_⟩
  · have := h3 hf x hx
    rw [g3 (by rw [this]; simp), this]
  · rcases h4 f hf with h | h
    · left; rw [g3 (by rw [h]; simp), h]
    · right; rw [g3 (by rw [h]; simp), h]

structure Inv (fixed : Id → Option (Option Ext → Ext)) (s : State Id Ext) : Prop where
  objs : Objs fixed s.objs s.used
  pcs : ∀ i, PcOk fixed s.objs s.used (s.pc i)
  done : ∀ d ∈ s.done, DoneOk fixed s.objs d

theorem pcs_set {objs objs' : List (Key Id Ext)} {used used' : List (Id × Ext)}
    {pc : Nat → Pc Id Ext} (h : ∀ i, PcOk fixed objs used (pc i)) (hg : Grow objs objs')
    (hu : ∀ p ∈ used, p ∈ used') {i : Nat} {p : Pc Id Ext} (hp : PcOk fixed objs' used' p) (j : Nat) :
    PcOk fixed objs' used' (setPc pc i p j) := by
  unfold setPc
  split
  · exact hp
  · exact (h j).grow hg hu

theorem done_cons {objs objs' : List (Key Id Ext)} {l : List (Done Id Ext)}
    (h : ∀ d ∈ l, DoneOk fixed objs d) (hg : Grow objs objs') {d : Done Id Ext}
    (hd : DoneOk fixed objs' d) : ∀ d' ∈ d :: l, DoneOk fixed objs' d' := by
  intro d' hd'
  rcases List.mem_cons.mp hd' with rfl | hm
  · exact hd
  · exact (h d' hm).grow hg

theorem mention_mem {k : Key Id Ext} {used : List (Id × Ext)} :
    ∀ x, k.ext = some x → (k.id, x) ∈ mention k ++ used := by
  intro x hx
  simp [mention, hx]

/-- What holds of the object if it has the same extension or none was asked for. -/
theorem doneOk_same {objs : List (Key Id Ext)} {used : List (Id × Ext)}
    (ho : Objs fixed objs used) {t : Nat} {o k : Key Id Ext}
    (h1 : objs[t]? = some o) (h2 : keyEq fixed o k = true)
    (h3 : o.ext = k.ext ∨ k.ext = none) : DoneOk fixed objs ⟨k, some t⟩ := by
  intro t' ht
  cases ht
  have e := keyEq_id h2
  refine ⟨o, h1, e, ?_, ?_⟩
  · intro _ x (hx : k.ext = some x)
    rcases h3 with h | h
    · rw [h, hx]
    · rw [h] at hx; cases hx
  · intro f hf
    have hf' : fixed o.id = some f := by rw [e]; exact hf
    rw [keyEq_fixed hf'] at h2
    right
    cases hx : o.ext with
    | none => exact absurd hx (ho.fixedSet t o f h1 hf')
    | some x => rw [hx] at h2; exact congrArg some h2.2

theorem inv_step {s s' : State Id Ext} {i : Nat} (h : Inv fixed s) (st : Step fixed i s s') :
    Inv fixed s' ∧ Grow s.objs s'.objs ∧ (∀ p ∈ s.used, p ∈ s'.used) := by
  obtain ⟨ho, hp, hd⟩ := h
  cases st with
  | callFind k hi =>
    have hu : ∀ p ∈ s.used, p ∈ mention k ++ s.used := fun p hp => List.mem_append_right _ hp
    exact ⟨⟨ho.mono hu, pcs_set hp (.refl _) hu ⟨mention_mem, by simp⟩, hd⟩, .refl _, hu⟩
  | callInsert k skip hi =>
    have hu : ∀ p ∈ s.used, p ∈ mention k ++ s.used := fun p hp => List.mem_append_right _ hp
    refine ⟨⟨ho.mono hu, pcs_set hp (.refl _) hu ?_, hd⟩, .refl _, hu⟩
    split
    · exact mention_mem
    · exact ⟨mention_mem, by simp⟩
  | findNone hi hn =>
    rename_i k ins again
    have hpi := hp i
    rw [hi] at hpi
    cases ins with
    | true =>
      exact ⟨⟨ho, pcs_set hp (.refl _) (fun _ h => h) hpi.1, hd⟩, .refl _, fun _ h => h⟩
    | false =>
      exact ⟨⟨ho, pcs_set hp (.refl _) (fun _ h => h) trivial,
        done_cons hd (.refl _) (by intro t ht; cases ht)⟩, .refl _, fun _ h => h⟩
  | findSame hi h1 h2 h3 =>
    exact ⟨⟨ho, pcs_set hp (.refl _) (fun _ h => h) trivial,
      done_cons hd (.refl _) (doneOk_same ho h1 h2 h3)⟩, .refl _, fun _ h => h⟩
  | findUpgrade hi h1 h2 h3 h4 =>
    rename_i k ins again t o
    have hpi := hp i
    rw [hi] at hpi
    have e := keyEq_id h2
    have hf : fixed o.id = none := by
      cases hf : fixed o.id with
      | none => rfl
      | some f =>
        rw [keyEq_fixed hf] at h2
        exfalso
        cases hx : o.ext with
        | none => exact ho.fixedSet t o f h1 hf hx
        | some x =>
          cases hy : k.ext with
          | none => exact h4 hy
          | some y => rw [hx, hy] at h2; exact h3 (by rw [hx, hy]; exact congrArg some h2.2)
    have ha : again = false := by
      cases again with
      | false => rfl
      | true =>
        exfalso
        obtain ⟨_, t', o', g1, g2, g3⟩ := hpi.2 rfl
        rw [keyEq_free hf] at h2
        rcases h2.2 with h | h | h
        · by_cases htt : t = t'
          · subst htt; rw [h1] at g1; cases g1; exact g3 h
          · obtain ⟨x, _, hx, _⟩ := ho.distinct t t' o o' h1 g1 htt (e.trans g2.symm)
            rw [h] at hx; cases hx
        · exact h4 h
        · exact h3 h
    exact ⟨⟨ho, pcs_set hp (.refl _) (fun _ h => h)
      ⟨hpi.1, ha, e ▸ hf, h4, o, h1, e⟩, hd⟩, .refl _, fun _ h => h⟩
  | upgradeAgain hi h1 h2 =>
    rename_i k ins again t o
    have hpi := hp i
    rw [hi] at hpi
    obtain ⟨g0, g1, g2, g3, o', g4, g5⟩ := hpi
    rw [h1] at g4; cases g4
    exact ⟨⟨ho, pcs_set hp (.refl _) (fun _ h => h) ⟨g0, fun _ => ⟨g2, t, o, h1, g5, h2⟩⟩, hd⟩,
      .refl _, fun _ h => h⟩
  | upgradeSet hi h1 h2 =>
    rename_i k ins again t o
    have hpi := hp i
    rw [hi] at hpi
    obtain ⟨g0, g1, g2, g3, o', g4, g5⟩ := hpi
    rw [h1] at g4; cases g4
    cases hx : k.ext with
    | none => exact absurd hx g3
    | some x =>
      obtain ⟨a1, a2⟩ := ho.set h1 h2 (x := x) (by rw [g5]; exact g0 x hx)
      refine ⟨⟨a1, pcs_set hp a2 (fun _ h => h) trivial, done_cons hd a2 ?_⟩, a2, fun _ h => h⟩
      intro t' ht
      cases ht
      refine ⟨{ o with ext := some x }, ?_, g5, ?_, ?_⟩
      · show (setExtOf s.objs t (some x))[t]? = _
        rw [setExtOf_get, if_pos rfl, h1]; rfl
      · intro _ y hy
        have : k.ext = some y := hy
        rw [hx] at this; cases this; rfl
      · intro f hf
        have : fixed k.id = some f := hf
        rw [g2] at this; cases this
  | emplaceNew hi hn =>
    rename_i k
    have hpi := hp i
    rw [hi] at hpi
    obtain ⟨a1, a2⟩ := ho.push hn
      (by
        intro f hf
        have : fixed k.id = some f := hf
        simp [newExt, this])
      (by
        intro hf x hx
        have h1 : fixed k.id = none := hf
        have h2 : newExt fixed k = some x := hx
        rw [newExt, h1] at h2
        exact hpi x h2)
    refine ⟨⟨a1, pcs_set hp a2 (fun _ h => h) trivial, done_cons hd a2 ?_⟩, a2, fun _ h => h⟩
    intro t' ht
    cases ht
    refine ⟨⟨k.id, newExt fixed k⟩, by simp, rfl, ?_, ?_⟩
    · intro hf x hx
      have h1 : fixed k.id = none := hf
      show newExt fixed k = some x
      rw [newExt, h1]; exact hx
    · intro f hf
      have h1 : fixed k.id = some f := hf
      left
      show newExt fixed k = _
      rw [newExt, h1]
  | emplaceOld hi h1 h2 =>
    rename_i k t o
    have hpi := hp i
    rw [hi] at hpi
    have e : o.id = k.id := (keyEq_id h2 : o.id = (⟨k.id, newExt fixed k⟩ : Key Id Ext).id)
    by_cases hc : o.ext ≠ newExt fixed k ∧ newExt fixed k ≠ none
    · rw [if_pos hc]
      have hf : fixed k.id = none := by
        cases hf : fixed k.id with
        | none => rfl
        | some f =>
          exfalso
          have hf' : fixed o.id = some f := by rw [e]; exact hf
          rw [keyEq_fixed hf'] at h2
          have hne : newExt fixed k = some (f k.ext) := by rw [newExt, hf]
          cases hx : o.ext with
          | none => exact ho.fixedSet t o f h1 hf' hx
          | some x =>
            simp only [hx, hne, Option.getD_some] at h2
            exact hc.1 (by rw [hx, hne, h2.2])
      have hne : newExt fixed k = k.ext := by rw [newExt, hf]
      have hn : o.ext = none := by
        rw [keyEq_free (by rw [e]; exact hf)] at h2
        rcases h2.2 with h | h | h
        · exact h
        · exact absurd h hc.2
        · exact absurd h hc.1
      rw [hne]
      cases hx : k.ext with
      | none => rw [hne] at hc; exact absurd hx hc.2
      | some x =>
        obtain ⟨a1, a2⟩ := ho.set h1 hn (x := x) (by rw [e]; exact hpi x hx)
        refine ⟨⟨a1, pcs_set hp a2 (fun _ h => h) trivial, done_cons hd a2 ?_⟩, a2, fun _ h => h⟩
        intro t' ht
        cases ht
        refine ⟨{ o with ext := some x }, ?_, e, ?_, ?_⟩
        · show (setExtOf s.objs t (some x))[t]? = _
          rw [setExtOf_get, if_pos rfl, h1]; rfl
        · intro _ y hy
          have : k.ext = some y := hy
          rw [hx] at this; cases this; rfl
        · intro f hf'
          have : fixed k.id = some f := hf'
          rw [hf] at this; cases this
    · rw [if_neg hc]
      refine ⟨⟨ho, pcs_set hp (.refl _) (fun _ h => h) trivial,
        done_cons hd (.refl _) ?_⟩, .refl _, fun _ h => h⟩
      intro t' ht
      cases ht
      refine ⟨o, h1, e, ?_, ?_⟩
      · intro hf x hx
        have hf' : fixed k.id = none := hf
        have hx' : k.ext = some x := hx
        have hne : newExt fixed k = some x := by rw [newExt, hf']; exact hx'
        by_cases hox : o.ext = newExt fixed k
        · rw [hox, hne]
        · exact absurd ⟨hox, by rw [hne]; simp⟩ hc
      · intro f hf
        have hf' : fixed k.id = some f := hf
        have hne : newExt fixed k = some (f k.ext) := by rw [newExt, hf']
        left
        by_cases hox : o.ext = newExt fixed k
        · rw [hox, hne]
        · exact absurd ⟨hox, by rw [hne]; simp⟩ hc
  | setExt x hi h1 h2 =>
    rename_i t o
    have hu : ∀ p ∈ s.used, p ∈ (o.id, x) :: s.used := fun p hp => List.mem_cons_of_mem _ hp
    obtain ⟨a1, a2⟩ := (ho.mono hu).set h1 h2 (x := x) List.mem_cons_self
    exact ⟨⟨a1, fun j => (hp j).grow a2 hu, fun d hd' => (hd d hd').grow a2⟩, a2, hu⟩
  | setExtSet x hi h1 h2 =>
    rename_i t o
    have hu : ∀ p ∈ s.used, p ∈ (o.id, x) :: s.used := fun p hp => List.mem_cons_of_mem _ hp
    exact ⟨⟨ho.mono hu, fun j => (hp j).grow (.refl _) hu, hd⟩, .refl _, hu⟩

theorem inv_reach {s : State Id Ext} (h : Reach fixed s) : Inv fixed s := by
  induction h with
  | init =>
    refine ⟨⟨?_, ?_, ?_⟩, fun _ => trivial, ?_⟩
    · intro i j a b ha; simp [State.init] at ha
    · intro t a f ha; simp [State.init] at ha
    · intro t a ha; simp [State.init] at ha
    · intro d hd; simp [State.init] at hd
  | step _ st ih => exact (inv_step ih st).1

theorem Later.reach {s s' : State Id Ext} (h : Reach fixed s) (hl : Later fixed s s') :
    Reach fixed s' := by
  induction hl with
  | refl => exact h
  | step _ st ih => exact .step ih st

theorem Grow.trans {a b c : List (Key Id Ext)} (h : Grow a b) (h' : Grow b c) : Grow a c := by
  intro t o ho
  obtain ⟨o', g1, g2, g3⟩ := h t o ho
  obtain ⟨o'', f1, f2, f3⟩ := h' t o' g1
  refine ⟨o'', f1, f2.trans g2, fun hx => ?_⟩
  have := g3 hx
  rw [f3 (by rw [this]; exact hx), this]

theorem later_grow {s s' : State Id Ext} (h : Reach fixed s) (hl : Later fixed s s') :
    Grow s.objs s'.objs := by
  induction hl with
  | refl => exact .refl _
  | step hl' st ih => exact ih.trans (inv_step (inv_reach (hl'.reach h)) st).2.1

end Verif.TargetSet
