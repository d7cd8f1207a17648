import Verif.ModMap.Resolve

/-! # Modules and their binary interfaces: all that is needed -/

namespace Verif.ModMap

theorem bmi_iff (w : World) (b : Nat) (n : Str) : bmiName w b = some n ↔ w.IsFor b n := by
  unfold bmiName World.IsFor
  cases (w.unit b).impl <;> simp

/-! ## Imports -/

theorem imports_fresh (u : Unit) : ∀ i ∈ importsOf u, Fresh i := by
  intro i hi
  obtain ⟨_, _, rfl⟩ := List.mem_map.1 hi
  exact ⟨rfl, rfl⟩

theorem imports_iff (u : Unit) (n : Str) : (∃ i ∈ importsOf u, i.name = n) ↔ u.Imports n := by
  unfold importsOf Unit.Imports
  simp only [List.mem_map, List.mem_append, List.mem_filter]
  constructor
  · rintro ⟨_, ⟨x, hx, rfl⟩, rfl⟩
    have hx : x ∈ (if u.impl then (u.name.toList.map fun n => (n, false)) else []) ∨
        x ∈ u.imports := by
      rcases hx with ⟨h, _⟩ | ⟨h, _⟩ <;> exact h
    rcases hx with h | h
    · cases hi : u.impl with
      | false => rw [hi] at h; cases h
      | true =>
        rw [hi] at h
        obtain ⟨m, hm, rfl⟩ := List.mem_map.1 h
        exact Or.inl ⟨rfl, Option.mem_toList.1 hm⟩
    · exact Or.inr ⟨x.2, h⟩
  · intro h
    have key : ∃ x, (x ∈ (if u.impl then (u.name.toList.map fun n => (n, false)) else []) ∨
        x ∈ u.imports) ∧ x.1 = n := by
      rcases h with ⟨h1, h2⟩ | ⟨e, he⟩
      · refine ⟨(n, false), Or.inl ?_, rfl⟩
        rw [h1, if_pos rfl]
        exact List.mem_map.2 ⟨n, Option.mem_toList.2 h2, rfl⟩
      · exact ⟨_, Or.inr he, rfl⟩
    obtain ⟨x, hx, rfl⟩ := key
    refine ⟨_, ⟨x, ?_, rfl⟩, rfl⟩
    cases hb : x.2 with
    | false => exact Or.inl ⟨hx, rfl⟩
    | true => exact Or.inr ⟨hx, rfl⟩

theorem imports_nodup {u : Unit} (h : u.Once) : ((importsOf u).map (·.name)).Nodup := by
  have hb : ∀ l : List (Str × Bool), (l.map (·.1)).Nodup →
      ((l.filter (fun i => !i.2) ++ l.filter (·.2)).map (·.1)).Nodup := by
    intro l hl
    refine List.Perm.nodup ?_ hl
    refine List.Perm.map _ ?_
    have := List.filter_append_perm (fun i : Str × Bool => !i.2) l
    simp only [Bool.not_not] at this
    exact this.symm
  unfold importsOf
  simp only
  rw [List.map_map]
  show (List.map (fun i : Str × Bool => i.1) _).Nodup
  apply hb
  cases hi : u.impl with
  | false => exact h.1
  | true =>
    cases hn : u.name with
    | none => exact h.1
    | some n =>
      simp only [if_true, Option.toList, List.map_cons, List.map_nil, List.cons_append,
        List.nil_append]
      exact List.nodup_cons.2 ⟨h.2 hi n hn, h.1⟩

/-! ## Copying -/

theorem copy_sub (w : World) (bs l : List (Str × Nat)) : ∀ x ∈ l, x ∈ copy w l bs := by
  induction bs generalizing l with
  | nil => exact fun x h => h
  | cons y bs ih =>
    intro x hx
    unfold copy
    cases bmiName w y.2 with
    | none => exact ih l x hx
    | some n =>
      simp only
      split
      · exact ih l x hx
      · exact ih _ x (List.mem_append_left _ hx)

theorem copy_from (w : World) (bs l : List (Str × Nat)) : ∀ x ∈ copy w l bs,
    x ∈ l ∨ (bmiName w x.2 = some x.1 ∧ ∃ n, (n, x.2) ∈ bs) := by
  induction bs generalizing l with
  | nil => exact fun x h => Or.inl h
  | cons y bs ih =>
    intro x hx
    unfold copy at hx
    cases hn : bmiName w y.2 with
    | none =>
      rw [hn] at hx
      rcases ih l x hx with h | ⟨h, n, hm⟩
      · exact Or.inl h
      · exact Or.inr ⟨h, n, List.mem_cons_of_mem _ hm⟩
    | some n =>
      simp only [hn] at hx
      split at hx
      · rcases ih l x hx with h | ⟨h, n, hm⟩
        · exact Or.inl h
        · exact Or.inr ⟨h, n, List.mem_cons_of_mem _ hm⟩
      · rcases ih _ x hx with h | ⟨h, n, hm⟩
        · rcases List.mem_append.1 h with h | h
          · exact Or.inl h
          · rw [List.mem_singleton] at h
            subst h
            exact Or.inr ⟨hn, y.1, List.mem_cons_self ..⟩
        · exact Or.inr ⟨h, n, List.mem_cons_of_mem _ hm⟩

theorem copy_all (w : World) (bs l : List (Str × Nat)) : ∀ m b n, (m, b) ∈ bs →
    bmiName w b = some n → ∃ b', (n, b') ∈ copy w l bs := by
  induction bs generalizing l with
  | nil => exact fun _ _ _ h => by cases h
  | cons y bs ih =>
    intro m b n hm hn
    rcases List.mem_cons.1 hm with rfl | hm
    · unfold copy
      simp only [hn]
      split
      · rename_i h
        obtain ⟨z, hz, e⟩ := List.any_eq_true.1 h
        have e : z.1 = n := of_decide_eq_true e
        exact ⟨z.2, e ▸ copy_sub w bs l z hz⟩
      · exact ⟨b, copy_sub w bs _ _ (List.mem_append_right _ (List.mem_singleton.2 rfl))⟩
    · unfold copy
      cases bmiName w y.2 with
      | none => exact ih l m b n hm hn
      | some n' =>
        simp only
        split
        · exact ih l m b n hm hn
        · exact ih _ m b n hm hn

theorem copy_nodup (w : World) (bs l : List (Str × Nat)) (h : (l.map (·.1)).Nodup) :
    ((copy w l bs).map (·.1)).Nodup := by
  induction bs generalizing l with
  | nil => exact h
  | cons y bs ih =>
    unfold copy
    cases bmiName w y.2 with
    | none => exact ih l h
    | some n =>
      simp only
      split
      · exact ih l h
      · rename_i hn
        refine ih _ ?_
        rw [List.map_append, List.nodup_append]
        refine ⟨h, by simp, ?_⟩
        intro a ha b hb e
        simp only [List.map_cons, List.map_nil, List.mem_singleton] at hb
        subst hb e
        obtain ⟨z, hz, e⟩ := List.mem_map.1 ha
        exact hn (List.any_eq_true.2 ⟨z, hz, decide_eq_true e⟩)

/-! ## Verification -/

/-- Whether what it is resolved to is what it says. -/
def Verified (w : World) (i : Slot) : Prop :=
  ∀ b, i.target = some b → ¬ Done i → ∀ n, bmiName w b = some n → n = i.name

theorem post_ok {w : World} {get : Nat → List (Str × Nat)} {is : List Slot}
    {l L : List (Str × Nat)} (h : post w get is l = .ok L) :
    (∀ i ∈ is, Verified w i) ∧ (∀ x ∈ l, x ∈ L) ∧
    (∀ x ∈ L, x ∈ l ∨ (bmiName w x.2 = some x.1 ∧
      ∃ i ∈ is, ∃ b, i.target = some b ∧ ∃ n, (n, x.2) ∈ get b)) ∧
    (∀ i ∈ is, ∀ b, i.target = some b → ∀ m c n, (m, c) ∈ get b → bmiName w c = some n →
      ∃ c', (n, c') ∈ L) ∧
    ((l.map (·.1)).Nodup → (L.map (·.1)).Nodup) := by
  induction is generalizing l with
  | nil =>
    unfold post at h
    injection h with e
    subst e
    exact ⟨nofun, fun _ h => h, fun _ h => Or.inl h, nofun, id⟩
  | cons i is ih =>
    unfold post at h
    cases ht : i.target with
    | none =>
      rw [ht] at h
      obtain ⟨h1, h2, h3, h4, h5⟩ := ih h
      refine ⟨?_, h2, ?_, ?_, h5⟩
      · intro j hj
        rcases List.mem_cons.1 hj with rfl | hj
        · intro b hb; rw [ht] at hb; cases hb
        · exact h1 j hj
      · intro x hx
        rcases h3 x hx with h | ⟨ha, j, hj, hb⟩
        · exact Or.inl h
        · exact Or.inr ⟨ha, j, List.mem_cons_of_mem _ hj, hb⟩
      · intro j hj b hb
        rcases List.mem_cons.1 hj with rfl | hj
        · rw [ht] at hb; cases hb
        · exact h4 j hj b hb
    | some b =>
      simp only [ht] at h
      split at h
      · cases h
      · rename_i hv
        obtain ⟨h1, h2, h3, h4, h5⟩ := ih h
        refine ⟨?_, ?_, ?_, ?_, ?_⟩
        · intro j hj
          rcases List.mem_cons.1 hj with rfl | hj
          · intro c hc hd n hn
            rw [ht] at hc
            injection hc with e
            subst e
            apply Classical.byContradiction
            intro hne
            apply hv
            refine ⟨Nat.not_lt.1 hd, ?_⟩
            rw [hn]
            simpa using hne
          · exact h1 j hj
        · exact fun x hx => h2 x (copy_sub w _ _ x hx)
        · intro x hx
          rcases h3 x hx with h | ⟨ha, j, hj, hb⟩
          · rcases copy_from w _ _ x h with h | ⟨h, n, hm⟩
            · exact Or.inl h
            · exact Or.inr ⟨h, i, List.mem_cons_self .., b, ht, n, hm⟩
          · exact Or.inr ⟨ha, j, List.mem_cons_of_mem _ hj, hb⟩
        · intro j hj c hc m d n hm hn
          rcases List.mem_cons.1 hj with rfl | hj
          · rw [ht] at hc
            injection hc with e
            subst e
            obtain ⟨c', hc'⟩ := copy_all w _ l m d n hm hn
            exact ⟨c', h2 _ hc'⟩
          · exact h4 j hj c hc m d n hm hn
        · exact fun hl => h5 (copy_nodup w _ l hl)

theorem post_succeeds {w : World} {get : Nat → List (Str × Nat)} {is : List Slot}
    (h : ∀ i ∈ is, Verified w i) (l : List (Str × Nat)) : ∃ L, post w get is l = .ok L := by
  induction is generalizing l with
  | nil => exact ⟨l, rfl⟩
  | cons i is ih =>
    have ih := ih fun j hj => h j (List.mem_cons_of_mem _ hj)
    unfold post
    cases ht : i.target with
    | none => exact ih l
    | some b =>
      simp only
      rw [if_neg]
      · exact ih _
      · rintro ⟨h1, h2⟩
        cases hn : bmiName w b with
        | none => rw [hn] at h2; cases h2
        | some n =>
          rw [hn] at h2
          have := h i (List.mem_cons_self ..) b ht (Nat.not_lt.2 h1) n hn
          simp [this] at h2

theorem failed_none {f : Nat → Except Err (List (Str × Nat))} {bs : List Nat} :
    failed f bs = none ↔ ∀ b ∈ bs, ∃ l, f b = .ok l := by
  induction bs with
  | nil => simp [failed]
  | cons b bs ih =>
    unfold failed
    cases hb : f b with
    | ok l => simp [ih, hb]
    | error e => simp [hb]

/-! ## All of it -/

/-- A world where all is as it should be, in a unit. -/
theorem unit_resolve {w : World} (t : Nat) (ho : (w.unit t).Once) (hs : w.Short) :
    (∀ n, (w.unit t).Imports n → ∃ b, Chosen score w.std (w.unit t).pool n b) ∧
      resolve w.std (w.unit t).pool (importsOf (w.unit t)) =
        .ok ((importsOf (w.unit t)).map (final w.std (w.unit t).pool)) ∨
    (∃ n, (w.unit t).Imports n ∧ ¬ ∃ b, Chosen score w.std (w.unit t).pool n b) ∧
      (resolve w.std (w.unit t).pool (importsOf (w.unit t)) = .error .std ∨
       resolve w.std (w.unit t).pool (importsOf (w.unit t)) = .error .unresolved) := by
  have := resolve_eq (std := w.std) (pool := (w.unit t).pool) (imports_nodup ho)
    (imports_fresh _)
    (fun i hi => (hs t).2 _ ((imports_iff _ _).1 ⟨i, hi, rfl⟩)) (hs t).1
  rcases this with ⟨h1, h2⟩ | ⟨⟨i, hi, h1⟩, h2⟩
  · refine Or.inl ⟨fun n hn => ?_, h2⟩
    obtain ⟨i, hi, rfl⟩ := (imports_iff _ _).2 hn
    exact h1 i hi
  · exact Or.inr ⟨⟨i.name, (imports_iff _ _).1 ⟨i, hi, rfl⟩, h1⟩, h2⟩

theorem unit_target {w : World} {t : Nat} (hs : w.Short)
    (hc : ∀ n, (w.unit t).Imports n → ∃ b, Chosen score w.std (w.unit t).pool n b)
    {i : Slot} (hi : i ∈ importsOf (w.unit t)) (b : Nat) :
    (final w.std (w.unit t).pool i).target = some b ↔
      Chosen score w.std (w.unit t).pool i.name b := by
  have hI := (imports_iff _ _).1 ⟨i, hi, rfl⟩
  refine final_target (imports_fresh _ i hi) ((hs t).2 _ hI) (hs t).1 ?_ b
  intro h
  obtain ⟨b, ⟨_, hb⟩ | ⟨h', _⟩⟩ := hc _ hI
  · exact ⟨b, hb⟩
  · exact absurd h h'

/-- What is resolved by name is right, and so is what is verified. -/
theorem chosen_for {w : World} {t : Nat} (hs : w.Short) (hh : w.Honest) (hx : w.Extracted)
    (hc : ∀ n, (w.unit t).Imports n → ∃ b, Chosen score w.std (w.unit t).pool n b)
    {i : Slot} (hi : i ∈ importsOf (w.unit t))
    (hv : Verified w (final w.std (w.unit t).pool i)) {b : Nat}
    (hb : Chosen score w.std (w.unit t).pool i.name b) : w.IsFor b i.name := by
  have hI := (imports_iff _ _).1 ⟨i, hi, rfl⟩
  have hn : Std i.name → ∃ b, Named w.std i.name b := by
    intro h
    obtain ⟨b, ⟨_, hb⟩ | ⟨h', _⟩⟩ := hc _ hI
    · exact ⟨b, hb⟩
    · exact absurd h h'
  have hd := done_target (pool := (w.unit t).pool) (imports_fresh _ i hi) ((hs t).2 _ hI)
    (hs t).1 hn
  rcases hb with ⟨h1, p, r, e, _⟩ | ⟨h1, ⟨p, r, e, _⟩ | ⟨h2, p, f, r, e, _⟩⟩
  · exact hh.2 _ _ (by rw [e]; simp)
  · exact hh.1 t _ _ (by rw [e]; simp)
  · have hm : Entry.file f b ∈ (w.unit t).pool := by rw [e]; simp
    obtain ⟨n, hn'⟩ := hx t f b hm
    have hnd : ¬ Done (final w.std (w.unit t).pool i) := fun h =>
      (hd.1 h).elim h1 fun ⟨c, hc⟩ => h2 c hc
    have ht := (unit_target hs hc hi b).2 (Or.inr ⟨h1, Or.inr ⟨h2, p, f, r, e, ‹_›⟩⟩)
    have := hv b ht hnd n ((bmi_iff w b n).2 hn')
    rw [final_name] at this
    rw [← this]
    exact hn'

theorem modules_ok {w : World} {k t : Nat} {L : List (Str × Nat)} (hs : w.Short)
    (ho : (w.unit t).Once) (h : modules w (k + 1) t = .ok L) :
    (∀ n, (w.unit t).Imports n → ∃ b, Chosen score w.std (w.unit t).pool n b) ∧
    (∀ n b, (w.unit t).Imports n → Chosen score w.std (w.unit t).pool n b →
      ∃ l, modules w k b = .ok l) ∧
    post w (fun b => value (modules w k b))
      ((importsOf (w.unit t)).map (final w.std (w.unit t).pool))
      (((importsOf (w.unit t)).map (final w.std (w.unit t).pool)).filterMap fun i =>
        i.target.map fun b => (i.name, b)) = .ok L := by
  unfold modules at h
  rcases unit_resolve t ho hs with ⟨h1, h2⟩ | ⟨_, h2 | h2⟩
  · rw [h2] at h
    simp only at h
    cases hf : failed (modules w k) (((importsOf (w.unit t)).map
        (final w.std (w.unit t).pool)).filterMap (·.target)) with
    | some e => rw [hf] at h; cases h
    | none =>
      rw [hf] at h
      refine ⟨h1, ?_, h⟩
      intro n b hn hb
      obtain ⟨i, hi, rfl⟩ := (imports_iff _ _).2 hn
      refine failed_none.1 hf b ?_
      rw [List.mem_filterMap]
      exact ⟨_, List.mem_map_of_mem hi, (unit_target hs h1 hi b).2 hb⟩
  · rw [h2] at h; cases h
  · rw [h2] at h; cases h

theorem direct_mem {w : World} {t : Nat} (hs : w.Short)
    (hc : ∀ n, (w.unit t).Imports n → ∃ b, Chosen score w.std (w.unit t).pool n b)
    (x : Str × Nat) :
    x ∈ (((importsOf (w.unit t)).map (final w.std (w.unit t).pool)).filterMap fun i =>
        i.target.map fun b => (i.name, b)) ↔
      (w.unit t).Imports x.1 ∧ Chosen score w.std (w.unit t).pool x.1 x.2 := by
  rw [List.mem_filterMap]
  constructor
  · rintro ⟨j, hj, h⟩
    obtain ⟨i, hi, rfl⟩ := List.mem_map.1 hj
    obtain ⟨b, hb, rfl⟩ := Option.map_eq_some_iff.1 h
    refine ⟨(imports_iff _ _).1 ⟨i, hi, (final_name _ _ _).symm⟩, ?_⟩
    show Chosen score w.std (w.unit t).pool (final w.std (w.unit t).pool i).name b
    rw [final_name]
    exact (unit_target hs hc hi b).1 hb
  · rintro ⟨h1, h2⟩
    obtain ⟨i, hi, e⟩ := (imports_iff _ _).2 h1
    rw [← e] at h2
    refine ⟨_, List.mem_map_of_mem hi, ?_⟩
    rw [(unit_target hs hc hi x.2).2 h2, final_name, e]
    rfl

theorem direct_nodup {w : World} {t : Nat} (ho : (w.unit t).Once) :
    ((((importsOf (w.unit t)).map (final w.std (w.unit t).pool)).filterMap fun i =>
        i.target.map fun b => (i.name, b)).map (·.1)).Nodup := by
  have h := imports_nodup ho
  rw [← map_names (importsOf (w.unit t)) (final w.std (w.unit t).pool)
    (final_name _ _)] at h
  generalize (importsOf (w.unit t)).map (final w.std (w.unit t).pool) = l at h
  refine List.Sublist.nodup ?_ h
  clear h
  induction l with
  | nil => simp
  | cons i l ih =>
    rw [List.filterMap_cons]
    cases i.target with
    | none => exact List.Sublist.cons _ ih
    | some b => exact List.Sublist.cons_cons _ ih

/-- What is in the list and what has to be. -/
theorem modules_spec {w : World} (hs : w.Short) (hh : w.Honest) (hx : w.Extracted)
    (ho : ∀ t, (w.unit t).Once) (k : Nat) : ∀ t L, modules w k t = .ok L →
    (∀ n b, (n, b) ∈ L → w.IsFor b n ∧ w.Needs t n) ∧
    (∀ n, (w.unit t).Imports n → ∃ b, Chosen score w.std (w.unit t).pool n b ∧ (n, b) ∈ L) ∧
    (L.map (·.1)).Nodup ∧
    (w.Unique → ∀ n, w.Needs t n → ∃ b, (n, b) ∈ L) := by
  induction k with
  | zero => intro t L h; cases h
  | succ k ih =>
    intro t L h
    obtain ⟨hc, hm, hp⟩ := modules_ok hs (ho t) h
    obtain ⟨p1, p2, p3, p4, p5⟩ := post_ok hp
    have hfor : ∀ n b, (w.unit t).Imports n → Chosen score w.std (w.unit t).pool n b →
        w.IsFor b n := by
      intro n b hn hb
      obtain ⟨i, hi, rfl⟩ := (imports_iff _ _).2 hn
      exact chosen_for hs hh hx hc hi (p1 _ (List.mem_map_of_mem hi)) hb
    refine ⟨?_, ?_, p5 (direct_nodup (ho t)), ?_⟩
    · intro n b hb
      rcases p3 _ hb with h | ⟨h1, j, hj, c, hjc, n', hn'⟩
      · obtain ⟨h1, h2⟩ := (direct_mem hs hc _).1 h
        exact ⟨hfor n b h1 h2, .direct h1⟩
      · have h1 : w.IsFor b n := (bmi_iff w b n).1 h1
        refine ⟨h1, ?_⟩
        obtain ⟨i, hi, rfl⟩ := List.mem_map.1 hj
        have hI := (imports_iff _ _).1 ⟨i, hi, rfl⟩
        have hC := (unit_target hs hc hi c).1 hjc
        obtain ⟨l, hl⟩ := hm _ _ hI hC
        rw [hl] at hn'
        obtain ⟨h2, h3⟩ := (ih c l hl).1 n' b hn'
        have e : n' = n := by
          have := h2.2
          rw [h1.2] at this
          injection this with e
          exact e.symm
        subst e
        exact .indirect hI (hfor _ _ hI hC) h3
    · intro n hn
      obtain ⟨b, hb⟩ := hc n hn
      exact ⟨b, hb, p2 _ ((direct_mem hs hc (n, b)).2 ⟨hn, hb⟩)⟩
    · intro hu n hn
      cases hn with
      | direct hn =>
        obtain ⟨b, hb⟩ := hc n hn
        exact ⟨b, p2 _ ((direct_mem hs hc (n, b)).2 ⟨hn, hb⟩)⟩
      | @indirect _ m b _ hI hb hn =>
        obtain ⟨c, hC⟩ := hc m hI
        have e : c = b := hu _ _ _ (hfor _ _ hI hC) hb
        subst e
        obtain ⟨i, hi, rfl⟩ := (imports_iff _ _).2 hI
        obtain ⟨l, hl⟩ := hm _ _ hI hC
        obtain ⟨d, hd⟩ := (ih c l hl).2.2.2 hu n hn
        refine p4 _ (List.mem_map_of_mem hi) c ((unit_target hs hc hi c).2 hC) n d n ?_ ?_
        · show (n, d) ∈ value (modules w k c)
          rw [hl]
          exact hd
        · exact (bmi_iff w d n).2 ((ih c l hl).1 n d hd).1

/-- Nothing goes wrong if there is what to import. -/
theorem modules_succeeds {w : World} (hs : w.Short) (ho : ∀ t, (w.unit t).Once)
    (rank : Nat → Nat)
    (hc : ∀ t n, (w.unit t).Imports n → ∃ b, Chosen score w.std (w.unit t).pool n b ∧
      w.IsFor b n ∧ rank b < rank t) (k : Nat) :
    ∀ t, rank t < k → ∃ L, modules w k t = .ok L := by
  induction k with
  | zero => intro t h; omega
  | succ k ih =>
    intro t ht
    unfold modules
    rcases unit_resolve t (ho t) hs with ⟨h1, h2⟩ | ⟨⟨n, hn, hnb⟩, _⟩
    · have hT : ∀ i ∈ importsOf (w.unit t), ∀ b,
          (final w.std (w.unit t).pool i).target = some b → w.IsFor b i.name ∧ rank b < rank t := by
        intro i hi b hb
        have hI := (imports_iff _ _).1 ⟨i, hi, rfl⟩
        obtain ⟨c, h3, h4, h5⟩ := hc t _ hI
        have := chosen_unique h3 ((unit_target hs h1 hi b).1 hb)
        subst this
        exact ⟨h4, h5⟩
      have hf : failed (modules w k) (((importsOf (w.unit t)).map
          (final w.std (w.unit t).pool)).filterMap (·.target)) = none := by
        rw [failed_none]
        intro b hb
        obtain ⟨j, hj, hb⟩ := List.mem_filterMap.1 hb
        obtain ⟨i, hi, rfl⟩ := List.mem_map.1 hj
        have := (hT i hi b hb).2
        exact ih b (by omega)
      rw [h2]
      simp only [hf]
      refine post_succeeds ?_ _
      intro j hj b hb _ n hn
      obtain ⟨i, hi, rfl⟩ := List.mem_map.1 hj
      have h3 := (hT i hi b hb).1
      have h4 := (bmi_iff w b n).1 hn
      rw [final_name]
      have := h3.2
      rw [h4.2] at this
      injection this
    · obtain ⟨b, hb, _⟩ := hc t n hn
      exact absurd ⟨b, hb⟩ hnb

/-- There is nothing that never ends in what has been built. -/
theorem modules_more {w : World} {k t : Nat} {L : List (Str × Nat)}
    (h : modules w k t = .ok L) : modules w (k + 1) t = .ok L := by
  induction k generalizing t L with
  | zero => cases h
  | succ k ih =>
    unfold modules at h ⊢
    cases hr : resolve w.std (w.unit t).pool (importsOf (w.unit t)) with
    | error e => rw [hr] at h; cases h
    | ok is =>
      rw [hr] at h
      simp only at h ⊢
      cases hf : failed (modules w k) (is.filterMap (·.target)) with
      | some e => rw [hf] at h; cases h
      | none =>
        rw [hf] at h
        have h1 := failed_none.1 hf
        have hf' : failed (modules w (k + 1)) (is.filterMap (·.target)) = none := by
          rw [failed_none]
          intro b hb
          obtain ⟨l, hl⟩ := h1 b hb
          exact ⟨l, ih hl⟩
        rw [hf']
        simp only at h ⊢
        rw [← h]
        have : ∀ is' l, (∀ i ∈ is', ∀ b, i.target = some b → b ∈ is.filterMap (·.target)) →
            post w (fun b => value (modules w (k + 1) b)) is' l =
              post w (fun b => value (modules w k b)) is' l := by
          intro is'
          induction is' with
          | nil => intro l _; rfl
          | cons i is' ih' =>
            intro l hb
            have hb' := fun l => ih' l fun j hj => hb j (List.mem_cons_of_mem _ hj)
            unfold post
            cases ht : i.target with
            | none => exact hb' l
            | some b =>
              obtain ⟨l', hl'⟩ := h1 b (hb i (List.mem_cons_self ..) b ht)
              simp only [hl', ih hl']
              rw [hb']
        refine this is _ fun i hi b hb => ?_
        rw [List.mem_filterMap]
        exact ⟨i, hi, hb⟩

end Verif.ModMap
