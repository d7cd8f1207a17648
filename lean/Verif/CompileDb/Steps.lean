import Verif.CompileDb.Lemmas
/-!
# The compilation database: the invariant is kept
-/

namespace Verif.CompileDb

variable {O C : Type} [DecidableEq O] [DecidableEq C] {F : Format O C}

theorem step_edit {w : World O C} (hi : Inv F w) (f : O → C) (hp : Protocol w (.edit f)) :
    ∃ w', step F w (.edit f) = .ok w' ∧ Inv F w' := by
  refine ⟨_, rfl, ?_⟩
  obtain ⟨disk, hd, hs⟩ := hi
  have hc : w.cdb.state = .closed := hp
  refine ⟨disk, hd, ?_⟩
  rw [hc] at hs
  simp only [hc]
  exact hs

theorem step_forget {w : World O C} (hi : Inv F w) (o : O) (hp : Protocol w (.forget o)) :
    ∃ w', step F w (.forget o) = .ok w' ∧ Inv F w' := by
  refine ⟨_, rfl, ?_⟩
  obtain ⟨disk, hd, hs⟩ := hi
  have hc : w.cdb.state = .closed := hp
  refine ⟨disk, hd, ?_⟩
  rw [hc] at hs
  simp only [hc]
  obtain ⟨h1, h2, h3, h4, h5, h6, h7⟩ := hs
  refine ⟨h1, h2, h3, h4, h5, h6, fun x j hj c hx => ?_⟩
  simp only at hx
  by_cases h : x = o
  · rw [if_pos h] at hx; cases hx
  · rw [if_neg h] at hx
    exact h7 x j hj c hx

theorem step_start {w : World O C} (hi : Inv F w) (hu : Uninterrupted w .start) :
    ∃ w', step F w .start = .ok w' ∧ Inv F w' := by
  refine ⟨_, rfl, ?_⟩
  obtain ⟨disk, hd, hs⟩ := hi
  have ho : w.owed = [] := hu
  refine ⟨disk, hd, rfl, rfl, rfl, rfl, rfl, rfl, ?_⟩
  show Consistent F w disk
  cases hst : w.cdb.state with
  | closed => rw [hst] at hs; exact hs.2.2.2.2.2.2
  | failed => rw [hst] at hs; exact hs
  | «open» => rw [hst] at hs; exact consistent_of_open hs.2.2.1 ho

theorem step_pre {w : World O C} (hi : Inv F w) (hp : Protocol w .pre) :
    ∃ w', step F w .pre = .ok w' ∧ Inv F w' := by
  obtain ⟨disk, hd, hs⟩ := hi
  have hf : w.cdb.state ≠ .failed := hp
  rw [step]
  unfold pre
  rw [if_neg hf]
  by_cases hn : w.cdb.nesting ≠ 0
  · rw [if_pos hn]
    refine ⟨_, rfl, disk, hd, ?_⟩
    cases hst : w.cdb.state with
    | failed => exact absurd hst hf
    | closed => rw [hst] at hs; exact absurd hs.2.1 hn
    | «open» =>
      rw [hst] at hs
      obtain ⟨h1, h2, h3, h4, h5, h6⟩ := hs
      exact ⟨h1, h2, h3, h4, fun h => absurd h (by simp), h6⟩
  · rw [if_neg hn]
    simp only
    cases hst : w.cdb.state with
    | failed => exact absurd hst hf
    | «open» =>
      rw [if_neg (by simp)]
      refine ⟨_, rfl, disk, hd, ?_⟩
      rw [hst] at hs
      simp only
      obtain ⟨h1, h2, h3, h4, h5, h6⟩ := hs
      exact ⟨h1, h2, h3, h4, fun h => absurd h (by simp), h6⟩
    | closed =>
      rw [hst] at hs
      obtain ⟨h1, h2, h3, h4, h5, h6, h7⟩ := hs
      rw [if_pos rfl]
      have hok : ∀ (x : World O C), x.cdb.file = w.cdb.file → x.seen = [] → x.owed = [] →
          x.forced = [] → x.done = [] → x.dep = w.dep →
          x.cdb.db = disk.map (fun e => (e.1, (⟨.absent, e.2⟩ : Entry))) →
          x.cdb.absent = x.cdb.db.length → x.cdb.changed = false → x.cdb.state = .open →
          x.cdb.nesting ≠ 0 → Inv F x := by
        intro x e1 e2 e3 e4 e11 e5 e6 e7 e8 e9 e10
        refine ⟨disk, ?_, ?_⟩
        · unfold Disk at hd ⊢
          rw [e1]
          exact hd
        · rw [e9]
          refine ⟨?_, ?_, ?_, ?_, fun h => absurd h e10, by rw [e11]; simp⟩
          · rw [e6, List.map_map]
            exact hd.2.1
          · rw [e7, e6]
            unfold cnt
            rw [List.countP_eq_length.mpr]
            intro y hy
            obtain ⟨z, -, rfl⟩ := List.mem_map.mp hy
            simp
          · intro o
            rw [e6, find_loaded]
            cases hl : look disk o with
            | none =>
              refine ⟨hl, ?_, ?_, ?_⟩
              · rw [e2]; simp
              · rw [e4]; simp
              · rw [e3]; simp
            | some j =>
              refine ⟨hl, ?_, ?_, ?_, ?_⟩
              · rw [e2]; simp
              · rw [e4]; simp
              · rw [e3]; simp
              · intro c hc
                rw [e5] at hc
                exact h7 o j hl c hc
          · rw [e8]; simp
      rcases hd.1 with ⟨d1, d2⟩ | d1
      · rw [d1]
        simp only
        refine ⟨_, rfl, hok _ ?_ h3 h4 h5 h6 rfl ?_ rfl rfl rfl (by simp)⟩
        · exact d1.symm
        · rw [d2]; exact h1
      · rw [d1]
        simp only
        rw [load_rendered F disk hd.2]
        simp only
        exact ⟨_, rfl, hok _ (by simp only [d1]) h3 h4 h5 h6 rfl rfl rfl rfl rfl (by simp)⟩

omit [DecidableEq C] in
/-- What a check does not change for the others. -/
theorem check_others {w x : World O C} {disk : List (O × Line)} {o y : O} {e : Option Entry}
    (hy : y ≠ o) (e1 : x.want = w.want)
    (e2 : x.dep = fun z => if z = o then some (w.want o) else w.dep z)
    (e3 : x.seen = o :: w.seen) (e4 : x.owed = w.owed ∨ x.owed = o :: w.owed)
    (e5 : x.forced = w.forced ∨ x.forced = o :: w.forced) (e6 : x.done = w.done)
    (e7 : w.cdb.changed = true → x.cdb.changed = true) (he : EntryOk F w disk y e) :
    EntryOk F x disk y e := by
  have i1 : x.dep y = w.dep y := by rw [e2]; simp [hy]
  have i2 : y ∈ x.seen ↔ y ∈ w.seen := by rw [e3]; simp [hy]
  have i3 : y ∈ x.owed ↔ y ∈ w.owed := by
    rcases e4 with h | h <;> rw [h] <;> simp [hy]
  have i4 : y ∈ x.forced ↔ y ∈ w.forced := by
    rcases e5 with h | h <;> rw [h] <;> simp [hy]
  cases e with
  | none => simpa only [EntryOk, i2, i3, i4] using he
  | some e =>
    obtain ⟨st, j⟩ := e
    cases st with
    | absent => simpa only [EntryOk, i1, i2, i3, i4] using he
    | present => simpa only [EntryOk, i1, i2, i3, i4, e1] using he
    | changed =>
      simp only [EntryOk, i1, i2, i3, i4, e1, e6] at he ⊢
      exact ⟨he.1, he.2.1, e7 he.2.2.1, he.2.2.2⟩
    | missing =>
      simp only [EntryOk, i1, i2, i4, e1, e6] at he ⊢
      exact ⟨he.1, he.2.1, he.2.2.1, he.2.2.2.1, he.2.2.2.2.1, e7 he.2.2.2.2.2⟩

omit [DecidableEq O] in
theorem dec_owed (b : Prop) [Decidable b] (o : O) (l : List O) :
    (if decide b = true then o :: l else l) = l ∨
    (if decide b = true then o :: l else l) = o :: l := by
  by_cases h : b
  · exact Or.inr (by simp [h])
  · exact Or.inl (by simp [h])

theorem step_check {w : World O C} (hi : Inv F w) (o : O) (hp : Protocol w (.check o)) :
    ∃ w', step F w (.check o) = .ok w' ∧ Inv F w' := by
  obtain ⟨disk, hd, hs⟩ := hi
  obtain ⟨hst, hn, hfd⟩ := hp
  rw [hst] at hs
  obtain ⟨h1, h2, h3, h4, h5, h6⟩ := hs
  have ho := h3 o
  rw [step]
  unfold «match»
  rw [hst]
  simp only
  cases hf : find w.cdb.db o with
  | none =>
    rw [hf] at ho
    refine ⟨_, rfl, disk, hd, ?_⟩
    simp only
    refine ⟨?_, ?_, ?_, ?_, fun h => absurd h hn, fun y hy => List.mem_cons_of_mem _ (h6 y hy)⟩
    · rw [List.map_append, List.nodup_append]
      refine ⟨h1, by simp, ?_⟩
      intro a ha b hb
      simp at hb
      rintro rfl
      rw [hb] at ha
      exact (find_none_iff _ _).mp hf ha
    · rw [cnt_concat]
      exact h2
    · intro y
      rw [find_concat _ _ _ hf]
      by_cases hy : y = o
      · subst hy
        rw [if_pos rfl]
        exact ⟨by simp, by simp, fun h => ho.2.1 (h6 y h), ho.1, by simp, rfl⟩
      · rw [if_neg hy]
        exact check_others (w := w) hy rfl rfl rfl (dec_owed _ _ _) (Or.inr (if_pos (c := True) (e := w.forced) trivial)) rfl (fun _ => rfl)
          (h3 y)
    · intro _
      exact Or.inr (by simp)
  | some e =>
    obtain ⟨st, j⟩ := e
    rw [hf] at ho
    cases st with
    | present =>
      obtain ⟨g1, g2, g3, g4, g5, g6⟩ := ho
      simp only [g5, ne_eq, not_true, decide_false, Bool.false_eq_true, if_false]
      refine ⟨_, rfl, disk, hd, ?_⟩
      simp only [hst]
      refine ⟨h1, h2, fun y => ?_, h4, fun h => absurd h hn,
        fun y hy => List.mem_cons_of_mem _ (h6 y hy)⟩
      by_cases hy : y = o
      · subst hy
        rw [hf]
        exact ⟨g1, by simp, g3, g4, by simp, g6⟩
      · exact check_others (w := w) hy rfl rfl rfl (Or.inl rfl) (Or.inl rfl) rfl id (h3 y)
    | changed =>
      obtain ⟨g1, g2, g3, g4⟩ := ho
      simp only [g2, ne_eq, not_true, decide_false, Bool.false_eq_true, if_false]
      refine ⟨_, rfl, disk, hd, ?_⟩
      simp only [hst]
      refine ⟨h1, h2, fun y => ?_, h4, fun h => absurd h hn,
        fun y hy => List.mem_cons_of_mem _ (h6 y hy)⟩
      by_cases hy : y = o
      · subst hy
        rw [hf]
        exact ⟨by simp, by simp, g3, g4⟩
      · exact check_others (w := w) hy rfl rfl rfl (Or.inl rfl) (Or.inl rfl) rfl id (h3 y)
    | missing =>
      obtain ⟨-, g1, g2, -⟩ := ho
      exact absurd (hfd g1) g2
    | absent =>
      obtain ⟨g1, g2, g3, g4, g5⟩ := ho
      have hcnt := cnt_upd h1 hf
      have hone : one (⟨.absent, j⟩ : Entry) = 1 := rfl
      simp only [Bool.false_eq_true, if_false]
      refine ⟨_, rfl, disk, hd, ?_⟩
      simp only
      refine ⟨?_, ?_, fun y => ?_, ?_, fun h => absurd h hn,
        fun y hy => List.mem_cons_of_mem _ (h6 y hy)⟩
      · rw [keys_upd]; exact h1
      · have := hcnt ⟨if decide (w.dep o ≠ some (w.want o)) = true then .changed else .present, j⟩
        have hz : one (⟨if decide (w.dep o ≠ some (w.want o)) = true then .changed else .present,
            j⟩ : Entry) = 0 := by
          by_cases hc : w.dep o = some (w.want o) <;> simp [one, hc]
        rw [hone, hz] at this
        show w.cdb.absent - 1 = cnt (upd w.cdb.db o ⟨_, j⟩)
        omega
      · rw [find_upd]
        by_cases hy : y = o
        · subst hy
          rw [if_pos rfl, hf, Option.map_some]
          by_cases hc : w.dep y = some (w.want y)
          · simp only [hc, ne_eq, not_true, decide_false, Bool.false_eq_true, if_false]
            exact ⟨g1, by simp, g3, g4, by simp, g5 _ hc⟩
          · simp only [hc, ne_eq, not_false_eq_true, decide_true, if_true]
            exact ⟨by simp, by simp, by simp, Or.inr ⟨fun h => g2 (h6 y h), by simp, g3, g1⟩⟩
        · rw [if_neg hy]
          refine check_others (w := w) hy rfl rfl rfl (dec_owed _ _ _) (Or.inl rfl) rfl ?_ (h3 y)
          intro h
          simp [h]
      · intro h
        rw [Bool.or_eq_true] at h
        rcases h with h | h
        · rcases h4 h with h | h
          · left
            split
            · simp
            · exact h
          · exact Or.inr h
        · left
          by_cases hc : w.dep o = some (w.want o)
          · simp [hc] at h
          · simp [hc]

theorem step_compile {w : World O C} (hi : Inv F w) (o : O) (hp : Protocol w (.compile o)) :
    ∃ w', step F w (.compile o) = .ok w' ∧ Inv F w' := by
  obtain ⟨disk, hd, hs⟩ := hi
  obtain ⟨hst, hn, hseen⟩ := hp
  rw [hst] at hs
  obtain ⟨h1, h2, h3, h4, h5, h6⟩ := hs
  have ho := h3 o
  rw [step]
  unfold execute
  rw [hst]
  simp only
  have hdone : ∀ y ∈ o :: w.done, y ∈ w.seen := by
    intro y hy
    rcases List.mem_cons.mp hy with rfl | hy
    · exact hseen
    · exact h6 y hy
  -- The others.
  have others : ∀ (x : World O C) (y : O) (e : Option Entry), y ≠ o → x.want = w.want →
      x.dep = w.dep → x.seen = w.seen → x.owed = w.owed → x.forced = w.forced →
      x.done = o :: w.done → x.cdb.changed = w.cdb.changed → EntryOk F w disk y e →
      EntryOk F x disk y e := by
    intro x y e hy e1 e2 e3 e4 e5 e6 e7 he
    have i : y ∈ x.done ↔ y ∈ w.done := by rw [e6]; simp [hy]
    cases e with
    | none => simpa only [EntryOk, e3, e4, e5] using he
    | some e =>
      obtain ⟨st, j⟩ := e
      cases st <;> simpa only [EntryOk, e1, e2, e3, e4, e5, e7, i] using he
  cases hf : find w.cdb.db o with
  | none => rw [hf] at ho; exact absurd hseen ho.2.1
  | some e =>
    obtain ⟨st, j⟩ := e
    rw [hf] at ho
    cases st with
    | absent => exact absurd hseen ho.2.1
    | present =>
      simp only
      refine ⟨_, rfl, disk, hd, ?_⟩
      simp only [hst]
      refine ⟨h1, h2, fun y => ?_, h4, fun h => absurd h hn, hdone⟩
      by_cases hy : y = o
      · subst hy
        rw [hf]
        exact ho
      · exact others _ y _ hy rfl rfl rfl rfl rfl rfl rfl (h3 y)
    | changed =>
      simp only
      refine ⟨_, rfl, disk, hd, ?_⟩
      simp only
      obtain ⟨g1, g2, g3, g4⟩ := ho
      refine ⟨by rw [keys_upd]; exact h1, ?_, fun y => ?_, h4, fun h => absurd h hn, hdone⟩
      · have := cnt_upd h1 hf ⟨.changed, F.js o (w.want o)⟩
        have z : one (⟨.changed, F.js o (w.want o)⟩ : Entry) = 0 := rfl
        have z' : one (⟨.changed, j⟩ : Entry) = 0 := rfl
        rw [z, z'] at this
        exact h2.trans this.symm
      · rw [find_upd]
        by_cases hy : y = o
        · subst hy
          rw [if_pos rfl, hf]
          refine ⟨g1, g2, g3, Or.inl ⟨by simp, rfl, ?_⟩⟩
          rcases g4 with ⟨-, -, h⟩ | ⟨-, h, -⟩
          · exact h
          · exact Or.inl h
        · rw [if_neg hy]
          exact others _ y _ hy rfl rfl rfl rfl rfl rfl rfl (h3 y)
    | missing =>
      simp only
      refine ⟨_, rfl, disk, hd, ?_⟩
      simp only
      obtain ⟨g1, g2, g3, g4, g5, g6⟩ := ho
      refine ⟨by rw [keys_upd]; exact h1, ?_, fun y => ?_, h4, fun h => absurd h hn, hdone⟩
      · have := cnt_upd h1 hf ⟨.changed, F.js o (w.want o)⟩
        have z : one (⟨.changed, F.js o (w.want o)⟩ : Entry) = 0 := rfl
        have z' : one (⟨.missing, j⟩ : Entry) = 0 := rfl
        rw [z, z'] at this
        exact h2.trans this.symm
      · rw [find_upd]
        by_cases hy : y = o
        · subst hy
          rw [if_pos rfl, hf]
          exact ⟨g1, g5, g6, Or.inl ⟨by simp, rfl, Or.inr g4⟩⟩
        · rw [if_neg hy]
          exact others _ y _ hy rfl rfl rfl rfl rfl rfl rfl (h3 y)

end Verif.CompileDb
