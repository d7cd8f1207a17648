import Verif.CompileDb.Steps
/-!
# The compilation database: the end of an update
-/

namespace Verif.CompileDb

variable {O C : Type} [DecidableEq O] [DecidableEq C] {F : Format O C}

/-- The line of an output after the end of an update. -/
def Result (F : Format O C) (w : World O C) (p : Post O) (disk disk' : List (O × Line)) : Prop :=
  ∀ o,
    (o ∈ w.seen → (o ∈ w.forced → o ∈ w.done) → look disk' o = some (F.js o (w.want o))) ∧
    (o ∈ w.seen → ¬ (o ∈ w.forced → o ∈ w.done) → look disk o = none ∧ look disk' o = none) ∧
    (o ∉ w.seen → p.Removes o → look disk' o = none) ∧
    (o ∉ w.seen → ¬ p.Removes o → look disk' o = look disk o)

omit [DecidableEq O] in
theorem pruned_iff {p : Post O} {n : Nat} {o : O} {e : Entry} :
    pruned p n (o, e) = true ↔ p.Removes o ∧ n ≠ 0 ∧ e.status = .absent := by
  unfold pruned Post.Removes
  cases p.failed <;> cases p.nested <;> cases p.outer <;> cases p.inDirs o <;>
    simp [Bool.and_eq_true, and_comm]

/-- What an entry becomes, if it stays. -/
def keep (p : Post O) (n : Nat) (o : O) (e : Entry) : Option Entry :=
  if !pruned p n (o, e) then some e else none

theorem step_post {w : World O C} (p : Post O) (hi : Inv F w) (hp : Protocol w (.post p))
    (hu : Uninterrupted w (.post p)) :
    ∃ w', step F w (.post p) = .ok w' ∧ Inv F w' ∧
      (w.cdb.nesting ≠ 1 → w'.cdb.file = w.cdb.file ∧ w'.cdb.writes = w.cdb.writes) ∧
      (w.cdb.nesting = 1 → ∃ disk disk', Disk F w disk ∧ Disk F w' disk' ∧
        Result F w p disk disk' ∧
        (w.owed = [] → w.forced = [] →
          (∀ o, look disk o ≠ none → o ∉ w.seen → ¬ p.Removes o) →
          w'.cdb.file = w.cdb.file ∧ w'.cdb.writes = w.cdb.writes)) := by
  obtain ⟨disk, hd, hs⟩ := hi
  obtain ⟨hst, hn, hfd⟩ := hp
  rw [hst] at hs
  obtain ⟨h1, h2, h3, h4, h5, h6⟩ := hs
  rw [step]
  unfold post
  rw [if_neg hn]
  by_cases hn1 : w.cdb.nesting = 1
  · have hod : ∀ o ∈ w.owed, o ∈ w.done := hu hn1
    have hz : w.cdb.nesting - 1 = 0 := by omega
    rw [if_neg (fun h => h hz)]
    simp only [hst]
    -- The entries that stay.
    have hK : ∀ o, find (w.cdb.db.filter fun x => !pruned p w.cdb.absent x) o =
        (find w.cdb.db o).bind (keep p w.cdb.absent o) := by
      intro o
      rw [find_filter _ h1]
      rfl
    have hKn : ((w.cdb.db.filter fun x => !pruned p w.cdb.absent x).map (·.1)).Nodup :=
      h1.sublist (List.filter_sublist.map _)
    have hKc := cnt_filter w.cdb.db (pruned p w.cdb.absent)
      (fun x hx => by obtain ⟨o, e⟩ := x; exact (pruned_iff.mp hx).2.2)
    have hKl : (w.cdb.db.filter fun x => !pruned p w.cdb.absent x).length ≤ w.cdb.db.length :=
      List.length_filter_le _ _
    have hab : ∀ o j, find w.cdb.db o = some ⟨.absent, j⟩ → w.cdb.absent ≠ 0 := by
      intro o j hf h0
      rw [h0] at h2
      exact cnt_zero h2.symm (mem_of_find hf) rfl
    generalize hKd : (w.cdb.db.filter fun x => !pruned p w.cdb.absent x) = K at *
    -- No assertion fails.
    have hmiss : ¬ ((!(p.failed || false) && K.any fun x => decide (x.2.status = .missing)) =
        true) := by
      intro h
      rw [Bool.and_eq_true] at h
      obtain ⟨ha, hb⟩ := h
      have hpf : p.failed = false := by
        cases hpf : p.failed
        · rfl
        · rw [hpf] at ha; cases ha
      rw [List.any_eq_true] at hb
      obtain ⟨x, hx, hxm⟩ := hb
      have hfx := find_mem hKn hx
      rw [hK] at hfx
      have hox := h3 x.1
      cases hf : find w.cdb.db x.1 with
      | none => rw [hf] at hfx; cases hfx
      | some e =>
        rw [hf, Option.bind_some] at hfx
        have he : e = x.2 := by
          unfold keep at hfx
          split at hfx
          · injection hfx
          · cases hfx
        rw [hf, he] at hox
        obtain ⟨o, st, j⟩ := x
        simp only [decide_eq_true_eq] at hxm
        subst hxm
        obtain ⟨-, g1, g2, -⟩ := hox
        exact g2 (hfd hn1 hpf o g1)
    rw [if_neg hmiss]
    simp only [if_pos hn1]
    -- The new file.
    have hlook : ∀ o, look ((K.filter fun x => x.2.status ≠ .missing).map
        fun x => (x.1, x.2.json)) o =
        (((find w.cdb.db o).bind (keep p w.cdb.absent o)).bind
          fun e => if decide (e.status ≠ .missing) then some e else none).map Entry.json := by
      intro o
      rw [look_map, find_filter _ hKn, hK]
    have hres : Result F w p disk ((K.filter fun x => x.2.status ≠ .missing).map
        fun x => (x.1, x.2.json)) := by
      intro o
      have ho := h3 o
      rw [hlook o]
      cases hf : find w.cdb.db o with
      | none =>
        rw [hf] at ho
        obtain ⟨g1, g2, -, -⟩ := ho
        exact ⟨fun h => absurd h g2, fun h => absurd h g2, fun _ _ => rfl, fun _ _ => g1.symm⟩
      | some e =>
        obtain ⟨st, j⟩ := e
        rw [hf] at ho
        rw [Option.bind_some]
        cases st with
        | absent =>
          obtain ⟨g1, g2, g3, g4, g5⟩ := ho
          refine ⟨fun h => absurd h g2, fun h => absurd h g2, fun _ hr => ?_, fun _ hr => ?_⟩
          · have : pruned p w.cdb.absent (o, ⟨.absent, j⟩) = true :=
              pruned_iff.mpr ⟨hr, hab o j hf, rfl⟩
            simp [keep, this]
          · have : pruned p w.cdb.absent (o, ⟨.absent, j⟩) = false := by
              rw [Bool.eq_false_iff]
              exact fun h => hr (pruned_iff.mp h).1
            rw [g1]
            simp [keep, this]
        | present =>
          obtain ⟨g1, g2, g3, g4, g5, g6⟩ := ho
          have : pruned p w.cdb.absent (o, ⟨.present, j⟩) = false := by
            rw [Bool.eq_false_iff]
            exact fun h => by have := (pruned_iff.mp h).2.2; cases this
          refine ⟨fun _ _ => ?_, fun _ h => absurd (fun hf => absurd hf g3) h,
            fun h => absurd g2 h, fun h => absurd g2 h⟩
          rw [← g6]
          simp [keep, this]
        | changed =>
          obtain ⟨g1, g2, g3, g4⟩ := ho
          have : pruned p w.cdb.absent (o, ⟨.changed, j⟩) = false := by
            rw [Bool.eq_false_iff]
            exact fun h => by have := (pruned_iff.mp h).2.2; cases this
          rcases g4 with ⟨g4, g5, -⟩ | ⟨g4, g5, -⟩
          · refine ⟨fun _ _ => ?_, fun _ h => absurd (fun _ => g4) h,
              fun h => absurd g1 h, fun h => absurd g1 h⟩
            rw [← g5]
            simp [keep, this]
          · exact absurd (hod o g5) g4
        | missing =>
          obtain ⟨g1, g2, g3, g4, g5, g6⟩ := ho
          have hk : ((keep p w.cdb.absent o ⟨.missing, j⟩).bind fun e =>
              if decide (e.status ≠ .missing) then some e else none) = none := by
            unfold keep
            split <;> simp
          refine ⟨fun _ h => absurd (h g2) g3, fun _ _ => ⟨g4, ?_⟩,
            fun h => absurd g1 h, fun h => absurd g1 h⟩
          rw [hk]
          rfl
    have hwr : Written F ((K.filter fun x => x.2.status ≠ .missing).map
        fun x => (x.1, x.2.json)) := by
      constructor
      · rw [List.map_map]
        exact hKn.sublist (List.filter_sublist.map _)
      · intro e he
        obtain ⟨x, hx, rfl⟩ := List.mem_map.mp he
        rw [List.mem_filter] at hx
        have hfx := find_mem hKn hx.1
        rw [hK] at hfx
        have hox := h3 x.1
        cases hf : find w.cdb.db x.1 with
        | none => rw [hf] at hfx; cases hfx
        | some e =>
          rw [hf, Option.bind_some] at hfx
          have he : e = x.2 := by
            unfold keep at hfx
            split at hfx
            · injection hfx
            · cases hfx
          rw [hf, he] at hox
          obtain ⟨o, st, j⟩ := x
          cases st with
          | absent => exact hd.2.2 _ (look_mem hox.1)
          | present => exact ⟨_, hox.2.2.2.2.2⟩
          | changed =>
            rcases hox.2.2.2 with ⟨-, g, -⟩ | ⟨g, g', -⟩
            · exact ⟨_, g⟩
            · exact absurd (hod o g') g
          | missing => simp at hx
    -- The file, rewritten or not.
    have hdisk : ∃ disk', (((if (w.cdb.changed || decide (w.cdb.db.length - K.length ≠ 0)) = true
          then some (render ((K.filter fun x => x.2.status ≠ .missing).map
            fun x => (x.1, x.2.json))) else w.cdb.file) = none ∧ disk' = []) ∨
          (if (w.cdb.changed || decide (w.cdb.db.length - K.length ≠ 0)) = true
          then some (render ((K.filter fun x => x.2.status ≠ .missing).map
            fun x => (x.1, x.2.json))) else w.cdb.file) = some (render disk')) ∧
        Written F disk' ∧ Result F w p disk disk' := by
      by_cases hch : (w.cdb.changed || decide (w.cdb.db.length - K.length ≠ 0)) = true
      · rw [if_pos hch]
        exact ⟨_, Or.inr rfl, hwr, hres⟩
      · rw [if_neg hch]
        refine ⟨disk, hd.1, hd.2, fun o => ?_⟩
        rw [Bool.or_eq_true] at hch
        have hc0 : w.cdb.changed = false := by
          rw [Bool.eq_false_iff]
          exact fun h => hch (Or.inl h)
        have hlen : K.length = w.cdb.db.length := by
          have : ¬ (decide (w.cdb.db.length - K.length ≠ 0)) = true := fun h => hch (Or.inr h)
          simp only [decide_eq_true_eq] at this
          omega
        have hall : ∀ x ∈ w.cdb.db, (!pruned p w.cdb.absent x) = true := by
          rw [← hKd] at hlen
          exact List.length_filter_eq_length_iff.mp hlen
        have ho := h3 o
        cases hf : find w.cdb.db o with
        | none =>
          rw [hf] at ho
          obtain ⟨g1, g2, -, -⟩ := ho
          exact ⟨fun h => absurd h g2, fun h => absurd h g2, fun _ _ => g1, fun _ _ => rfl⟩
        | some e =>
          obtain ⟨st, j⟩ := e
          rw [hf] at ho
          cases st with
          | absent =>
            obtain ⟨g1, g2, g3, g4, g5⟩ := ho
            refine ⟨fun h => absurd h g2, fun h => absurd h g2, fun _ hr => ?_, fun _ hr => rfl⟩
            have := hall _ (mem_of_find hf)
            rw [pruned_iff.mpr ⟨hr, hab o j hf, rfl⟩] at this
            cases this
          | present =>
            obtain ⟨g1, g2, g3, g4, g5, g6⟩ := ho
            refine ⟨fun _ _ => ?_, fun _ h => absurd (fun hf => absurd hf g3) h,
              fun h => absurd g2 h, fun h => absurd g2 h⟩
            rw [g1, g6]
          | changed => exact absurd (hc0.symm.trans ho.2.2.1) (by simp)
          | missing => exact absurd (hc0.symm.trans ho.2.2.2.2.2) (by simp)
    obtain ⟨disk', hdf, hdw, hdr⟩ := hdisk
    refine ⟨_, rfl, ⟨disk', ⟨hdf, hdw⟩, ?_⟩, fun h => absurd hn1 h,
      fun _ => ⟨disk, disk', hd, ⟨hdf, hdw⟩, hdr, ?_⟩⟩
    · simp only
      cases hpf : p.failed with
      | true =>
        simp only [if_true]
        show Consistent F _ disk'
        intro o j hj c hc
        simp only at hc
        obtain ⟨r1, r2, r3, r4⟩ := hdr o
        have ho := h3 o
        by_cases hseen : o ∈ w.seen
        · by_cases hfo : o ∈ w.forced → o ∈ w.done
          · rw [r1 hseen hfo] at hj
            injection hj with hj
            have hdep : w.dep o = some (w.want o) := by
              cases hf : find w.cdb.db o with
              | none => rw [hf] at ho; exact absurd hseen ho.2.1
              | some e =>
                obtain ⟨st, j⟩ := e
                rw [hf] at ho
                cases st with
                | absent => exact absurd hseen ho.2.1
                | present => exact ho.2.2.2.2.1
                | changed => exact ho.2.1
                | missing => exact ho.2.2.2.2.1
            rw [hdep] at hc
            injection hc with hc
            rw [← hj, hc]
          · rw [(r2 hseen hfo).2] at hj
            cases hj
        · have hnr : ¬ p.Removes o := fun h => by rw [h.1] at hpf; cases hpf
          rw [r4 hseen hnr] at hj
          cases hf : find w.cdb.db o with
          | none => rw [hf] at ho; rw [ho.1] at hj; cases hj
          | some e =>
            obtain ⟨st, j⟩ := e
            rw [hf] at ho
            cases st with
            | absent =>
              rw [ho.1] at hj
              injection hj with hj
              rw [← hj]
              exact ho.2.2.2.2 c hc
            | present => exact absurd ho.2.1 hseen
            | changed => exact absurd ho.1 hseen
            | missing => exact absurd ho.1 hseen
      | false =>
        simp only [Bool.false_eq_true, if_false]
        refine ⟨?_, ?_, fun o => ?_, fun h => by (cases h), fun _ => ⟨rfl, rfl, rfl⟩,
          fun o h => by (cases h)⟩
        · rw [List.map_map]
          exact hKn
        · rw [cnt_settle]
          simp only
          have : w.cdb.absent - (w.cdb.db.length - K.length) = cnt K := by omega
          rw [this]
        · simp only
          rw [find_map, hK]
          obtain ⟨r1, r2, r3, r4⟩ := hdr o
          have ho := h3 o
          have hseen' : o ∉ w.seen →
              o ∉ (if (p.nested || p.duringLoad) = true then w.seen else []) := by
            intro h
            split
            · exact h
            · simp
          cases hf : find w.cdb.db o with
          | none =>
            rw [hf] at ho
            refine ⟨?_, hseen' ho.2.1, by simp, by simp⟩
            by_cases hr : p.Removes o
            · exact r3 ho.2.1 hr
            · rw [r4 ho.2.1 hr]; exact ho.1
          | some e =>
            obtain ⟨st, j⟩ := e
            rw [hf] at ho
            rw [Option.bind_some]
            have hnp : st ≠ .absent → keep p w.cdb.absent o ⟨st, j⟩ = some ⟨st, j⟩ := by
              intro h
              unfold keep
              rw [if_pos]
              rw [Bool.not_eq_true', Bool.eq_false_iff]
              exact fun hp => h (pruned_iff.mp hp).2.2
            have hset : ∀ st', st' = .present ∨ st' = .changed → o ∈ w.seen →
                look disk' o = some j → w.dep o = some (w.want o) → j = F.js o (w.want o) →
                ∀ x : World O C, x.want = w.want → x.dep = w.dep →
                x.seen = (if (p.nested || p.duringLoad) = true then w.seen else []) →
                x.owed = [] → x.forced = [] →
                EntryOk F x disk' o (some (settle p ⟨st', j⟩)) := by
              intro st' hst' q1 q2 q3 q4 x x1 x2 x3 x4 x5
              have hse : settle p ⟨st', j⟩ =
                  ⟨if (p.nested || p.duringLoad) = true then .present else .absent, j⟩ := by
                rcases hst' with rfl | rfl <;> rfl
              rw [hse]
              by_cases hb : (p.nested || p.duringLoad) = true
              · simp only [if_pos hb] at x3 ⊢
                refine ⟨q2, by rw [x3]; exact q1, by rw [x5]; simp, by rw [x4]; simp, ?_, ?_⟩
                · rw [x2, x1]; exact q3
                · rw [x1]; exact q4
              · simp only [if_neg hb] at x3 ⊢
                refine ⟨q2, by rw [x3]; simp, by rw [x5]; simp, by rw [x4]; simp, ?_⟩
                intro c hc
                rw [x2, q3] at hc
                injection hc with hc
                rw [← hc]
                exact q4
            cases st with
            | absent =>
              by_cases hr : p.Removes o
              · have hk : keep p w.cdb.absent o ⟨.absent, j⟩ = none := by
                  unfold keep
                  rw [pruned_iff.mpr ⟨hr, hab o j hf, rfl⟩]
                  rfl
                rw [hk]
                exact ⟨r3 ho.2.1 hr, hseen' ho.2.1, by simp, by simp⟩
              · have hk : keep p w.cdb.absent o ⟨.absent, j⟩ = some ⟨.absent, j⟩ := by
                  unfold keep
                  rw [if_pos]
                  rw [Bool.not_eq_true', Bool.eq_false_iff]
                  exact fun h => hr (pruned_iff.mp h).1
                rw [hk]
                refine ⟨?_, hseen' ho.2.1, by simp, by simp, ho.2.2.2.2⟩
                rw [r4 ho.2.1 hr]
                exact ho.1
            | present =>
              rw [hnp (by simp)]
              refine hset .present (Or.inl rfl) ho.2.1 ?_ ho.2.2.2.2.1 ho.2.2.2.2.2 _ rfl rfl rfl
                rfl rfl
              rw [r1 ho.2.1 (fun h => absurd h ho.2.2.1), ho.2.2.2.2.2]
            | changed =>
              rw [hnp (by simp)]
              obtain ⟨g1, g2, g3, ⟨g4, g5, -⟩ | ⟨g4, g5, -⟩⟩ := ho
              · refine hset .changed (Or.inr rfl) g1 ?_ g2 g5 _ rfl rfl rfl rfl rfl
                rw [r1 g1 (fun _ => g4), g5]
              · exact absurd (hod o g5) g4
            | missing =>
              exact absurd (hfd hn1 hpf o ho.2.1) ho.2.2.1
    · intro q1 q2 q3
      have hc0 : w.cdb.changed = false := by
        rw [Bool.eq_false_iff]
        intro h
        rcases h4 h with h | h
        · exact h q1
        · exact h q2
      have hall : ∀ x ∈ w.cdb.db, (!pruned p w.cdb.absent x) = true := by
        intro x hx
        rw [Bool.not_eq_true', Bool.eq_false_iff]
        intro hpr
        obtain ⟨o, st, j⟩ := x
        obtain ⟨g1, -, g2⟩ := pruned_iff.mp hpr
        simp only at g2
        subst g2
        have ho := h3 o
        rw [find_mem h1 hx] at ho
        exact q3 o (by rw [ho.1]; simp) ho.2.1 g1
      have hlen : K.length = w.cdb.db.length := by
        rw [← hKd]
        exact List.length_filter_eq_length_iff.mpr hall
      have hcond : ¬ ((w.cdb.changed || decide (w.cdb.db.length - K.length ≠ 0)) = true) := by
        rw [hc0, hlen]
        simp
      simp only [if_neg hcond, and_self]
  · have hz : w.cdb.nesting - 1 ≠ 0 := by omega
    rw [if_pos hz]
    simp only [if_neg hn1]
    refine ⟨_, rfl, ⟨disk, hd, ?_⟩, fun _ => ⟨rfl, rfl⟩, fun h => absurd h hn1⟩
    simp only [hst]
    exact ⟨h1, h2, h3, h4, fun h => absurd h hz, h6⟩

theorem reach_inv {w : World O C} (h : Reach F w) : Inv F w := by
  induction h with
  | init want => exact inv_init F want
  | step _ hp hu hs ih =>
    rename_i w w' e _
    have : ∃ w'', step F w e = .ok w'' ∧ Inv F w'' := by
      cases e with
      | edit f => exact step_edit ih f hp
      | forget o => exact step_forget ih o hp
      | start => exact step_start ih hu
      | pre => exact step_pre ih hp
      | check o => exact step_check ih o hp
      | compile o => exact step_compile ih o hp
      | post p =>
        obtain ⟨w'', h1, h2, -⟩ := step_post p ih hp hu
        exact ⟨w'', h1, h2⟩
    obtain ⟨w'', h1, h2⟩ := this
    rw [h1] at hs
    injection hs with hs
    rw [← hs]
    exact h2

end Verif.CompileDb
