import Verif.Timeout.Lemmas
/-!
# Timeouts of scripts: lemmas about pipelines
-/

namespace Verif.Timeout

theorem cmdDeadline_nearest {as : List Deadline} {dl : Option Deadline} (h : Nearest as dl)
    (c : Cmd) : Nearest (as ++ (c.env.toList ++ c.own.toList)) (cmdDeadline dl c) := by
  have h1 := earlier_nearest h (nearest_toList c.env)
  unfold cmdDeadline Cmd.own
  cases ht : c.timeout with
  | none =>
    simp only [Option.map_none, Option.toList_none, List.append_nil]
    exact h1
  | some t =>
    simp only [Option.map_some]
    have h2 := earlier_nearest (nearest_toList (some (⟨c.started + t.value, t.success⟩ : Deadline))) h1
    have hm : ∀ e, e ∈ (some (⟨c.started + t.value, t.success⟩ : Deadline)).toList ++
        (as ++ c.env.toList) ↔
        e ∈ as ++ (c.env.toList ++ (some (⟨c.started + t.value, t.success⟩ : Deadline)).toList) := by
      intro e
      simp only [List.mem_append]
      constructor
      · rintro (h | h | h)
        · exact Or.inr (Or.inr h)
        · exact Or.inl h
        · exact Or.inr (Or.inl h)
      · rintro (h | h | h)
        · exact Or.inr (Or.inl h)
        · exact Or.inr (Or.inr h)
        · exact Or.inl h
    have h3 := nearest_congr hm h2
    cases he : earlier dl c.env with
    | none => rw [he] at h3; exact h3
    | some e =>
      rw [he] at h3
      simp only [earlier] at h3 ⊢
      split
      · next h => rw [if_pos h] at h3; exact h3
      · next h => rw [if_neg h] at h3; exact h3

theorem withDeadlines_get {as : List Deadline} {dl : Option Deadline} (h : Nearest as dl)
    (cs : List Cmd) (i : Nat) (c : Cmd) (hc : cs[i]? = some c) :
    ∃ d, (withDeadlines dl cs)[i]? = some (c, d) ∧ Nearest (as ++ Cmd.all (cs.take (i + 1))) d := by
  induction cs generalizing as dl i with
  | nil => cases hc
  | cons x cs ih =>
    have h1 := cmdDeadline_nearest h x
    cases i with
    | zero =>
      simp only [List.getElem?_cons_zero, Option.some.injEq] at hc
      subst hc
      refine ⟨_, rfl, ?_⟩
      simp only [List.take_succ_cons, List.take_zero, Cmd.all, List.flatMap_cons, List.flatMap_nil,
        List.append_nil]
      exact h1
    | succ i =>
      obtain ⟨d, e1, e2⟩ := ih h1 i hc
      refine ⟨d, e1, ?_⟩
      rw [List.append_assoc] at e2
      rw [List.take_succ_cons]
      simp only [Cmd.all, List.flatMap_cons] at e2 ⊢
      exact e2

theorem withDeadlines_fst (dl : Option Deadline) (cs : List Cmd) :
    (withDeadlines dl cs).map (·.1) = cs := by
  induction cs generalizing dl with
  | nil => rfl
  | cons c cs ih => simp only [withDeadlines, List.map_cons, ih]

theorem withDeadlines_length (dl : Option Deadline) (cs : List Cmd) :
    (withDeadlines dl cs).length = cs.length := by
  rw [← List.length_map (f := (·.1)), withDeadlines_fst]

/-- Each with its deadline. -/
theorem withDeadlines_mem {cs : List Cmd} {p : Cmd × Option Deadline}
    (h : p ∈ withDeadlines none cs) :
    ∃ i, cs[i]? = some p.1 ∧ Nearest (Cmd.all (cs.take (i + 1))) p.2 := by
  obtain ⟨i, hi, rfl⟩ := List.mem_iff_getElem.mp h
  have hl := hi
  rw [withDeadlines_length] at hl
  have hc : cs[i]? = some cs[i] := List.getElem?_eq_getElem hl
  obtain ⟨d, e1, e2⟩ := withDeadlines_get nearest_none cs i _ hc
  rw [List.getElem?_eq_getElem hi] at e1
  injection e1 with e1
  rw [e1]
  exact ⟨i, hc, e2⟩

/-- The deadline of the pipeline. -/
theorem last_deadline (cs : List Cmd) :
    Nearest (Cmd.all cs) (((withDeadlines none cs).reverse.head?.map (·.2)).join) := by
  rw [List.head?_reverse]
  rcases List.eq_nil_or_concat cs with rfl | ⟨cs', c, rfl⟩
  · rfl
  · rw [List.concat_eq_append]
    have hc : (cs' ++ [c])[cs'.length]? = some c := by simp
    obtain ⟨d, e1, e2⟩ := withDeadlines_get nearest_none (cs' ++ [c]) cs'.length c hc
    have ht : (cs' ++ [c]).take (cs'.length + 1) = cs' ++ [c] := by
      rw [List.take_of_length_le]
      simp
    rw [ht] at e2
    have hl : (withDeadlines none (cs' ++ [c])).getLast? = some (c, d) := by
      rw [List.getLast?_eq_getElem?, withDeadlines_length]
      simpa using e1
    rw [hl]
    exact e2

theorem exited_iff (c : Cmd) (t : Nat) : exited c t = true ↔ c.By t := by
  unfold exited Cmd.By
  cases c.finish with
  | none => simp
  | some f => simp

theorem By.mono {c : Cmd} {t u : Nat} (h : c.By t) (hl : t ≤ u) : c.By u := by
  obtain ⟨f, h1, h2⟩ := h
  exact ⟨f, h1, by omega⟩

/-! ## Terminating -/

theorem endOf_le (c : Cmd) (now : Nat) : (endOf c now).1 ≤ now + grace := by
  unfold endOf
  split
  · simp
  · split
    · split <;> simp <;> omega
    · split <;> simp <;> omega
    · split
      · next h =>
        obtain ⟨f, h1, h2⟩ := (exited_iff _ _).mp h
        rw [h1]
        exact h2
      · simp

theorem foldl_le {α : Type} (f : Nat → α → Nat) (b : Nat) (l : List α) (t : Nat) (ht : t ≤ b)
    (hf : ∀ t a, a ∈ l → t ≤ b → f t a ≤ b) : l.foldl f t ≤ b := by
  induction l generalizing t with
  | nil => exact ht
  | cons a l ih =>
    rw [List.foldl_cons]
    exact ih _ (hf t a (by simp) ht) (fun t x hx => hf t x (by simp [hx]))

/-- Not terminated. -/
def nt (c : Cmd × Option Deadline) : Done := ⟨c.1, c.2, false, c.1.exit⟩

/-- Terminated. -/
def tm (now : Nat) (c : Cmd × Option Deadline) : Done :=
  ⟨c.1, c.2, true, if c.1.builtin then c.1.exit else (endOf c.1 now).2⟩

theorem termPipe_snd (now : Nat) (cs : List (Cmd × Option Deadline)) :
    (termPipe now cs).2 = cs.map (tm now) := rfl

theorem termPipe_le {now t : Nat} {cs : List (Cmd × Option Deadline)}
    (h : (termPipe now cs).1 = some t) : t ≤ now + 2 * grace := by
  unfold termPipe at h
  simp only at h
  split at h
  · next ha =>
    injection h with h
    rw [← h]
    have h1 : cs.foldl (fun t c => if c.1.builtin then t else max t (endOf c.1 now).1) now ≤
        now + grace := by
      refine foldl_le _ _ _ _ (by omega) (fun t a _ ht => ?_)
      have := endOf_le a.1 now
      split
      · exact ht
      · exact Nat.max_le.mpr ⟨ht, this⟩
    refine foldl_le _ _ _ _ (by omega) (fun t a hm ht => ?_)
    have := List.all_eq_true.mp ha a hm
    simp only [decide_eq_true_eq] at this
    omega
  · cases h

theorem termPipe_some {now : Nat} {cs : List (Cmd × Option Deadline)}
    (h : ∀ c ∈ cs, c.1.builtin = true → ∀ u, builtinEnd c.1 u ≤ u + grace) :
    ∃ t, (termPipe now cs).1 = some t := by
  unfold termPipe
  simp only
  rw [if_pos]
  · exact ⟨_, rfl⟩
  · rw [List.all_eq_true]
    intro c hc
    rw [List.mem_filter] at hc
    simp only [decide_eq_true_eq]
    exact h c hc.1 hc.2 _

/-! ## Waiting -/

theorem waitPipe_none (now : Nat) (rs : List (Cmd × Option Deadline)) :
    (waitPipe none now rs = .hangs ∧ ∃ c ∈ rs, c.1.finish = none) ∨
    (∃ t, waitPipe none now rs = .done t (rs.map nt)) ∧ ∀ c ∈ rs, c.1.finish ≠ none := by
  induction rs generalizing now with
  | nil => exact Or.inr ⟨⟨now, rfl⟩, by simp⟩
  | cons c cs ih =>
    simp only [waitPipe]
    cases hf : c.1.finish with
    | none => exact Or.inl ⟨rfl, c, by simp, hf⟩
    | some f =>
      simp only
      rcases ih (max now f) with ⟨h1, x, hx, h2⟩ | ⟨⟨t, h1⟩, h2⟩
      · rw [h1]
        exact Or.inl ⟨rfl, x, by simp [hx], h2⟩
      · rw [h1]
        refine Or.inr ⟨⟨t, rfl⟩, fun x hx => ?_⟩
        rcases List.mem_cons.mp hx with rfl | hx
        · rw [hf]; simp
        · exact h2 x hx

/-- What can happen to a pipeline with a deadline: nothing is terminated, or
this part of it, right to left. -/
def Cases (b : Nat) (rs : List (Cmd × Option Deadline)) (w : Wait) : Prop :=
  ((∀ c ∈ rs, c.1.By b) ∧ ∃ t ≤ b, w = .done t (rs.map nt)) ∨
  ∃ fin rest, rs = fin ++ rest ∧ (∀ c ∈ fin, c.1.By b) ∧ (∃ c ∈ rest, ¬ c.1.By b) ∧
    ((w = .aborts ∧ (termPipe b rest).1 = none) ∨
     ∃ t ≤ b + 2 * grace, w = .done t (fin.map nt ++ rest.map (tm b)))

theorem termPipe_cases {b : Nat} {rs : List (Cmd × Option Deadline)}
    (hl : ∃ c ∈ rs, ¬ c.1.By b) :
    Cases b rs (match termPipe b rs with
      | (some t, ds) => .done t ds
      | (none, _) => .aborts) := by
  refine Or.inr ⟨[], rs, rfl, by simp, hl, ?_⟩
  have h2 := termPipe_snd b rs
  cases hp : termPipe b rs with
  | mk o ds =>
    rw [hp] at h2
    simp only at h2
    cases o with
    | none => exact Or.inl ⟨rfl, rfl⟩
    | some t =>
      have := termPipe_le (now := b) (t := t) (cs := rs) (by rw [hp])
      exact Or.inr ⟨t, this, by rw [h2]; rfl⟩

theorem waitPipe_cases (d : Deadline) (b : Nat) (rs : List (Cmd × Option Deadline)) (now : Nat)
    (hb : max now d.value = b) : Cases b rs (waitPipe (some d) now rs) := by
  induction rs generalizing now with
  | nil => exact Or.inl ⟨by simp, now, by omega, rfl⟩
  | cons c cs ih =>
    simp only [waitPipe]
    rw [hb]
    by_cases he : exited c.1 b = true
    · rw [if_pos he]
      obtain ⟨f, hf, hfb⟩ := (exited_iff _ _).mp he
      have hby : c.1.By b := ⟨f, hf, hfb⟩
      rw [hf, Option.getD_some]
      rcases ih (max now f) (by omega) with ⟨h1, t, ht, h2⟩ | ⟨fin, rest, h1, h2, h3, h4⟩
      · rw [h2]
        refine Or.inl ⟨fun x hx => ?_, t, ht, rfl⟩
        rcases List.mem_cons.mp hx with rfl | hx
        · exact hby
        · exact h1 x hx
      · refine Or.inr ⟨c :: fin, rest, by rw [h1]; rfl, fun x hx => ?_, h3, ?_⟩
        · rcases List.mem_cons.mp hx with rfl | hx
          · exact hby
          · exact h2 x hx
        · rcases h4 with ⟨h4, h5⟩ | ⟨t, ht, h4⟩
          · rw [h4]; exact Or.inl ⟨rfl, h5⟩
          · rw [h4]; exact Or.inr ⟨t, ht, rfl⟩
    · rw [if_neg he]
      exact termPipe_cases ⟨c, by simp, fun h => he ((exited_iff _ _).mpr h)⟩

theorem runPipe_cases {d : Deadline} {cs : List Cmd} (hd : Nearest (Cmd.all cs) (some d))
    (buffered : Bool) (now : Nat) :
    Cases (max now d.value) (withDeadlines none cs).reverse (runPipe buffered now cs) := by
  have h := nearest_unique hd (last_deadline cs)
  unfold runPipe
  simp only
  rw [← h]
  simp only
  split
  · next hb =>
    apply termPipe_cases
    have := hb.2
    rw [Bool.not_eq_true, List.all_eq_false] at this
    obtain ⟨c, hc, hn⟩ := this
    exact ⟨c, hc, fun h => hn ((exited_iff _ _).mpr h)⟩
  · exact waitPipe_cases d _ _ now rfl

theorem runPipe_none {cs : List Cmd} (hd : Cmd.all cs = []) (buffered : Bool) (now : Nat) :
    runPipe buffered now cs = waitPipe none now (withDeadlines none cs).reverse := by
  have h := nearest_unique (ds := Cmd.all cs) (x := none) hd (last_deadline cs)
  unfold runPipe
  simp only
  rw [← h]

/-! ## Completing -/

/-- The exit that counts. -/
def final (d : Done) : Option Exit :=
  if d.cmd.builtin then
    if d.terminated then
      (match d.dl with
       | some l => if l.success then some (.code 0) else none
       | none => none)
    else some d.exit
  else if d.terminated ∧ d.exit = .sigterm then
    (match d.dl with
     | some l => if l.success then some (.code 0) else none
     | none => none)
  else some d.exit

theorem complete_cons (d : Done) (ds : List Done) :
    complete (d :: ds) = match final d with
      | none => ((complete ds).1, true)
      | some (.code n) =>
        ((d.cmd.eq == (d.cmd.expected == n)) && (complete ds).1, (complete ds).2)
      | some _ => (false, true) := by
  rw [complete.eq_def]
  simp only
  rfl

theorem asExpected_iff (c : Cmd) (n : Nat) :
    (c.eq == (c.expected == n)) = true ↔ c.AsExpected n := by
  unfold Cmd.AsExpected
  have hb : (c.expected == n) = true ↔ n = c.expected := by
    rw [beq_iff_eq]; exact eq_comm
  cases c.eq with
  | true =>
    rw [if_pos rfl, ← hb]
    cases (c.expected == n) <;> simp
  | false =>
    rw [if_neg (by simp), ne_eq, ← hb]
    cases (c.expected == n) <;> simp

theorem complete_true {ds : List Done}
    (h : ∀ d ∈ ds, ∃ n, final d = some (.code n) ∧ d.cmd.AsExpected n) :
    complete ds = (true, false) := by
  induction ds with
  | nil => rfl
  | cons d ds ih =>
    obtain ⟨n, h1, h2⟩ := h d (by simp)
    rw [complete_cons, h1, ih (fun x hx => h x (by simp [hx]))]
    simp only
    rw [(asExpected_iff _ _).mpr h2]
    rfl

theorem complete_fails {ds : List Done} {d : Done} (hd : d ∈ ds)
    (h : ∀ n, final d ≠ some (.code n)) : (complete ds).2 = true := by
  induction ds with
  | nil => cases hd
  | cons x ds ih =>
    rw [complete_cons]
    rcases List.mem_cons.mp hd with rfl | hm
    · cases hf : final d with
      | none => rfl
      | some e =>
        cases e with
        | code n => exact absurd hf (h n)
        | _ => rfl
    · cases hf : final x with
      | none => rfl
      | some e =>
        cases e with
        | code n => exact ih hm
        | _ => rfl

theorem complete_congr {ds es : List Done}
    (h : ds.map (fun d => (final d, d.cmd.eq, d.cmd.expected)) =
      es.map (fun d => (final d, d.cmd.eq, d.cmd.expected))) : complete ds = complete es := by
  induction ds generalizing es with
  | nil =>
    cases es with
    | nil => rfl
    | cons e es => cases h
  | cons d ds ih =>
    cases es with
    | nil => cases h
    | cons e es =>
      rw [List.map_cons, List.map_cons] at h
      injection h with h1 h2
      simp only [Prod.mk.injEq] at h1
      rw [complete_cons, complete_cons, ih h2, h1.1, h1.2.1, h1.2.2]

theorem final_nt (c : Cmd × Option Deadline) : final (nt c) = some c.1.exit := by
  unfold final nt
  simp

end Verif.Timeout
