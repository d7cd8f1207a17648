import Verif.Headers.Lemmas
/-!
# Header dependencies: the cached ones
-/

namespace Verif.Headers

/-- The lines are of the headers that the target was compiled with, which was
with these files: all of them or, if it was interrupted, some of the first
ones. Files that are not newer than the target are the same. -/
structure CachedOf (w : World) (src : Source) (mt : Nat) (complete : Bool) (lines : List Path)
    (was : Files) : Prop where
  first : lines <+: headers src was
  all : complete = true → lines = headers src was ∧ compiles src was = true
  same : ∀ p f, w.old p = some f → f.mtime ≤ mt → was p = some f.content
  stable : Stable was w.after src

/-- Up to the next header. -/
theorem headers_cons {f : Files} {t : Source} {p : Path} {ps : List Path}
    (h : headers t f = p :: ps) :
    ∃ k c, Walk f t [] (.incl p k) ∧ f p = some c ∧ headers (k (some c)) f = ps := by
  induction t with
  | done => cases h
  | error => cases h
  | incl q k _ =>
    simp only [headers] at h
    cases hq : f q with
    | none => rw [hq] at h; cases h
    | some c =>
      rw [hq] at h
      simp only at h
      injection h with h1 h2
      subst h1
      exact ⟨k, c, .nil _, hq, h2⟩
  | test q k ih =>
    obtain ⟨k', c, h1, h2, h3⟩ := ih _ h
    exact ⟨k', c, .test h1, h2, h3⟩

theorem walk_other {f g : Files} {a b : Source} {ps : List Path} (h : Walk f a ps b)
    (hs : Stable f g a) (he : ∀ p ∈ ps, f p = g p) : Walk g a ps b := by
  induction h with
  | nil t => exact .nil t
  | @incl p k c ps t hp _ ih =>
    refine .incl ?_ (ih (hs _) fun q hq => he q (List.mem_cons_of_mem _ hq))
    rw [← he p List.mem_cons_self]
    exact hp
  | test _ ih =>
    refine .test ?_
    rw [← hs.1]
    exact ih (hs.2 _) he

theorem quiet_other {f g : Files} {t : Source} (hs : Stable f g t) (h1 : headers t f = [])
    (h2 : compiles t f = true) : headers t g = [] ∧ compiles t g = true := by
  induction t with
  | done => exact ⟨rfl, rfl⟩
  | error => cases h2
  | incl p k _ =>
    simp only [headers, compiles] at h1 h2
    cases hp : f p with
    | none => rw [hp] at h2; cases h2
    | some c => rw [hp] at h1; cases h1
  | test p k ih =>
    simp only [headers, compiles] at h1 h2 ⊢
    rw [← hs.1]
    exact ih _ (hs.2 _) h1 h2

/-- A header that has not changed since the target was compiled. -/
def Unchanged (w : World) (mt : Nat) (p : Path) : Prop :=
  w.rule p = none ∧ ∃ f, w.old p = some f ∧ f.mtime ≤ mt

theorem fromCache_good {w : World} {src : Source} {mt : Nat} {complete : Bool} {was : Files}
    {now : Nat} (hnow : mt ≤ now)
    (hsame : ∀ p f, w.old p = some f → f.mtime ≤ mt → was p = some f.content)
    (hst : Stable was w.after src)
    (hc : complete = true → compiles src was = true)
    (ls : List Path) (x : X) (t : Source) (hg : Good w src x t) (hwas : Walk was src x.prereqs t)
    (hpre : ls <+: headers t was) (hcl : complete = true → ls = headers t was)
    (h0 : Le ⟨fun _ => none, now⟩ x.st) (hu : ∀ p ∈ x.prereqs, Unchanged w mt p) :
    (∃ t', Good w src (fromCache w mt complete x ls).1 t') ∧
    (fromCache w mt complete x ls).1.forceSkip = x.forceSkip ∧
    (fromCache w mt complete x ls).1.forceGen = x.forceGen ∧
    ((fromCache w mt complete x ls).2 = .current →
      compiles src w.after = true ∧
      headers src w.after = (fromCache w mt complete x ls).1.prereqs ∧
      (fromCache w mt complete x ls).1.prereqs = x.prereqs ++ ls ∧
      (∀ p ∈ (fromCache w mt complete x ls).1.prereqs, Unchanged w mt p)) ∧
    ((fromCache w mt complete x ls).2 = .restart →
      (fromCache w mt complete x ls).1.update = true ∨
      (fromCache w mt complete x ls).1.db.writing = true) := by
  induction ls generalizing x t with
  | nil =>
    rw [fromCache]
    split
    · next hcm =>
      refine ⟨⟨t, ⟨hg.walk, hg.settled, hg.lines, hg.skip⟩⟩, rfl, rfl, fun _ => ?_,
        fun h => (by cases h)⟩
      have hw := walk_headers hwas
      obtain ⟨q1, q2⟩ := quiet_other (walk_stable hwas hst) (hcl hcm).symm
        (by rw [← hw.2.1]; exact hc hcm)
      have ha := walk_headers hg.walk
      refine ⟨by rw [ha.2.1]; exact q2, by rw [ha.1, q1, List.append_nil],
        (List.append_nil _).symm, hu⟩
    · exact ⟨⟨t, ⟨hg.walk, hg.settled, hg.lines, hg.skip⟩⟩, rfl, rfl, fun h => (by cases h),
        fun _ => Or.inr rfl⟩
  | cons p ls ih =>
    rw [fromCache]
    have hl := inject_le w x.st p mt
    have hh : ∃ r, headers t was = p :: r := by
      obtain ⟨r, hr⟩ := hpre
      exact ⟨ls ++ r, by rw [← hr]; rfl⟩
    obtain ⟨r, hr⟩ := hh
    obtain ⟨k, c, k1, k2, k3⟩ := headers_cons hr
    have hstt := walk_stable hwas hst
    have k1' := walk_other k1 hstt (fun q hq => (by cases hq))
    rw [hr] at hpre hcl
    rcases hi : inject w x.st p mt with ⟨_ | u, s⟩
    · rw [hi] at hl
      exact ⟨⟨t, ⟨hg.walk, fun q hq => settled_le hl (hg.settled q hq), hg.lines, hg.skip⟩⟩,
        rfl, rfl, fun h => (by cases h), fun _ => Or.inl rfl⟩
    · rw [hi] at hl
      simp only
      obtain ⟨hs, c', hc'⟩ := inject_some hi
      cases u with
      | true =>
        rw [if_pos rfl]
        refine ⟨⟨k (some c'), good_add hg true hl hs ?_ rfl⟩, rfl, rfl, fun h => (by cases h),
          fun _ => Or.inl rfl⟩
        exact walk_append k1' (.incl hc' (.nil _))
      | false =>
        rw [if_neg (by simp)]
        have hun : Unchanged w mt p := by
          rcases inject_false hi with h | ⟨m, hd, hm⟩
          · exact h
          · rcases (le_trans h0 hl).new p m hd with h | h
            · cases h
            · have : now ≤ m := h
              omega
        have hcc : c' = c := by
          obtain ⟨hrn, f, hof, hfm⟩ := hun
          have h1 := hsame p f hof hfm
          rw [k2] at h1
          have h2 : w.after p = some f.content := by
            unfold World.after World.before
            rw [hrn, hof]
            rfl
          rw [hc'] at h2
          rw [← h1] at h2
          exact (Option.some.inj h2)
        subst hcc
        obtain ⟨i1, i2, i3, i4, i5⟩ := ih { x with
            st := s, db := { x.db with lines := x.db.lines ++ [p], rest := ls },
            prereqs := x.prereqs ++ [p], skip := x.skip + 1 } (k (some c'))
          (good_add hg x.update hl hs (walk_append k1' (.incl hc' (.nil _))) rfl)
          (walk_append hwas (walk_append k1 (.incl k2 (.nil _))))
          (by rw [k3]; exact (List.cons_prefix_cons.mp hpre).2)
          (fun h => by rw [k3]; exact (List.cons.inj (hcl h)).2)
          (le_trans h0 hl)
          (by
            intro q hq
            rcases List.mem_append.mp hq with hq | hq
            · exact hu q hq
            · rw [List.mem_singleton] at hq
              subst hq
              exact hun)
        refine ⟨i1, i2, i3, fun h => ?_, i5⟩
        obtain ⟨j1, j2, j3, j4⟩ := i4 h
        refine ⟨j1, j2, ?_, j4⟩
        rw [j3, List.append_assoc]
        rfl

/-- If nothing has changed. -/
theorem fromCache_current {w : World} {mt : Nat} (ls : List Path) (x : X)
    (hu : ∀ p ∈ ls, Unchanged w mt p) :
    ∃ s, fromCache w mt true x ls = ({ x with
      st := s, db := { x.db with lines := x.db.lines ++ ls, rest := [] },
      prereqs := x.prereqs ++ ls, skip := x.skip + ls.length }, .current) := by
  induction ls generalizing x with
  | nil =>
    refine ⟨x.st, ?_⟩
    simp only [fromCache, if_true, List.append_nil, List.length_nil, Nat.add_zero]
  | cons p ls ih =>
    obtain ⟨hr, f, ho, hm⟩ := hu p List.mem_cons_self
    have hi : inject w x.st p mt = (some false, tick w x.st) := by
      unfold inject
      simp only [hr, ho]
      rw [decide_eq_false (by omega)]
    rw [fromCache, hi]
    simp only [Bool.false_eq_true, if_false]
    obtain ⟨s, hs⟩ := ih { x with
            st := tick w x.st, db := { x.db with lines := x.db.lines ++ [p], rest := ls },
            prereqs := x.prereqs ++ [p], skip := x.skip + 1 }
      fun q hq => hu q (List.mem_cons_of_mem _ hq)
    refine ⟨s, ?_⟩
    rw [hs]
    simp only [List.append_assoc, List.singleton_append, List.length_cons]
    rw [show x.skip + 1 + ls.length = x.skip + (ls.length + 1) by omega]

/-! ## The update -/

theorem expect_writing (d : Db) (p : Path) (h : d.writing = true) : (d.expect p).writing = true := by
  unfold Db.expect
  rw [h]

theorem process_writing (w : World) (pmt : Nat) (x : X) (ps : List Path)
    (h : x.db.writing = true) : (process w pmt x ps).1.db.writing = true := by
  induction ps generalizing x with
  | nil => exact h
  | cons p ps ih =>
    rw [process]
    rcases inject w x.st p pmt with ⟨_ | u, s⟩
    · exact h
    · simp only
      split
      · exact expect_writing _ _ h
      · exact ih _ (expect_writing _ _ h)

theorem loop_update {w : World} {reports : Bool} {src : Source} (fuel : Nat) (x x' : X)
    (h : x.update = true ∨ x.db.writing = true) (hl : loop w reports src fuel x = .ok x') :
    x'.update = true ∨ x'.db.writing = true := by
  induction fuel generalizing x with
  | zero => cases hl
  | succ fuel ih =>
    rw [loop] at hl
    simp only at hl
    generalize hx0 : { x with st := (preprocess w (x.forceGen.getD false) src x.st).2.2 } = x0 at hl
    have h0 : x0.update = true ∨ x0.db.writing = true := by rw [← hx0]; exact h
    generalize hps : List.drop x.skip (if ((preprocess w (x.forceGen.getD false) src x.st).2.1 ||
      reports) = true then (preprocess w (x.forceGen.getD false) src x.st).1 else []) = ps at hl
    have h1 : (process w x.st.now x0 ps).1.update = true ∨
        (process w x.st.now x0 ps).1.db.writing = true := by
      rcases h0 with h0 | h0
      · exact Or.inl ((process_same _ _ _ _).update h0)
      · exact Or.inr (process_writing _ _ _ _ h0)
    generalize process w x.st.now x0 ps = r at hl h1
    obtain ⟨x1, e⟩ := r
    have h2 : (if x1.forceGen = some true then
        { x1 with update := true, forceGen := some false } else x1).update = true ∨
        (if x1.forceGen = some true then
        { x1 with update := true, forceGen := some false } else x1).db.writing = true := by
      split
      · exact Or.inl rfl
      · exact h1
    cases e with
    | deferred => cases hl
    | restart =>
      simp only [decide_true, Bool.true_or, if_true] at hl
      split at hl
      · exact ih _ (by simpa using h2) hl
      · exact ih _ (by simpa using h2) hl
    | all =>
      by_cases hf : x1.forceGen = some true
      · simp only [hf, if_true, reduceCtorEq, decide_false, Bool.false_or, decide_true,
          if_false] at hl
        split at hl
        · exact ih _ (Or.inl rfl) hl
        · split at hl
          · cases hl
          · exact ih _ (Or.inl rfl) hl
      · simp only [hf, if_false, reduceCtorEq, decide_false, Bool.or_false, Bool.false_eq_true]
          at hl
        split at hl
        · injection hl with hl
          rw [← hl]
          exact h1
        · split at hl
          · cases hl
          · split at hl
            · cases hl
            · exact ih { x1 with forceGen := some true, forceSkip := some x1.skip } h1 hl

end Verif.Headers
