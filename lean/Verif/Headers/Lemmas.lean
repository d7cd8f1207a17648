import Verif.Headers.Model
/-!
# Header dependencies: lemmas
-/

namespace Verif.Headers

/-! ## Time -/

/-- Later. -/
structure Le (s s' : St) : Prop where
  kept : ∀ p m, s.done p = some m → s'.done p = some m
  new : ∀ p m, s'.done p = some m → s.done p = some m ∨ s.now ≤ m
  now : s.now ≤ s'.now

theorem le_refl (s : St) : Le s s := ⟨fun _ _ h => h, fun _ _ h => Or.inl h, Nat.le_refl _⟩

theorem le_trans {a b c : St} (h1 : Le a b) (h2 : Le b c) : Le a c := by
  refine ⟨fun p m h => h2.kept p m (h1.kept p m h), fun p m h => ?_, Nat.le_trans h1.now h2.now⟩
  rcases h2.new p m h with h | h
  · exact h1.new p m h
  · exact Or.inr (Nat.le_trans h1.now h)

theorem le_later {s s' : St} {n : Nat} (h : Le s s') (hn : s'.now ≤ n) :
    Le s { s' with now := n } :=
  ⟨h.kept, h.new, Nat.le_trans h.now hn⟩

theorem execute_le (w : World) (s : St) (p : Path) :
    Le s (execute w s p) ∧ (execute w s p).now = s.now := by
  unfold execute
  split
  · next hc =>
    rw [Bool.and_eq_true, Option.isNone_iff_eq_none] at hc
    refine ⟨⟨fun q m h => ?_, fun q m h => ?_, Nat.le_refl _⟩, rfl⟩
    · simp only
      by_cases hq : q = p
      · subst hq
        rw [hc.2] at h
        cases h
      · rw [if_neg hq]
        exact h
    · simp only at h
      by_cases hq : q = p
      · rw [if_pos hq] at h
        injection h with h
        exact Or.inr (Nat.le_of_eq h)
      · rw [if_neg hq] at h
        exact Or.inl h
  · exact ⟨le_refl s, rfl⟩

theorem executes_le (w : World) (ps : List Path) (s : St) :
    Le s (ps.foldl (execute w) s) ∧ (ps.foldl (execute w) s).now = s.now := by
  induction ps generalizing s with
  | nil => exact ⟨le_refl s, rfl⟩
  | cons p ps ih =>
    rw [List.foldl_cons]
    obtain ⟨h1, h2⟩ := execute_le w s p
    obtain ⟨h3, h4⟩ := ih (execute w s p)
    exact ⟨le_trans h1 h3, h4.trans h2⟩

theorem tick_le (w : World) (s : St) : Le s (tick w s) := by
  unfold tick
  obtain ⟨h1, h2⟩ := executes_le w (w.others s.now) s
  exact le_later h1 (by omega)

theorem preprocess_le (w : World) (gen : Bool) (src : Source) (s : St) :
    Le s (preprocess w gen src s).2.2 := by
  induction src generalizing s with
  | done => exact le_refl s
  | error => exact le_refl s
  | incl p k ih =>
    rw [preprocess]
    split
    · exact le_trans (tick_le w s) (ih _ _)
    · split
      · exact le_trans (tick_le w s) (ih _ _)
      · exact tick_le w s
  | test p k ih =>
    rw [preprocess]
    exact le_trans (tick_le w s) (ih _ _)

/-- Nothing changes about it anymore. -/
def Settled (w : World) (s : St) (p : Path) : Prop := w.rule p = none ∨ s.done p ≠ none

theorem settled_le {w : World} {s s' : St} (h : Le s s') {p : Path} (hs : Settled w s p) :
    Settled w s' p := by
  rcases hs with hs | hs
  · exact Or.inl hs
  · right
    cases hd : s.done p with
    | none => exact absurd hd hs
    | some m => rw [h.kept p m hd]; simp

theorem settled_content {w : World} {s : St} {p : Path} (hs : Settled w s p) :
    content w s p = w.after p := by
  unfold content
  rcases hs with hs | hs
  · cases s.done p with
    | none =>
      simp only
      unfold World.after
      rw [hs]
      rfl
    | some m => rfl
  · cases hd : s.done p with
    | none => exact absurd hd hs
    | some m => rfl

/-- Whether a file exists does not change if it is not added. -/
theorem exists_stable {w : World} {p : Path} (he : (w.before p).isSome = (w.after p).isSome)
    (s : St) : (content w s p).isSome = (w.after p).isSome := by
  unfold content
  cases s.done p with
  | some m => rfl
  | none => exact he

/-! ## Injecting -/

theorem inject_le (w : World) (s : St) (p : Path) (ts : Nat) : Le s (inject w s p ts).2 := by
  unfold inject
  simp only
  have h := tick_le w s
  split
  · split
    · obtain ⟨h1, h2⟩ := execute_le w (tick w s) p
      exact le_later (le_trans h h1) (by omega)
    · exact h
  · split <;> exact h

/-- It is there and up to date. -/
theorem inject_some {w : World} {s : St} {p : Path} {ts : Nat} {u : Bool} {s' : St}
    (h : inject w s p ts = (some u, s')) :
    Settled w s' p ∧ ∃ c, w.after p = some c := by
  unfold inject at h
  simp only at h
  split at h
  · next c hr =>
    have ha : w.after p = some c := by unfold World.after; rw [hr]; rfl
    split at h
    · next hd =>
      injection h with h1 h2
      subst h2
      refine ⟨Or.inr ?_, c, ha⟩
      unfold execute
      rw [hr, hd]
      simp
    · next m hd =>
      injection h with h1 h2
      subst h2
      exact ⟨Or.inr (by rw [hd]; simp), c, ha⟩
  · next hr =>
    split at h
    · next f ho =>
      injection h with h1 h2
      refine ⟨Or.inl hr, f.content, ?_⟩
      unfold World.after World.before
      rw [hr, ho]
      rfl
    · injection h with h1 h2
      cases h1

/-- It neither exists nor can be generated. -/
theorem inject_none {w : World} {s : St} {p : Path} {ts : Nat} {s' : St}
    (h : inject w s p ts = (none, s')) : w.rule p = none ∧ w.old p = none := by
  unfold inject at h
  simp only at h
  split at h
  · split at h
    · injection h with h1 h2; cases h1
    · injection h with h1 h2; cases h1
  · next hr =>
    split at h
    · injection h with h1 h2; cases h1
    · next ho => exact ⟨hr, ho⟩

/-- It has not changed since. -/
theorem inject_false {w : World} {s : St} {p : Path} {ts : Nat} {s' : St}
    (h : inject w s p ts = (some false, s')) :
    (w.rule p = none ∧ ∃ f, w.old p = some f ∧ f.mtime ≤ ts) ∨
    (∃ m, s'.done p = some m ∧ m < ts) := by
  unfold inject at h
  simp only at h
  split at h
  · split at h
    · injection h with h1 h2; cases h1
    · next m hd =>
      injection h with h1 h2
      subst h2
      right
      refine ⟨m, hd, ?_⟩
      injection h1 with h1
      simpa using h1
  · next hr =>
    split at h
    · next f ho =>
      injection h with h1 h2
      left
      refine ⟨hr, f, ho, ?_⟩
      injection h1 with h1
      simpa using h1
    · injection h with h1 h2; cases h1

/-- So that it was the same at any time after that. -/
theorem inject_false_settled {w : World} {s0 s1 s : St} {p : Path} {s' : St} (h01 : Le s0 s1)
    (h0 : Le s0 s) (h : inject w s p s0.now = (some false, s')) : Settled w s1 p := by
  rcases inject_false h with ⟨hr, -⟩ | ⟨m, hd, hm⟩
  · exact Or.inl hr
  · have hl : Le s0 s' := le_trans h0 (by have := inject_le w s p s0.now; rw [h] at this; exact this)
    rcases hl.new p m hd with hx | hx
    · right
      rw [h01.kept p m hx]
      simp
    · omega

/-! ## Following the source -/

/-- Including these headers gets here. -/
inductive Walk (f : Files) : Source → List Path → Source → Prop
  | nil (t : Source) : Walk f t [] t
  | incl {p : Path} {k : Option Content → Source} {c : Content} {ps : List Path} {t : Source} :
    f p = some c → Walk f (k (some c)) ps t → Walk f (.incl p k) (p :: ps) t
  | test {p : Path} {k : Bool → Source} {ps : List Path} {t : Source} :
    Walk f (k (f p).isSome) ps t → Walk f (.test p k) ps t

theorem walk_append {f : Files} {a b c : Source} {ps qs : List Path} (h1 : Walk f a ps b)
    (h2 : Walk f b qs c) : Walk f a (ps ++ qs) c := by
  induction h1 with
  | nil t => exact h2
  | incl hp _ ih => exact .incl hp (ih h2)
  | test _ ih => exact .test (ih h2)

theorem walk_headers {f : Files} {a b : Source} {ps : List Path} (h : Walk f a ps b) :
    headers a f = ps ++ headers b f ∧ compiles a f = compiles b f ∧ missing a f = missing b f := by
  induction h with
  | nil t => exact ⟨rfl, rfl, rfl⟩
  | incl hp _ ih =>
    simp only [headers, compiles, missing, hp]
    exact ⟨by rw [ih.1]; rfl, ih.2.1, ih.2.2⟩
  | test _ ih => exact ih

theorem walk_stable {before after f : Files} {a b : Source} {ps : List Path} (h : Walk f a ps b)
    (hs : Stable before after a) : Stable before after b := by
  induction h with
  | nil t => exact hs
  | incl hp _ ih => exact ih (hs _)
  | test _ ih => exact ih (hs.2 _)

theorem walk_noError {f : Files} {a b : Source} {ps : List Path} (h : Walk f a ps b)
    (hs : NoError a) : NoError b := by
  induction h with
  | nil t => exact hs
  | incl hp _ ih => exact ih (hs _)
  | test _ ih => exact ih (hs _)

/-- What is up to date is seen again. -/
theorem preprocess_walk {w : World} {gen : Bool} {a b : Source} {ps : List Path}
    (h : Walk w.after a ps b) (hst : Stable w.before w.after a) (s : St)
    (hs : ∀ p ∈ ps, Settled w s p) :
    ∃ s1, Le s s1 ∧ preprocess w gen a s =
      (ps ++ (preprocess w gen b s1).1, (preprocess w gen b s1).2) := by
  induction h generalizing s with
  | nil t => exact ⟨s, le_refl s, rfl⟩
  | @incl p k c ps t hp _ ih =>
    have ht := tick_le w s
    obtain ⟨s1, h1, h2⟩ := ih (hst _) (tick w s) fun q hq =>
      settled_le ht (hs q (List.mem_cons_of_mem _ hq))
    refine ⟨s1, le_trans ht h1, ?_⟩
    have hc : content w (tick w s) p = some c := by
      rw [settled_content (settled_le ht (hs p List.mem_cons_self)), hp]
    rw [preprocess, hc]
    simp only
    rw [h2]
    rfl
  | @test p k ps t _ ih =>
    have ht := tick_le w s
    obtain ⟨s1, h1, h2⟩ := ih (hst.2 _) (tick w s) fun q hq => settled_le ht (hs q hq)
    refine ⟨s1, le_trans ht h1, ?_⟩
    rw [preprocess, exists_stable hst.1]
    exact h2

/-! ## Processing -/

/-- The lines are what has been added. -/
structure Good (w : World) (src : Source) (x : X) (t : Source) : Prop where
  walk : Walk w.after src x.prereqs t
  settled : ∀ p ∈ x.prereqs, Settled w x.st p
  lines : x.db.lines = x.prereqs
  skip : x.skip = x.prereqs.length

theorem expect_lines (d : Db) (p : Path) : (d.expect p).lines = d.lines ++ [p] := by
  unfold Db.expect
  split
  · split <;> rfl
  · rfl

theorem good_add {w : World} {src : Source} {x : X} {t : Source} (hg : Good w src x t)
    {t' : Source} {p : Path} {s : St} {d : Db} (b : Bool) (hl : Le x.st s)
    (hs : Settled w s p) (hw : Walk w.after t [p] t') (hd : d.lines = x.db.lines ++ [p]) :
    Good w src { x with
      st := s, db := d, prereqs := x.prereqs ++ [p], skip := x.skip + 1, update := b } t' := by
  refine ⟨walk_append hg.walk hw, ?_, ?_, ?_⟩
  · intro q hq
    rcases List.mem_append.mp hq with hq | hq
    · exact settled_le hl (hg.settled q hq)
    · rw [List.mem_singleton] at hq
      subst hq
      exact hs
  · simp only [hd, hg.lines]
  · simp only [hg.skip, List.length_append, List.length_singleton]

/-- What processing leaves alone. -/
structure Same (x x' : X) : Prop where
  gen : x'.forceGen = x.forceGen
  skip : x'.forceSkip = x.forceSkip
  le : Le x.st x'.st
  update : x.update = true → x'.update = true

theorem same_trans {a b c : X} (h1 : Same a b) (h2 : Same b c) : Same a c :=
  ⟨h2.gen.trans h1.gen, h2.skip.trans h1.skip, le_trans h1.le h2.le,
    fun h => h2.update (h1.update h)⟩

theorem process_same (w : World) (pmt : Nat) (x : X) (ps : List Path) :
    Same x (process w pmt x ps).1 := by
  induction ps generalizing x with
  | nil => exact ⟨rfl, rfl, le_refl _, fun h => h⟩
  | cons p ps ih =>
    rw [process]
    have hl := inject_le w x.st p pmt
    rcases hi : inject w x.st p pmt with ⟨_ | u, s⟩
    · rw [hi] at hl
      exact ⟨rfl, rfl, hl, fun _ => rfl⟩
    · rw [hi] at hl
      simp only
      split
      · exact ⟨rfl, rfl, hl, fun _ => rfl⟩
      · refine same_trans ?_ (ih _)
        exact ⟨rfl, rfl, hl, fun h => h⟩

/-- How a run of the preprocessor ends and what that says about the source with
everything up to date. -/
theorem process_run {w : World} {gen : Bool} {src t : Source} {s0 s1 : St} {x : X} {pmt : Nat}
    (hst : Stable w.before w.after t) (h01 : Le s0 s1) (hpmt : pmt = s0.now)
    (hx : Le (preprocess w gen t s1).2.2 x.st) (hg : Good w src x t) :
    (∃ t', Good w src (process w pmt x (preprocess w gen t s1).1).1 t' ∧
      ((process w pmt x (preprocess w gen t s1).1).2 = .all →
        ((preprocess w gen t s1).2.1 = true → compiles t' w.after = true ∧ headers t' w.after = []) ∧
        ((preprocess w gen t s1).2.1 = false →
          ¬ (compiles t' w.after = true ∧ headers t' w.after = []) ∧
          (gen = true → compiles t' w.after = false))) ∧
      ((process w pmt x (preprocess w gen t s1).1).2 = .deferred →
        ∃ p, missing t' w.after = some p ∧ w.rule p = none ∧ w.old p = none)) := by
  subst hpmt
  have hall : Le s0 x.st := le_trans h01 (le_trans (preprocess_le w gen t s1) hx)
  induction t generalizing s1 x with
  | done =>
    refine ⟨.done, hg, fun _ => ⟨fun _ => ⟨rfl, rfl⟩, fun h => ?_⟩, fun h => ?_⟩
    · cases h
    · cases h
  | error =>
    refine ⟨.error, hg, fun _ => ⟨fun h => ?_, fun _ => ⟨fun h => (by cases h.1), fun _ => rfl⟩⟩,
      fun h => ?_⟩
    · cases h
    · cases h
  | test p k ih =>
    have hg' : Good w src x (k (w.after p).isSome) :=
      ⟨by
        have := walk_append hg.walk (.test (.nil (k (w.after p).isSome)))
        rw [List.append_nil] at this
        exact this, hg.settled, hg.lines, hg.skip⟩
    rw [preprocess, exists_stable hst.1] at hx ⊢
    exact ih _ (hst.2 _) (le_trans h01 (tick_le w s1)) hx hg' hall
  | incl p k ih =>
    -- If there is something to process.
    have hstep : ∀ (o : Option Content) , content w (tick w s1) p = o →
        Le (preprocess w gen (k o) (tick w s1)).2.2 x.st →
        preprocess w gen (.incl p k) s1 = (p :: (preprocess w gen (k o) (tick w s1)).1,
          (preprocess w gen (k o) (tick w s1)).2) →
        (∃ t', Good w src (process w s0.now x (preprocess w gen (.incl p k) s1).1).1 t' ∧
      ((process w s0.now x (preprocess w gen (.incl p k) s1).1).2 = .all →
        ((preprocess w gen (.incl p k) s1).2.1 = true →
          compiles t' w.after = true ∧ headers t' w.after = []) ∧
        ((preprocess w gen (.incl p k) s1).2.1 = false →
          ¬ (compiles t' w.after = true ∧ headers t' w.after = []) ∧
          (gen = true → compiles t' w.after = false))) ∧
      ((process w s0.now x (preprocess w gen (.incl p k) s1).1).2 = .deferred →
        ∃ p, missing t' w.after = some p ∧ w.rule p = none ∧ w.old p = none)) := by
      intro o ho hxo hpre
      rw [hpre, process]
      have hl := inject_le w x.st p s0.now
      rcases hi : inject w x.st p s0.now with ⟨_ | u, s⟩
      · -- Missing.
        rw [hi] at hl
        simp only
        obtain ⟨hr, hold⟩ := inject_none hi
        have ha : w.after p = none := by
          unfold World.after World.before
          rw [hr, hold]
          rfl
        refine ⟨.incl p k, ⟨hg.walk, fun q hq => settled_le hl (hg.settled q hq), hg.lines, hg.skip⟩,
          fun h => (by cases h), fun _ => ⟨p, ?_, hr, hold⟩⟩
        simp only [missing, ha]
      · rw [hi] at hl
        simp only
        obtain ⟨hs, c, hc⟩ := inject_some hi
        cases u with
        | true =>
          rw [if_pos rfl]
          refine ⟨k (some c), good_add hg true hl hs (.incl hc (.nil _)) (expect_lines _ _),
            fun h => (by cases h), fun h => (by cases h)⟩
        | false =>
          rw [if_neg (by simp)]
          have hset : Settled w (tick w s1) p :=
            inject_false_settled (le_trans h01 (tick_le w s1)) hall hi
          have ho' : o = some c := by
            rw [← ho, settled_content hset, hc]
          subst ho'
          exact ih (some c) (hst _) (le_trans h01 (tick_le w s1)) (le_trans hxo hl)
            (good_add hg x.update hl hs (.incl hc (.nil _)) (expect_lines _ _)) (le_trans hall hl)
    cases hc : content w (tick w s1) p with
    | some c =>
      have hpre : preprocess w gen (.incl p k) s1 =
          (p :: (preprocess w gen (k (some c)) (tick w s1)).1,
            (preprocess w gen (k (some c)) (tick w s1)).2) := by
        rw [preprocess, hc]
      refine hstep (some c) hc ?_ hpre
      rw [hpre] at hx
      exact hx
    | none =>
      cases gen with
      | true =>
        have hpre : preprocess w true (.incl p k) s1 =
            (p :: (preprocess w true (k none) (tick w s1)).1,
              (preprocess w true (k none) (tick w s1)).2) := by
          rw [preprocess, hc]
          rfl
        refine hstep none hc ?_ hpre
        rw [hpre] at hx
        exact hx
      | false =>
        have hpre : preprocess w false (.incl p k) s1 = ([], false, tick w s1) := by
          rw [preprocess, hc]
          rfl
        rw [hpre]
        refine ⟨.incl p k, hg, fun _ => ⟨fun h => (by cases h), fun _ => ⟨fun h => ?_, fun h => (by cases h)⟩⟩,
          fun h => (by cases h)⟩
        simp only [compiles, headers] at h
        cases ha : w.after p with
        | none => rw [ha] at h; cases h.1
        | some c => rw [ha] at h; cases h.2

theorem preprocess_noError (w : World) {t : Source} (h : NoError t) (s : St) :
    (preprocess w true t s).2.1 = true := by
  induction t generalizing s with
  | done => rfl
  | error => exact h.elim
  | incl p k ih =>
    rw [preprocess]
    split
    · exact ih _ (h _) _
    · rw [if_pos rfl]
      exact ih _ (h _) _
  | test p k ih =>
    rw [preprocess]
    exact ih _ (h _) _

/-- There is nothing more to include. -/
theorem preprocess_quiet {w : World} {gen : Bool} {t : Source} (hst : Stable w.before w.after t)
    (h1 : compiles t w.after = true) (h2 : headers t w.after = []) (s : St) :
    (preprocess w gen t s).2.1 = true := by
  induction t generalizing s with
  | done => rfl
  | error => cases h1
  | incl p k ih =>
    simp only [compiles, headers] at h1 h2
    cases ha : w.after p with
    | none => rw [ha] at h1; cases h1
    | some c => rw [ha] at h2; cases h2
  | test p k ih =>
    rw [preprocess, exists_stable hst.1]
    exact ih _ (hst.2 _) h1 h2 _

theorem process_skip (w : World) (pmt : Nat) (x : X) (ps : List Path) :
    x.skip ≤ (process w pmt x ps).1.skip ∧
    ((process w pmt x ps).2 = .restart → x.skip < (process w pmt x ps).1.skip) ∧
    ((process w pmt x ps).2 = .restart → (process w pmt x ps).1.update = true) := by
  induction ps generalizing x with
  | nil => exact ⟨Nat.le_refl _, fun h => (by cases h), fun h => (by cases h)⟩
  | cons p ps ih =>
    rw [process]
    rcases hi : inject w x.st p pmt with ⟨_ | u, s⟩
    · exact ⟨Nat.le_refl _, fun h => (by cases h), fun h => (by cases h)⟩
    · simp only
      split
      · exact ⟨Nat.le_succ _, fun _ => Nat.lt_succ_self _, fun _ => rfl⟩
      · obtain ⟨h1, h2, h3⟩ := ih { x with
          st := s, db := x.db.expect p, prereqs := x.prereqs ++ [p], skip := x.skip + 1 }
        exact ⟨Nat.le_of_succ_le h1, fun h => Nat.lt_of_succ_lt (h2 h), h3⟩

/-- One run, with the headers that have been added before skipped. -/
theorem run_good {w : World} {reports gen : Bool} {src t : Source} {x : X}
    (hst : Stable w.before w.after src) (hg : Good w src x t) :
    ∃ ok ps st, preprocess w gen src x.st = (ps, ok, st) ∧
    ∃ x' e, process w x.st.now { x with st := st }
        ((if ok || reports then ps else []).drop x.skip) = (x', e) ∧
      (∃ t', Good w src x' t') ∧ Same x x' ∧ x.skip ≤ x'.skip ∧
      (e = .restart → x.skip < x'.skip ∧ x'.update = true) ∧
      (e = .all → ok = true → compiles src w.after = true ∧ headers src w.after = x'.prereqs) ∧
      (e = .all → ok = false →
        ¬ (compiles src w.after = true ∧ headers src w.after = x'.prereqs)) ∧
      (e = .all → ok = false → gen = true →
        ¬ NoError src ∧ (reports = true → compiles src w.after = false)) ∧
      (e = .deferred → ∃ p, missing src w.after = some p ∧ w.rule p = none ∧ w.old p = none) := by
  obtain ⟨s1, hs1, hpre⟩ := preprocess_walk (gen := gen) hg.walk hst x.st hg.settled
  refine ⟨(preprocess w gen t s1).2.1, x.prereqs ++ (preprocess w gen t s1).1,
    (preprocess w gen t s1).2.2, hpre, ?_⟩
  have hstt := walk_stable hg.walk hst
  have hle := preprocess_le w gen t s1
  have hg1 : Good w src { x with st := (preprocess w gen t s1).2.2 } t :=
    ⟨hg.walk, fun p hp => settled_le (le_trans hs1 hle) (hg.settled p hp), hg.lines, hg.skip⟩
  have hsame1 : Same x { x with st := (preprocess w gen t s1).2.2 } :=
    ⟨rfl, rfl, le_trans hs1 hle, fun h => h⟩
  have hlast : gen = true → (preprocess w gen t s1).2.1 = false → ¬ NoError src := by
    rintro rfl hf hne
    rw [preprocess_noError w (walk_noError hg.walk hne)] at hf
    cases hf
  by_cases hr : ((preprocess w gen t s1).2.1 || reports) = true
  · have hdrop : (x.prereqs ++ (preprocess w gen t s1).1).drop x.skip =
        (preprocess w gen t s1).1 := by rw [hg.skip, List.drop_left]
    rw [if_pos hr, hdrop]
    obtain ⟨t', hg', hall, hdef⟩ := process_run (x := { x with st := (preprocess w gen t s1).2.2 })
      hstt hs1 rfl (le_refl _) hg1
    have hsame2 := process_same w x.st.now { x with st := (preprocess w gen t s1).2.2 }
      (preprocess w gen t s1).1
    obtain ⟨hk1, hk2, hk3⟩ := process_skip w x.st.now
      { x with st := (preprocess w gen t s1).2.2 } (preprocess w gen t s1).1
    obtain ⟨w1, w2, w3⟩ := walk_headers hg'.walk
    generalize hgp : process w x.st.now { x with st := (preprocess w gen t s1).2.2 }
      (preprocess w gen t s1).1 = r at *
    obtain ⟨x', e⟩ := r
    simp only at *
    refine ⟨x', e, rfl, ⟨t', hg'⟩, same_trans hsame1 hsame2, hk1,
      fun h => ⟨hk2 h, hk3 h⟩, ?_, ?_, ?_, ?_⟩
    · intro he hok
      obtain ⟨c1, c2⟩ := (hall he).1 hok
      rw [w1, w2, c1, c2, List.append_nil]
      exact ⟨rfl, rfl⟩
    · rintro he hok ⟨c1, c2⟩
      apply ((hall he).2 hok).1
      rw [w2] at c1
      rw [w1] at c2
      exact ⟨c1, List.append_right_eq_self.mp c2⟩
    · intro he hok hgen
      refine ⟨hlast hgen hok, fun _ => ?_⟩
      rw [w2]
      exact ((hall he).2 hok).2 hgen
    · intro he
      rw [w3]
      exact hdef he
  · rw [if_neg hr, List.drop_nil]
    rw [Bool.or_eq_true, not_or] at hr
    have hf : (preprocess w gen t s1).2.1 = false := by simpa using hr.1
    obtain ⟨w1, w2, w3⟩ := walk_headers hg.walk
    refine ⟨_, .all, rfl, ⟨t, hg1⟩, hsame1, Nat.le_refl _, fun h => (by cases h), ?_, ?_, ?_, ?_⟩
    · intro _ hok
      rw [hf] at hok
      cases hok
    · rintro _ _ ⟨c1, c2⟩
      rw [w2] at c1
      rw [w1] at c2
      have := preprocess_quiet (gen := gen) hstt c1 (List.append_right_eq_self.mp c2) s1
      rw [hf] at this
      cases this
    · intro _ hok hgen
      exact ⟨hlast hgen hok, fun h => absurd h hr.2⟩
    · intro he
      cases he

/-! ## All the runs -/

/-- What an outcome says. -/
def Sound (w : World) (reports : Bool) (src : Source) : Outcome → Prop
  | .ok x => (∃ t, Good w src x t) ∧ compiles src w.after = true ∧
    headers src w.after = x.prereqs
  | .deferred _ => ∃ p, missing src w.after = some p ∧ w.rule p = none ∧ w.old p = none
  | .failed _ => ¬ NoError src ∧ (reports = true → compiles src w.after = false)
  | .inconsistent _ => False
  | .runs => True

/-- There has been progress since the last run with -MG or it is next. -/
structure Progress (w : World) (src : Source) (x : X) : Prop where
  forced : x.forceGen = some true → x.forceSkip = some x.skip ∧
    ¬ (compiles src w.after = true ∧ headers src w.after = x.prereqs)
  more : x.forceGen ≠ some true → ∀ n, x.forceSkip = some n → n < x.skip

/-- How much is left. -/
def left (w : World) (src : Source) (x : X) : Nat :=
  2 * ((headers src w.after).length - x.skip) + if x.forceGen = some true then 0 else 1

theorem good_bound {w : World} {src t : Source} {x : X} (hg : Good w src x t) :
    x.skip ≤ (headers src w.after).length := by
  rw [(walk_headers hg.walk).1, hg.skip, List.length_append]
  omega

theorem good_same {w : World} {src t t' : Source} {x x' : X} (hg : Good w src x t)
    (hg' : Good w src x' t') (h : x'.skip = x.skip) : x'.prereqs = x.prereqs := by
  have h1 := (walk_headers hg.walk).1
  rw [(walk_headers hg'.walk).1] at h1
  exact (List.append_inj h1 (by rw [← hg'.skip, ← hg.skip, h])).1

theorem loop_sound {w : World} {reports : Bool} {src : Source}
    (hst : Stable w.before w.after src) (fuel : Nat) (x : X) (t : Source)
    (hg : Good w src x t) (hp : Progress w src x) :
    Sound w reports src (loop w reports src fuel x) ∧
    (left w src x < fuel → loop w reports src fuel x ≠ .runs) := by
  induction fuel generalizing x t with
  | zero => exact ⟨trivial, fun h => absurd h (by omega)⟩
  | succ fuel ih =>
    rw [loop]
    obtain ⟨ok, ps, st, hpre, x', e, hpro, ⟨t', hg'⟩, hsame, hsk, hres, hok, hnok, hgen, hdef⟩ :=
      run_good (reports := reports) (gen := x.forceGen.getD false) hst hg
    simp only [hpre, hpro]
    have hb := good_bound hg
    have hb' := good_bound hg'
    have hgx := hsame.gen
    have hsx := hsame.skip
    by_cases hforced : x.forceGen = some true
    · obtain ⟨f1, f2⟩ := hp.forced hforced
      have hgt : x.forceGen.getD false = true := by rw [hforced]; rfl
      have hfx : x'.forceGen = some true := hgx.trans hforced
      -- There is progress.
      have hmore : e = .restart ∨ (e = .all ∧ ok = true) → x.skip < x'.skip := by
        rintro (he | ⟨he, ho⟩)
        · exact (hres he).1
        · obtain ⟨c1, c2⟩ := hok he ho
          rcases Nat.lt_or_ge x.skip x'.skip with h | h
          · exact h
          · exfalso
            have := good_same hg hg' (Nat.le_antisymm h hsk)
            exact f2 ⟨c1, by rw [c2, this]⟩
      have hgo : x.skip < x'.skip →
          Sound w reports src (loop w reports src fuel
            { x' with update := true, forceGen := some false }) ∧
          (left w src x < fuel + 1 → loop w reports src fuel
            { x' with update := true, forceGen := some false } ≠ .runs) := by
        intro hlt
        obtain ⟨i1, i2⟩ := ih { x' with update := true, forceGen := some false } t'
          ⟨hg'.walk, hg'.settled, hg'.lines, hg'.skip⟩
          ⟨fun h => (by cases h), fun _ n hn => by
            have hn' : x'.forceSkip = some n := hn
            rw [hsx, f1] at hn'
            injection hn' with hn'
            show n < x'.skip
            omega⟩
        refine ⟨i1, fun hl => i2 ?_⟩
        unfold left at hl ⊢
        rw [if_pos hforced] at hl
        rw [if_neg (by simp)]
        show 2 * ((headers src w.after).length - x'.skip) + 1 < fuel
        omega
      cases e with
      | deferred => exact ⟨hdef rfl, fun _ h => (by cases h)⟩
      | restart =>
        simp only [hfx, decide_true, Bool.or_true, if_true]
        split
        · exact hgo (hmore (Or.inl rfl))
        · exact hgo (hmore (Or.inl rfl))
      | all =>
        simp only [hfx, decide_true, Bool.or_true, if_true]
        cases hk : ok with
        | true =>
          simp only [if_true]
          exact hgo (hmore (Or.inr ⟨rfl, hk⟩))
        | false =>
          simp only [Bool.false_eq_true, if_false, reduceCtorEq, hgt, if_true]
          exact ⟨hgen rfl hk hgt, fun _ h => (by cases h)⟩
    · have hgf : x.forceGen.getD false = false := by
        cases hx : x.forceGen with
        | none => rfl
        | some b =>
          cases b with
          | false => rfl
          | true => exact absurd hx hforced
      have hfx : ¬ x'.forceGen = some true := by rw [hgx]; exact hforced
      have hgo : x.skip < x'.skip →
          Sound w reports src (loop w reports src fuel x') ∧
          (left w src x < fuel + 1 → loop w reports src fuel x' ≠ .runs) := by
        intro hlt
        obtain ⟨i1, i2⟩ := ih x' t' hg'
          ⟨fun h => absurd h hfx, fun _ n hn => by
            rw [hsx] at hn
            have := hp.more hforced n hn
            omega⟩
        refine ⟨i1, fun hl => i2 ?_⟩
        unfold left at hl ⊢
        rw [if_neg hforced] at hl
        rw [if_neg hfx]
        omega
      cases e with
      | deferred => exact ⟨hdef rfl, fun _ h => (by cases h)⟩
      | restart =>
        simp only [hfx, decide_false, decide_true, Bool.or_false, if_true, if_false]
        split
        · exact hgo (hres rfl).1
        · exact hgo (hres rfl).1
      | all =>
        simp only [hfx, decide_false, Bool.or_false, if_false, Bool.false_eq_true, reduceCtorEq]
        cases hk : ok with
        | true =>
          simp only [if_true]
          obtain ⟨c1, c2⟩ := hok rfl hk
          exact ⟨⟨⟨t', hg'⟩, c1, c2⟩, fun _ h => (by cases h)⟩
        | false =>
          simp only [Bool.false_eq_true, if_false, hgf]
          rw [if_neg]
          · obtain ⟨i1, i2⟩ := ih { x' with forceGen := some true, forceSkip := some x'.skip } t'
              ⟨hg'.walk, hg'.settled, hg'.lines, hg'.skip⟩
              ⟨fun _ => ⟨rfl, hnok rfl hk⟩, fun h => absurd rfl h⟩
            refine ⟨i1, fun hl => i2 ?_⟩
            unfold left at hl ⊢
            rw [if_neg hforced] at hl
            rw [if_pos rfl]
            show 2 * ((headers src w.after).length - x'.skip) + 0 < fuel
            omega
          · intro hx
            rw [hsx] at hx
            have := hp.more hforced _ hx
            omega

end Verif.Headers
