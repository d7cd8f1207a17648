import Verif.Include.Total

/-! # Buildfiles that source, include and import one another: properties -/

namespace Verif.Include

/-- Whatever is loaded successfully means what the specification says: the directives of the
buildfile have been executed in order, with every file that is sourced as if its text were there
and every file that is included or imported in a context of its own, and the first target of the
buildfile has become the default one. -/
theorem load_meaning (P : Proj) (n p : Nat) (s : St) (h : load P n p = .ok s) :
    ∃ code own w, P.files[p]? = some code ∧
      Eval P (top P p) (.code code) (fresh p) (.done w own) ∧
      Default (P.dirOf p) own w s.w := by
  unfold load at h
  cases hf : P.files[p]? with
  | none => rw [hf] at h; cases h
  | some code =>
    rw [hf] at h
    dsimp only at h
    have hs := run_sound P n code ⟨p, [], P.dirOf p, 0, false, none, ⟨[p], [], []⟩⟩
    cases hr : run P n code ⟨p, [], P.dirOf p, 0, false, none, ⟨[p], [], []⟩⟩ with
    | ok s1 =>
      rw [hr] at h hs
      obtain ⟨h1, own, h2, h3⟩ := hs
      cases h
      have h3' : s1.dflt = own.head? := h3
      have hd := (default_spec s1 h3').1
      rw [h1.scope] at hd
      exact ⟨code, own, s1.w, rfl, h2, hd⟩
    | ctl b s1 => rw [hr] at h; cases h
    | fail e => rw [hr] at h; cases h
    | fuel => rw [hr] at h; cases h

/-- A failure is one that the specification calls for; in particular, no assertion fails. -/
theorem load_failure (P : Proj) (n p : Nat) (e : Err) (h : load P n p = .fail e) :
    (P.files[p]? = none ∧ e = .read p) ∨
    ∃ code, P.files[p]? = some code ∧ Eval P (top P p) (.code code) (fresh p) (.fail e) := by
  unfold load at h
  cases hf : P.files[p]? with
  | none => rw [hf] at h; cases h; exact .inl ⟨rfl, rfl⟩
  | some code =>
    rw [hf] at h
    dsimp only at h
    right
    refine ⟨code, rfl, ?_⟩
    have hs := run_sound P n code ⟨p, [], P.dirOf p, 0, false, none, ⟨[p], [], []⟩⟩
    cases hr : run P n code ⟨p, [], P.dirOf p, 0, false, none, ⟨[p], [], []⟩⟩ with
    | ok s1 => rw [hr] at h; cases h
    | ctl b s1 =>
      rw [hr] at hs
      obtain ⟨h1, own, h2, h3⟩ := hs
      exact absurd rfl (no_jump h2 rfl _ _ _)
    | fail e' => rw [hr] at h hs; cases h; exact hs
    | fuel => rw [hr] at h; cases h

theorem eval_assert {P : Proj} {c : Ctx} {t : Task} {w : W} {o : Out} (h : Eval P c t w o) :
    o ≠ .fail .assert := by
  induction h with
  | declOther _ ih => rename_i o _; cases o <;> simp_all [Out.pre]
  | declDir _ _ ih => rename_i o _ _; cases o <;> simp_all [Out.pre]
  | sourceDone _ _ _ _ _ ih => rename_i o _ _ _ _ _; cases o <;> simp_all [Out.pre]
  | impDone _ _ _ _ _ _ ih => rename_i o _ _ _ _ _ _; cases o <;> simp_all [Out.pre]
  | condDone _ _ _ _ ih => rename_i o _ _ _ _; cases o <;> simp_all [Out.pre]
  | loopDone _ _ _ ih => rename_i o _ _ _; cases o <;> simp_all [Out.pre]
  | next _ _ _ ih => rename_i o _ _ _; cases o <;> simp_all [Out.pre]
  | cont _ _ _ ih => rename_i o _ _ _; cases o <;> simp_all [Out.pre]
  | _ => simp_all

/-- The assertion that a file that isn't to leave a loop doesn't never fails. -/
theorem load_no_assert (P : Proj) (n p : Nat) : load P n p ≠ .fail .assert := by
  intro h
  rcases load_failure P n p _ h with ⟨_, h⟩ | ⟨_, _, h⟩
  · cases h
  · exact eval_assert h rfl

/-- Loading always comes to an end if the project requires a version with the check for cycles
and no `source` directive is marked with `allow_cycle`, whatever cycles of inclusion are allowed
and whatever the conditions: the nesting of files is then bounded in terms of their number. -/
theorem load_terminates_partial (P : Proj) (p : Nat) (hc : P.check = true)
    (hu : ∀ (f : Nat) code, P.files[f]? = some code → code.Unmarked) :
    ∀ n, P.files.length * (P.files.length + 2) < n → load P n p ≠ .fuel := by
  intro n hn
  unfold load
  cases hf : P.files[p]? with
  | none => simp
  | some code =>
    dsimp only
    have hr := run_total hc hu n p code ⟨p, [], P.dirOf p, 0, false, none, ⟨[p], [], []⟩⟩ hf
      ⟨by simp [seg, ctxOf], by
        intro x hx
        simp only [seg, ctxOf, List.takeWhile_nil, List.map_nil, List.mem_singleton] at hx
        subst hx
        exact file_lt hf⟩
      ⟨by simp, by
        intro x hx
        simp only [List.mem_singleton] at hx
        subst hx
        exact file_lt hf, by omega⟩
      (by
        have h1 : room P ⟨p, [], P.dirOf p, 0, false, none, ⟨[p], [], []⟩⟩ =
            (P.files.length - 1) * (P.files.length + 1) + (P.files.length - 1) := by
          simp [room, seg, ctxOf]
        rw [h1]
        have h2 : (P.files.length - 1) * (P.files.length + 1) + (P.files.length - 1) =
            (P.files.length - 1) * (P.files.length + 2) := by
          rw [show P.files.length + 2 = (P.files.length + 1) + 1 by omega,
            Nat.mul_add _ (P.files.length + 1) 1, Nat.mul_one]
        rw [h2]
        exact Nat.lt_of_le_of_lt (Nat.mul_le_mul_right _ (by omega)) hn)
    cases hr2 : run P n code ⟨p, [], P.dirOf p, 0, false, none, ⟨[p], [], []⟩⟩ with
    | fuel => exact absurd hr2 hr
    | _ => simp

/-- More fuel doesn't change what is parsed to the end. -/
def Mono (f g : Code → St → Res) : Prop := ∀ c s, f c s ≠ .fuel → g c s = f c s

theorem file_mono {P : Proj} {f g : Code → St → Res} (h : Mono f g) (how : How) (p : Nat)
    (deft : Option Bool) (a l : Bool) (s : St)
    (hn : sourceBuildfile P f how p deft a l s ≠ .fuel) :
    sourceBuildfile P g how p deft a l s = sourceBuildfile P f how p deft a l s := by
  unfold sourceBuildfile at hn ⊢
  cases hf : P.files[p]? with
  | none => rfl
  | some code =>
    rw [hf] at hn
    dsimp only at hn ⊢
    rw [h _ _ (by intro hh; rw [hh] at hn; exact hn rfl)]

theorem restore_ne {s : St} {r : Res} (h : restore s r ≠ .fuel) : r ≠ .fuel := by
  rintro rfl; exact h rfl

theorem andThen_mono {r r' : Res} {k k' : St → Res} (hr : r ≠ .fuel → r' = r)
    (hk : ∀ s, k s ≠ .fuel → k' s = k s) (h : andThen r k ≠ .fuel) :
    andThen r' k' = andThen r k := by
  have hne : r ≠ .fuel := by rintro rfl; exact h rfl
  rw [hr hne]
  cases r with
  | ok s => exact hk s h
  | _ => rfl

theorem iterate_mono {f g : St → Res} (h : ∀ s, f s ≠ .fuel → g s = f s) :
    ∀ n s, iterate f n s ≠ .fuel → iterate g n s = iterate f n s := by
  intro n
  induction n with
  | zero => intro s _; rfl
  | succ n ih =>
    intro s hn
    rw [iterate] at hn
    have hne : f { s with level := s.level + 1 } ≠ .fuel := by
      intro hh; rw [hh] at hn; exact hn rfl
    rw [iterate, iterate, h _ hne]
    cases hr : f { s with level := s.level + 1 } with
    | ok s1 => rw [hr] at hn; exact ih _ hn
    | ctl b s1 =>
      rw [hr] at hn
      cases b with
      | true => rfl
      | false => exact ih _ hn
    | fail e => rfl
    | fuel => rfl

theorem clause_mono {P : Proj} {f g : Code → St → Res} (h : Mono f g) :
    Mono (clause P f) (clause P g) := by
  intro c
  induction c with
  | nil => intro s _; rfl
  | decl t rest ih => intro s hn; exact ih _ hn
  | source p nodt acyc rest ih =>
    intro s hn
    rw [clause] at hn ⊢
    rw [clause]
    refine andThen_mono ?_ ih hn
    intro hn
    unfold parseSource at hn ⊢
    by_cases hd : (!acyc && detect P s p) = true
    · rw [if_pos hd, if_pos hd]
    · rw [if_neg hd] at hn
      rw [if_neg hd, if_neg hd]
      exact file_mono h _ _ _ _ _ _ hn
  | incl p acyc rest ih =>
    intro s hn
    rw [clause] at hn ⊢
    rw [clause]
    refine andThen_mono ?_ ih hn
    intro hn
    unfold parseInclude at hn ⊢
    dsimp only at hn ⊢
    by_cases hd : (!acyc && detect P { s with scope := P.dirOf p } p) = true
    · rw [if_pos hd, if_pos hd]
    · rw [if_neg hd] at hn
      rw [if_neg hd, if_neg hd]
      by_cases hi : (!(insertBuildfile s.w p).1) = true
      · rw [if_pos hi, if_pos hi]
      · rw [if_neg hi] at hn
        rw [if_neg hi, if_neg hi, file_mono h _ _ _ _ _ _ (restore_ne hn)]
  | imp p nodt once rest ih =>
    intro s hn
    rw [clause] at hn ⊢
    rw [clause]
    refine andThen_mono ?_ ih hn
    intro hn
    unfold parseImport at hn ⊢
    dsimp only at hn ⊢
    by_cases hd : detect P s p = true
    · rw [if_pos hd, if_pos hd]
    · rw [if_neg hd] at hn
      rw [if_neg hd, if_neg hd]
      by_cases hi : (!(insertBuildfile s.w p).1 && once) = true
      · rw [if_pos hi, if_pos hi]
      · rw [if_neg hi] at hn
        rw [if_neg hi, if_neg hi, file_mono h _ _ _ _ _ _ (restore_ne hn)]
  | cond q body rest ihb ih =>
    intro s hn
    rw [clause] at hn ⊢
    rw [clause]
    by_cases hq : q s.w.log = true
    · rw [if_pos hq] at hn
      rw [if_pos hq, if_pos hq]
      have hne : clause P f body { s with cond := true } ≠ .fuel := by
        intro hh; rw [hh] at hn; exact hn rfl
      rw [ihb _ hne]
      cases hr : clause P f body { s with cond := true } with
      | ok s1 => rw [hr] at hn; exact ih _ hn
      | _ => rfl
    · rw [if_neg hq] at hn
      rw [if_neg hq, if_neg hq]
      exact ih _ hn
  | loop q body rest ihb ih =>
    intro s hn
    rw [clause] at hn ⊢
    rw [clause]
    exact andThen_mono (iterate_mono ihb _ _) ih hn
  | ctl b rest _ => intro s _; rfl

theorem run_mono (P : Proj) : ∀ n, Mono (run P n) (run P (n + 1)) := by
  intro n
  induction n with
  | zero => intro c s h; exact absurd rfl h
  | succ n ih => exact clause_mono ih

/-- The fuel of the model is of no consequence: what is loaded with some is loaded with more. -/
theorem load_fuel_irrelevant (P : Proj) (n m p : Nat) (hnm : n ≤ m) (h : load P n p ≠ .fuel) :
    load P m p = load P n p := by
  have hrun : ∀ (k : Nat) c s, run P n c s ≠ .fuel → run P (n + k) c s = run P n c s := by
    intro k
    induction k with
    | zero => intro c s _; rfl
    | succ k ih =>
      intro c s hh
      have h1 := ih c s hh
      rw [← h1]
      exact run_mono P (n + k) c s (by rw [h1]; exact hh)
  obtain ⟨k, rfl⟩ := Nat.exists_eq_add_of_le hnm
  unfold load at h ⊢
  cases hf : P.files[p]? with
  | none => rfl
  | some code =>
    rw [hf] at h
    dsimp only at h ⊢
    rw [hrun k _ _ (by intro hh; rw [hh] at h; exact h rfl)]

/-- Not so with a `source` directive that is marked: it is taken at its word. -/
theorem marked_source_never_ends (n : Nat) :
    load ⟨[.source 0 false true .nil], id, true⟩ n 0 = .fuel := by
  have h : ∀ n s, run ⟨[.source 0 false true .nil], id, true⟩ n (.source 0 false true .nil) s =
      .fuel := by
    intro n
    induction n with
    | zero => intro s; rfl
    | succ n ih =>
      intro s
      simp only [run, clause, parseSource, sourceBuildfile, Bool.not_true, Bool.false_and,
        Bool.false_eq_true, if_false, List.getElem?_cons_zero, ih, andThen]
  simp only [load, List.getElem?_cons_zero, h]

/-- Nor in a project that requires an old version: then nothing is checked. -/
theorem old_project_never_ends (n : Nat) :
    load ⟨[.source 0 false false .nil], id, false⟩ n 0 = .fuel := by
  have h : ∀ n s, run ⟨[.source 0 false false .nil], id, false⟩ n (.source 0 false false .nil) s =
      .fuel := by
    intro n
    induction n with
    | zero => intro s; rfl
    | succ n ih =>
      intro s
      simp only [run, clause, parseSource, sourceBuildfile, detect, Bool.not_false, Bool.true_and,
        Bool.false_and, Bool.false_eq_true, if_false, List.getElem?_cons_zero, ih, andThen]
  simp only [load, List.getElem?_cons_zero, h]

/-- The files that have been included, in order. -/
def includes (l : List Ev) : List Nat :=
  l.filterMap fun e => match e with
    | .enter .incl q => some q
    | _ => none

/-- Nothing is included twice, nor is the buildfile that is loaded. -/
structure Once (p0 : Nat) (w : W) : Prop where
  top : p0 ∈ w.inserted
  ins : ∀ q ∈ includes w.log, q ∈ w.inserted ∧ q ≠ p0
  nodup : (includes w.log).Nodup

theorem mem_ins (w : W) (p q : Nat) : q ∈ (w.ins p).inserted ↔ q ∈ w.inserted ∨ q = p := by
  unfold W.ins
  by_cases h : p ∈ w.inserted
  · simp only [h, if_true]
    constructor
    · exact .inl
    · rintro (h' | rfl)
      · exact h'
      · exact h
  · simp [h]

theorem eval_once {P : Proj} {p0 : Nat} {c : Ctx} {t : Task} {w w1 : W} {o : Out}
    (h : Eval P c t w o) (ho : o.world = some w1) (hi : Once p0 w) : Once p0 w1 := by
  refine (eval_inv (I := Once p0) ?_ ?_ ?_ ?_ ?_ ?_ h w1 ho).1 hi
  · intro w t c h
    have e : includes (w.add (.decl t c)).log = includes w.log := by simp [includes, W.add]
    exact ⟨h.top, by rw [e]; exact h.ins, by rw [e]; exact h.nodup⟩
  · intro d w w1 he h; cases he <;> exact ⟨h.top, h.ins, h.nodup⟩
  · intro w p h
    have e : includes (w.add (.enter .source p)).log = includes w.log := by simp [includes, W.add]
    exact ⟨h.top, by rw [e]; exact h.ins, by rw [e]; exact h.nodup⟩
  · intro w p code hf h
    have e : includes ((w.ins p).add (.enter .imp p)).log = includes w.log := by
      simp [includes, W.add, W.ins]
    refine ⟨(mem_ins _ _ _).2 (.inl h.top), ?_, by rw [e]; exact h.nodup⟩
    rw [e]
    intro q hq
    exact ⟨(mem_ins _ _ _).2 (.inl (h.ins q hq).1), (h.ins q hq).2⟩
  · intro w p code hf hn h
    have e : includes ((w.ins p).add (.enter .incl p)).log = includes w.log ++ [p] := by
      simp [includes, W.add, W.ins]
    refine ⟨(mem_ins _ _ _).2 (.inl h.top), ?_, ?_⟩
    · rw [e]
      intro q hq
      rcases List.mem_append.1 hq with hq | hq
      · exact ⟨(mem_ins _ _ _).2 (.inl (h.ins q hq).1), (h.ins q hq).2⟩
      · simp only [List.mem_singleton] at hq
        subst hq
        exact ⟨(mem_ins _ _ _).2 (.inr rfl), fun e => hn (e ▸ h.top)⟩
    · rw [e, List.nodup_append]
      refine ⟨h.nodup, by simp, ?_⟩
      intro a ha b hb
      simp only [List.mem_singleton] at hb
      subst hb
      intro e
      subst e
      exact hn (h.ins _ ha).1
  · intro p own w w1 _ hd h; cases hd <;> exact ⟨h.top, h.ins, h.nodup⟩

/-- A buildfile is included at most once, however many directives name it and wherever they are,
and the one that is loaded is not included at all. -/
theorem included_once (P : Proj) (n p : Nat) (s : St) (h : load P n p = .ok s) :
    (includes s.w.log).Nodup ∧ p ∉ includes s.w.log := by
  obtain ⟨code, own, w, _, he, hd⟩ := load_meaning P n p s h
  have ho : Once p w := eval_once he rfl ⟨by simp [fresh], by simp [fresh, includes],
    by simp [fresh, includes]⟩
  have hl : s.w.log = w.log := by
    generalize s.w = w2 at hd
    cases hd <;> rfl
  rw [hl]
  exact ⟨ho.nodup, fun hm => (ho.ins p hm).2 rfl⟩

/-- The files that directives of a buildfile refer to. -/
def Code.refs : Code → List Nat
  | nil => []
  | decl _ rest => rest.refs
  | source p _ _ rest => p :: rest.refs
  | incl p _ rest => p :: rest.refs
  | imp p _ _ rest => p :: rest.refs
  | cond _ body rest => body.refs ++ rest.refs
  | loop _ body rest => body.refs ++ rest.refs
  | ctl _ rest => rest.refs

/-- The files that a task refers to. -/
def Task.refs : Task → List Nat
  | code c => c.refs
  | reps _ c => c.refs

theorem eval_acyclic {P : Proj} {r : Nat → Nat}
    (hr : ∀ (f : Nat) code, P.files[f]? = some code → ∀ p ∈ code.refs, r p < r f)
    {c : Ctx} {t : Task} {w : W} {o : Out} (h : Eval P c t w o)
    (ht : ∀ p ∈ t.refs, r p < r c.file) (hc : ∀ x ∈ c.outer, r c.file < r x.1) (q : Nat) :
    o ≠ .fail (.cycle q) := by
  have hpre : ∀ (o : Out) (l : List Tgt), o ≠ .fail (.cycle q) → o.pre l ≠ .fail (.cycle q) := by
    intro o l h
    cases o <;> simp_all [Out.pre]
  have hno : ∀ {c : Ctx} {p : Nat}, r p < r c.file → (∀ x ∈ c.outer, r c.file < r x.1) →
      ¬ Cyclic c p := by
    intro c p h1 h2 h3
    rcases h3 with rfl | ⟨pre, post, h3, _⟩
    · omega
    · have := h2 (p, false) (by rw [h3]; simp)
      simp only at this
      omega
  have hinto : ∀ {c : Ctx} {p : Nat} (b : Bool), r p < r c.file →
      (∀ x ∈ c.outer, r c.file < r x.1) → ∀ x ∈ (c.file, b) :: c.outer, r p < r x.1 := by
    intro c p b h1 h2 x hx
    rcases List.mem_cons.1 hx with rfl | hx
    · exact h1
    · exact Nat.lt_trans h1 (h2 x hx)
  induction h with
  | declOther _ ih => exact hpre _ _ (ih ht hc)
  | declDir _ _ ih => exact hpre _ _ (ih ht hc)
  | sourceCycle _ hcy => exact absurd hcy (hno (ht _ (by simp [Task.refs, Code.refs])) hc)
  | sourceDone _ hf _ _ ih1 ih2 =>
    exact hpre _ _ (ih2 (fun p hp => ht p (by simp only [Task.refs, Code.refs] at hp ⊢; simp [hp])) hc)
  | sourceFail _ hf _ ih1 =>
    have hp := ht _ (List.mem_cons_self ..)
    exact ih1 (hr _ _ hf) (hinto _ hp hc)
  | inclCycle _ hcy => exact absurd hcy (hno (ht _ (by simp [Task.refs, Code.refs])) hc)
  | inclSkip _ _ _ ih =>
    exact ih (fun p hp => ht p (by simp only [Task.refs, Code.refs] at hp ⊢; simp [hp])) hc
  | inclDone _ _ _ _ _ _ ih1 ih2 =>
    exact ih2 (fun p hp => ht p (by simp only [Task.refs, Code.refs] at hp ⊢; simp [hp])) hc
  | inclFail _ _ hf _ ih1 =>
    have hp := ht _ (List.mem_cons_self ..)
    exact ih1 (hr _ _ hf) (hinto _ hp hc)
  | impCycle _ hcy => exact absurd hcy (hno (ht _ (by simp [Task.refs, Code.refs])) hc)
  | impSkip _ _ _ ih =>
    exact ih (fun p hp => ht p (by simp only [Task.refs, Code.refs] at hp ⊢; simp [hp])) hc
  | impDone _ _ _ _ _ ih1 ih2 =>
    exact hpre _ _ (ih2 (fun p hp => ht p (by simp only [Task.refs, Code.refs] at hp ⊢; simp [hp])) hc)
  | impFail _ _ hf _ ih1 =>
    have hp := ht _ (List.mem_cons_self ..)
    exact ih1 (hr _ _ hf) (hinto _ hp hc)
  | condFalse _ _ ih =>
    exact ih (fun p hp => ht p (by simp only [Task.refs, Code.refs] at hp ⊢; simp [hp])) hc
  | condDone _ _ _ _ ih =>
    exact hpre _ _ (ih (fun p hp => ht p (by simp only [Task.refs, Code.refs] at hp ⊢; simp [hp])) hc)
  | condFail _ _ ih =>
    exact ih (fun p hp => ht p (by simp only [Task.refs, Code.refs] at hp ⊢; simp [hp])) hc
  | loopDone _ _ _ ih =>
    exact hpre _ _ (ih (fun p hp => ht p (by simp only [Task.refs, Code.refs] at hp ⊢; simp [hp])) hc)
  | loopFail _ ih =>
    exact ih (fun p hp => ht p (by simp only [Task.refs, Code.refs] at hp ⊢; simp [hp])) hc
  | next _ _ _ ih => exact hpre _ _ (ih ht hc)
  | cont _ _ _ ih => exact hpre _ _ (ih ht hc)
  | bodyFail _ ih => exact ih ht hc
  | _ => intro h; cases h

/-- A cycle is never reported in a project without one, that is, whose files can be ordered so
that each refers only to those after it. -/
theorem no_false_cycle (P : Proj) (r : Nat → Nat)
    (hr : ∀ (f : Nat) code, P.files[f]? = some code → ∀ p ∈ code.refs, r p < r f) (n p q : Nat) :
    load P n p ≠ .fail (.cycle q) := by
  intro h
  rcases load_failure P n p _ h with ⟨_, h⟩ | ⟨code, hf, h⟩
  · cases h
  · exact eval_acyclic hr h (hr p code hf) (by simp [top]) q rfl

/-- No directory but that of an included file has a default target. -/
structure NoAlias (P : Proj) (p0 : Nat) (w : W) : Prop where
  once : Once p0 w
  dirs : ∀ d t, (d, some t) ∈ w.dirs → d ≠ P.dirOf p0

theorem eval_noAlias {P : Proj} {p0 : Nat} (hinj : ∀ q, P.dirOf q = P.dirOf p0 → q = p0)
    {c : Ctx} {t : Task} {w w1 : W} {o : Out}
    (h : Eval P c t w o) (ho : o.world = some w1) (hi : NoAlias P p0 w) : NoAlias P p0 w1 := by
  refine (eval_inv (I := NoAlias P p0) ?_ ?_ ?_ ?_ ?_ ?_ h w1 ho).1 hi
  · intro w t c h
    have e : includes (w.add (.decl t c)).log = includes w.log := by simp [includes, W.add]
    exact ⟨⟨h.once.top, by rw [e]; exact h.once.ins, by rw [e]; exact h.once.nodup⟩, h.dirs⟩
  · intro d w w1 he h
    cases he with
    | old _ => exact h
    | new _ =>
      refine ⟨⟨h.once.top, h.once.ins, h.once.nodup⟩, ?_⟩
      intro d' t hm
      rcases List.mem_append.1 hm with hm | hm
      · exact h.dirs d' t hm
      · simp at hm
  · intro w p h
    have e : includes (w.add (.enter .source p)).log = includes w.log := by simp [includes, W.add]
    exact ⟨⟨h.once.top, by rw [e]; exact h.once.ins, by rw [e]; exact h.once.nodup⟩, h.dirs⟩
  · intro w p code hf h
    have e : includes ((w.ins p).add (.enter .imp p)).log = includes w.log := by
      simp [includes, W.add, W.ins]
    refine ⟨⟨(mem_ins _ _ _).2 (.inl h.once.top), ?_, by rw [e]; exact h.once.nodup⟩, h.dirs⟩
    rw [e]
    intro q hq
    exact ⟨(mem_ins _ _ _).2 (.inl (h.once.ins q hq).1), (h.once.ins q hq).2⟩
  · intro w p code hf hn h
    have e : includes ((w.ins p).add (.enter .incl p)).log = includes w.log ++ [p] := by
      simp [includes, W.add, W.ins]
    refine ⟨⟨(mem_ins _ _ _).2 (.inl h.once.top), ?_, ?_⟩, h.dirs⟩
    · rw [e]
      intro q hq
      rcases List.mem_append.1 hq with hq | hq
      · exact ⟨(mem_ins _ _ _).2 (.inl (h.once.ins q hq).1), (h.once.ins q hq).2⟩
      · simp only [List.mem_singleton] at hq
        subst hq
        exact ⟨(mem_ins _ _ _).2 (.inr rfl), fun e => hn (e ▸ h.once.top)⟩
    · rw [e, List.nodup_append]
      refine ⟨h.once.nodup, by simp, ?_⟩
      intro a ha b hb
      simp only [List.mem_singleton] at hb
      subst hb
      intro e
      subst e
      exact hn (h.once.ins _ ha).1
  · intro p own w w1 hm hd h
    have hp : p ∈ includes w.log := by
      simp only [includes, List.mem_filterMap]
      exact ⟨_, hm, rfl⟩
    cases hd with
    | none _ => exact h
    | old _ => exact h
    | new _ _ =>
      refine ⟨⟨h.once.top, h.once.ins, h.once.nodup⟩, ?_⟩
      intro d' t hm
      rcases List.mem_append.1 hm with hm | hm
      · exact h.dirs d' t hm
      · simp only [List.mem_singleton, Prod.mk.injEq] at hm
        rw [hm.1]
        intro hd
        exact (h.once.ins p hp).2 (hinj p hd)

/-- The default target of a directory whose buildfile is loaded is the first target that the
buildfile, with what it sources and imports, declares; unless the directory has an explicit
target. This holds if no other file is for the same directory. -/
theorem default_target_partial (P : Proj) (n p : Nat) (s : St)
    (hinj : ∀ q, P.dirOf q = P.dirOf p → q = p) (h : load P n p = .ok s) :
    ∃ code own w, P.files[p]? = some code ∧
      Eval P (top P p) (.code code) (fresh p) (.done w own) ∧
      (∀ t, (P.dirOf p, some t) ∈ s.w.dirs → own.head? = some t) ∧
      (own ≠ [] → s.w.has (P.dirOf p)) := by
  obtain ⟨code, own, w, hf, he, hd⟩ := load_meaning P n p s h
  have hn : NoAlias P p w := eval_noAlias hinj he rfl ⟨⟨by simp [fresh], by simp [fresh, includes],
    by simp [fresh, includes]⟩, by simp [fresh]⟩
  refine ⟨code, own, w, hf, he, ?_, ?_⟩
  · intro t ht
    generalize s.w = w2 at hd ht
    cases hd with
    | none _ => exact absurd rfl (hn.dirs _ _ ht)
    | old _ => exact absurd rfl (hn.dirs _ _ ht)
    | new h1 _ =>
      rcases List.mem_append.1 ht with ht | ht
      · exact absurd rfl (hn.dirs _ _ ht)
      · simp only [List.mem_singleton, Prod.mk.injEq, Option.some.injEq, true_and] at ht
        rw [ht, h1]
        rfl
  · intro ho
    generalize s.w = w2 at hd
    cases hd with
    | none h => exact absurd h ho
    | old h => exact h
    | new h1 _ => exact ⟨_, List.mem_append.2 (.inr (List.mem_singleton.2 rfl))⟩

/-- What a load leaves behind, for concrete cases. -/
def effects : Res → Option (List Ev × List (Nat × Option Tgt))
  | .ok s => some (s.w.log, s.w.dirs)
  | _ => none

/-- How a load fails, for concrete cases. -/
def failure : Res → Option Err
  | .fail e => some e
  | _ => none

/-- **Finding.** A file included from the same directory takes over its default target: although
the buildfile declares target 1 first, the directory stands for target 2 of the file that it
includes afterwards. -/
theorem default_taken_over :
    effects (load ⟨[.decl (some 1) (.incl 1 false .nil), .decl (some 2) .nil], fun _ => 0, true⟩ 9 0)
      = some ([.decl (.other 1) false, .enter .incl 1, .decl (.other 2) false],
          [(0, some (.other 2))]) := by
  decide

/-- With files of different directories each has its own. -/
example :
    effects (load ⟨[.decl (some 1) (.incl 1 false .nil), .decl (some 2) .nil], id, true⟩ 9 0)
      = some ([.decl (.other 1) false, .enter .incl 1, .decl (.other 2) false],
          [(1, some (.other 2)), (0, some (.other 1))]) := by
  decide

/-- A file that is sourced in a loop leaves it, and its targets count. -/
example :
    effects (load ⟨[.loop (fun _ => 5) (.source 1 false false (.decl (some 7) .nil))
        (.decl (some 3) .nil),
      .decl (some 2) (.cond (fun l => l.length ≥ 4) (.ctl true .nil) .nil)], id, true⟩ 9 0)
      = some ([.enter .source 1, .decl (.other 2) false, .decl (.other 7) false,
               .enter .source 1, .decl (.other 2) false, .decl (.other 3) false],
          [(0, some (.other 2))]) := by
  decide

/-- A file that is included can't. -/
example :
    failure (load ⟨[.loop (fun _ => 5) (.incl 1 false .nil) .nil, .ctl true .nil], id, true⟩ 9 0)
      = some .outside := by
  decide

/-- A cycle through two files is reported, unless one of the directives is marked; an inclusion
is then skipped. -/
example :
    failure (load ⟨[.incl 1 false .nil, .incl 0 false .nil], id, true⟩ 9 0) = some (.cycle 0) ∧
    effects (load ⟨[.incl 1 true .nil, .incl 0 false .nil], id, true⟩ 9 0) =
      some ([.enter .incl 1], []) ∧
    effects (load ⟨[.incl 1 false .nil, .incl 0 true .nil], id, true⟩ 9 0) =
      some ([.enter .incl 1], []) ∧
    (∀ code ∈ [Code.incl 1 true .nil, .incl 0 false .nil], code.Unmarked) := by
  refine ⟨by decide, by decide, by decide, ?_⟩
  intro code h
  simp only [List.mem_cons, List.not_mem_nil, or_false] at h
  rcases h with rfl | rfl <;> trivial

/-- A condition around an inclusion isn't one for what is included, but is around a file that is
sourced. -/
example :
    effects (load ⟨[.cond (fun _ => true) (.incl 1 false (.source 2 true false .nil)) .nil,
      .decl (some 1) .nil, .decl (some 2) .nil], id, true⟩ 9 0)
      = some ([.enter .incl 1, .decl (.other 1) false, .enter .source 2, .decl (.other 2) true],
          [(1, some (.other 1))]) := by
  decide

/-- A project without cycles: file 2 is reached in two ways. -/
example :
    ∃ r : Nat → Nat, ∀ (f : Nat) code, ([Code.source 1 false false (.source 2 false false .nil),
      .source 2 false false .nil, .decl (some 1) .nil] : List Code)[f]? = some code →
      ∀ p ∈ code.refs, r p < r f := by
  refine ⟨fun f => 9 - f, ?_⟩
  intro f code h p hp
  match f with
  | 0 => cases h; simp [Code.refs] at hp; show 9 - p < 9 - 0; omega
  | 1 => cases h; simp [Code.refs] at hp; show 9 - p < 9 - 1; omega
  | 2 => cases h; simp [Code.refs] at hp
  | n + 3 => simp at h

end Verif.Include
