import Verif.Include.Model

/-! # Buildfiles that source, include and import one another: the parser does what is meant -/

namespace Verif.Include

/-- The context that the state of the parser stands for. -/
def ctxOf (s : St) : Ctx := ⟨s.path, s.prev, s.scope, decide (0 < s.level), s.cond⟩

/-- The parser is where it was. -/
structure Same (a b : St) : Prop where
  path : b.path = a.path
  prev : b.prev = a.prev
  scope : b.scope = a.scope
  level : b.level = a.level
  cond : b.cond = a.cond

theorem Same.ctx {a b : St} (h : Same a b) : ctxOf b = ctxOf a := by
  simp only [ctxOf, h.path, h.prev, h.scope, h.level, h.cond]

theorem Same.trans {a b c : St} (h : Same a b) (h' : Same b c) : Same a c :=
  ⟨h'.path.trans h.path, h'.prev.trans h.prev, h'.scope.trans h.scope, h'.level.trans h.level,
   h'.cond.trans h.cond⟩

/-- The default target after declaring some. -/
def first (d : Option Tgt) (own : List Tgt) : Option Tgt :=
  match d with
  | none => own.head?
  | some t => some t

theorem first_append (d : Option Tgt) (a b : List Tgt) :
    first (first d a) b = first d (a ++ b) := by
  cases d <;> cases a <;> simp [first]

theorem first_nil (d : Option Tgt) : first d [] = d := by cases d <;> rfl

/-- What the result of parsing means. -/
def Sound (P : Proj) (c : Ctx) (t : Task) (s : St) : Res → Prop
  | .ok s' => Same s s' ∧ ∃ own, Eval P c t s.w (.done s'.w own) ∧ s'.dflt = first s.dflt own
  | .ctl b s' => Same s s' ∧ ∃ own, Eval P c t s.w (.jump b s'.w own) ∧ s'.dflt = first s.dflt own
  | .fail e => Eval P c t s.w (.fail e)
  | .fuel => True

theorem detectLoop_iff (p : Nat) (l : List (Nat × Bool)) :
    detectLoop p l = true ↔ ∃ pre post, l = pre ++ (p, false) :: post ∧ ∀ x ∈ pre, x.2 = false := by
  induction l with
  | nil => simp [detectLoop]
  | cons x l ih =>
    obtain ⟨f, a⟩ := x
    rw [detectLoop]
    cases a with
    | true =>
      simp only [if_true, Bool.false_eq_true, false_iff]
      rintro ⟨pre, post, h, hp⟩
      cases pre with
      | nil => simp at h
      | cons y pre =>
        simp only [List.cons_append, List.cons.injEq] at h
        have := hp y (by simp)
        rw [← h.1] at this
        simp at this
    | false =>
      simp only [Bool.false_eq_true, if_false]
      by_cases hf : f = p
      · subst hf
        simp only [if_true, true_iff]
        exact ⟨[], l, rfl, by simp⟩
      · rw [if_neg hf, ih]
        constructor
        · rintro ⟨pre, post, rfl, hp⟩
          refine ⟨(f, false) :: pre, post, rfl, ?_⟩
          intro x hx
          rcases List.mem_cons.1 hx with rfl | hx
          · rfl
          · exact hp x hx
        · rintro ⟨pre, post, h, hp⟩
          cases pre with
          | nil => simp only [List.nil_append, List.cons.injEq, Prod.mk.injEq] at h; exact absurd h.1.1 hf
          | cons y pre =>
            simp only [List.cons_append, List.cons.injEq] at h
            exact ⟨pre, post, h.2, fun x hx => hp x (by simp [hx])⟩

theorem detect_iff (P : Proj) (s : St) (p : Nat) :
    detect P s p = true ↔ P.check = true ∧ Cyclic (ctxOf s) p := by
  unfold detect Cyclic
  rw [Bool.and_eq_true, detectLoop]
  simp only [Bool.false_eq_true, if_false, ctxOf]
  by_cases h : s.path = p
  · simp [h]
  · rw [if_neg h, detectLoop_iff]
    constructor
    · rintro ⟨a, b⟩; exact ⟨a, .inr b⟩
    · rintro ⟨a, b | b⟩
      · exact absurd b.symm h
      · exact ⟨a, b⟩

theorem not_detect {P : Proj} {s : St} {p : Nat} (h : detect P s p = false) :
    P.check = false ∨ ¬ Cyclic (ctxOf s) p := by
  by_cases hc : P.check = true
  · right
    intro hcy
    rw [(detect_iff P s p).2 ⟨hc, hcy⟩] at h
    cases h
  · left; simpa using hc

theorem hasDir_iff (w : W) (d : Nat) : hasDir w d = true ↔ w.has d := by
  unfold hasDir W.has
  rw [List.any_eq_true]
  constructor
  · rintro ⟨⟨a, t⟩, h, h'⟩
    simp only [beq_iff_eq] at h'
    subst h'
    exact ⟨t, h⟩
  · rintro ⟨t, h⟩; exact ⟨_, h, by simp⟩

theorem insert_snd (w : W) (p : Nat) : (insertBuildfile w p).2 = w.ins p := by
  unfold insertBuildfile W.ins
  by_cases h : p ∈ w.inserted
  · simp [h]
  · simp [h]

theorem insert_fst (w : W) (p : Nat) : (insertBuildfile w p).1 = true ↔ p ∉ w.inserted := by
  unfold insertBuildfile
  by_cases h : p ∈ w.inserted
  · simp [h]
  · simp [h]

theorem ins_mem {w : W} {p : Nat} (h : p ∈ w.inserted) : w.ins p = w := by
  simp [W.ins, h]

/-- Following one another. -/
theorem sound_pre {P : Proj} {c : Ctx} {t t' : Task} {s s1 : St} {own : List Tgt} {r : Res}
    (hs : Same s s1) (hd : s1.dflt = first s.dflt own)
    (k : ∀ o, Eval P c t' s1.w o → Eval P c t s.w (o.pre own))
    (h : Sound P c t' s1 r) : Sound P c t s r := by
  cases r with
  | ok s' =>
    obtain ⟨h1, own', h2, h3⟩ := h
    exact ⟨hs.trans h1, own ++ own', k _ h2, by rw [h3, hd, first_append]⟩
  | ctl b s' =>
    obtain ⟨h1, own', h2, h3⟩ := h
    exact ⟨hs.trans h1, own ++ own', k _ h2, by rw [h3, hd, first_append]⟩
  | fail e => exact k _ h
  | fuel => trivial

/-- A directive and the rest. -/
theorem sound_andThen {P : Proj} {c : Ctx} {rest : Code} {t : Task} {s : St} {r : Res}
    {k : St → Res} (hk : ∀ s', Same s s' → Sound P c (.code rest) s' (k s'))
    (hok : ∀ s', r = .ok s' → Same s s' ∧ ∃ own, s'.dflt = first s.dflt own ∧
      ∀ o, Eval P c (.code rest) s'.w o → Eval P c t s.w (o.pre own))
    (hctl : ∀ b s', r = .ctl b s' → Sound P c t s (.ctl b s'))
    (hfail : ∀ e, r = .fail e → Eval P c t s.w (.fail e)) :
    Sound P c t s (andThen r k) := by
  cases r with
  | ok s' =>
    obtain ⟨h1, own, h2, h3⟩ := hok s' rfl
    exact sound_pre h1 h2 h3 (hk s' h1)
  | ctl b s' => exact hctl b s' rfl
  | fail e => exact hfail e rfl
  | fuel => trivial

theorem pre_nil (o : Out) : o.pre [] = o := by cases o <;> rfl

theorem default_spec (s : St) {own : List Tgt} (h : s.dflt = own.head?) :
    Default s.scope own s.w (processDefaultTarget s).w ∧
    (processDefaultTarget s).level = s.level := by
  unfold processDefaultTarget
  cases own with
  | nil => simp only [List.head?_nil] at h; rw [h]; exact ⟨.none rfl, rfl⟩
  | cons t ts =>
    simp only [List.head?_cons] at h
    rw [h]
    dsimp only
    by_cases hd : hasDir s.w s.scope = true
    · rw [if_pos hd]; exact ⟨.old ((hasDir_iff _ _).1 hd), rfl⟩
    · rw [if_neg hd]; exact ⟨.new rfl (fun hh => hd ((hasDir_iff _ _).2 hh)), rfl⟩

theorem iterate_sound {P : Proj} {f : St → Res} {body : Code}
    (hf : ∀ s, Sound P (ctxOf s) (.code body) s (f s)) :
    ∀ n s, Sound P { ctxOf s with inLoop := true } (.reps n body) s (iterate f n s) ∧
      ∀ b s', iterate f n s ≠ .ctl b s' := by
  intro n
  induction n with
  | zero =>
    intro s
    exact ⟨⟨⟨rfl, rfl, rfl, rfl, rfl⟩, [], .zero, (first_nil _).symm⟩, by intro b s'; simp [iterate]⟩
  | succ n ih =>
    intro s
    have hb := hf { s with level := s.level + 1 }
    have hc : ctxOf { s with level := s.level + 1 } = { ctxOf s with inLoop := true } := by
      simp [ctxOf]
    rw [hc] at hb
    rw [iterate]
    cases hr : f { s with level := s.level + 1 } with
    | ok s1 =>
      rw [hr] at hb
      obtain ⟨h1, own, h2, h3⟩ := hb
      dsimp only
      have hs : Same s { s1 with level := s1.level - 1 } :=
        ⟨h1.path, h1.prev, h1.scope, by simp [h1.level], h1.cond⟩
      obtain ⟨i1, i2⟩ := ih { s1 with level := s1.level - 1 }
      rw [hs.ctx] at i1
      exact ⟨sound_pre hs h3 (fun o ho => .next h2 ho) i1, i2⟩
    | ctl b s1 =>
      rw [hr] at hb
      obtain ⟨h1, own, h2, h3⟩ := hb
      dsimp only
      have hs : Same s { s1 with level := s1.level - 1 } :=
        ⟨h1.path, h1.prev, h1.scope, by simp [h1.level], h1.cond⟩
      cases b with
      | true => exact ⟨⟨hs, own, .brk h2, h3⟩, by intro b s'; simp⟩
      | false =>
        simp only [Bool.false_eq_true, if_false]
        obtain ⟨i1, i2⟩ := ih { s1 with level := s1.level - 1 }
        rw [hs.ctx] at i1
        exact ⟨sound_pre hs h3 (fun o ho => .cont h2 ho) i1, i2⟩
    | fail e =>
      rw [hr] at hb
      exact ⟨.bodyFail hb, by intro b s'; simp⟩
    | fuel => exact ⟨trivial, by intro b s'; simp⟩

/-- `source` of one file. -/
theorem source_sound {P : Proj} {parse : Code → St → Res}
    (hp : ∀ c s, Sound P (ctxOf s) (.code c) s (parse c s)) {p : Nat} {nodt acyc : Bool}
    {rest : Code} {k : St → Res} (s : St)
    (hk : ∀ s', Same s s' → Sound P (ctxOf s) (.code rest) s' (k s')) :
    Sound P (ctxOf s) (.code (.source p nodt acyc rest)) s
      (andThen (parseSource P parse p nodt acyc s) k) := by
  unfold parseSource
  by_cases hd : (!acyc && detect P s p) = true
  · rw [if_pos hd]
    simp only [Bool.and_eq_true, Bool.not_eq_true'] at hd
    obtain ⟨rfl, hd⟩ := hd
    exact .sourceCycle ((detect_iff P s p).1 hd).1 ((detect_iff P s p).1 hd).2
  · rw [if_neg hd]
    have hn : acyc = true ∨ P.check = false ∨ ¬ Cyclic (ctxOf s) p := by
      cases acyc with
      | true => exact .inl rfl
      | false => exact .inr (not_detect (by simpa using hd))
    unfold sourceBuildfile
    cases hf : P.files[p]? with
    | none => exact .sourceRead hn hf
    | some code =>
      dsimp only
      have hd0 : (if (if nodt = true then none else some false) = some true then (none : Option Tgt)
          else s.dflt) = s.dflt := by cases nodt <;> simp
      rw [hd0]
      simp only [if_true]
      have hs := hp code { s with
        w := s.w.add (.enter .source p), prev := (s.path, acyc) :: s.prev, path := p }
      have hc : ctxOf { s with
        w := s.w.add (.enter .source p), prev := (s.path, acyc) :: s.prev, path := p } =
          (ctxOf s).into p acyc := rfl
      rw [hc] at hs
      have hpost : ∀ s2 : St, (post (if nodt = true then none else some false) s
          { s2 with level := s.level }) =
          { s2 with level := s.level, prev := s.prev, path := s.path,
                    dflt := if nodt then s.dflt else s2.dflt } := by
        intro s2; cases nodt <;> simp [post]
      apply sound_andThen hk
      · intro s' hr
        cases hr2 : parse code { s with
          w := s.w.add (.enter .source p), prev := (s.path, acyc) :: s.prev, path := p } with
        | ok s2 =>
          rw [hr2] at hr hs
          simp only [Res.ok.injEq] at hr
          rw [hpost] at hr
          subst hr
          obtain ⟨h1, own, h2, h3⟩ := hs
          refine ⟨⟨rfl, rfl, h1.scope, rfl, h1.cond⟩, if nodt then [] else own, ?_, ?_⟩
          · cases nodt
            · exact h3
            · exact (first_nil _).symm
          · intro o ho
            exact .sourceDone hn hf h2 ho
        | ctl b s2 => rw [hr2] at hr; cases hr
        | fail e => rw [hr2] at hr; cases hr
        | fuel => rw [hr2] at hr; cases hr
      · intro b s' hr
        cases hr2 : parse code { s with
          w := s.w.add (.enter .source p), prev := (s.path, acyc) :: s.prev, path := p } with
        | ok s2 => rw [hr2] at hr; cases hr
        | ctl b' s2 =>
          rw [hr2] at hr hs
          simp only [Res.ctl.injEq] at hr
          rw [hpost] at hr
          obtain ⟨rfl, rfl⟩ := hr
          obtain ⟨h1, own, h2, h3⟩ := hs
          refine ⟨⟨rfl, rfl, h1.scope, rfl, h1.cond⟩, if nodt then [] else own, ?_, ?_⟩
          · exact .sourceJump hn hf h2
          · cases nodt
            · exact h3
            · exact (first_nil _).symm
        | fail e => rw [hr2] at hr; cases hr
        | fuel => rw [hr2] at hr; cases hr
      · intro e hr
        cases hr2 : parse code { s with
          w := s.w.add (.enter .source p), prev := (s.path, acyc) :: s.prev, path := p } with
        | ok s2 => rw [hr2] at hr; cases hr
        | ctl b s2 => rw [hr2] at hr; cases hr
        | fail e' =>
          rw [hr2] at hr hs
          cases hr
          exact .sourceFail hn hf hs
        | fuel => rw [hr2] at hr; cases hr

/-- No jump leaves a file that is not inside a loop. -/
theorem no_jump {P : Proj} {c : Ctx} {t : Task} {w : W} {o : Out} (h : Eval P c t w o)
    (hc : c.inLoop = false) (b w1 own) : o ≠ .jump b w1 own := by
  induction h generalizing b w1 own with
  | declOther _ ih => intro h; rename_i o _; cases o <;> simp only [Out.pre] at h <;> cases h; exact ih hc _ _ _ rfl
  | declDir _ _ ih => intro h; rename_i o _ _; cases o <;> simp only [Out.pre] at h <;> cases h; exact ih hc _ _ _ rfl
  | sourceDone _ _ _ _ _ ih => intro h; rename_i o _ _ _ _ _; cases o <;> simp only [Out.pre] at h <;> cases h; exact ih hc _ _ _ rfl
  | sourceJump _ _ _ ih => exact absurd rfl (ih hc _ _ _)
  | inclSkip _ _ _ ih => exact ih hc b w1 own
  | inclDone _ _ _ _ _ _ _ ih => exact ih hc b w1 own
  | impSkip _ _ _ ih => exact ih hc b w1 own
  | impDone _ _ _ _ _ _ ih => intro h; rename_i o _ _ _ _ _ _; cases o <;> simp only [Out.pre] at h <;> cases h; exact ih hc _ _ _ rfl
  | condFalse _ _ ih => exact ih hc b w1 own
  | condDone _ _ _ _ ih => intro h; rename_i o _ _ _ _; cases o <;> simp only [Out.pre] at h <;> cases h; exact ih hc _ _ _ rfl
  | condJump _ _ ih => exact absurd rfl (ih hc _ _ _)
  | loopDone _ _ _ ih => intro h; rename_i o _ _ _; cases o <;> simp only [Out.pre] at h <;> cases h; exact ih hc _ _ _ rfl
  | next _ _ _ ih => intro h; rename_i o _ _ _; cases o <;> simp only [Out.pre] at h <;> cases h; exact ih hc _ _ _ rfl
  | cont _ _ _ ih => intro h; rename_i o _ _ _; cases o <;> simp only [Out.pre] at h <;> cases h; exact ih hc _ _ _ rfl
  | ctl h => rw [hc] at h; cases h
  | _ => intro h; cases h

/-- `include` of one file. -/
theorem include_sound {P : Proj} {parse : Code → St → Res}
    (hp : ∀ c s, Sound P (ctxOf s) (.code c) s (parse c s)) {p : Nat} {acyc : Bool}
    {rest : Code} {k : St → Res} (s : St)
    (hk : ∀ s', Same s s' → Sound P (ctxOf s) (.code rest) s' (k s')) :
    Sound P (ctxOf s) (.code (.incl p acyc rest)) s
      (andThen (parseInclude P parse p acyc s) k) := by
  unfold parseInclude
  dsimp only
  have hdd : detect P { s with scope := P.dirOf p } p = detect P s p := rfl
  rw [hdd]
  by_cases hd : (!acyc && detect P s p) = true
  · rw [if_pos hd]
    simp only [Bool.and_eq_true, Bool.not_eq_true'] at hd
    obtain ⟨rfl, hd⟩ := hd
    exact .inclCycle ((detect_iff P s p).1 hd).1 ((detect_iff P s p).1 hd).2
  · rw [if_neg hd]
    have hn : acyc = true ∨ P.check = false ∨ ¬ Cyclic (ctxOf s) p := by
      cases acyc with
      | true => exact .inl rfl
      | false => exact .inr (not_detect (by simpa using hd))
    by_cases hi : p ∈ s.w.inserted
    · have h1 : (insertBuildfile s.w p).1 = false := by
        cases h : (insertBuildfile s.w p).1 with
        | false => rfl
        | true => exact absurd hi ((insert_fst _ _).1 h)
      rw [h1]
      simp only [Bool.not_false, if_true, restore]
      refine sound_pre (own := []) (s1 := s) ⟨rfl, rfl, rfl, rfl, rfl⟩ (first_nil _).symm ?_
        (hk s ⟨rfl, rfl, rfl, rfl, rfl⟩)
      intro o ho
      rw [pre_nil]
      exact .inclSkip hn hi ho
    · rw [(insert_fst _ _).2 hi, insert_snd]
      simp only [Bool.not_true, Bool.false_eq_true, if_false]
      unfold sourceBuildfile
      cases hf : P.files[p]? with
      | none => exact .inclRead hn hi hf
      | some code =>
        dsimp only
        simp only [if_true, Bool.false_eq_true, if_false]
        generalize hs1 : ({ s with
          path := p, prev := (s.path, acyc) :: s.prev, scope := P.dirOf p, level := 0, cond := false,
          dflt := none, w := (s.w.ins p).add (.enter .incl p) } : St) = s1
        have hs := hp code s1
        have hc : ctxOf s1 = { (ctxOf s).into p acyc with
            dir := P.dirOf p, inLoop := false, cond := false } := by subst hs1; rfl
        have hw : s1.w = (s.w.ins p).add (.enter .incl p) := by subst hs1; rfl
        have hdf : s1.dflt = none := by subst hs1; rfl
        have hsc : s1.scope = P.dirOf p := by subst hs1; rfl
        rw [hc] at hs
        cases hr2 : parse code s1 with
        | ok s2 =>
          rw [hr2] at hs
          obtain ⟨h1, own, h2, h3⟩ := hs
          rw [hw] at h2
          rw [hdf] at h3
          have h3' : s2.dflt = own.head? := h3
          obtain ⟨d1, d2⟩ := default_spec { s2 with level := s.level } (own := own) h3'
          have hsc2 : s2.scope = P.dirOf p := by rw [h1.scope, hsc]
          simp only [hsc2] at d1
          refine sound_andThen hk ?_ (by intro b s' h; simp [restore] at h)
            (by intro e h; simp [restore] at h)
          intro s' hr
          simp only [restore, Res.ok.injEq] at hr
          subst hr
          refine ⟨⟨?_, ?_, rfl, ?_, rfl⟩, [], ?_, ?_⟩
          · simp [post]
          · simp [post]
          · simp only [post, if_true, or_true]; exact d2
          · rw [first_nil]; simp [post]
          · intro o ho
            rw [pre_nil]
            refine .inclDone hn hi hf h2 d1 ?_
            simp only [post, if_true, or_true, hsc2] at ho
            exact ho
        | ctl b s2 =>
          rw [hr2] at hs
          obtain ⟨h1, own, h2, h3⟩ := hs
          exact absurd rfl (no_jump h2 rfl _ _ _)
        | fail e =>
          rw [hr2] at hs
          simp only [Sound, hw] at hs
          exact .inclFail hn hi hf hs
        | fuel => trivial

/-- `import` of one file. -/
theorem import_sound {P : Proj} {parse : Code → St → Res}
    (hp : ∀ c s, Sound P (ctxOf s) (.code c) s (parse c s)) {p : Nat} {nodt once : Bool}
    {rest : Code} {k : St → Res} (s : St)
    (hk : ∀ s', Same s s' → Sound P (ctxOf s) (.code rest) s' (k s')) :
    Sound P (ctxOf s) (.code (.imp p nodt once rest)) s
      (andThen (parseImport P parse p nodt once s) k) := by
  unfold parseImport
  dsimp only
  by_cases hd : detect P s p = true
  · rw [if_pos hd]
    exact .impCycle ((detect_iff P s p).1 hd).1 ((detect_iff P s p).1 hd).2
  · rw [if_neg hd]
    have hn : P.check = false ∨ ¬ Cyclic (ctxOf s) p := not_detect (by simpa using hd)
    by_cases hi : p ∈ s.w.inserted ∧ once = true
    · obtain ⟨hi, rfl⟩ := hi
      have h1 : (insertBuildfile s.w p).1 = false := by
        cases h : (insertBuildfile s.w p).1 with
        | false => rfl
        | true => exact absurd hi ((insert_fst _ _).1 h)
      rw [h1, insert_snd, ins_mem hi]
      simp only [Bool.not_false, Bool.and_self, if_true]
      refine sound_pre (own := []) (s1 := s) ⟨rfl, rfl, rfl, rfl, rfl⟩ (first_nil _).symm ?_
        (hk s ⟨rfl, rfl, rfl, rfl, rfl⟩)
      intro o ho
      rw [pre_nil]
      exact .impSkip hn hi ho
    · have hne : (!(insertBuildfile s.w p).1 && once) = false := by
        cases once with
        | false => simp
        | true =>
          rw [(insert_fst _ _).2 (fun h => hi ⟨h, rfl⟩)]
          rfl
      have hi' : once = true → p ∉ s.w.inserted := fun ho h => hi ⟨h, ho⟩
      rw [hne, insert_snd]
      simp only [Bool.false_eq_true, if_false]
      unfold sourceBuildfile
      cases hf : P.files[p]? with
      | none => exact .impRead hn hi' hf
      | some code =>
        dsimp only
        simp only [Bool.false_eq_true, if_false]
        have hd0 : (if (if nodt = true then none else some false) = some true then
          (none : Option Tgt) else s.dflt) = s.dflt := by cases nodt <;> simp
        rw [hd0]
        generalize hs1 : ({ s with
          path := p, prev := (s.path, false) :: s.prev, level := 0, cond := false,
          w := (s.w.ins p).add (.enter .imp p) } : St) = s1
        have hs := hp code s1
        have hc : ctxOf s1 = { (ctxOf s).into p false with
            inLoop := false, cond := false } := by subst hs1; rfl
        have hw : s1.w = (s.w.ins p).add (.enter .imp p) := by subst hs1; rfl
        have hdf : s1.dflt = s.dflt := by subst hs1; rfl
        have hsc : s1.scope = s.scope := by subst hs1; rfl
        rw [hc] at hs
        cases hr2 : parse code s1 with
        | ok s2 =>
          rw [hr2] at hs
          obtain ⟨h1, own, h2, h3⟩ := hs
          rw [hw] at h2
          rw [hdf] at h3
          refine sound_andThen hk ?_ (by intro b s' h; simp [restore] at h)
            (by intro e h; simp [restore] at h)
          intro s' hr
          simp only [restore, Res.ok.injEq] at hr
          subst hr
          refine ⟨⟨?_, ?_, rfl, ?_, rfl⟩, if nodt then [] else own, ?_, ?_⟩
          · cases nodt <;> simp [post]
          · cases nodt <;> simp [post]
          · cases nodt <;> simp [post]
          · cases nodt
            · simp [post, h3]
            · simp [post, first_nil]
          · intro o ho
            refine .impDone hn hi' hf h2 ?_
            cases nodt <;> simpa [post] using ho
        | ctl b s2 =>
          rw [hr2] at hs
          obtain ⟨h1, own, h2, h3⟩ := hs
          exact absurd rfl (no_jump h2 rfl _ _ _)
        | fail e =>
          rw [hr2] at hs
          simp only [Sound, hw] at hs
          exact .impFail hn hi' hf hs
        | fuel => trivial

theorem declare_spec (s : St) (t : Option Nat) :
    Same s (declare s t) ∧
    match t with
    | some n => (declare s t).w = s.w.add (.decl (.other n) s.cond) ∧
        (declare s t).dflt = first s.dflt [.other n]
    | none => Explicit s.scope (s.w.add (.decl (.dir s.scope) s.cond)) (declare s t).w ∧
        (declare s t).dflt = first s.dflt [.dir s.scope] := by
  refine ⟨⟨rfl, rfl, rfl, rfl, rfl⟩, ?_⟩
  cases t with
  | some n => exact ⟨rfl, by unfold declare; cases s.dflt <;> rfl⟩
  | none =>
    refine ⟨?_, by unfold declare; cases s.dflt <;> rfl⟩
    unfold declare
    dsimp only
    by_cases h : hasDir (s.w.add (.decl (.dir s.scope) s.cond)) s.scope = true
    · rw [if_pos h]; exact .old ((hasDir_iff _ _).1 h)
    · rw [if_neg h]; exact .new (fun hh => h ((hasDir_iff _ _).2 hh))

theorem clause_sound {P : Proj} {parse : Code → St → Res}
    (hp : ∀ c s, Sound P (ctxOf s) (.code c) s (parse c s)) :
    ∀ c s, Sound P (ctxOf s) (.code c) s (clause P parse c s) := by
  intro c
  induction c with
  | nil => intro s; exact ⟨⟨rfl, rfl, rfl, rfl, rfl⟩, [], .nil, (first_nil _).symm⟩
  | decl t rest ih =>
    intro s
    rw [clause]
    obtain ⟨h1, h2⟩ := declare_spec s t
    have h3 := ih (declare s t)
    rw [h1.ctx] at h3
    cases t with
    | some n =>
      exact sound_pre h1 h2.2 (fun o ho => .declOther (by rw [h2.1] at ho; exact ho)) h3
    | none => exact sound_pre h1 h2.2 (fun o ho => .declDir h2.1 ho) h3
  | source p nodt acyc rest ih =>
    intro s
    rw [clause]
    exact source_sound hp s (fun s' h => by rw [← h.ctx]; exact ih s')
  | incl p acyc rest ih =>
    intro s
    rw [clause]
    exact include_sound hp s (fun s' h => by rw [← h.ctx]; exact ih s')
  | imp p nodt once rest ih =>
    intro s
    rw [clause]
    exact import_sound hp s (fun s' h => by rw [← h.ctx]; exact ih s')
  | cond q body rest ihb ih =>
    intro s
    rw [clause]
    by_cases hq : q s.w.log = true
    · rw [if_pos hq]
      have hb := ihb { s with cond := true }
      have hc : ctxOf { s with cond := true } = { ctxOf s with cond := true } := rfl
      rw [hc] at hb
      cases hr : clause P parse body { s with cond := true } with
      | ok s1 =>
        rw [hr] at hb
        obtain ⟨h1, own, h2, h3⟩ := hb
        have hs : Same s { s1 with cond := s.cond } := ⟨h1.path, h1.prev, h1.scope, h1.level, rfl⟩
        have h4 := ih { s1 with cond := s.cond }
        rw [hs.ctx] at h4
        exact sound_pre hs h3 (fun o ho => .condDone hq h2 ho) h4
      | ctl b s1 =>
        rw [hr] at hb
        obtain ⟨h1, own, h2, h3⟩ := hb
        exact ⟨⟨h1.path, h1.prev, h1.scope, h1.level, rfl⟩, own, .condJump hq h2, h3⟩
      | fail e => rw [hr] at hb; exact .condFail hq hb
      | fuel => trivial
    · rw [if_neg hq]
      refine sound_pre (own := []) (s1 := s) ⟨rfl, rfl, rfl, rfl, rfl⟩ (first_nil _).symm ?_ (ih s)
      intro o ho
      rw [pre_nil]
      exact .condFalse (by simpa using hq) ho
  | loop q body rest ihb ih =>
    intro s
    rw [clause]
    obtain ⟨i1, i2⟩ := iterate_sound ihb (q s.w.log) s
    cases hr : iterate (clause P parse body) (q s.w.log) s with
    | ok s1 =>
      rw [hr] at i1
      obtain ⟨h1, own, h2, h3⟩ := i1
      have h4 := ih s1
      rw [h1.ctx] at h4
      exact sound_pre h1 h3 (fun o ho => .loopDone h2 ho) h4
    | ctl b s1 => exact absurd hr (i2 b s1)
    | fail e => rw [hr] at i1; exact .loopFail i1
    | fuel => trivial
  | ctl b rest _ =>
    intro s
    rw [clause]
    by_cases h : s.level = 0
    · rw [if_pos h]; exact .ctlOutside (by simp [ctxOf, h])
    · rw [if_neg h]
      exact ⟨⟨rfl, rfl, rfl, rfl, rfl⟩, [], .ctl (by simp only [ctxOf, decide_eq_true_eq]; omega),
        (first_nil _).symm⟩

theorem run_sound (P : Proj) : ∀ n c s, Sound P (ctxOf s) (.code c) s (run P n c s) := by
  intro n
  induction n with
  | zero => intro c s; trivial
  | succ n ih => intro c s; exact clause_sound ih c s

end Verif.Include
