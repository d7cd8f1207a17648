import Verif.Include.Lemmas

/-! # Buildfiles that source, include and import one another: invariants and termination -/

namespace Verif.Include

/-- What has been loaded at the end, unless there is a failure. -/
def Out.world : Out → Option W
  | .done w _ => some w
  | .jump _ w _ => some w
  | .fail _ => none

theorem pre_world (l : List Tgt) (o : Out) : (o.pre l).world = o.world := by cases o <;> rfl

/-- A property of what has been loaded that no step breaks holds in the end. -/
theorem eval_inv {P : Proj} {I : W → Prop}
    (hdecl : ∀ w t c, I w → I (w.add (.decl t c)))
    (hexp : ∀ d w w1, Explicit d w w1 → I w → I w1)
    (hsrc : ∀ w p, I w → I (w.add (.enter .source p)))
    (himp : ∀ w (p : Nat) code, P.files[p]? = some code → I w → I ((w.ins p).add (.enter .imp p)))
    (hinc : ∀ w (p : Nat) code, P.files[p]? = some code → p ∉ w.inserted → I w →
      I ((w.ins p).add (.enter .incl p)))
    (hdef : ∀ p own (w w1 : W), .enter .incl p ∈ w.log → Default (P.dirOf p) own w w1 → I w → I w1)
    {c : Ctx} {t : Task} {w : W} {o : Out} (h : Eval P c t w o) :
    ∀ w1, o.world = some w1 → (I w → I w1) ∧ ∃ l, w1.log = w.log ++ l := by
  induction h with
  | nil => intro w1 h; cases h; exact ⟨id, [], by simp⟩
  | declOther _ ih =>
    intro w1 h
    rw [pre_world] at h
    obtain ⟨h1, l, h2⟩ := ih w1 h
    refine ⟨fun hw => h1 (hdecl _ _ _ hw), ?_⟩
    exact ⟨_, by rw [h2, W.add, List.append_assoc]⟩
  | declDir he _ ih =>
    intro w1 h
    rw [pre_world] at h
    obtain ⟨h1, l, h2⟩ := ih w1 h
    refine ⟨fun hw => h1 (hexp _ _ _ he (hdecl _ _ _ hw)), ?_⟩
    cases he <;> exact ⟨_, by rw [h2]; simp only [W.add, List.append_assoc]; rfl⟩
  | sourceDone _ _ _ _ ih1 ih2 =>
    intro w1 h
    rw [pre_world] at h
    obtain ⟨h1, l1, e1⟩ := ih1 _ rfl
    obtain ⟨h2, l2, e2⟩ := ih2 w1 h
    refine ⟨fun hw => h2 (h1 (hsrc _ _ hw)), ?_⟩
    exact ⟨_, by rw [e2, e1, W.add]; simp only [List.append_assoc]; rfl⟩
  | sourceJump _ _ _ ih1 =>
    intro w1 h
    cases h
    obtain ⟨h1, l1, e1⟩ := ih1 _ rfl
    refine ⟨fun hw => h1 (hsrc _ _ hw), ?_⟩
    exact ⟨_, by rw [e1, W.add]; simp only [List.append_assoc]; rfl⟩
  | inclSkip _ _ _ ih => exact ih
  | @inclDone c p acyc rest w code w1 own w2 o _ hni hf _ hd _ ih1 ih2 =>
    intro w3 h
    obtain ⟨h1, l1, e1⟩ := ih1 _ rfl
    obtain ⟨h2, l2, e2⟩ := ih2 w3 h
    have hm : Ev.enter .incl p ∈ w1.log := by
      rw [e1]; simp [W.add]
    have hdl : w2.log = w1.log := by cases hd <;> rfl
    refine ⟨fun hw => h2 (hdef p own _ _ hm hd (h1 (hinc _ _ _ hf hni hw))), ?_⟩
    exact ⟨_, by rw [e2, hdl, e1]; simp only [W.add, W.ins, List.append_assoc]; rfl⟩
  | impSkip _ _ _ ih => exact ih
  | impDone _ _ hf _ _ ih1 ih2 =>
    intro w1 h
    rw [pre_world] at h
    obtain ⟨h1, l1, e1⟩ := ih1 _ rfl
    obtain ⟨h2, l2, e2⟩ := ih2 w1 h
    refine ⟨fun hw => h2 (h1 (himp _ _ _ hf hw)), ?_⟩
    exact ⟨_, by rw [e2, e1]; simp only [W.add, W.ins, List.append_assoc]; rfl⟩
  | condFalse _ _ ih => exact ih
  | condDone _ _ _ ih1 ih2 =>
    intro w1 h
    rw [pre_world] at h
    obtain ⟨h1, l1, e1⟩ := ih1 _ rfl
    obtain ⟨h2, l2, e2⟩ := ih2 w1 h
    exact ⟨fun hw => h2 (h1 hw), _, by rw [e2, e1, List.append_assoc]⟩
  | condJump _ _ ih1 => intro w1 h; exact ih1 w1 h
  | loopDone _ _ ih1 ih2 =>
    intro w1 h
    rw [pre_world] at h
    obtain ⟨h1, l1, e1⟩ := ih1 _ rfl
    obtain ⟨h2, l2, e2⟩ := ih2 w1 h
    exact ⟨fun hw => h2 (h1 hw), _, by rw [e2, e1, List.append_assoc]⟩
  | zero => intro w1 h; cases h; exact ⟨id, [], by simp⟩
  | next _ _ ih1 ih2 =>
    intro w1 h
    rw [pre_world] at h
    obtain ⟨h1, l1, e1⟩ := ih1 _ rfl
    obtain ⟨h2, l2, e2⟩ := ih2 w1 h
    exact ⟨fun hw => h2 (h1 hw), _, by rw [e2, e1, List.append_assoc]⟩
  | cont _ _ ih1 ih2 =>
    intro w1 h
    rw [pre_world] at h
    obtain ⟨h1, l1, e1⟩ := ih1 _ rfl
    obtain ⟨h2, l2, e2⟩ := ih2 w1 h
    exact ⟨fun hw => h2 (h1 hw), _, by rw [e2, e1, List.append_assoc]⟩
  | brk _ ih1 => intro w1 h; cases h; exact ih1 _ rfl
  | ctl _ => intro w1 h; cases h; exact ⟨id, [], by simp⟩
  | _ => intro w1 h; cases h

/-- The files that have been inserted are files, each once; there are at least `k` of them. -/
def Ins (P : Proj) (k : Nat) (w : W) : Prop :=
  w.inserted.Nodup ∧ (∀ x ∈ w.inserted, x < P.files.length) ∧ k ≤ w.inserted.length

theorem ins_ins {P : Proj} {k : Nat} {w : W} {p : Nat} {code : Code}
    (hf : P.files[p]? = some code) (h : Ins P k w) : Ins P k (w.ins p) := by
  obtain ⟨h1, h2, h3⟩ := h
  have hp : p < P.files.length := by
    rcases Nat.lt_or_ge p P.files.length with h | h
    · exact h
    · rw [List.getElem?_eq_none h] at hf; cases hf
  unfold W.ins
  by_cases hm : p ∈ w.inserted
  · simp only [hm, if_true]; exact ⟨h1, h2, h3⟩
  · simp only [hm, if_false]
    refine ⟨?_, ?_, by simp; omega⟩
    · rw [List.nodup_append]
      refine ⟨h1, by simp, ?_⟩
      intro a ha b hb
      simp only [List.mem_singleton] at hb
      subst hb
      intro e
      subst e
      exact hm ha
    · intro x hx
      rcases List.mem_append.1 hx with hx | hx
      · exact h2 x hx
      · simp only [List.mem_singleton] at hx; subst hx; exact hp

theorem eval_ins {P : Proj} {k : Nat} {c : Ctx} {t : Task} {w w1 : W} {o : Out}
    (h : Eval P c t w o) (ho : o.world = some w1) (hi : Ins P k w) : Ins P k w1 := by
  refine (eval_inv (I := Ins P k) ?_ ?_ ?_ ?_ ?_ ?_ h w1 ho).1 hi
  · intro w t c h; exact h
  · intro d w w1 he h; cases he <;> exact h
  · intro w p h; exact h
  · intro w p code hf h; exact ins_ins hf h
  · intro w p code hf _ h; exact ins_ins hf h
  · intro p own w w1 _ hd h; cases hd <;> exact h

/-- The files that are open, as far as an unmarked directive would be in a cycle with them. -/
def seg (c : Ctx) : List Nat := c.file :: (c.outer.takeWhile (fun x => !x.2)).map Prod.fst

theorem mem_takeWhile (p : Nat) (l : List (Nat × Bool)) :
    p ∈ (l.takeWhile (fun x => !x.2)).map Prod.fst ↔
    ∃ pre post, l = pre ++ (p, false) :: post ∧ ∀ x ∈ pre, x.2 = false := by
  rw [← detectLoop_iff]
  induction l with
  | nil => simp [detectLoop]
  | cons x l ih =>
    obtain ⟨f, a⟩ := x
    rw [detectLoop]
    cases a with
    | true => simp
    | false =>
      simp only [Bool.not_false, List.takeWhile_cons_of_pos, List.map_cons, List.mem_cons,
        Bool.false_eq_true, if_false]
      by_cases hf : f = p
      · subst hf; simp
      · rw [if_neg hf, ih]
        constructor
        · rintro (h | h)
          · exact absurd h.symm hf
          · exact h
        · exact .inr

theorem cyclic_iff (c : Ctx) (p : Nat) : Cyclic c p ↔ p ∈ seg c := by
  unfold Cyclic seg
  rw [List.mem_cons, mem_takeWhile]

/-- What is open is files, each once. -/
def SegOk (P : Proj) (c : Ctx) : Prop := (seg c).Nodup ∧ ∀ x ∈ seg c, x < P.files.length

theorem nodup_bound : ∀ (n : Nat) (l : List Nat), l.Nodup → (∀ x ∈ l, x < n) → l.length ≤ n := by
  intro n
  induction n with
  | zero =>
    intro l _ h
    cases l with
    | nil => simp
    | cons x l => exact absurd (h x (by simp)) (by omega)
  | succ n ih =>
    intro l hn h
    have h1 := ih (l.erase n) (hn.erase n) (by
      intro x hx
      have h2 := h x (List.mem_of_mem_erase hx)
      have h3 : x ≠ n := fun e => by subst e; exact (hn.not_mem_erase) hx
      omega)
    by_cases hm : n ∈ l
    · rw [List.length_erase_of_mem hm] at h1; omega
    · rw [List.erase_of_not_mem hm] at h1; omega

/-- How much deeper it can get. -/
def room (P : Proj) (s : St) : Nat :=
  (P.files.length - s.w.inserted.length) * (P.files.length + 1) +
    (P.files.length - (seg (ctxOf s)).length)

theorem room_mono {P : Proj} {s s' : St} (h : Same s s')
    (hi : s.w.inserted.length ≤ s'.w.inserted.length) : room P s' ≤ room P s := by
  unfold room
  rw [h.ctx]
  have := Nat.mul_le_mul_right (P.files.length + 1)
    (show P.files.length - s'.w.inserted.length ≤ P.files.length - s.w.inserted.length by omega)
  omega

/-- Everything that is needed to go on. -/
structure Fine (P : Proj) (M : Nat) (s : St) : Prop where
  seg : SegOk P (ctxOf s)
  ins : Ins P 0 s.w
  room : room P s ≤ M

theorem fine_after {P : Proj} {M : Nat} {s s' : St} {c : Ctx} {t : Task} {o : Out}
    (hs : Same s s') (he : Eval P c t s.w o) (ho : o.world = some s'.w) (h : Fine P M s) :
    Fine P M s' := by
  have h1 : Ins P s.w.inserted.length s'.w :=
    eval_ins he ho ⟨h.ins.1, h.ins.2.1, Nat.le_refl _⟩
  exact ⟨by rw [hs.ctx]; exact h.seg, ⟨h1.1, h1.2.1, by omega⟩,
    Nat.le_trans (room_mono hs h1.2.2) h.room⟩

theorem fine_ok {P : Proj} {M : Nat} {s s' : St} {c : Ctx} {t : Task}
    (hs : Sound P c t s (.ok s')) (h : Fine P M s) : Fine P M s' := by
  obtain ⟨h1, own, h2, _⟩ := hs
  exact fine_after h1 h2 rfl h

theorem fine_ctl {P : Proj} {M : Nat} {s s' : St} {b : Bool} {c : Ctx} {t : Task}
    (hs : Sound P c t s (.ctl b s')) (h : Fine P M s) : Fine P M s' := by
  obtain ⟨h1, own, h2, _⟩ := hs
  exact fine_after h1 h2 rfl h

theorem andThen_ok (r : Res) : andThen r Res.ok = r := by cases r <;> rfl

theorem ok_sound (P : Proj) (c : Ctx) (s : St) : Sound P c (.code .nil) s (.ok s) :=
  ⟨⟨rfl, rfl, rfl, rfl, rfl⟩, [], .nil, (first_nil _).symm⟩

theorem file_lt {P : Proj} {p : Nat} {code : Code} (hf : P.files[p]? = some code) :
    p < P.files.length := by
  rcases Nat.lt_or_ge p P.files.length with h | h
  · exact h
  · rw [List.getElem?_eq_none h] at hf; cases hf

theorem ins_length (w : W) (p : Nat) : w.inserted.length ≤ (w.ins p).inserted.length := by
  unfold W.ins
  by_cases h : p ∈ w.inserted <;> simp [h]

theorem ins_length_new {w : W} {p : Nat} (h : p ∉ w.inserted) :
    (w.ins p).inserted.length = w.inserted.length + 1 := by
  simp [W.ins, h]

/-- A file that is entered with an unmarked directive has less room. -/
theorem room_unmarked {P : Proj} {M : Nat} {s s1 : St} {p : Nat} {code : Code}
    (hf : P.files[p]? = some code) (hc : ¬ Cyclic (ctxOf s) p)
    (hp : s1.path = p) (hv : s1.prev = (s.path, false) :: s.prev)
    (hl : s.w.inserted.length ≤ s1.w.inserted.length)
    (h : Fine P M s) : SegOk P (ctxOf s1) ∧ room P s1 < M := by
  have hseg : seg (ctxOf s1) = p :: seg (ctxOf s) := by
    simp [seg, ctxOf, hp, hv]
  rw [cyclic_iff] at hc
  have hok : SegOk P (ctxOf s1) := by
    unfold SegOk
    rw [hseg]
    refine ⟨List.nodup_cons.2 ⟨hc, h.seg.1⟩, ?_⟩
    intro x hx
    rcases List.mem_cons.1 hx with rfl | hx
    · exact file_lt hf
    · exact h.seg.2 x hx
  refine ⟨hok, ?_⟩
  have hb := nodup_bound _ _ hok.1 hok.2
  rw [hseg] at hb
  have hr := h.room
  unfold room at hr ⊢
  rw [hseg]
  simp only [List.length_cons] at hb ⊢
  have := Nat.mul_le_mul_right (P.files.length + 1)
    (show P.files.length - s1.w.inserted.length ≤ P.files.length - s.w.inserted.length by omega)
  omega

/-- So has a file that is included for the first time. -/
theorem room_new {P : Proj} {M : Nat} {s s1 : St} {p : Nat} {code : Code} {b : Bool}
    (hf : P.files[p]? = some code) (hm : b = false → ¬ Cyclic (ctxOf s) p)
    (hp : s1.path = p) (hv : s1.prev = (s.path, b) :: s.prev)
    (hi : Ins P 0 s1.w) (hl : s1.w.inserted.length = s.w.inserted.length + 1)
    (h : Fine P M s) : SegOk P (ctxOf s1) ∧ room P s1 < M := by
  cases b with
  | false => exact room_unmarked hf (hm rfl) hp hv (by omega) h
  | true =>
    have hseg : seg (ctxOf s1) = [p] := by simp [seg, ctxOf, hp, hv]
    have hok : SegOk P (ctxOf s1) := by
      unfold SegOk
      rw [hseg]
      refine ⟨by simp, ?_⟩
      intro x hx
      simp only [List.mem_singleton] at hx
      subst hx
      exact file_lt hf
    refine ⟨hok, ?_⟩
    have hb := nodup_bound _ _ hi.1 hi.2.1
    have hb2 := nodup_bound _ _ h.seg.1 h.seg.2
    have hr := h.room
    unfold room at hr ⊢
    rw [hseg]
    simp only [List.length_singleton]
    have : (P.files.length - s.w.inserted.length) =
        (P.files.length - s1.w.inserted.length) + 1 := by omega
    rw [this, Nat.add_mul] at hr
    have := file_lt hf
    omega

/-- The bodies of all files are parsed to the end as long as there is room. -/
def Total (P : Proj) (M : Nat) (parse : Code → St → Res) : Prop :=
  ∀ (p : Nat) code s, P.files[p]? = some code → SegOk P (ctxOf s) → Ins P 0 s.w → room P s < M →
    parse code s ≠ .fuel

theorem iterate_total {P : Proj} {M : Nat} {f : St → Res} {body : Code}
    (hf : ∀ s, Sound P (ctxOf s) (.code body) s (f s))
    (ht : ∀ s, Fine P M s → f s ≠ .fuel) :
    ∀ n s, Fine P M s → iterate f n s ≠ .fuel := by
  intro n
  induction n with
  | zero => intro s _; simp [iterate]
  | succ n ih =>
    intro s h
    have hlev : ∀ (s : St) (k : Nat), Fine P M s → Fine P M { s with level := k } :=
      fun s k h => ⟨h.seg, h.ins, h.room⟩
    rw [iterate]
    have hs := hf { s with level := s.level + 1 }
    have hn := ht { s with level := s.level + 1 } (hlev _ _ h)
    cases hr : f { s with level := s.level + 1 } with
    | ok s1 =>
      rw [hr] at hs
      exact ih _ (hlev _ _ (fine_ok hs (hlev _ _ h)))
    | ctl b s1 =>
      rw [hr] at hs
      dsimp only
      cases b with
      | true => simp
      | false => exact ih _ (hlev _ _ (fine_ctl hs (hlev _ _ h)))
    | fail e => simp
    | fuel => exact absurd hr hn

theorem file_total {P : Proj} {parse : Code → St → Res} {how : How} {p : Nat} {deft : Option Bool}
    {a l : Bool} {s : St}
    (h : ∀ code, P.files[p]? = some code → ∀ s1 : St, s1.path = p →
      s1.prev = (s.path, a) :: s.prev → s1.w = s.w.add (.enter how p) → parse code s1 ≠ .fuel) :
    sourceBuildfile P parse how p deft a l s ≠ .fuel := by
  unfold sourceBuildfile
  cases hf : P.files[p]? with
  | none => simp
  | some code =>
    dsimp only
    have := h code hf { s with
      w := s.w.add (.enter how p)
      prev := (s.path, a) :: s.prev
      path := p
      dflt := if deft = some true then none else s.dflt
      level := if l then s.level else 0 } rfl rfl rfl
    cases hr : parse code { s with
      w := s.w.add (.enter how p)
      prev := (s.path, a) :: s.prev
      path := p
      dflt := if deft = some true then none else s.dflt
      level := if l then s.level else 0 } with
    | ok s2 => simp
    | ctl b s2 => cases l <;> simp
    | fail e => simp
    | fuel => exact absurd hr this

theorem restore_total {s : St} {r : Res} (h : r ≠ .fuel) : restore s r ≠ .fuel := by
  cases r with
  | fuel => exact absurd rfl h
  | _ => simp [restore]

theorem clause_total {P : Proj} {M : Nat} {parse : Code → St → Res} (hchk : P.check = true)
    (hp : ∀ c s, Sound P (ctxOf s) (.code c) s (parse c s)) (ht : Total P M parse) :
    ∀ c s, c.Unmarked → Fine P M s → clause P parse c s ≠ .fuel := by
  intro c
  induction c with
  | nil => intro s _ _; simp [clause]
  | decl t rest ih =>
    intro s hu h
    rw [clause]
    refine ih _ hu ?_
    obtain ⟨h1, h2⟩ := declare_spec s t
    cases t with
    | some n =>
      refine ⟨by rw [h1.ctx]; exact h.seg, by rw [h2.1]; exact h.ins,
        Nat.le_trans (room_mono h1 (by rw [h2.1]; exact Nat.le_refl _)) h.room⟩
    | none =>
      have hi : (declare s none).w.inserted = s.w.inserted := by
        have := h2.1
        generalize (declare s none).w = w at this
        cases this <;> rfl
      refine ⟨by rw [h1.ctx]; exact h.seg, ?_,
        Nat.le_trans (room_mono h1 (by rw [hi]; exact Nat.le_refl _)) h.room⟩
      unfold Ins
      rw [hi]
      exact h.ins
  | source p nodt acyc rest ih =>
    intro s hu h
    obtain ⟨rfl, hu⟩ := hu
    rw [clause]
    have hs := source_sound hp (p := p) (nodt := nodt) (acyc := false) (rest := .nil) (k := .ok) s
      (fun s' _ => ok_sound P _ s')
    rw [andThen_ok] at hs
    have hn : parseSource P parse p nodt false s ≠ .fuel := by
      unfold parseSource
      by_cases hd : (!false && detect P s p) = true
      · rw [if_pos hd]; simp
      · rw [if_neg hd]
        have hc : ¬ Cyclic (ctxOf s) p := by
          rcases not_detect (P := P) (s := s) (p := p) (by simpa using hd) with h | h
          · rw [hchk] at h; cases h
          · exact h
        apply file_total
        intro code hf s1 e1 e2 e3
        have hi : Ins P 0 s1.w := by rw [e3]; exact h.ins
        obtain ⟨a, b⟩ := room_unmarked hf hc e1 e2 (by rw [e3]; exact Nat.le_refl _) h
        exact ht p code s1 hf a hi b
    cases hr : parseSource P parse p nodt false s with
    | ok s1 => rw [hr] at hs; exact ih s1 hu (fine_ok hs h)
    | ctl b s1 => simp [andThen]
    | fail e => simp [andThen]
    | fuel => exact absurd hr hn
  | incl p acyc rest ih =>
    intro s hu h
    rw [clause]
    have hs := include_sound hp (p := p) (acyc := acyc) (rest := .nil) (k := .ok) s
      (fun s' _ => ok_sound P _ s')
    rw [andThen_ok] at hs
    have hn : parseInclude P parse p acyc s ≠ .fuel := by
      unfold parseInclude
      dsimp only
      by_cases hd : (!acyc && detect P { s with scope := P.dirOf p } p) = true
      · rw [if_pos hd]; simp
      · rw [if_neg hd]
        have hm : acyc = false → ¬ Cyclic (ctxOf s) p := by
          rintro rfl
          rcases not_detect (P := P) (s := { s with scope := P.dirOf p }) (p := p)
            (by simpa using hd) with h | h
          · rw [hchk] at h; cases h
          · exact h
        by_cases hi : p ∈ s.w.inserted
        · have h1 : (insertBuildfile s.w p).1 = false := by
            cases h : (insertBuildfile s.w p).1 with
            | false => rfl
            | true => exact absurd hi ((insert_fst _ _).1 h)
          rw [h1]
          simp [restore]
        · rw [(insert_fst _ _).2 hi, insert_snd]
          simp only [Bool.not_true, Bool.false_eq_true, if_false]
          apply restore_total
          apply file_total
          intro code hf s1 e1 e2 e3
          have hins : Ins P 0 s1.w := by rw [e3]; exact ins_ins hf h.ins
          have hlen : s1.w.inserted.length = s.w.inserted.length + 1 := by
            rw [e3]; exact ins_length_new hi
          obtain ⟨a, b⟩ := room_new hf hm e1 e2 hins hlen h
          exact ht p code s1 hf a hins b
    cases hr : parseInclude P parse p acyc s with
    | ok s1 => rw [hr] at hs; exact ih s1 hu (fine_ok hs h)
    | ctl b s1 => simp [andThen]
    | fail e => simp [andThen]
    | fuel => exact absurd hr hn
  | imp p nodt once rest ih =>
    intro s hu h
    rw [clause]
    have hs := import_sound hp (p := p) (nodt := nodt) (once := once) (rest := .nil) (k := .ok) s
      (fun s' _ => ok_sound P _ s')
    rw [andThen_ok] at hs
    have hn : parseImport P parse p nodt once s ≠ .fuel := by
      unfold parseImport
      dsimp only
      by_cases hd : detect P s p = true
      · rw [if_pos hd]; simp
      · rw [if_neg hd]
        have hc : ¬ Cyclic (ctxOf s) p := by
          rcases not_detect (P := P) (s := s) (p := p) (by simpa using hd) with h | h
          · rw [hchk] at h; cases h
          · exact h
        by_cases ho : (!(insertBuildfile s.w p).1 && once) = true
        · rw [if_pos ho]; simp
        · rw [if_neg ho, insert_snd]
          apply restore_total
          apply file_total
          intro code hf s1 e1 e2 e3
          have hins : Ins P 0 s1.w := by rw [e3]; exact ins_ins hf h.ins
          have hlen : s.w.inserted.length ≤ s1.w.inserted.length := by
            rw [e3]; exact ins_length _ _
          obtain ⟨a, b⟩ := room_unmarked hf hc e1 e2 hlen h
          exact ht p code s1 hf a hins b
    cases hr : parseImport P parse p nodt once s with
    | ok s1 => rw [hr] at hs; exact ih s1 hu (fine_ok hs h)
    | ctl b s1 => simp [andThen]
    | fail e => simp [andThen]
    | fuel => exact absurd hr hn
  | cond q body rest ihb ih =>
    intro s hu h
    have hcd : ∀ (s : St) (k : Bool), Fine P M s → Fine P M { s with cond := k } :=
      fun s k h => ⟨h.seg, h.ins, h.room⟩
    rw [clause]
    by_cases hq : q s.w.log = true
    · rw [if_pos hq]
      have hs := clause_sound hp body { s with cond := true }
      have hn := ihb { s with cond := true } hu.1 (hcd _ _ h)
      cases hr : clause P parse body { s with cond := true } with
      | ok s1 => rw [hr] at hs; exact ih _ hu.2 (hcd _ _ (fine_ok hs (hcd _ _ h)))
      | ctl b s1 => simp
      | fail e => simp
      | fuel => exact absurd hr hn
    · rw [if_neg hq]; exact ih s hu.2 h
  | loop q body rest ihb ih =>
    intro s hu h
    rw [clause]
    have hs := (iterate_sound (clause_sound hp body) (q s.w.log) s).1
    have hn := iterate_total (clause_sound hp body) (fun s h => ihb s hu.1 h) (q s.w.log) s h
    cases hr : iterate (clause P parse body) (q s.w.log) s with
    | ok s1 => rw [hr] at hs; exact ih s1 hu.2 (fine_ok hs h)
    | ctl b s1 => simp [andThen]
    | fail e => simp [andThen]
    | fuel => exact absurd hr hn
  | ctl b rest _ =>
    intro s _ _
    rw [clause]
    by_cases h : s.level = 0 <;> simp [h]

theorem run_total {P : Proj} (hchk : P.check = true)
    (hu : ∀ (p : Nat) code, P.files[p]? = some code → code.Unmarked) :
    ∀ n, Total P n (run P n) := by
  intro n
  induction n with
  | zero => intro p code s _ _ _ h; omega
  | succ n ih =>
    intro p code s hf hseg hins hr
    exact clause_total hchk (run_sound P n) ih code s (hu p code hf) ⟨hseg, hins, by omega⟩

end Verif.Include
